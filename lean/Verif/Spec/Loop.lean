/-
C48: the loops of deterministic reservations, `gbbs/helpers/speculative_for.h:58-161`.
-/
import Mathlib.Data.List.Nodup
import Mathlib.Data.List.Pairwise

namespace Gbbs.SpecFor

/-! ### Model -/

/-- A step object: the effect of the parallel loop of `reserve` calls on the indices `cur`, with results `r` (by
position), and of the parallel loop of `commit` calls at the positions where `r` holds, with results `c`. -/
structure Client (σ : Type) where
  rsv : σ → List Nat → (Nat → Bool) → σ → Prop
  cmt : σ → List Nat → (Nat → Bool) → (Nat → Bool) → σ → Prop

/-- One round: the indices and the results of `reserve` and `commit`, by position. -/
structure Rec where
  cur : List Nat
  r : Nat → Bool
  c : Nat → Bool

/-- The variables at the head of the loop (`speculative_for.h:61-72`); `kept`: the first `numberKeep` entries of `I` (the
others are overwritten before they are read); `hist`: the rounds so far. -/
structure LS (σ : Type) where
  st : σ
  kept : List Nat
  done : Nat
  crs : Nat
  round : Nat
  total : Nat
  hist : List Rec

/-- `maxRoundSize`, `speculative_for.h:61`, `:114`. -/
def maxSize (s e g : Nat) : Nat := (e - s) / g + 1

/-- `I[0..size)` after line 86: kept indices first, then new ones. -/
def curI (kept : List Nat) (done size : Nat) : List Nat :=
  (List.range size).map fun i => if i < kept.length then kept.getD i 0 else done + i

/-- The pack of lines 94-95: indices that were reserved but whose commit failed. -/
def keep (cur : List Nat) (r c : Nat → Bool) : List Nat :=
  ((List.range cur.length).filter fun i => r i && !c i).map fun i => cur.getD i 0

/-- `2 * x` for a 32-bit unsigned type. -/
def dbl (x : Nat) : Nat := (2 * x) % 4294967296

/-- The next round size, `speculative_for.h:101-104` (`eff_for`) and `:150-156` (`speculative_for`); the outcomes of the
comparisons of floats are arbitrary. -/
def nextSize (eff : Bool) (mx crs nk : Nat) (shrink grow : Bool) : Nat :=
  if eff then if grow then min (dbl crs) mx else crs
  else if shrink then max (crs / 2) (max (mx / 64 + 1) nk)
  else if grow then min (dbl crs) mx else crs

/-- One iteration, `speculative_for.h:74-105`, `:124-158`. If `round > maxTries` the program aborts, so there is no step. -/
inductive Step {σ : Type} (C : Client σ) (eff : Bool) (s e g tries : Nat) : LS σ → LS σ → Prop
  | mk {l : LS σ} {st1 st2 : σ} {r c : Nat → Bool} {shrink grow : Bool} (hd : l.done < e) (ht : l.round ≤ tries)
      (h1 : C.rsv l.st (curI l.kept l.done (min l.crs (e - l.done))) r st1)
      (h2 : C.cmt st1 (curI l.kept l.done (min l.crs (e - l.done))) r c st2) :
      Step C eff s e g tries l
        ⟨st2, keep (curI l.kept l.done (min l.crs (e - l.done))) r c,
          l.done + (min l.crs (e - l.done) - (keep (curI l.kept l.done (min l.crs (e - l.done))) r c).length),
          nextSize eff (maxSize s e g) l.crs (keep (curI l.kept l.done (min l.crs (e - l.done))) r c).length shrink grow,
          l.round + 1, l.total + min l.crs (e - l.done),
          l.hist ++ [⟨curI l.kept l.done (min l.crs (e - l.done)), r, c⟩]⟩

/-- The states at the head of the loop of `eff_for` (`eff`) or `speculative_for`, from the client state `st0`. -/
inductive Head {σ : Type} (C : Client σ) (eff : Bool) (s e g tries : Nat) (st0 : σ) : LS σ → Prop
  | init : Head C eff s e g tries st0 ⟨st0, [], s, maxSize s e g, 0, 0, []⟩
  | step {l l'} (h : Head C eff s e g tries st0 l) (hs : Step C eff s e g tries l l') : Head C eff s e g tries st0 l'

/-- The program aborts at this state. -/
def Aborts {σ : Type} (e tries : Nat) (l : LS σ) : Prop := l.done < e ∧ tries < l.round

/-! ### Specification -/

/-- Index `x` was finished in a round: discarded by `reserve`, or committed. -/
def Rec.finishes (q : Rec) (x : Nat) : Prop := ∃ i, q.cur[i]? = some x ∧ (q.r i = false ∨ q.c i = true)

/-- Finished within a history. -/
def Fin (h : List Rec) (x : Nat) : Prop := ∃ q ∈ h, q.finishes x

/-- A round after the history `h`: it is not empty, indices are attempted in increasing order, none of them is finished, all
unfinished smaller ones are attempted too. -/
structure RoundOk (s e : Nat) (h : List Rec) (q : Rec) : Prop where
  ne : q.cur ≠ []
  sorted : q.cur.Pairwise (· < ·)
  range : ∀ x ∈ q.cur, s ≤ x ∧ x < e
  fresh : ∀ x ∈ q.cur, ¬ Fin h x
  order : ∀ x ∈ q.cur, ∀ y, s ≤ y → y < x → ¬ Fin h y → y ∈ q.cur

/-- All rounds of a history are as they should be. -/
inductive HistOk (s e : Nat) : List Rec → Prop
  | nil : HistOk s e []
  | snoc {h q} (hh : HistOk s e h) (hq : RoundOk s e h q) : HistOk s e (h ++ [q])

/-! ### Proof -/

theorem fin_snoc {h : List Rec} {q : Rec} {x : Nat} : Fin (h ++ [q]) x ↔ Fin h x ∨ q.finishes x := by
  constructor
  · rintro ⟨q', hq, hx⟩
    rcases List.mem_append.1 hq with hq | hq
    · exact Or.inl ⟨q', hq, hx⟩
    · rw [List.mem_singleton] at hq; subst hq; exact Or.inr hx
  · rintro (⟨q', hq, hx⟩ | hx)
    · exact ⟨q', List.mem_append_left _ hq, hx⟩
    · exact ⟨q, List.mem_append_right _ (List.mem_singleton_self q), hx⟩

theorem curI_length (kept : List Nat) (done size : Nat) : (curI kept done size).length = size := by simp [curI]

theorem curI_getElem? {kept : List Nat} {done size i : Nat} (hi : i < size) :
    (curI kept done size)[i]? = some (if i < kept.length then kept.getD i 0 else done + i) := by
  rw [curI, List.getElem?_map, List.getElem?_range hi]; rfl

theorem mem_curI {kept : List Nat} {done size : Nat} (hk : kept.length ≤ size) (x : Nat) :
    x ∈ curI kept done size ↔ x ∈ kept ∨ (done + kept.length ≤ x ∧ x < done + size) := by
  rw [curI, List.mem_map]
  constructor
  · rintro ⟨i, hi, rfl⟩
    rw [List.mem_range] at hi
    split
    · rename_i h
      left
      rw [List.getD_eq_getElem?_getD, List.getElem?_eq_getElem h]
      exact List.getElem_mem h
    · right; omega
  · rintro (h | h)
    · obtain ⟨i, hi, rfl⟩ := List.mem_iff_getElem.1 h
      refine ⟨i, List.mem_range.2 (by omega), ?_⟩
      rw [if_pos hi, List.getD_eq_getElem?_getD, List.getElem?_eq_getElem hi]; rfl
    · exact ⟨x - done, List.mem_range.2 (by omega), by rw [if_neg (by omega)]; omega⟩

theorem curI_sorted {kept : List Nat} {done size : Nat} (hs : kept.Pairwise (· < ·))
    (hb : ∀ x ∈ kept, x < done + kept.length) : (curI kept done size).Pairwise (· < ·) := by
  rw [curI, List.pairwise_map]
  refine List.pairwise_lt_range.imp_of_mem ?_
  intro i j hi hj hij
  by_cases h2 : j < kept.length
  · have h1 : i < kept.length := by omega
    rw [if_pos h1, if_pos h2, List.getD_eq_getElem?_getD, List.getD_eq_getElem?_getD, List.getElem?_eq_getElem h1,
      List.getElem?_eq_getElem h2]
    exact List.pairwise_iff_getElem.1 hs i j h1 h2 hij
  · rw [if_neg h2]
    by_cases h1 : i < kept.length
    · rw [if_pos h1, List.getD_eq_getElem?_getD, List.getElem?_eq_getElem h1]
      have := hb _ (List.getElem_mem h1)
      show kept[i] < _
      omega
    · rw [if_neg h1]; omega

theorem keep_length_le (cur : List Nat) (r c : Nat → Bool) : (keep cur r c).length ≤ cur.length := by
  rw [keep, List.length_map]
  exact Nat.le_trans (List.length_filter_le _ _) (by rw [List.length_range]; exact Nat.le_refl _)

theorem keep_length_lt {cur : List Nat} {r c : Nat → Bool} {i : Nat} (hi : i < cur.length)
    (h : r i = false ∨ c i = true) : (keep cur r c).length < cur.length := by
  rw [keep, List.length_map]
  have := List.length_filter_lt_length_iff_exists (l := List.range cur.length) (p := fun i => r i && !c i)
  rw [List.length_range] at this
  refine this.2 ⟨i, List.mem_range.2 hi, ?_⟩
  rcases h with h | h <;> simp [h]

theorem mem_keep {cur : List Nat} (hn : cur.Nodup) (r c : Nat → Bool) (x : Nat) :
    x ∈ keep cur r c ↔ x ∈ cur ∧ ¬ (⟨cur, r, c⟩ : Rec).finishes x := by
  rw [keep, List.mem_map]
  constructor
  · rintro ⟨i, hi, rfl⟩
    obtain ⟨h1, h2⟩ := List.mem_filter.1 hi
    rw [List.mem_range] at h1
    rw [List.getD_eq_getElem?_getD, List.getElem?_eq_getElem h1]
    refine ⟨List.getElem_mem h1, ?_⟩
    rintro ⟨j, hj, h3⟩
    have hij : i = j := by
      refine (List.getElem?_inj h1 hn).1 ?_
      rw [List.getElem?_eq_getElem h1]; exact hj.symm
    subst hij
    simp only [Bool.and_eq_true, Bool.not_eq_true'] at h2
    rcases h3 with h3 | h3
    · exact absurd h2.1 (by rw [show r i = false from h3]; decide)
    · exact absurd h2.2 (by rw [show c i = true from h3]; decide)
  · rintro ⟨h1, h2⟩
    obtain ⟨i, hi, rfl⟩ := List.mem_iff_getElem.1 h1
    refine ⟨i, List.mem_filter.2 ⟨List.mem_range.2 hi, ?_⟩, by rw [List.getD_eq_getElem?_getD, List.getElem?_eq_getElem hi]; rfl⟩
    by_contra hc
    refine h2 ⟨i, List.getElem?_eq_getElem hi, ?_⟩
    show r i = false ∨ c i = true
    cases hr : r i with
    | false => exact Or.inl rfl
    | true =>
      cases hcc : c i with
      | false => exact absurd (by simp [hr, hcc]) hc
      | true => exact Or.inr rfl

theorem keep_sorted {cur : List Nat} (hs : cur.Pairwise (· < ·)) (r c : Nat → Bool) :
    (keep cur r c).Pairwise (· < ·) := by
  rw [keep, List.pairwise_map]
  refine (List.pairwise_lt_range.filter _).imp_of_mem ?_
  intro i j hi hj hij
  have h1 := List.mem_range.1 (List.mem_filter.1 hi).1
  have h2 := List.mem_range.1 (List.mem_filter.1 hj).1
  rw [List.getD_eq_getElem?_getD, List.getD_eq_getElem?_getD, List.getElem?_eq_getElem h1, List.getElem?_eq_getElem h2]
  exact List.pairwise_iff_getElem.1 hs i j h1 h2 hij

/-- At the head of the loop. -/
structure Inv {σ : Type} (s e g : Nat) (l : LS σ) : Prop where
  lo : s ≤ l.done
  hi : l.done + l.kept.length ≤ e
  sorted : l.kept.Pairwise (· < ·)
  mem : ∀ x, x ∈ l.kept ↔ s ≤ x ∧ x < l.done + l.kept.length ∧ ¬ Fin l.hist x
  fin : ∀ x, Fin l.hist x → s ≤ x ∧ x < l.done + l.kept.length
  crs : 0 < l.crs ∧ l.crs ≤ maxSize s e g ∧ l.kept.length ≤ l.crs
  total : l.total = (l.hist.map fun q => q.cur.length).sum
  len : l.hist.length = l.round
  hok : HistOk s e l.hist
  prog : (∀ q ∈ l.hist, ∃ x, q.finishes x) → l.round + s ≤ l.done

variable {σ : Type} {C : Client σ} {eff : Bool} {s e g tries : Nat}

theorem dbl_eq {x : Nat} (h : x < 2147483648) : dbl x = 2 * x := by
  rw [dbl]; exact Nat.mod_eq_of_lt (by omega)

theorem nextSize_ok {mx crs nk : Nat} (hmx : mx < 2147483648) (h0 : 0 < crs) (h1 : crs ≤ mx) (h2 : nk ≤ crs) (shrink grow : Bool) :
    0 < nextSize eff mx crs nk shrink grow ∧ nextSize eff mx crs nk shrink grow ≤ mx ∧
      nk ≤ nextSize eff mx crs nk shrink grow := by
  have hd := dbl_eq (x := crs) (by omega)
  have h64 : mx / 64 + 1 ≤ mx := by omega
  rw [nextSize, hd]
  cases eff <;> cases shrink <;> cases grow <;> simp <;> omega

theorem Inv.round (hmx : maxSize s e g < 2147483648) {l l' : LS σ} (hi : Inv s e g l) (hs : Step C eff s e g tries l l') :
    ∃ q, l'.hist = l.hist ++ [q] ∧ q.cur = curI l.kept l.done (min l.crs (e - l.done)) ∧ RoundOk s e l.hist q ∧ Inv s e g l' := by
  obtain ⟨hd, ht, h1, h2⟩ := hs
  rename_i st1 st2 r c shrink grow
  obtain ⟨c0, c1, c2⟩ := hi.crs
  have hhi := hi.hi
  have hsz : l.kept.length ≤ min l.crs (e - l.done) := by omega
  have hszp : 0 < min l.crs (e - l.done) := by omega
  have hsze : l.done + min l.crs (e - l.done) ≤ e := by omega
  have hszc : min l.crs (e - l.done) ≤ l.crs := by omega
  generalize min l.crs (e - l.done) = size at h1 h2 hsz hszp hsze hszc ⊢
  have hcs : (curI l.kept l.done size).Pairwise (· < ·) := curI_sorted hi.sorted fun x hx => ((hi.mem x).1 hx).2.1
  have hnd : (curI l.kept l.done size).Nodup := hcs.imp fun h => Nat.ne_of_lt h
  have hkl := keep_length_le (curI l.kept l.done size) r c
  rw [curI_length] at hkl
  have hlo := hi.lo
  have hmem := mem_curI (done := l.done) hsz
  have hstart : l.done + (size - (keep (curI l.kept l.done size) r c).length) + (keep (curI l.kept l.done size) r c).length =
      l.done + size := by omega
  have hfx : ∀ x, (⟨curI l.kept l.done size, r, c⟩ : Rec).finishes x → x ∈ curI l.kept l.done size := by
    rintro x ⟨i, hx, _⟩
    exact List.mem_of_getElem? hx
  have hq : RoundOk s e l.hist ⟨curI l.kept l.done size, r, c⟩ := by
    refine ⟨fun hc => ?_, hcs, fun x hx => ?_, fun x hx hf => ?_, fun x hx y hy hyx hf => ?_⟩
    · have := curI_length l.kept l.done size
      simp only at hc
      rw [hc] at this
      simp at this; omega
    · rcases (hmem x).1 hx with h | h
      · have := (hi.mem x).1 h; omega
      · omega
    · rcases (hmem x).1 hx with h | h
      · exact ((hi.mem x).1 h).2.2 hf
      · have := (hi.fin x hf).2; omega
    · refine (hmem y).2 ?_
      have hx : x ∈ curI l.kept l.done size := hx
      have hxs : x < l.done + size := by
        rcases (hmem x).1 hx with h | h
        · have := ((hi.mem x).1 h).2.1; omega
        · omega
      by_cases h : y < l.done + l.kept.length
      · exact Or.inl ((hi.mem y).2 ⟨hy, h, hf⟩)
      · exact Or.inr ⟨by omega, by omega⟩
  refine ⟨_, rfl, rfl, hq, ⟨by show s ≤ _ + _; omega, by show _ + _ ≤ e; rw [hstart]; exact hsze, keep_sorted hcs r c, fun x => ?_,
    fun x hx => ?_, nextSize_ok hmx c0 c1 (by omega) _ _, ?_, ?_, .snoc hi.hok hq, fun hp => ?_⟩⟩
  · show x ∈ keep _ r c ↔ s ≤ x ∧ x < _ + _ ∧ ¬ Fin (l.hist ++ _) x
    rw [mem_keep hnd, fin_snoc, hstart, hmem]
    constructor
    · rintro ⟨h | h, h3⟩
      · obtain ⟨a, b, d⟩ := (hi.mem x).1 h
        exact ⟨a, by omega, fun hc => hc.elim d h3⟩
      · refine ⟨by omega, h.2, fun hc => hc.elim (fun hc => ?_) h3⟩
        have := (hi.fin x hc).2; omega
    · rintro ⟨a, b, d⟩
      refine ⟨?_, fun hc => d (Or.inr hc)⟩
      by_cases h : x < l.done + l.kept.length
      · exact Or.inl ((hi.mem x).2 ⟨a, h, fun hc => d (Or.inl hc)⟩)
      · exact Or.inr ⟨by omega, b⟩
  · show s ≤ x ∧ x < _ + _
    rw [hstart]
    rcases fin_snoc.1 hx with hx | hx
    · have := hi.fin x hx; omega
    · rcases (hmem x).1 (hfx x hx) with h | h
      · have := (hi.mem x).1 h; omega
      · omega
  · show l.total + size = _
    rw [List.map_append, List.sum_append, hi.total]
    simp [curI_length]
  · show (l.hist ++ [_]).length = _
    rw [List.length_append, hi.len]; rfl
  · show l.round + 1 + s ≤ l.done + (size - _)
    have h3 := hi.prog fun q hq => hp q (List.mem_append_left _ hq)
    obtain ⟨x, i, hx, hfin⟩ := hp _ (List.mem_append_right _ (List.mem_singleton_self _))
    have hil : i < (curI l.kept l.done size).length := by
      by_contra hc
      simp only at hx
      rw [List.getElem?_eq_none (by omega)] at hx
      cases hx
    have := keep_length_lt (r := r) (c := c) hil hfin
    rw [curI_length] at this
    omega

theorem inv_init (hse : s ≤ e) (st0 : σ) : Inv s e g (⟨st0, [], s, maxSize s e g, 0, 0, []⟩ : LS σ) := by
  refine ⟨Nat.le_refl _, hse, List.Pairwise.nil, fun x => ?_, fun x hx => ?_, ⟨by rw [maxSize]; simp, Nat.le_refl _, Nat.zero_le _⟩, rfl,
    rfl, .nil, fun _ => by simp⟩
  · constructor
    · intro h; cases h
    · rintro ⟨h1, h2, _⟩
      simp only [List.length_nil] at h2
      omega
  · obtain ⟨q, hq, _⟩ := hx; cases hq

theorem head_inv (hse : s ≤ e) (hmx : maxSize s e g < 2147483648) {st0 : σ} {l : LS σ}
    (h : Head C eff s e g tries st0 l) : Inv s e g l := by
  induction h with
  | init => exact inv_init hse st0
  | step _ hs ih =>
    obtain ⟨_, _, _, _, h⟩ := ih.round hmx hs
    exact h

/-- Induction over the rounds for properties of a client and the history. -/
theorem head_induct (hse : s ≤ e) (hmx : maxSize s e g < 2147483648) {st0 : σ} {P : σ → List Rec → Prop}
    (h0 : P st0 [])
    (hP : ∀ st st1 st2 h q, P st h → RoundOk s e h q → C.rsv st q.cur q.r st1 → C.cmt st1 q.cur q.r q.c st2 →
      P st2 (h ++ [q]))
    {l : LS σ} (h : Head C eff s e g tries st0 l) : P l.st l.hist := by
  induction h with
  | init => exact h0
  | step h hs ih =>
    obtain ⟨q, hq, hc, hok, _⟩ := (head_inv hse hmx h).round hmx hs
    obtain ⟨hd, ht, h1, h2⟩ := hs
    exact hP _ _ _ _ _ ih (by
      have := (List.append_cancel_left hq)
      rw [List.singleton_inj.1 this]; exact hok) h1 h2

/-- If the range is smaller than the granularity, every round attempts one index; the loop then cannot complete
with fewer than `e - s - 1` tries, whatever the client does. -/
theorem small_range_aborts (hg : e - s < g) (hmx : maxSize s e g < 2147483648) (ht : tries + 1 < e - s) {st0 : σ} {l : LS σ}
    (h : Head C eff s e g tries st0 l) : l.done < e := by
  have hmx1 : maxSize s e g = 1 := by rw [maxSize, Nat.div_eq_of_lt hg]
  have hse : s ≤ e := by omega
  have key : l.done ≤ s + l.round ∧ l.round ≤ tries + 1 := by
    induction h with
    | init => exact ⟨Nat.le_refl _, Nat.zero_le _⟩
    | step h hs ih =>
      have hc := (head_inv hse hmx h).crs.2.1
      obtain ⟨hd, ht', _, _⟩ := hs
      refine ⟨?_, ?_⟩
      · show _ + (min _ _ - _) ≤ s + (_ + 1)
        omega
      · show _ + 1 ≤ _
        omega
  omega

/-! ### Theorems -/

/-- C48: in every round, indices in `[s, e)` are attempted in increasing order, never after they were finished, and together
with all unfinished smaller ones. -/
theorem spec_rounds (hse : s ≤ e) (hmx : maxSize s e g < 2147483648) {st0 : σ} {l : LS σ}
    (h : Head C eff s e g tries st0 l) : HistOk s e l.hist := (head_inv hse hmx h).hok

/-- What `HistOk` says about the `j`-th round. -/
theorem HistOk.get {h : List Rec} (hk : HistOk s e h) {j : Nat} {q : Rec} (hq : h[j]? = some q) :
    RoundOk s e (h.take j) q := by
  induction hk with
  | nil => simp at hq
  | @snoc h q' hh hq' ih =>
    by_cases hj : j < h.length
    · rw [List.getElem?_append_left hj] at hq
      rw [List.take_append_of_le_length (by omega)]
      exact ih hq
    · have hjl : j = h.length := by
        have := (List.getElem?_eq_some_iff.1 hq).1
        rw [List.length_append, List.length_singleton] at this
        omega
      subst hjl
      rw [List.getElem?_append_right (Nat.le_refl _), Nat.sub_self] at hq
      cases hq
      rw [List.take_left']
      · exact hq'
      · rfl

/-- C48: no index is finished twice, and none is attempted after it was finished. -/
theorem spec_once (hse : s ≤ e) (hmx : maxSize s e g < 2147483648) {st0 : σ} {l : LS σ}
    (h : Head C eff s e g tries st0 l) {i j : Nat} {q q' : Rec} {x : Nat} (hi : l.hist[i]? = some q)
    (hj : l.hist[j]? = some q') (hf : q.finishes x) (hx : x ∈ q'.cur) : j ≤ i := by
  by_contra hc
  refine ((spec_rounds hse hmx h).get hj).fresh x hx ⟨q, ?_, hf⟩
  rw [List.mem_iff_getElem?]
  exact ⟨i, by rw [List.getElem?_take, if_pos (by omega)]; exact hi⟩

/-- C48: when the loop ends, every index of `[s, e)` has been finished, in exactly one round, and nothing else. -/
theorem spec_complete (hse : s ≤ e) (hmx : maxSize s e g < 2147483648) {st0 : σ} {l : LS σ}
    (h : Head C eff s e g tries st0 l) (hend : ¬ l.done < e) (x : Nat) :
    (s ≤ x ∧ x < e ↔ Fin l.hist x) ∧
    (s ≤ x ∧ x < e → ∃ (i : Nat) (q : Rec), l.hist[i]? = some q ∧ q.finishes x ∧
      ∀ (j : Nat) (q' : Rec), l.hist[j]? = some q' → q'.finishes x → j = i) := by
  have hi := head_inv hse hmx h
  have hhi := hi.hi
  have h0 : l.kept.length = 0 := by omega
  have hnil := List.length_eq_zero_iff.1 h0
  have hiff : s ≤ x ∧ x < e ↔ Fin l.hist x := by
    constructor
    · rintro ⟨h1, h2⟩
      by_contra hc
      have := (hi.mem x).2 ⟨h1, by omega, hc⟩
      rw [hnil] at this; cases this
    · intro hf
      have := hi.fin x hf
      omega
  refine ⟨hiff, fun hx => ?_⟩
  obtain ⟨q, hq, hf⟩ := hiff.1 hx
  obtain ⟨i, hi'⟩ := List.mem_iff_getElem?.1 hq
  have hmem : ∀ q : Rec, q.finishes x → x ∈ q.cur := fun q ⟨i, h, _⟩ => List.mem_of_getElem? h
  exact ⟨i, q, hi', hf, fun j q' hj hf' => Nat.le_antisymm (spec_once hse hmx h hi' hj hf (hmem _ hf'))
    (spec_once hse hmx h hj hi' hf' (hmem _ hf))⟩

/-- C48: the arrays are large enough, `totalProcessed` is the number of `reserve` calls. -/
theorem spec_bounds (hse : s ≤ e) (hmx : maxSize s e g < 2147483648) {st0 : σ} {l : LS σ}
    (h : Head C eff s e g tries st0 l) :
    (l.done < e → min l.crs (e - l.done) ≤ maxSize s e g ∧ l.kept.length ≤ min l.crs (e - l.done) ∧ 0 < min l.crs (e - l.done)) ∧
    l.total = (l.hist.map fun q => q.cur.length).sum := by
  have hi := head_inv hse hmx h
  obtain ⟨c0, c1, c2⟩ := hi.crs
  have := hi.hi
  exact ⟨fun hd => by omega, hi.total⟩

/-- C48: if every round finishes an index, there are at most `e - s` rounds, and the loop does not abort if `e - s ≤ tries + 1`. -/
theorem spec_progress (hse : s ≤ e) (hmx : maxSize s e g < 2147483648) {st0 : σ} {l : LS σ}
    (h : Head C eff s e g tries st0 l) (hp : ∀ q ∈ l.hist, ∃ x, q.finishes x) :
    l.hist.length ≤ e - s ∧ (e - s ≤ tries + 1 → ¬ Aborts e tries l) := by
  have hi := head_inv hse hmx h
  have h1 := hi.prog hp
  have h2 := hi.len
  have h3 := hi.hi
  refine ⟨by omega, fun ht hab => ?_⟩
  obtain ⟨ha, hb⟩ := hab
  omega

/-- C48: a state at the head of the loop is final, aborts, or makes a step, provided that the two loops of the round can run. -/
theorem spec_enabled (hC : ∀ st cur, ∃ r st1, C.rsv st cur r st1 ∧ ∃ c st2, C.cmt st1 cur r c st2) (l : LS σ) :
    ¬ l.done < e ∨ Aborts e tries l ∨ ∃ l', Step C eff s e g tries l l' := by
  by_cases h1 : l.done < e
  · by_cases h2 : tries < l.round
    · exact Or.inr (Or.inl ⟨h1, h2⟩)
    · obtain ⟨r, st1, hr, c, st2, hc⟩ := hC l.st (curI l.kept l.done (min l.crs (e - l.done)))
      exact Or.inr (Or.inr ⟨_, .mk (shrink := false) (grow := false) h1 (by omega) hr hc⟩)
  · exact Or.inl h1

/-! ### Example -/

/-- A client without state whose commits fail for odd indices on the first attempt, and which discards index 4. -/
def exC : Client Nat where
  rsv t cur r t' := t' = t ∧ ∀ i, r i = decide (cur.getD i 0 ≠ 4)
  cmt t cur _ c t' := t' = t + 1 ∧ ∀ i, c i = (decide (t > 0) || decide (cur.getD i 0 % 2 = 0))

/-- Six iterations, in two rounds of four and two. -/
example : ∃ l, Head exC true 0 6 2 100 0 l ∧ ¬ l.done < 6 ∧ l.hist.map (·.cur) = [[0, 1, 2, 3], [1, 3, 4, 5]] := by
  refine ⟨_, .step (.step .init (.mk (r := fun i => decide ((curI [] 0 4).getD i 0 ≠ 4))
    (c := fun i => (decide (0 > 0) || decide ((curI [] 0 4).getD i 0 % 2 = 0))) (shrink := false) (grow := false) (by decide) (by decide)
    ⟨rfl, fun _ => rfl⟩ ⟨rfl, fun _ => rfl⟩)) (.mk (r := fun i => decide ((curI [1, 3] 2 4).getD i 0 ≠ 4))
    (c := fun i => (decide (1 > 0) || decide ((curI [1, 3] 2 4).getD i 0 % 2 = 0))) (shrink := false) (grow := true) (by decide) (by decide)
    ⟨rfl, fun _ => rfl⟩ ⟨rfl, fun _ => rfl⟩), by decide, by decide⟩

example (l : LS Nat) : ¬ l.done < 6 ∨ Aborts 6 100 l ∨ ∃ l', Step exC true 0 6 2 100 l l' :=
  spec_enabled (C := exC) (fun t cur => ⟨_, t, ⟨rfl, fun _ => rfl⟩, _, t + 1, ⟨rfl, fun _ => rfl⟩⟩) l

end Gbbs.SpecFor
