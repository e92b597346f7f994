/-
C42: extraction of the live edges, `benchmarks/MaximalMatching/RandomGreedy/MaximalMatching.h:78-182`.
-/
import Verif.Common

namespace Gbbs.GetEdges

variable {W : Type}

/-! ### Model -/

/-- A graph with `n` vertices, the neighbour lists, and the array `matched`. -/
structure Inp (W : Type) where
  n : Nat
  nbr : Nat → List (Nat × W)
  matched : Nat → Bool

abbrev Edge (W : Type) := Nat × Nat × W

/-- `live_degree[i]`, lines 85-95 (a `uintE`). -/
def Inp.deg (I : Inp W) (round i : Nat) : Nat :=
  if I.matched i then 0 else ((I.nbr i).countP fun x => (round == 0 || !I.matched x.1) && decide (i < x.1)) % 4294967296

/-- The edges visited by the `map` of lines 156-170, with the condition of line 157. -/
def Inp.cand (I : Inp W) (u : Nat) : List (Edge W) :=
  ((I.nbr u).filter fun x => !I.matched x.1 && decide (u < x.1)).map fun x => (u, x.1, x.2)

/-- `live_degree` after the scan, line 98. -/
def Inp.P (I : Inp W) (round : Nat) : Nat → Nat := exScan (I.deg round)

def Inp.tot (I : Inp W) (round : Nat) : Nat := I.P round I.n

/-- Outcome of a block: finished with these writes to `out`, access outside an array, or still running. -/
inductive Res (α : Type)
  | ok (a : α)
  | undef
  | more
  deriving DecidableEq

/-- `parlay::binary_search` and `parlay::internal::linear_search` with `std::less` (trusted): the first position from `c` on whose
entry is not less than `v`; the length if there is none. -/
def lb (P : Nat → Nat) (v : Nat) : Nat → Nat → Nat
  | 0, c => c
  | k + 1, c => if P c < v then lb P v k (c + 1) else c

/-- `our_edge_end`, lines 139-140 and 145-146; `none`: reading `live_degree[n]`. -/
def edgeEnd (P : Nat → Nat) (n tot idx c : Nat) : Option Nat :=
  if idx = n - 1 then some tot else if c + 1 < n then some (P (c + 1)) else none

/-- The loop of lines 142-148: the next vertex with a non-empty range. -/
def skip (P : Nat → Nat) (n tot idx : Nat) : Nat → Nat → Option Nat
  | 0, _ => none
  | k + 1, c =>
    if c < n then
      match edgeEnd P n tot idx c with
      | none => none
      | some e => if e - P c = 0 then skip P n tot idx k (c + 1) else some c
    else none

/-- Lines 131-148: from `cur_id` to the vertex whose edges are extracted. -/
def locate (P : Nat → Nat) (n tot idx cur : Nat) : Option Nat :=
  let c := lb P idx (n - cur) cur
  if c < n then skip P n tot idx (n + 1) (if P c > idx then c - 1 else c) else none

/-- The `map` of lines 152-171: writes to `out`, and the final `offset`. -/
def walk (idxs : List Nat) : List (Edge W) → (ctr target offset : Nat) → List (Nat × Edge W) × Nat
  | [], _, _, o => ([], o)
  | e :: l, ctr, t, o =>
    if t = ctr then
      let (ws, o') := walk idxs l (ctr + 1) (if o + 1 < idxs.length then idxs.getD (o + 1) 0 else 18446744073709551615) (o + 1)
      ((o, e) :: ws, o')
    else walk idxs l (ctr + 1) t o

/-- The loop of lines 129-177, up to `stop`; the first argument bounds the number of iterations considered. -/
def loop (I : Inp W) (P : Nat → Nat) (tot : Nat) (idxs : List Nat) (stop : Nat) : Nat → (i cur : Nat) → List (Nat × Edge W) →
    Res (List (Nat × Edge W))
  | 0, _, _, _ => .more
  | k + 1, i, cur, ws =>
    if i < stop then
      match idxs[i]? with
      | none => .undef
      | some idx =>
        match locate P I.n tot idx cur with
        | none => .undef
        | some c =>
          if i = 0 ∨ idxs.getD (i - 1) 0 < P c then
            let (w, o) := walk idxs (I.cand c) (P c) idx i
            loop I P tot idxs stop k o c (ws ++ w)
          else loop I P tot idxs stop k (i + 1) c ws
    else .ok ws

/-- Block `b`, lines 121-128, with blocks of `B` indices. -/
def block (I : Inp W) (round B : Nat) (idxs : List Nat) (fuel b : Nat) : Res (List (Nat × Edge W)) :=
  match idxs[b * B]? with
  | none => .undef
  | some idx => loop I (I.P round) (I.tot round) idxs (min idxs.length ((b + 1) * B)) fuel (b * B) (lb (I.P round) idx I.n 0) []

/-- `out` after the parallel loop: every position holds a value written there by some block, or the initial value (`none`). -/
def Out (I : Inp W) (round B : Nat) (idxs : List Nat) (out : Nat → Option (Edge W)) : Prop :=
  ∃ (fuel : Nat) (ws : Nat → List (Nat × Edge W)), (∀ b, b * B < idxs.length → block I round B idxs fuel b = .ok (ws b)) ∧
    ∀ p, (out p = none ∧ ∀ b, b * B < idxs.length → ∀ e, (p, e) ∉ ws b) ∨
      ∃ b e, b * B < idxs.length ∧ (p, e) ∈ ws b ∧ out p = some e

/-! ### Specification -/

/-- The edges with unmatched ends, from the smaller to the larger end, in the order of the graph. -/
def Inp.live (I : Inp W) : List (Edge W) :=
  (List.range I.n).flatMap fun u => ((I.nbr u).map fun x => (u, x.1, x.2)).filter fun e =>
    !I.matched e.1 && !I.matched e.2.1 && decide (e.1 < e.2.1)

/-- The coincidence under which the extraction hangs: some vertex without live edges has offset `n - 1`. -/
def Hang (I : Inp W) (round : Nat) : Prop :=
  ∃ v, v < I.n ∧ I.P round v = I.n - 1 ∧ I.deg round v = 0 ∧ I.n - 1 < I.tot round

/-! ### Proof -/

/-- Assumptions on the input: neighbours are vertices, degrees fit, nothing is matched in round 0. -/
structure Ok (I : Inp W) (round : Nat) : Prop where
  bound : ∀ u, ∀ x ∈ I.nbr u, x.1 < I.n
  deg : ∀ u, (I.nbr u).length < 4294967296
  r0 : round = 0 → ∀ u, I.matched u = false

variable {I : Inp W} {round : Nat}

/-- The live edges of a vertex. -/
def Inp.liveAt (I : Inp W) (u : Nat) : List (Edge W) := if I.matched u then [] else I.cand u

theorem live_eq : I.live = (List.range I.n).flatMap I.liveAt := by
  rw [Inp.live]
  congr 1
  funext u
  rw [List.filter_map, Inp.liveAt, Inp.cand]
  cases h : I.matched u
  · rw [if_neg (by simp)]
    congr 1
    apply List.filter_congr
    intro x _
    simp [h]
  · rw [if_pos rfl, List.map_eq_nil_iff, List.filter_eq_nil_iff]
    intro x _
    simp [h]

theorem deg_eq (hk : Ok I round) (u : Nat) : I.deg round u = (I.liveAt u).length := by
  rw [Inp.deg, Inp.liveAt]
  cases h : I.matched u
  · rw [if_neg (by simp), if_neg (by simp), Nat.mod_eq_of_lt (Nat.lt_of_le_of_lt List.countP_le_length (hk.deg u)), Inp.cand,
      List.length_map, List.countP_eq_length_filter]
    congr 1
    apply List.filter_congr
    intro x _
    by_cases hr : round = 0
    · simp [hr, hk.r0 hr x.1]
    · have h0 : (round == 0) = false := by rw [beq_eq_false_iff_ne]; exact hr
      rw [h0, Bool.false_or]
  · rw [if_pos rfl, if_pos rfl]; rfl

theorem P_eq (hk : Ok I round) (v : Nat) : I.P round v = ((List.range v).flatMap I.liveAt).length := by
  rw [Inp.P, flatMap_length_exScan]
  exact exScan_congr fun i _ => deg_eq hk i

theorem tot_eq (hk : Ok I round) : I.tot round = I.live.length := by rw [Inp.tot, P_eq hk, live_eq]

theorem P_succ (v : Nat) : I.P round (v + 1) = I.P round v + I.deg round v := rfl

theorem P_mono {i j : Nat} (h : i ≤ j) : I.P round i ≤ I.P round j := exScan_mono _ h

/-- The live edges of `v` sit in the list of all live edges from `P v` on. -/
theorem live_get (hk : Ok I round) {v j : Nat} (hv : v < I.n) (hj : j < I.deg round v) :
    I.live[I.P round v + j]? = (I.liveAt v)[j]? := by
  rw [live_eq, P_eq hk]
  have hs : List.range I.n = List.range v ++ v :: ((List.range I.n).drop (v + 1)) := by
    have h1 := List.take_append_drop v (List.range I.n)
    rw [List.drop_eq_getElem_cons (by simpa using hv)] at h1
    simp only [List.getElem_range] at h1
    rw [List.take_range, Nat.min_eq_left (by omega)] at h1
    exact h1.symm
  rw [hs, List.flatMap_append, List.getElem?_append_right (by omega), Nat.add_sub_cancel_left, List.flatMap_cons,
    List.getElem?_append_left (by rw [← deg_eq hk]; exact hj)]

/-- The last vertex has no live edges. -/
theorem P_last (hk : Ok I round) (hn : 0 < I.n) : I.P round (I.n - 1) = I.tot round := by
  have h : I.deg round (I.n - 1) = 0 := by
    rw [deg_eq hk, Inp.liveAt]
    split
    · rfl
    · rw [List.length_eq_zero_iff, Inp.cand, List.map_eq_nil_iff, List.filter_eq_nil_iff]
      intro x hx
      have := hk.bound _ x hx
      simp only [Bool.and_eq_true, decide_eq_true_eq, not_and]
      intro _
      omega
  have := P_succ (I := I) (round := round) (I.n - 1)
  rw [Inp.tot]
  rw [h, Nat.sub_add_cancel hn] at this
  exact this.symm

theorem lb_spec (P : Nat → Nat) (v : Nat) (k : Nat) : ∀ c, c ≤ lb P v k c ∧ lb P v k c ≤ c + k ∧
    (∀ j, c ≤ j → j < lb P v k c → P j < v) ∧ (lb P v k c < c + k → v ≤ P (lb P v k c)) := by
  induction k with
  | zero => intro c; exact ⟨Nat.le_refl _, Nat.le_refl _, fun j h1 h2 => absurd h2 (by rw [lb]; omega), fun h => absurd h (by rw [lb]; omega)⟩
  | succ k ih =>
    intro c
    rw [lb]
    by_cases h : P c < v
    · rw [if_pos h]
      obtain ⟨a, b, d, e⟩ := ih (c + 1)
      refine ⟨by omega, by omega, fun j h1 h2 => ?_, fun h' => e (by omega)⟩
      rcases Nat.lt_or_eq_of_le h1 with h3 | h3
      · exact d j h3 h2
      · exact h3 ▸ h
    · rw [if_neg h]
      exact ⟨Nat.le_refl _, by omega, fun j h1 h2 => absurd h2 (by omega), fun _ => by omega⟩

/-- The vertex whose live edges contain index `idx`. -/
def Owner (I : Inp W) (round idx c : Nat) : Prop := c < I.n ∧ I.P round c ≤ idx ∧ idx < I.P round (c + 1)

theorem skip_spec (hk : Ok I round) {idx : Nat} (hx : idx < I.tot round) (hne : idx ≠ I.n - 1) (k : Nat) :
    ∀ c, c < I.n → I.P round c ≤ idx → (∀ j, c < j → I.P round j < idx → False) → (Owner I round idx c ∨ I.P round c = idx) → I.n < k + c →
      ∃ c', skip (I.P round) I.n (I.tot round) idx k c = some c' ∧ Owner I round idx c' := by
  induction k with
  | zero => intro c hc; omega
  | succ k ih =>
    intro c hc hp hj ho hkc
    have hlast := P_last hk (I := I) (by omega)
    have hc1 : c + 1 < I.n := by
      by_contra hcc
      have : c = I.n - 1 := by omega
      rw [this, hlast] at hp; omega
    rw [skip, if_pos hc, edgeEnd, if_neg hne, if_pos hc1]
    simp only []
    have hm := P_mono (I := I) (round := round) (Nat.le_succ c)
    by_cases hz : I.P round (c + 1) - I.P round c = 0
    · rw [if_pos hz]
      have he : I.P round (c + 1) = I.P round c := by simp only [Nat.succ_eq_add_one] at hm; omega
      have hpc : I.P round c = idx := by
        rcases ho with ho | ho
        · have := ho.2; omega
        · exact ho
      exact ih (c + 1) hc1 (by omega) (fun j h1 h2 => hj j (by omega) h2) (Or.inr (by omega)) (by omega)
    · rw [if_neg hz]
      refine ⟨c, rfl, ?_⟩
      rcases ho with ho | ho
      · exact ho
      · exact ⟨hc, hp, by simp only [Nat.succ_eq_add_one] at hm; omega⟩

theorem locate_spec (hk : Ok I round) {idx cur : Nat} (hx : idx < I.tot round) (hh : ¬ (idx = I.n - 1 ∧ Hang I round))
    (hc : cur < I.n) (hcur : ∀ j, j < cur → I.P round j ≤ idx) :
    ∃ c, locate (I.P round) I.n (I.tot round) idx cur = some c ∧ Owner I round idx c := by
  have hlast := P_last hk (I := I) (by omega)
  obtain ⟨l1, l2, l3, l4⟩ := lb_spec (I.P round) idx (I.n - cur) cur
  rw [locate]
  generalize hL : lb (I.P round) idx (I.n - cur) cur = c at *
  have hcn : c < I.n := by
    by_contra hcc
    have := l3 (I.n - 1) (by omega) (by omega)
    omega
  have l5 := l4 (by omega)
  rw [if_pos hcn]
  have hmain : ∀ c2, c2 < I.n → I.P round c2 ≤ idx → (Owner I round idx c2 ∨ I.P round c2 = idx) →
      ∃ c, skip (I.P round) I.n (I.tot round) idx (I.n + 1) c2 = some c ∧ Owner I round idx c := by
    intro c2 h1 h2 h3
    by_cases hne : idx = I.n - 1
    · rw [skip, if_pos h1, edgeEnd, if_pos hne]
      simp only []
      rw [if_neg (by omega)]
      refine ⟨c2, rfl, ?_⟩
      rcases h3 with h3 | h3
      · exact h3
      · have hd : I.deg round c2 ≠ 0 := fun hd => hh ⟨hne, c2, h1, by omega, hd, by omega⟩
        have := P_succ (I := I) (round := round) c2
        exact ⟨h1, h2, by omega⟩
    · refine skip_spec hk hx hne _ c2 h1 h2 (fun j hj hlt => ?_) h3 (by omega)
      have hm := P_mono (I := I) (round := round) (Nat.succ_le_of_lt hj)
      rcases h3 with h3 | h3
      · have := h3.2.2; simp only [Nat.succ_eq_add_one] at hm; omega
      · have := P_mono (I := I) (round := round) (Nat.le_of_lt hj); omega
  by_cases hgt : I.P round c > idx
  · rw [if_pos hgt]
    have hc0 : c ≠ 0 := by
      intro h
      rw [h] at hgt
      have : I.P round 0 = 0 := rfl
      omega
    have hle : I.P round (c - 1) ≤ idx := by
      by_cases h : c - 1 < cur
      · exact hcur _ h
      · exact Nat.le_of_lt (l3 (c - 1) (by omega) (by omega))
    exact hmain (c - 1) (by omega) hle (Or.inl ⟨by omega, hle, by rw [Nat.sub_add_cancel (by omega)]; exact hgt⟩)
  · rw [if_neg hgt]
    exact hmain c hcn (by omega) (Or.inr (by omega))

theorem owner_unique {idx c c' : Nat} (h : Owner I round idx c) (h' : Owner I round idx c') : c = c' := by
  obtain ⟨_, a, b⟩ := h
  obtain ⟨_, a', b'⟩ := h'
  rcases Nat.lt_trichotomy c c' with hl | hl | hl
  · have := P_mono (I := I) (round := round) (Nat.succ_le_of_lt hl); simp only [Nat.succ_eq_add_one] at this; omega
  · exact hl
  · have := P_mono (I := I) (round := round) (Nat.succ_le_of_lt hl); simp only [Nat.succ_eq_add_one] at this; omega

/-- Writes of a walk: each goes to a position at or after `o`, below the final offset, and stores the edge with that index. -/
theorem walk_spec (idxs : List Nat) (l : List (Edge W)) : ∀ ctr t o, (o < idxs.length → t = idxs.getD o 0) →
    (idxs.length ≤ o → t = 18446744073709551615) → ctr + l.length ≤ 18446744073709551615 →
    o ≤ (walk idxs l ctr t o).2 ∧
    (∀ p e, (p, e) ∈ (walk idxs l ctr t o).1 → o ≤ p ∧ p < idxs.length ∧ ctr ≤ idxs.getD p 0 ∧ l[idxs.getD p 0 - ctr]? = some e) ∧
    (ctr ≤ t → t < ctr + l.length → o < (walk idxs l ctr t o).2 ∧ ∃ e, (o, e) ∈ (walk idxs l ctr t o).1) := by
  induction l with
  | nil =>
    intro ctr t o h1 h2 h3
    refine ⟨Nat.le_refl _, fun p e h => (by cases h), fun h4 h5 => ?_⟩
    simp only [List.length_nil] at h5
    omega
  | cons e l ih =>
    intro ctr t o h1 h2 h3
    rw [List.length_cons] at h3
    rw [walk]
    by_cases ht : t = ctr
    · rw [if_pos ht]
      have ho : o < idxs.length := by
        by_contra hc
        have := h2 (by omega)
        omega
      obtain ⟨a, b, c⟩ := ih (ctr + 1) (if o + 1 < idxs.length then idxs.getD (o + 1) 0 else 18446744073709551615) (o + 1)
        (fun h => if_pos h) (fun h => if_neg (by omega)) (by omega)
      generalize walk idxs l (ctr + 1) (if o + 1 < idxs.length then idxs.getD (o + 1) 0 else 18446744073709551615) (o + 1) = r at *
      obtain ⟨ws, o'⟩ := r
      simp only [] at a b c ⊢
      refine ⟨by omega, fun p e' h => ?_, fun _ _ => ⟨by omega, e, List.mem_cons_self⟩⟩
      rcases List.mem_cons.1 h with h | h
      · injection h with ha hb
        subst ha; subst hb
        refine ⟨Nat.le_refl _, ho, by rw [← h1 ho]; omega, ?_⟩
        rw [← h1 ho, ht, Nat.sub_self]; rfl
      · obtain ⟨b1, b2, b3, b4⟩ := b p e' h
        refine ⟨by omega, b2, by omega, ?_⟩
        rw [show idxs.getD p 0 - ctr = idxs.getD p 0 - (ctr + 1) + 1 by omega]
        exact b4
    · rw [if_neg ht]
      obtain ⟨a, b, c⟩ := ih (ctr + 1) t o h1 h2 (by omega)
      refine ⟨a, fun p e' h => ?_, fun h4 h5 => c (by omega) (by rw [List.length_cons] at h5; omega)⟩
      obtain ⟨b1, b2, b3, b4⟩ := b p e' h
      refine ⟨b1, b2, by omega, ?_⟩
      rw [show idxs.getD p 0 - ctr = idxs.getD p 0 - (ctr + 1) + 1 by omega]
      exact b4

theorem getD_range {N i : Nat} (h : i < N) : (List.range N).getD i 0 = i := by
  rw [List.getD_eq_getElem?_getD, List.getElem?_range h]; rfl

/-- With the identity as indices, a walk from the first edge of a vertex writes all its edges. -/
theorem walk_id {N : Nat} (l : List (Edge W)) : ∀ ctr o t, o = ctr →
    (t = if o < N then o else 18446744073709551615) → ctr + l.length ≤ N →
    (walk (List.range N) l ctr t o).2 = ctr + l.length ∧
    ∀ j e, l[j]? = some e → (ctr + j, e) ∈ (walk (List.range N) l ctr t o).1 := by
  induction l with
  | nil => intro ctr o t ho ht h; exact ⟨ho, fun j e h => (by cases h)⟩
  | cons e l ih =>
    intro ctr o t ho ht h
    rw [List.length_cons] at h
    rw [if_pos (by omega)] at ht
    rw [walk, if_pos (by omega)]
    obtain ⟨a, b⟩ := ih (ctr + 1) (o + 1)
      (if o + 1 < (List.range N).length then (List.range N).getD (o + 1) 0 else 18446744073709551615) (by omega) (by
        rw [List.length_range]
        by_cases h' : o + 1 < N
        · rw [if_pos h', if_pos h', getD_range h']
        · rw [if_neg h', if_neg h']) (by omega)
    generalize walk (List.range N) l (ctr + 1)
      (if o + 1 < (List.range N).length then (List.range N).getD (o + 1) 0 else 18446744073709551615) (o + 1) = r at *
    obtain ⟨ws, o'⟩ := r
    simp only [] at a b ⊢
    refine ⟨by rw [List.length_cons]; omega, fun j e' hj => ?_⟩
    cases j with
    | zero =>
      simp only [List.getElem?_cons_zero, Option.some.injEq] at hj
      subst hj; subst ho
      exact List.mem_cons_self
    | succ j =>
      rw [List.getElem?_cons_succ] at hj
      have := b j e' hj
      rw [show ctr + (j + 1) = ctr + 1 + j by omega]
      exact List.mem_cons_of_mem _ this

/-- The indices: sorted, below the number of live edges. -/
structure Idx (I : Inp W) (round : Nat) (idxs : List Nat) : Prop where
  lt : ∀ x ∈ idxs, x < I.tot round
  sorted : idxs.Pairwise (· ≤ ·)

theorem idx_range : Idx I round (List.range (I.tot round)) :=
  ⟨fun _ h => List.mem_range.1 h, List.pairwise_lt_range.imp Nat.le_of_lt⟩

theorem Idx.le {idxs : List Nat} (hi : Idx I round idxs) {i j a b : Nat} (hij : i ≤ j) (ha : idxs[i]? = some a) (hb : idxs[j]? = some b) :
    a ≤ b := by
  obtain ⟨h1, rfl⟩ := List.getElem?_eq_some_iff.1 ha
  obtain ⟨h2, rfl⟩ := List.getElem?_eq_some_iff.1 hb
  rcases Nat.lt_or_eq_of_le hij with h | h
  · exact List.pairwise_iff_getElem.1 hi.sorted i j h1 h2 h
  · subst h; exact Nat.le_refl _

theorem cand_eq {c : Nat} (hd : 0 < I.deg round c) : I.cand c = I.liveAt c := by
  rw [Inp.liveAt]
  split
  · rename_i h
    rw [Inp.deg, if_pos h] at hd
    omega
  · rfl

theorem loop_spec (hk : Ok I round) (hT : I.tot round < 18446744073709551615) {idxs : List Nat} (hi : Idx I round idxs)
    (hh : ¬ (I.n - 1 ∈ idxs ∧ Hang I round)) {stop : Nat} (hs : stop ≤ idxs.length) (k : Nat) :
    ∀ i cur ws, 0 < k → stop < k + i → cur < I.n → (∀ idx, idxs[i]? = some idx → ∀ j, j < cur → I.P round j ≤ idx) →
      ∃ ws', loop I (I.P round) (I.tot round) idxs stop k i cur ws = .ok ws' ∧ (∀ q ∈ ws, q ∈ ws') ∧
        (∀ p e, (p, e) ∈ ws' → (p, e) ∈ ws ∨ (p < idxs.length ∧ I.live[idxs.getD p 0]? = some e)) ∧
        (i = 0 → 0 < stop → ∃ e, (0, e) ∈ ws') ∧
        (idxs = List.range (I.tot round) → ∀ c, c < I.n → 0 < I.deg round c → i ≤ I.P round c → I.P round c < stop →
          ∀ j, j < I.deg round c → ∃ e, (I.P round c + j, e) ∈ ws') := by
  induction k with
  | zero =>
    intro i cur ws hk0
    omega
  | succ k ih =>
    intro i cur ws _ hik hcur hP
    rw [loop]
    by_cases his : i < stop
    · rw [if_pos his]
      have hil : i < idxs.length := by omega
      have hget := List.getElem?_eq_getElem hil
      generalize hidx : idxs[i] = idx at hget
      have hmem : idx ∈ idxs := hidx ▸ List.getElem_mem hil
      have hgd : idxs.getD i 0 = idx := by rw [List.getD_eq_getElem?_getD, hget]; rfl
      have hx := hi.lt idx hmem
      obtain ⟨c, hc, ho⟩ := locate_spec hk hx (fun h => hh ⟨h.1 ▸ hmem, h.2⟩) hcur (hP idx hget)
      rw [hget]
      simp only []
      rw [hc]
      simp only []
      have hdpos : 0 < I.deg round c := by
        have := P_succ (I := I) (round := round) c
        have := ho.2
        omega
      have hcl := cand_eq hdpos
      have hlen : (I.cand c).length = I.deg round c := by rw [hcl, deg_eq hk]
      have hle : I.P round c + I.deg round c ≤ I.tot round := P_mono (I := I) (round := round) (Nat.succ_le_of_lt ho.1)
      have hnext : ∀ o, i ≤ o → ∀ idx', idxs[o]? = some idx' → ∀ j, j < c → I.P round j ≤ idx' := by
        intro o hio idx' hid j hj
        have h1 := hi.le hio hget hid
        have h2 := P_mono (I := I) (round := round) (Nat.le_of_lt hj)
        have h3 := ho.2.1
        omega
      by_cases hf : i = 0 ∨ idxs.getD (i - 1) 0 < I.P round c
      · rw [if_pos hf]
        obtain ⟨w1, w2, w3⟩ := walk_spec idxs (I.cand c) (I.P round c) idx i (fun _ => hgd.symm) (fun h => absurd h (by omega)) (by omega)
        obtain ⟨w3, e0, w4⟩ := w3 ho.2.1 (by rw [hlen]; exact ho.2.2)
        have wid : idxs = List.range (I.tot round) → i = I.P round c ∧ (walk idxs (I.cand c) (I.P round c) idx i).2 = I.P round c + I.deg round c ∧
            ∀ j e, (I.cand c)[j]? = some e → (I.P round c + j, e) ∈ (walk idxs (I.cand c) (I.P round c) idx i).1 := by
          intro he
          have hii : idx = i := by
            rw [he, List.getElem?_range (by rw [he, List.length_range] at hil; exact hil)] at hget
            exact (Option.some.inj hget).symm
          have hip : i = I.P round c := by
            have := ho.2.1
            rcases hf with hf | hf
            · omega
            · rw [he, getD_range (by rw [he, List.length_range] at hil; omega)] at hf
              omega
          rw [he]
          have hil' : i < I.tot round := by rw [he, List.length_range] at hil; exact hil
          have := walk_id (N := I.tot round) (I.cand c) (I.P round c) i idx hip (by rw [if_pos (by omega)]; exact hii) (by omega)
          rw [hlen] at this
          exact ⟨hip, this⟩
        generalize walk idxs (I.cand c) (I.P round c) idx i = r at *
        obtain ⟨w, o⟩ := r
        simp only [] at w1 w2 w3 w4 wid ⊢
        obtain ⟨ws', r1, r2, r3, r4, r5⟩ := ih o c (ws ++ w) (by omega) (by omega) ho.1 (hnext o (by omega))
        refine ⟨ws', r1, fun q hq => r2 q (List.mem_append_left _ hq), fun p e hp => ?_,
          fun h0 _ => ⟨e0, r2 _ (List.mem_append_right _ (h0 ▸ w4))⟩, fun he c' hc' hd' h1 h2 j hj => ?_⟩
        · rcases r3 p e hp with h | h
          · rcases List.mem_append.1 h with h | h
            · exact Or.inl h
            · right
              obtain ⟨b1, b2, b3, b4⟩ := w2 p e h
              refine ⟨b2, ?_⟩
              have hlt := (List.getElem?_eq_some_iff.1 b4).1
              rw [hlen] at hlt
              have := live_get hk ho.1 hlt
              rw [show I.P round c + (idxs.getD p 0 - I.P round c) = idxs.getD p 0 by omega] at this
              rw [this, ← hcl, b4]
          · exact Or.inr h
        · obtain ⟨v1, v2, v3⟩ := wid he
          by_cases hcc : c' = c
          · subst hcc
            have hj' : j < (I.cand c').length := by omega
            exact ⟨_, r2 _ (List.mem_append_right _ (v3 j _ (List.getElem?_eq_getElem hj')))⟩
          · refine r5 he c' hc' hd' ?_ h2 j hj
            have hlt : c < c' := by
              by_contra hge
              have := P_mono (I := I) (round := round) (show c' + 1 ≤ c by omega)
              have := P_succ (I := I) (round := round) c'
              omega
            have := P_mono (I := I) (round := round) (show c + 1 ≤ c' by omega)
            have := P_succ (I := I) (round := round) c
            omega
      · rw [if_neg hf]
        rw [not_or] at hf
        obtain ⟨ws', r1, r2, r3, r4, r5⟩ := ih (i + 1) c ws (by omega) (by omega) ho.1 (hnext (i + 1) (by omega))
        refine ⟨ws', r1, r2, r3, fun h => absurd h hf.1, fun he c' hc' hd' h1 h2 j hj => r5 he c' hc' hd' ?_ h2 j hj⟩
        rcases Nat.lt_or_eq_of_le h1 with h | h
        · exact h
        · exfalso
          have hil' : i < I.tot round := by rw [he, List.length_range] at hil; exact hil
          have hii : idx = i := by
            rw [he, List.getElem?_range hil'] at hget
            exact (Option.some.inj hget).symm
          have ho' : Owner I round idx c' := ⟨hc', by omega, by rw [P_succ]; omega⟩
          have := owner_unique ho ho'
          subst this
          refine hf.2 ?_
          rw [he, getD_range (by omega)]
          omega
    · rw [if_neg his]
      exact ⟨ws, rfl, fun _ h => h, fun p e h => Or.inl h, fun h0 h1 => absurd h1 (by omega), fun _ c _ _ h1 h2 => absurd h2 (by omega)⟩

theorem block_spec (hk : Ok I round) (hT : I.tot round < 18446744073709551615) {idxs : List Nat} (hi : Idx I round idxs)
    (hh : ¬ (I.n - 1 ∈ idxs ∧ Hang I round)) {B b : Nat} (hB : 0 < B) (hb : b * B < idxs.length) :
    ∃ ws, block I round B idxs (idxs.length + 2) b = .ok ws ∧
      (∀ p e, (p, e) ∈ ws → p < idxs.length ∧ I.live[idxs.getD p 0]? = some e) ∧ (b = 0 → ∃ e, (0, e) ∈ ws) ∧
      (idxs = List.range (I.tot round) → ∀ c, c < I.n → 0 < I.deg round c → b * B ≤ I.P round c →
        I.P round c < min idxs.length ((b + 1) * B) → ∀ j, j < I.deg round c → ∃ e, (I.P round c + j, e) ∈ ws) := by
  have hget := List.getElem?_eq_getElem hb
  generalize hidx : idxs[b * B] = idx at hget
  have hx := hi.lt idx (hidx ▸ List.getElem_mem hb)
  have hn : 0 < I.n := by
    by_contra hc
    have : I.n = 0 := by omega
    rw [Inp.tot, this] at hx
    exact absurd hx (Nat.not_lt_zero _)
  have hlast := P_last hk hn
  obtain ⟨l1, l2, l3, l4⟩ := lb_spec (I.P round) idx I.n 0
  have hlb : lb (I.P round) idx I.n 0 < I.n := by
    by_contra hcc
    have := l3 (I.n - 1) (by omega) (by omega)
    omega
  have hm : b * B < min idxs.length ((b + 1) * B) := by
    rw [Nat.add_mul]; omega
  obtain ⟨ws, r1, _, r3, r4, r5⟩ := loop_spec hk hT hi hh (Nat.min_le_left idxs.length ((b + 1) * B)) (idxs.length + 2) (b * B)
    (lb (I.P round) idx I.n 0) [] (by omega) (by omega) hlb (fun idx' h j hj => by
      rw [hget, Option.some.injEq] at h
      subst h
      exact Nat.le_of_lt (l3 j (Nat.zero_le _) hj))
  refine ⟨ws, ?_, fun p e h => ?_, fun h0 => r4 (by rw [h0, Nat.zero_mul]) (by omega), r5⟩
  · rw [block, hget]; exact r1
  · rcases r3 p e h with h | h
    · cases h
    · exact h

/-- The blocks as a function, with the bound on the iterations that suffices. -/
theorem blocks (hk : Ok I round) (hT : I.tot round < 18446744073709551615) {idxs : List Nat} (hi : Idx I round idxs)
    (hh : ¬ (I.n - 1 ∈ idxs ∧ Hang I round)) {B : Nat} (hB : 0 < B) :
    ∃ ws : Nat → List (Nat × Edge W), ∀ b, b * B < idxs.length → block I round B idxs (idxs.length + 2) b = .ok (ws b) ∧
      (∀ p e, (p, e) ∈ ws b → p < idxs.length ∧ I.live[idxs.getD p 0]? = some e) ∧ (b = 0 → ∃ e, (0, e) ∈ ws b) ∧
      (idxs = List.range (I.tot round) → ∀ c, c < I.n → 0 < I.deg round c → b * B ≤ I.P round c →
        I.P round c < min idxs.length ((b + 1) * B) → ∀ j, j < I.deg round c → ∃ e, (I.P round c + j, e) ∈ ws b) := by
  have h : ∀ b, ∃ ws : List (Nat × Edge W), b * B < idxs.length → _ := fun b => by
    by_cases hb : b * B < idxs.length
    · obtain ⟨ws, h⟩ := block_spec hk hT hi hh hB hb
      exact ⟨ws, fun _ => h⟩
    · exact ⟨[], fun h => absurd h hb⟩
  exact ⟨fun b => Classical.choose (h b), fun b hb => Classical.choose_spec (h b) hb⟩

/-- More iterations do not change the outcome of a loop that has ended. -/
theorem loop_mono {P : Nat → Nat} {tot : Nat} {idxs : List Nat} {stop k k' : Nat} : ∀ {i cur ws ws1 ws2},
    loop I P tot idxs stop k i cur ws = .ok ws1 → loop I P tot idxs stop k' i cur ws = .ok ws2 → ws1 = ws2 := by
  induction k generalizing k' with
  | zero => intro i cur ws ws1 ws2 h; cases h
  | succ k ih =>
    intro i cur ws ws1 ws2 h h'
    cases k' with
    | zero => cases h'
    | succ k' =>
      rw [loop] at h h'
      by_cases hs : i < stop
      · rw [if_pos hs] at h h'
        cases hx : idxs[i]? with
        | none => rw [hx] at h; cases h
        | some idx =>
          rw [hx] at h h'
          simp only [] at h h'
          cases hl : locate P I.n tot idx cur with
          | none => rw [hl] at h; cases h
          | some c =>
            rw [hl] at h h'
            simp only [] at h h'
            by_cases hf : i = 0 ∨ idxs.getD (i - 1) 0 < P c
            · rw [if_pos hf] at h h'
              exact ih h h'
            · rw [if_neg hf] at h h'
              exact ih h h'
      · rw [if_neg hs] at h h'
        exact (Res.ok.inj h).symm.trans (Res.ok.inj h')

theorem block_mono {B b k k' : Nat} {idxs : List Nat} {ws1 ws2 : List (Nat × Edge W)} (h : block I round B idxs k b = .ok ws1)
    (h' : block I round B idxs k' b = .ok ws2) : ws1 = ws2 := by
  rw [block] at h h'
  cases hx : idxs[b * B]? with
  | none => rw [hx] at h; cases h
  | some idx => rw [hx] at h h'; exact loop_mono h h'

/-! ### Theorems -/

/-- C42, sampled indices: unless the index `n - 1` is used in the coincidence `Hang`, all blocks finish; whatever they write is the
live edge with the index of that position, and position 0 is written. -/
theorem get_edges_sample_partial (hk : Ok I round) (hT : I.tot round < 18446744073709551615) {idxs : List Nat} (hi : Idx I round idxs)
    (hh : ¬ (I.n - 1 ∈ idxs ∧ Hang I round)) {B : Nat} (hB : 0 < B) :
    (∃ out, Out I round B idxs out) ∧
    ∀ out, Out I round B idxs out → (∀ p e, out p = some e → p < idxs.length ∧ I.live[idxs.getD p 0]? = some e) ∧
      (0 < idxs.length → ∃ e, out 0 = some e) := by
  obtain ⟨ws, hws⟩ := blocks hk hT hi hh hB
  constructor
  · have hex : ∀ p, ∃ o : Option (Edge W), (o = none ∧ ∀ b, b * B < idxs.length → ∀ e, (p, e) ∉ ws b) ∨
        ∃ b e, b * B < idxs.length ∧ (p, e) ∈ ws b ∧ o = some e := by
      intro p
      by_cases h : ∃ b e, b * B < idxs.length ∧ (p, e) ∈ ws b
      · obtain ⟨b, e, h1, h2⟩ := h
        exact ⟨some e, Or.inr ⟨b, e, h1, h2, rfl⟩⟩
      · exact ⟨none, Or.inl ⟨rfl, fun b hb e he => h ⟨b, e, hb, he⟩⟩⟩
    exact ⟨fun p => Classical.choose (hex p), idxs.length + 2, ws, fun b hb => (hws b hb).1, fun p => Classical.choose_spec (hex p)⟩
  · rintro out ⟨fuel, ws', h1, h2⟩
    have he : ∀ b, b * B < idxs.length → ws' b = ws b := fun b hb => block_mono (h1 b hb) (hws b hb).1
    constructor
    · intro p e hp
      rcases h2 p with ⟨h, _⟩ | ⟨b, e', hb, hm, ho⟩
      · rw [h] at hp; cases hp
      · rw [ho, Option.some.injEq] at hp
        subst hp
        rw [he b hb] at hm
        exact (hws b hb).2.1 p e' hm
    · intro hpos
      have hb0 : 0 * B < idxs.length := by rw [Nat.zero_mul]; exact hpos
      obtain ⟨e, hm⟩ := (hws 0 hb0).2.2.1 rfl
      rcases h2 0 with ⟨_, h⟩ | ⟨b, e', hb, _, ho⟩
      · rw [← he 0 hb0] at hm
        exact absurd hm (h 0 hb0 e)
      · exact ⟨e', ho⟩

/-- C42, all edges (`tot < k`): without the coincidence `Hang`, the blocks finish and `out` is the list of live edges. -/
theorem get_edges_partial (hk : Ok I round) (hT : I.tot round < 18446744073709551615) (hh : ¬ Hang I round) {B : Nat} (hB : 0 < B) :
    (∃ out, Out I round B (List.range (I.tot round)) out) ∧
    ∀ out, Out I round B (List.range (I.tot round)) out → I.tot round = I.live.length ∧ ∀ p, p < I.live.length → out p = I.live[p]? := by
  have hh' : ¬ (I.n - 1 ∈ List.range (I.tot round) ∧ Hang I round) := fun h => hh h.2
  obtain ⟨hex, hall⟩ := get_edges_sample_partial hk hT idx_range hh' hB
  refine ⟨hex, fun out ho => ⟨tot_eq hk, fun p hp => ?_⟩⟩
  have hp' : p < I.tot round := by rw [tot_eq hk]; exact hp
  obtain ⟨hs, _⟩ := hall out ho
  have key : ∃ e, out p = some e := by
    obtain ⟨ws, hws⟩ := blocks hk hT idx_range hh' hB
    obtain ⟨fuel, ws', h1, h2⟩ := ho
    obtain ⟨c, j, hc, hj, hpj⟩ := exScan_find (I.deg round) (k := I.n) (x := p) hp'
    have hPc : I.P round c ≤ p := by rw [hpj]; exact Nat.le_add_right _ _
    have hb : I.P round c / B * B ≤ I.P round c := Nat.div_mul_le_self _ _
    have hb2 : I.P round c < (I.P round c / B + 1) * B := by
      have := Nat.div_add_mod (I.P round c) B
      have := Nat.mod_lt (I.P round c) hB
      rw [Nat.add_mul, Nat.one_mul, Nat.mul_comm]
      omega
    have hbl : I.P round c / B * B < (List.range (I.tot round)).length := by rw [List.length_range]; omega
    obtain ⟨e, hm⟩ := (hws _ hbl).2.2.2 rfl c hc (by omega) hb (by rw [List.length_range]; omega) j hj
    rw [← block_mono (h1 _ hbl) (hws _ hbl).1] at hm
    have hpe : I.P round c + j = p := hpj.symm
    rw [hpe] at hm
    rcases h2 p with ⟨_, h⟩ | ⟨b, e', _, _, ho⟩
    · exact absurd hm (h _ hbl e)
    · exact ⟨e', ho⟩
  obtain ⟨e, he⟩ := key
  have := (hs p e he).2
  rw [getD_range hp'] at this
  rw [he, this]

/-- C42 is false as stated: in the coincidence `Hang` (before anything is matched) the block that contains index `n - 1` never
finishes. -/
theorem get_edges_hangs (hk : Ok I round) (hm : ∀ u, I.matched u = false) (hh : Hang I round) {B : Nat} (hB : 0 < B) (fuel : Nat) :
    block I round B (List.range (I.tot round)) fuel ((I.n - 1) / B) = .more := by
  obtain ⟨v, hv, hpv, hdv, htot⟩ := hh
  have hex : ∃ v0, v0 ≤ v ∧ I.P round v0 = I.n - 1 ∧ ∀ j, j < v0 → I.P round j < I.n - 1 := by
    obtain ⟨l1, l2, l3, l4⟩ := lb_spec (I.P round) (I.n - 1) v 0
    refine ⟨lb (I.P round) (I.n - 1) v 0, by omega, ?_, fun j hj => l3 j (Nat.zero_le _) hj⟩
    by_cases h : lb (I.P round) (I.n - 1) v 0 < v
    · have h1 := l4 (by omega)
      have h2 := P_mono (I := I) (round := round) (Nat.le_of_lt h)
      omega
    · have : lb (I.P round) (I.n - 1) v 0 = v := by omega
      rw [this, hpv]
  obtain ⟨v0, h0v, hp0, hlt0⟩ := hex
  have hd0 : I.deg round v0 = 0 := by
    rcases Nat.lt_or_eq_of_le h0v with h | h
    · have h1 := P_mono (I := I) (round := round) (show v0 + 1 ≤ v by omega)
      have h2 := P_succ (I := I) (round := round) v0
      omega
    · rw [h]; exact hdv
  have hcand : I.cand v0 = [] := by
    have := deg_eq hk v0
    rw [hd0, Inp.liveAt, if_neg (by rw [hm]; simp)] at this
    exact List.length_eq_zero_iff.1 this.symm
  have main : ∀ stop, I.n - 1 < stop → ∀ k i cur ws, i ≤ I.n - 1 → cur ≤ v0 → (∀ j, j < cur → I.P round j ≤ i) →
      loop I (I.P round) (I.tot round) (List.range (I.tot round)) stop k i cur ws = .more := by
    intro stop hstop k
    induction k with
    | zero => intro i cur ws _ _ _; rfl
    | succ k ih =>
      intro i cur ws hi hcur hP
      rw [loop, if_pos (by omega), List.getElem?_range (by omega)]
      simp only []
      rcases Nat.lt_or_eq_of_le hi with hlt | heq
      · obtain ⟨c, hc, ho⟩ := locate_spec hk (idx := i) (cur := cur) (by omega) (fun h => by omega) (by omega) hP
        rw [hc]
        simp only []
        have hcv : c < v0 := by
          by_contra hge
          have := P_mono (I := I) (round := round) (show v0 ≤ c by omega)
          have := ho.2.1
          omega
        have hdpos : 0 < I.deg round c := by
          have := P_succ (I := I) (round := round) c
          have := ho.2
          omega
        have hlen : (I.cand c).length = I.deg round c := by rw [cand_eq hdpos, deg_eq hk]
        have hPc : ∀ o, i ≤ o → ∀ j, j < c → I.P round j ≤ o := fun o hio j hj => by
          have := P_mono (I := I) (round := round) (Nat.le_of_lt hj)
          have := ho.2.1
          omega
        have hle : I.P round c + I.deg round c ≤ I.n - 1 := by
          have := P_mono (I := I) (round := round) (show c + 1 ≤ v0 by omega)
          have := P_succ (I := I) (round := round) c
          omega
        by_cases hf : i = 0 ∨ (List.range (I.tot round)).getD (i - 1) 0 < I.P round c
        · rw [if_pos hf]
          have hip : i = I.P round c := by
            have := ho.2.1
            rcases hf with hf | hf
            · omega
            · rw [getD_range (by omega)] at hf
              omega
          have hw := (walk_id (N := I.tot round) (I.cand c) (I.P round c) i i hip (by rw [if_pos (by omega)]) (by omega)).1
          generalize walk (List.range (I.tot round)) (I.cand c) (I.P round c) i i = r at *
          obtain ⟨w, o⟩ := r
          simp only [] at hw ⊢
          exact ih o c _ (by omega) (by omega) (hPc o (by omega))
        · rw [if_neg hf]
          exact ih (i + 1) c _ (by omega) (by omega) (hPc _ (by omega))
      · obtain ⟨l1, l2, l3, l4⟩ := lb_spec (I.P round) i (I.n - cur) cur
        have hl : lb (I.P round) i (I.n - cur) cur = v0 := by
          rcases Nat.lt_trichotomy (lb (I.P round) i (I.n - cur) cur) v0 with h | h | h
          · have h1 := hlt0 _ h
            have h2 := l4 (by omega)
            omega
          · exact h
          · have := l3 v0 hcur h
            omega
        have hloc : locate (I.P round) I.n (I.tot round) i cur = some v0 := by
          rw [locate, hl, if_pos (by omega), if_neg (by omega), skip, if_pos (by omega), edgeEnd, if_pos heq]
          simp only []
          rw [if_neg (by omega)]
        rw [hloc]
        simp only []
        rw [if_pos (by
          by_cases h : i = 0
          · exact Or.inl h
          · right; rw [getD_range (by omega)]; omega), hcand, walk]
        simp only []
        exact ih i v0 _ hi (Nat.le_refl _) (fun j hj => by have := hlt0 j hj; omega)
  have hdiv : (I.n - 1) / B * B ≤ I.n - 1 := Nat.div_mul_le_self _ _
  have hdiv2 : I.n - 1 < ((I.n - 1) / B + 1) * B := by
    have := Nat.div_add_mod (I.n - 1) B
    have := Nat.mod_lt (I.n - 1) hB
    rw [Nat.add_mul, Nat.one_mul, Nat.mul_comm]
    omega
  rw [block, List.getElem?_range (by omega)]
  simp only []
  obtain ⟨l1, l2, l3, l4⟩ := lb_spec (I.P round) ((I.n - 1) / B * B) I.n 0
  refine main _ (by rw [List.length_range]; omega) fuel _ _ _ hdiv ?_ (fun j hj => Nat.le_of_lt (l3 j (Nat.zero_le _) hj))
  by_contra hgt
  have := l3 v0 (Nat.zero_le _) (by omega)
  omega

/-! ### Examples -/

/-- A path on four vertices; the edges are extracted. -/
def exI : Inp Unit := ⟨4, fun v => if v = 0 then [(1, ())] else if v = 1 then [(0, ()), (2, ())] else if v = 2 then [(1, ()), (3, ())]
  else if v = 3 then [(2, ())] else [], fun _ => false⟩

theorem nbr_cases {P : List (Nat × Unit) → Prop} {I : Inp Unit} (k : Nat) (h1 : ∀ v < k, P (I.nbr v)) (h2 : ∀ v, k ≤ v → P (I.nbr v))
    (v : Nat) : P (I.nbr v) := by
  by_cases h : v < k
  · exact h1 v h
  · exact h2 v (by omega)

theorem exI_ok : Ok exI 0 := by
  have h2 : ∀ v, 4 ≤ v → exI.nbr v = [] := fun v hv => by
    show (if v = 0 then _ else if v = 1 then _ else if v = 2 then _ else if v = 3 then _ else _) = _
    rw [if_neg (by omega), if_neg (by omega), if_neg (by omega), if_neg (by omega)]
  exact ⟨nbr_cases (P := fun l => ∀ x ∈ l, x.1 < 4) 4 (by decide) (fun v hv => by rw [h2 v hv]; simp),
    nbr_cases (P := fun l => l.length < 4294967296) 4 (by decide) (fun v hv => by rw [h2 v hv]; simp), fun _ _ => rfl⟩

example : ¬ Hang exI 0 ∧ exI.live = [(0, 1, ()), (1, 2, ()), (2, 3, ())] := by
  refine ⟨?_, by decide⟩
  rintro ⟨v, hv, h⟩
  exact (by decide : ∀ v < 4, ¬ (exI.P 0 v = 4 - 1 ∧ exI.deg 0 v = 0 ∧ 4 - 1 < exI.tot 0)) v hv h

/-- Sampled indices with a repetition. -/
example : Idx exI 0 [0, 1, 1, 2] := ⟨by decide, by decide⟩

/-- Five vertices, edges 0-1, 0-2, 0-3, 0-4, 2-3: vertex 1 has no live edges and offset 4. -/
def exH : Inp Unit := ⟨5, fun v => if v = 0 then [(1, ()), (2, ()), (3, ()), (4, ())] else if v = 1 then [(0, ())]
  else if v = 2 then [(0, ()), (3, ())] else if v = 3 then [(0, ()), (2, ())] else if v = 4 then [(0, ())] else [], fun _ => false⟩

theorem exH_ok : Ok exH 0 := by
  have h2 : ∀ v, 5 ≤ v → exH.nbr v = [] := fun v hv => by
    show (if v = 0 then _ else if v = 1 then _ else if v = 2 then _ else if v = 3 then _ else if v = 4 then _ else _) = _
    rw [if_neg (by omega), if_neg (by omega), if_neg (by omega), if_neg (by omega), if_neg (by omega)]
  exact ⟨nbr_cases (P := fun l => ∀ x ∈ l, x.1 < 5) 5 (by decide) (fun v hv => by rw [h2 v hv]; simp),
    nbr_cases (P := fun l => l.length < 4294967296) 5 (by decide) (fun v hv => by rw [h2 v hv]; simp), fun _ _ => rfl⟩

/-- The extraction never finishes on this graph. -/
example (fuel : Nat) : block exH 0 65536 (List.range (exH.tot 0)) fuel 0 = .more :=
  get_edges_hangs exH_ok (fun _ => rfl) ⟨1, by decide, by decide, by decide, by decide⟩ (by decide) fuel

end Gbbs.GetEdges
