/-
C148: the remaining operations of `gbbs/helpers/sparse_table.h`: sequential insertion and marking (`insert_seq`, `mark_seq`, `idx`,
together with lookups, `entries` and `clear_table`), insertion with a bound on the probes (`insert_check`), tables over foreign
memory, and the size computed by `resize`.
-/
import Verif.Hash.Table
import Mathlib.Data.Finset.Card
import Mathlib.Algebra.BigOperators.Fin
import Mathlib.Algebra.Order.BigOperators.Group.Finset

namespace Gbbs.Hash.Ops

open Gbbs.Atomics (Steps)

variable {K V ι : Type} [DecidableEq K] [DecidableEq ι]

/-! ### Model of the sequential operations -/

/-- The slots. -/
structure Tab (K V : Type) where
  tab : Nat → K
  val : Nat → V

/-- `insert_seq`, `sparse_table.h:137-151`, after `j` increments, with at most `fuel` more iterations; `none`: still looping. -/
def insertSeq (P : Par K) (t : Tab K V) (k : K) (v : V) : Nat → Nat → Option (Tab K V × Bool)
  | 0, _ => none
  | fuel + 1, j =>
    if t.tab (slot P k j) = P.emp then
      some (⟨Atomics.set t.tab (slot P k j) k, Atomics.set t.val (slot P k j) v⟩, true)
    else if t.tab (slot P k j) = k then some (t, false)
    else insertSeq P t k v fuel (j + 1)

/-- `mark_seq`, `sparse_table.h:183-195`; `tomb` is `empty_key - 1`. -/
def markSeq (P : Par K) (tomb : K) (t : Tab K V) (k : K) : Nat → Nat → Option (Tab K V)
  | 0, _ => none
  | fuel + 1, j =>
    if t.tab (slot P k j) = P.emp then some t
    else if t.tab (slot P k j) = k then some ⟨Atomics.set t.tab (slot P k j) tomb, t.val⟩
    else markSeq P tomb t k fuel (j + 1)

/-- `idx`, `sparse_table.h:88-96`. -/
def idx (P : Par K) (tab : Nat → K) (k : K) : Nat → Nat → Option Nat
  | 0, _ => none
  | fuel + 1, j => if tab (slot P k j) = k then some (slot P k j) else idx P tab k fuel (j + 1)

/-- `clear_table`, `sparse_table.h:271-273`. -/
def clear (P : Par K) (ev : V) : Tab K V := ⟨fun _ => P.emp, fun _ => ev⟩

/-- A call. -/
inductive Op (K V : Type)
  | ins (k : K) (v : V)
  | mark (k : K)
  | has (k : K)
  | get (k : K) (d : V)
  | clear

/-- A result. -/
inductive Out (V : Type)
  | bool (b : Bool)
  | val (v : V)
  | unit
deriving DecidableEq

/-- One call on the table; `none`: it does not return. `m` iterations are enough for every call that returns
(`insertSeq_loops` and the like below). -/
def call (P : Par K) (tomb : K) (ev : V) (t : Tab K V) : Op K V → Option (Tab K V × Out V)
  | .ins k v => (insertSeq P t k v P.m 0).map fun r => (r.1, .bool r.2)
  | .mark k => (markSeq P tomb t k P.m 0).map fun r => (r, .unit)
  | .has k => (contains P t.tab k P.m 0).map fun b => (t, .bool b)
  | .get k d => (find P t.tab t.val k d P.m 0).map fun x => (t, .val x)
  | .clear => some (clear P ev, .unit)

/-- A history of calls and its results. -/
def calls (P : Par K) (tomb : K) (ev : V) : Tab K V → List (Op K V) → Option (Tab K V × List (Out V))
  | t, [] => some (t, [])
  | t, o :: l => (call P tomb ev t o).bind fun r => (calls P tomb ev r.1 l).map fun q => (q.1, r.2 :: q.2)

/-! ### Specification: a finite map, and the number of slots used up since the last clearing -/

structure Ref (K V : Type) where
  map : K → Option V
  used : Nat

/-- What a call should do. -/
def Ref.call (r : Ref K V) : Op K V → Ref K V × Out V
  | .ins k v => if r.map k = none then (⟨fun x => if x = k then some v else r.map x, r.used + 1⟩, .bool true) else (r, .bool false)
  | .mark k => (⟨fun x => if x = k then none else r.map x, r.used⟩, .unit)
  | .has k => (r, .bool (r.map k).isSome)
  | .get k d => (r, .val ((r.map k).getD d))
  | .clear => (⟨fun _ => none, 0⟩, .unit)

def Ref.calls (r : Ref K V) : List (Op K V) → Ref K V × List (Out V)
  | [] => (r, [])
  | o :: l => (((r.call o).1.calls l).1, (r.call o).2 :: ((r.call o).1.calls l).2)

/-- No call of the history uses the last free slot. -/
def Fits (m : Nat) (r : Ref K V) : List (Op K V) → Prop
  | [] => r.used < m
  | o :: l => r.used < m ∧ Fits m (r.call o).1 l

/-- The key of a call is neither of the two reserved ones. -/
def OkKey (emp tomb : K) : Op K V → Prop
  | .ins k _ => k ≠ emp ∧ k ≠ tomb
  | .mark k => k ≠ emp ∧ k ≠ tomb
  | .has k => k ≠ emp ∧ k ≠ tomb
  | .get k _ => k ≠ emp ∧ k ≠ tomb
  | .clear => True

/-! ### The loops -/

/-- Every occurrence of `k` is reached by its probe sequence. -/
def Reach (P : Par K) (tab : Nat → K) (k : K) : Prop :=
  ∀ s, s < P.m → tab s = k → ∃ j, j < P.m ∧ slot P k j = s ∧ Passed P tab k j

/-- The probe at which the loops stop. -/
theorem probe {P : Par K} {tab : Nat → K} {k : K} (hw : Reach P tab k) (hfree : ∃ s, s < P.m ∧ tab s = P.emp) :
    ∃ j, j < P.m ∧ Passed P tab k j ∧ (tab (slot P k j) = k ∨ (tab (slot P k j) = P.emp ∧ ¬ In P tab k)) := by
  classical
  obtain ⟨s0, hs0, he0⟩ := hfree
  obtain ⟨j0, hj0, hj0s⟩ := slot_surj P k hs0
  have hex : ∃ j, tab (slot P k j) = k ∨ tab (slot P k j) = P.emp := ⟨j0, Or.inr (by rw [hj0s]; exact he0)⟩
  have hp : Passed P tab k (Nat.find hex) := by
    intro j' hj'
    have := Nat.find_min hex hj'
    exact ⟨fun h => this (Or.inr h), fun h => this (Or.inl h)⟩
  have hle : Nat.find hex ≤ j0 := Nat.find_min' hex (Or.inr (by rw [hj0s]; exact he0))
  refine ⟨Nat.find hex, by omega, hp, ?_⟩
  rcases Nat.find_spec hex with h | h
  · exact Or.inl h
  · by_cases hk : tab (slot P k (Nat.find hex)) = k
    · exact Or.inl hk
    refine Or.inr ⟨h, ?_⟩
    rintro ⟨s, hs, hsk⟩
    obtain ⟨l, hl, hl1, hl2⟩ := hw s hs hsk
    rcases Nat.lt_trichotomy (Nat.find hex) l with hlt | heq | hlt
    · exact (hl2 _ hlt).1 h
    · rw [← heq] at hl1; rw [hl1] at hk; exact hk hsk
    · have := (hp l hlt).2; rw [hl1] at this; exact this hsk

section loops
variable {P : Par K} {t : Tab K V} {k : K}

omit [DecidableEq ι] in
theorem insertSeq_at {v : V} {j : Nat} (hp : Passed P t.tab k j) (r : Tab K V × Bool)
    (hr : ∀ f, insertSeq P t k v (f + 1) j = some r) : ∀ f j', j' ≤ j → j < j' + f → insertSeq P t k v f j' = some r
  | 0, j', h1, h2 => by omega
  | f + 1, j', h1, h2 => by
    rcases Nat.lt_or_ge j' j with h | h
    · rw [insertSeq, if_neg (hp j' h).1, if_neg (hp j' h).2]
      exact insertSeq_at hp r hr f (j' + 1) (by omega) (by omega)
    · obtain rfl : j' = j := by omega
      exact hr f

omit [DecidableEq ι] in
theorem markSeq_at {tomb : K} {j : Nat} (hp : Passed P t.tab k j) (r : Tab K V)
    (hr : ∀ f, markSeq P tomb t k (f + 1) j = some r) : ∀ f j', j' ≤ j → j < j' + f → markSeq P tomb t k f j' = some r
  | 0, j', h1, h2 => by omega
  | f + 1, j', h1, h2 => by
    rcases Nat.lt_or_ge j' j with h | h
    · rw [markSeq, if_neg (hp j' h).1, if_neg (hp j' h).2]
      exact markSeq_at hp r hr f (j' + 1) (by omega) (by omega)
    · obtain rfl : j' = j := by omega
      exact hr f

theorem contains_at {tab : Nat → K} {j : Nat} (hp : Passed P tab k j) (r : Bool)
    (hr : ∀ f, contains P tab k (f + 1) j = some r) : ∀ f j', j' ≤ j → j < j' + f → contains P tab k f j' = some r
  | 0, j', h1, h2 => by omega
  | f + 1, j', h1, h2 => by
    rcases Nat.lt_or_ge j' j with h | h
    · rw [contains, if_neg (hp j' h).2, if_neg (hp j' h).1]
      exact contains_at hp r hr f (j' + 1) (by omega) (by omega)
    · obtain rfl : j' = j := by omega
      exact hr f

theorem find_at {tab : Nat → K} {val : Nat → V} {d : V} {j : Nat} (hp : Passed P tab k j) (r : V)
    (hr : ∀ f, find P tab val k d (f + 1) j = some r) : ∀ f j', j' ≤ j → j < j' + f → find P tab val k d f j' = some r
  | 0, j', h1, h2 => by omega
  | f + 1, j', h1, h2 => by
    rcases Nat.lt_or_ge j' j with h | h
    · rw [find, if_neg (hp j' h).2, if_neg (hp j' h).1]
      exact find_at hp r hr f (j' + 1) (by omega) (by omega)
    · obtain rfl : j' = j := by omega
      exact hr f

theorem idx_at {tab : Nat → K} {j : Nat} (hp : Passed P tab k j) (r : Nat)
    (hr : ∀ f, idx P tab k (f + 1) j = some r) : ∀ f j', j' ≤ j → j < j' + f → idx P tab k f j' = some r
  | 0, j', h1, h2 => by omega
  | f + 1, j', h1, h2 => by
    rcases Nat.lt_or_ge j' j with h | h
    · rw [idx, if_neg (hp j' h).2]
      exact idx_at hp r hr f (j' + 1) (by omega) (by omega)
    · obtain rfl : j' = j := by omega
      exact hr f

end loops

/-! ### The invariant -/

/-- Number of slots that are not empty. -/
def full (P : Par K) (tab : Nat → K) : Nat := ((Finset.range P.m).filter fun s => tab s ≠ P.emp).card

/-- The table represents the map. -/
structure Abs (P : Par K) (tomb : K) (t : Tab K V) (r : Ref K V) : Prop where
  reach : ∀ k, k ≠ P.emp → k ≠ tomb → Reach P t.tab k
  map : ∀ k x, k ≠ P.emp → k ≠ tomb → (r.map k = some x ↔ ∃ s, s < P.m ∧ t.tab s = k ∧ t.val s = x)
  used : full P t.tab = r.used

theorem Abs.free {P : Par K} {tomb : K} {t : Tab K V} {r : Ref K V} (h : Abs P tomb t r) (hu : r.used < P.m) :
    ∃ s, s < P.m ∧ t.tab s = P.emp := by
  by_contra hcon
  have : full P t.tab = P.m := by
    unfold full
    have hall : ∀ s ∈ Finset.range P.m, t.tab s ≠ P.emp := fun s hs he => hcon ⟨s, Finset.mem_range.1 hs, he⟩
    rw [Finset.filter_true_of_mem hall, Finset.card_range]
  rw [h.used] at this
  omega

theorem Abs.none_iff {P : Par K} {tomb : K} {t : Tab K V} {r : Ref K V} (h : Abs P tomb t r) {k : K} (h1 : k ≠ P.emp) (h2 : k ≠ tomb) :
    r.map k = none ↔ ¬ In P t.tab k := by
  constructor
  · rintro hn ⟨s, hs, hk⟩
    have := (h.map k (t.val s) h1 h2).2 ⟨s, hs, hk, rfl⟩
    rw [hn] at this
    cases this
  · intro hn
    cases hr : r.map k with
    | none => rfl
    | some x =>
      obtain ⟨s, hs, hk, _⟩ := (h.map k x h1 h2).1 hr
      exact absurd ⟨s, hs, hk⟩ hn

theorem reach_unique {P : Par K} {tab : Nat → K} {k : K} (hw : Reach P tab k) {s s' : Nat} (hs : s < P.m) (hs' : s' < P.m)
    (h : tab s = k) (h' : tab s' = k) : s = s' := by
  obtain ⟨j, _, hj1, hj2⟩ := hw s hs h
  obtain ⟨l, _, hl1, hl2⟩ := hw s' hs' h'
  rcases Nat.lt_trichotomy j l with hlt | rfl | hlt
  · have := (hl2 j hlt).2; rw [hj1] at this; exact absurd h this
  · rw [← hj1, hl1]
  · have := (hj2 l hlt).2; rw [hl1] at this; exact absurd h' this

/-- An insertion into an empty slot at the end of the probe sequence. -/
theorem Abs.put {P : Par K} {tomb : K} {t : Tab K V} {r : Ref K V} (h : Abs P tomb t r) {k : K} (h1 : k ≠ P.emp) (v : V) {j : Nat}
    (hj : j < P.m) (hp : Passed P t.tab k j) (he : t.tab (slot P k j) = P.emp) (hn : ¬ In P t.tab k) :
    Abs P tomb (⟨Atomics.set t.tab (slot P k j) k, Atomics.set t.val (slot P k j) v⟩ : Tab K V)
      ⟨fun x => if x = k then some v else r.map x, r.used + 1⟩ := by
  have hm : 0 < P.m := by omega
  have hps : ∀ k' j', Passed P t.tab k' j' → k' ≠ k → Passed P (Atomics.set t.tab (slot P k j) k) k' j' := by
    intro k' j' hp' hne i hi
    unfold Atomics.set
    split
    · exact ⟨h1, fun hc => hne hc.symm⟩
    · exact hp' i hi
  refine ⟨fun k' h1' h2' s hs hsk => ?_, fun k' x h1' h2' => ?_, ?_⟩
  · by_cases hss : s = slot P k j
    · subst hss
      simp only [Atomics.set, if_true] at hsk
      subst hsk
      refine ⟨j, hj, rfl, fun i hi => ?_⟩
      have hne : slot P k i ≠ slot P k j := by
        intro hc; have := (hp i hi).1; rw [hc] at this; exact this he
      simp only [Atomics.set, hne, if_false]
      exact hp i hi
    · simp only [Atomics.set, hss, if_false] at hsk
      have hne : k' ≠ k := by rintro rfl; exact hn ⟨s, hs, hsk⟩
      obtain ⟨i, hi, hi1, hi2⟩ := h.reach k' h1' h2' s hs hsk
      exact ⟨i, hi, hi1, hps k' i hi2 hne⟩
  · by_cases hk : k' = k
    · subst hk
      simp only [if_true, Option.some.injEq]
      constructor
      · rintro rfl
        exact ⟨slot P k' j, slot_lt P hm _ _, by simp [Atomics.set], by simp [Atomics.set]⟩
      · rintro ⟨s, hs, hsk, hsv⟩
        by_cases hss : s = slot P k' j
        · simpa [Atomics.set, hss] using hsv
        · simp only [Atomics.set, hss, if_false] at hsk
          exact absurd ⟨s, hs, hsk⟩ hn
    · simp only [hk, if_false]
      rw [h.map k' x h1' h2']
      constructor
      · rintro ⟨s, hs, hsk, hsv⟩
        have hss : s ≠ slot P k j := by rintro rfl; rw [he] at hsk; exact h1' hsk.symm
        exact ⟨s, hs, by simp [Atomics.set, hss, hsk], by simp [Atomics.set, hss, hsv]⟩
      · rintro ⟨s, hs, hsk, hsv⟩
        by_cases hss : s = slot P k j
        · simp only [Atomics.set, hss, if_true] at hsk
          exact absurd hsk.symm hk
        · simp only [Atomics.set, hss, if_false] at hsk hsv
          exact ⟨s, hs, hsk, hsv⟩
  · show full P (Atomics.set t.tab (slot P k j) k) = r.used + 1
    rw [← h.used]
    unfold full
    have : (Finset.range P.m).filter (fun s => Atomics.set t.tab (slot P k j) k s ≠ P.emp)
        = insert (slot P k j) ((Finset.range P.m).filter fun s => t.tab s ≠ P.emp) := by
      ext s
      rw [Finset.mem_filter, Finset.mem_insert, Finset.mem_filter, Finset.mem_range]
      by_cases hss : s = slot P k j
      · have := slot_lt P hm k j
        simp [hss, Atomics.set, h1, this]
      · simp [hss, Atomics.set]
    rw [this, Finset.card_insert_of_notMem]
    simp [he]

/-- Marking an entry. -/
theorem Abs.mark {P : Par K} {tomb : K} (ht : tomb ≠ P.emp) {t : Tab K V} {r : Ref K V} (h : Abs P tomb t r) {k : K} (h1 : k ≠ P.emp)
    (h2 : k ≠ tomb) {s0 : Nat} (hs0 : s0 < P.m) (hk : t.tab s0 = k) :
    Abs P tomb (⟨Atomics.set t.tab s0 tomb, t.val⟩ : Tab K V) ⟨fun x => if x = k then none else r.map x, r.used⟩ := by
  have hno : ∀ s, s < P.m → Atomics.set t.tab s0 tomb s ≠ k := by
    intro s hs hc
    by_cases hss : s = s0
    · simp only [Atomics.set, hss, if_true] at hc; exact h2 hc.symm
    · simp only [Atomics.set, hss, if_false] at hc
      exact hss (reach_unique (h.reach k h1 h2) hs hs0 hc hk)
  refine ⟨fun k' h1' h2' s hs hsk => ?_, fun k' x h1' h2' => ?_, ?_⟩
  · have hss : s ≠ s0 := by
      rintro rfl; simp only [Atomics.set, if_true] at hsk; exact h2' hsk.symm
    simp only [Atomics.set, hss, if_false] at hsk
    obtain ⟨i, hi, hi1, hi2⟩ := h.reach k' h1' h2' s hs hsk
    refine ⟨i, hi, hi1, fun l hl => ?_⟩
    show Atomics.set t.tab s0 tomb _ ≠ _ ∧ Atomics.set t.tab s0 tomb _ ≠ _
    unfold Atomics.set
    split
    · exact ⟨ht, fun hc => h2' hc.symm⟩
    · exact hi2 l hl
  · by_cases hkk : k' = k
    · subst hkk
      simp only [if_true, reduceCtorEq, false_iff]
      rintro ⟨s, hs, hsk, _⟩
      exact hno s hs hsk
    · simp only [hkk, if_false]
      rw [h.map k' x h1' h2']
      constructor
      · rintro ⟨s, hs, hsk, hsv⟩
        have hss : s ≠ s0 := by rintro rfl; exact hkk (hsk.symm.trans hk)
        exact ⟨s, hs, by simp [Atomics.set, hss, hsk], hsv⟩
      · rintro ⟨s, hs, hsk, hsv⟩
        have hss : s ≠ s0 := by
          rintro rfl; simp only [Atomics.set, if_true] at hsk; exact h2' hsk.symm
        simp only [Atomics.set, hss, if_false] at hsk
        exact ⟨s, hs, hsk, hsv⟩
  · show full P (Atomics.set t.tab s0 tomb) = r.used
    rw [← h.used]
    unfold full
    refine congrArg Finset.card (Finset.filter_congr fun s _ => ?_)
    by_cases hss : s = s0
    · subst hss; simp [Atomics.set, ht, hk, h1]
    · simp [Atomics.set, hss]

theorem Abs.clear {P : Par K} {tomb : K} {ev : V} : Abs P tomb (clear P ev) ⟨fun _ => none, 0⟩ := by
  refine ⟨fun k h1 _ s _ hs => absurd hs.symm h1, fun k x h1 _ => ?_, ?_⟩
  · simp only [reduceCtorEq, false_iff]
    rintro ⟨s, _, hs, _⟩
    exact h1 hs.symm
  · simp [full, Ops.clear]

/-- One call. -/
theorem call_spec {P : Par K} {tomb : K} (ht : tomb ≠ P.emp) {ev : V} {t : Tab K V} {r : Ref K V} (h : Abs P tomb t r)
    (hu : r.used < P.m) {o : Op K V} (ho : OkKey P.emp tomb o) :
    ∃ t', call P tomb ev t o = some (t', (r.call o).2) ∧ Abs P tomb t' (r.call o).1 := by
  have hfree := h.free hu
  cases o with
  | clear => exact ⟨_, rfl, Abs.clear⟩
  | ins k v =>
    obtain ⟨h1, h2⟩ := ho
    obtain ⟨j, hj, hp, hc⟩ := probe (h.reach k h1 h2) hfree
    have hm : 0 < P.m := by omega
    rcases hc with hc | ⟨hc, hn⟩
    · have hsome : ¬ r.map k = none := by
        rw [h.none_iff h1 h2]; exact fun hn => hn ⟨_, slot_lt P hm k j, hc⟩
      refine ⟨t, ?_, ?_⟩
      · show (insertSeq P t k v P.m 0).map _ = _
        rw [insertSeq_at hp (t, false) (fun f => by rw [insertSeq, if_neg (by rw [hc]; exact h1), if_pos hc]) P.m 0 (by omega) (by omega)]
        simp [Ref.call, hsome]
      · simpa [Ref.call, hsome] using h
    · have hnone := (h.none_iff h1 h2).2 hn
      refine ⟨⟨Atomics.set t.tab (slot P k j) k, Atomics.set t.val (slot P k j) v⟩, ?_, ?_⟩
      · show (insertSeq P t k v P.m 0).map _ = _
        rw [insertSeq_at hp _ (fun f => by rw [insertSeq, if_pos hc]) P.m 0 (by omega) (by omega)]
        simp [Ref.call, hnone]
      · simpa [Ref.call, hnone] using h.put h1 v hj hp hc hn
  | mark k =>
    obtain ⟨h1, h2⟩ := ho
    obtain ⟨j, hj, hp, hc⟩ := probe (h.reach k h1 h2) hfree
    have hm : 0 < P.m := by omega
    rcases hc with hc | ⟨hc, hn⟩
    · refine ⟨_, ?_, h.mark ht h1 h2 (slot_lt P hm k j) hc⟩
      show (markSeq P tomb t k P.m 0).map _ = _
      rw [markSeq_at hp _ (fun f => by rw [markSeq, if_neg (by rw [hc]; exact h1), if_pos hc]) P.m 0 (by omega) (by omega)]
      rfl
    · refine ⟨t, ?_, ?_⟩
      · show (markSeq P tomb t k P.m 0).map _ = _
        rw [markSeq_at hp t (fun f => by rw [markSeq, if_pos hc]) P.m 0 (by omega) (by omega)]
        rfl
      · have : (fun x => if x = k then none else r.map x) = r.map := by
          funext x
          by_cases hx : x = k
          · rw [if_pos hx, hx, (h.none_iff h1 h2).2 hn]
          · rw [if_neg hx]
        show Abs P tomb t ⟨fun x => if x = k then none else r.map x, r.used⟩
        rw [this]
        exact h
  | has k =>
    obtain ⟨h1, h2⟩ := ho
    obtain ⟨j, hj, hp, hc⟩ := probe (h.reach k h1 h2) hfree
    have hm : 0 < P.m := by omega
    refine ⟨t, ?_, h⟩
    show (contains P t.tab k P.m 0).map _ = _
    rcases hc with hc | ⟨hc, hn⟩
    · rw [contains_at hp true (fun f => by rw [contains, if_pos hc]) P.m 0 (by omega) (by omega)]
      have := (h.map k _ h1 h2).2 ⟨_, slot_lt P hm k j, hc, rfl⟩
      simp [Ref.call, this]
    · rw [contains_at hp false (fun f => by rw [contains, if_neg (by rw [hc]; exact Ne.symm h1), if_pos hc]) P.m 0 (by omega) (by omega)]
      simp [Ref.call, (h.none_iff h1 h2).2 hn]
  | get k d =>
    obtain ⟨h1, h2⟩ := ho
    obtain ⟨j, hj, hp, hc⟩ := probe (h.reach k h1 h2) hfree
    have hm : 0 < P.m := by omega
    refine ⟨t, ?_, h⟩
    show (find P t.tab t.val k d P.m 0).map _ = _
    rcases hc with hc | ⟨hc, hn⟩
    · rw [find_at hp _ (fun f => by rw [find, if_pos hc]) P.m 0 (by omega) (by omega)]
      have := (h.map k _ h1 h2).2 ⟨_, slot_lt P hm k j, hc, rfl⟩
      simp [Ref.call, this]
    · rw [find_at hp d (fun f => by rw [find, if_neg (by rw [hc]; exact Ne.symm h1), if_pos hc]) P.m 0 (by omega) (by omega)]
      simp [Ref.call, (h.none_iff h1 h2).2 hn]

theorem calls_spec {P : Par K} {tomb : K} (ht : tomb ≠ P.emp) {ev : V} : ∀ (l : List (Op K V)) {t : Tab K V} {r : Ref K V},
    Abs P tomb t r → Fits P.m r l → (∀ o ∈ l, OkKey P.emp tomb o) →
    ∃ t', calls P tomb ev t l = some (t', (r.calls l).2) ∧ Abs P tomb t' (r.calls l).1 ∧ (r.calls l).1.used < P.m
  | [], t, r, h, hf, _ => ⟨t, rfl, h, hf⟩
  | o :: l, t, r, h, hf, hk => by
    obtain ⟨t1, e1, a1⟩ := call_spec (ev := ev) ht h hf.1 (hk o (by simp))
    obtain ⟨t2, e2, a2, u2⟩ := calls_spec ht (ev := ev) l a1 hf.2 (fun o' ho' => hk o' (by simp [ho']))
    refine ⟨t2, ?_, a2, u2⟩
    rw [calls, e1]
    simp only [Option.bind_some]
    rw [e2]
    rfl

/-- C148: in every history of sequential calls on a new table that leaves a slot free, every call returns what it would on a finite map
in which `mark_seq` deletes. Afterwards `entries` has, besides entries with the reserved key `empty_key - 1`, exactly the entries of
the map, each once, and `idx` returns the slot of every key that is present. -/
theorem C148_seq {P : Par K} {tomb : K} (ht : tomb ≠ P.emp) {ev : V} (l : List (Op K V)) (hf : Fits P.m ⟨fun _ => none, 0⟩ l)
    (hk : ∀ o ∈ l, OkKey P.emp tomb o) :
    ∃ t, calls P tomb ev (clear P ev) l = some (t, ((⟨fun _ => none, 0⟩ : Ref K V).calls l).2) ∧
      (∀ k x, k ≠ P.emp → k ≠ tomb →
        ((k, x) ∈ entries P t.tab t.val ↔ ((⟨fun _ => none, 0⟩ : Ref K V).calls l).1.map k = some x)) ∧
      (((entries P t.tab t.val).map Prod.fst).filter fun k => decide (k ≠ tomb)).Nodup ∧
      (∀ k x, k ≠ P.emp → k ≠ tomb → ((⟨fun _ => none, 0⟩ : Ref K V).calls l).1.map k = some x →
        ∃ s, idx P t.tab k P.m 0 = some s ∧ t.tab s = k ∧ t.val s = x) := by
  obtain ⟨t, e, a, u⟩ := calls_spec ht (ev := ev) l Abs.clear hf hk
  refine ⟨t, e, fun k x h1 h2 => ?_, ?_, fun k x h1 h2 hx => ?_⟩
  · rw [a.map k x h1 h2]
    unfold entries
    simp only [List.mem_map, List.mem_filter, List.mem_range, decide_eq_true_eq, Prod.mk.injEq]
    constructor
    · rintro ⟨s, ⟨hs, _⟩, hsk, hsv⟩
      exact ⟨s, hs, hsk, hsv⟩
    · rintro ⟨s, hs, hsk, hsv⟩
      exact ⟨s, ⟨hs, by rw [hsk]; exact h1⟩, hsk, hsv⟩
  · unfold entries
    rw [List.map_map, List.filter_map, List.filter_filter, List.nodup_map_iff_inj_on (List.nodup_range.filter _)]
    intro s hs s' hs' hss
    simp only [List.mem_filter, List.mem_range, Bool.and_eq_true, decide_eq_true_eq, Function.comp] at hs hs' hss
    exact reach_unique (a.reach (t.tab s) hs.2.2 hs.2.1) hs.1 hs'.1 rfl hss.symm
  · obtain ⟨s, hs, hsk, hsv⟩ := (a.map k x h1 h2).1 hx
    obtain ⟨j, hj, hjs, hp⟩ := a.reach k h1 h2 s hs hsk
    refine ⟨s, ?_, hsk, hsv⟩
    refine idx_at hp s (fun f => ?_) P.m 0 (by omega) (by omega)
    rw [idx, hjs, if_pos hsk]

/-- C148: a table made for `cap` values leaves a slot free in every history of at most `cap` insertions. -/
theorem C148_room (cap mul : Nat) (hmul : cap ≤ mul) (l : List (Op K V))
    (hl : (l.filter fun o => match o with | .ins _ _ => true | _ => false).length ≤ cap) :
    Fits (tableSize mul) (⟨fun _ => none, 0⟩ : Ref K V) l := by
  have hsz : cap < tableSize mul := by
    have := log2Up_spec (mul + 1) (mul + 1) (by omega)
    unfold tableSize
    omega
  have key : ∀ (l : List (Op K V)) (r : Ref K V),
      r.used + (l.filter fun o => match o with | .ins _ _ => true | _ => false).length ≤ cap → Fits (tableSize mul) r l := by
    intro l
    induction l with
    | nil => intro r h; simp at h; exact Nat.lt_of_le_of_lt h hsz
    | cons o l ih =>
      intro r h
      refine ⟨Nat.lt_of_le_of_lt (by omega) hsz, ih _ ?_⟩
      cases o with
      | ins k v =>
        simp only [List.filter_cons, if_true, List.length_cons] at h
        simp only [Ref.call]
        split <;> simp only <;> omega
      | mark k => simpa [Ref.call, List.filter_cons] using h
      | has k => simpa [Ref.call, List.filter_cons] using h
      | get k d => simpa [Ref.call, List.filter_cons] using h
      | clear =>
        simp only [List.filter_cons, Bool.false_eq_true, if_false] at h
        simp only [Ref.call]
        omega
  exact key l _ (by simpa using hl)

/-- Keys `0..9`, empty key 9, marked key 8. -/
example : Fits (tableSize 3) (⟨fun _ => none, 0⟩ : Ref Nat Nat) [.ins 1 10, .ins 5 50, .mark 1, .has 5, .ins 1 11, .get 1 0, .get 5 0] ∧
    ((⟨fun _ => none, 0⟩ : Ref Nat Nat).calls [.ins 1 10, .ins 5 50, .mark 1, .has 5, .ins 1 11, .get 1 0, .get 5 0]).2 =
      [.bool true, .bool true, .unit, .bool true, .bool true, .val 11, .val 50] := by
  refine ⟨C148_room 3 3 (by omega) _ (by decide), by decide⟩

/-- C148, refuted: marked entries are not deleted. `entries` returns them with the key `empty_key - 1`, `map` is applied to them, and
`contains(empty_key - 1)` becomes true. -/
theorem C148_entries_refuted : ∃ (P : Par Nat) (t : Tab Nat Nat),
    P.m = tableSize 1 ∧ calls P 8 0 (clear P 0) [.ins 1 10, .mark 1] = some (t, [.bool true, .unit]) ∧
    contains P t.tab 1 P.m 0 = some false ∧ entries P t.tab t.val = [(8, 10)] ∧ contains P t.tab 8 P.m 0 = some false ∧
    ∃ (P' : Par Nat) (t' : Tab Nat Nat), P'.m = tableSize 1 ∧
      calls P' 8 0 (clear P' 0) [.ins 2 20, .mark 2] = some (t', [.bool true, .unit]) ∧ contains P' t'.tab 8 P'.m 0 = some true :=
  ⟨⟨2, id, 9⟩, ⟨Atomics.set (Atomics.set (fun _ => 9) 1 1) 1 8, Atomics.set (fun _ => 0) 1 10⟩, by decide, rfl, by decide, by decide,
    by decide, ⟨2, id, 9⟩, ⟨Atomics.set (Atomics.set (fun _ => 9) 0 2) 0 8, Atomics.set (fun _ => 0) 0 20⟩, by decide, rfl, by decide⟩

omit [DecidableEq ι] in
theorem insertSeq_loops {P : Par K} (hm : 0 < P.m) {t : Tab K V} {k : K} {v : V}
    (hfull : ∀ s, s < P.m → t.tab s ≠ P.emp ∧ t.tab s ≠ k) : ∀ fuel j, insertSeq P t k v fuel j = none
  | 0, _ => rfl
  | fuel + 1, j => by
    have := hfull _ (slot_lt P hm k j)
    rw [insertSeq, if_neg this.1, if_neg this.2]
    exact insertSeq_loops hm hfull fuel (j + 1)

/-- C148, refuted: the places of marked entries are never used again. In a table made for one value, two rounds of inserting and marking
leave no entry, and then neither `insert_seq` nor `contains` returns, whatever the number of iterations. -/
theorem C148_reuse_refuted : ∃ (P : Par Nat) (t : Tab Nat Nat) (o : List (Out Nat)), P.m = tableSize 1 ∧
    calls P 8 0 (clear P 0) [.ins 1 10, .mark 1, .ins 2 20, .mark 2] = some (t, o) ∧
    (∀ k, ((⟨fun _ => none, 0⟩ : Ref Nat Nat).calls [.ins 1 10, .mark 1, .ins 2 20, .mark 2]).1.map k = none) ∧
    (∀ fuel, insertSeq P t 3 30 fuel 0 = none) ∧ ∀ fuel, contains P t.tab 3 fuel 0 = none := by
  let t : Tab Nat Nat := ⟨Atomics.set (Atomics.set (Atomics.set (Atomics.set (fun _ => 9) 1 1) 1 8) 0 2) 0 8,
    Atomics.set (Atomics.set (fun _ => 0) 1 10) 0 20⟩
  have hfull : ∀ s, s < 2 → t.tab s ≠ 9 ∧ t.tab s ≠ 3 := by decide
  refine ⟨⟨2, id, 9⟩, t, _, by decide, rfl, fun k => ?_, ?_, ?_⟩
  rotate_left
  · exact fun fuel => insertSeq_loops (P := ⟨2, id, 9⟩) (by decide) hfull fuel 0
  · exact fun fuel => contains_full_loops (P := ⟨2, id, 9⟩) 3 (by decide) hfull fuel 0
  simp only [Ref.calls, Ref.call, if_true]
  by_cases h2 : k = 2
  · simp [h2]
  · by_cases h1 : k = 1 <;> simp [h2, h1]

/-! ### `insert_check` -/

/-- Program counter of a thread inside `insert_check`, `sparse_table.h:153-181`: about to read `abort` (154); as in `insert`; about to set
`abort` after `j` increments (174-177); returned without insertion, having given up or found `abort` set. -/
inductive CPc
  | start
  | run (p : Pc)
  | setAb (j : Nat)
  | gaveUp (j : Nat)
  | skipped
deriving DecidableEq

/-- Slots, flag and threads. -/
structure CConf (K V ι : Type) where
  tab : Nat → K
  val : Nat → V
  abort : Bool
  pc : ι → CPc

/-- One access by thread `i` in `insert_check((key i, v i), &abort)`; `lim` is 10000. -/
inductive CStep (P : Par K) (lim : Nat) (key : ι → K) (v : ι → V) : ι → CConf K V ι → CConf K V ι → Prop
  | skip (c : CConf K V ι) (i : ι) (h : c.pc i = .start) (ha : c.abort = true) :
      CStep P lim key v i c { c with pc := Atomics.set c.pc i .skipped }
  | go (c : CConf K V ι) (i : ι) (h : c.pc i = .start) (ha : c.abort = false) :
      CStep P lim key v i c { c with pc := Atomics.set c.pc i (.run (.read1 0)) }
  | read1E (c : CConf K V ι) (i : ι) (j : Nat) (h : c.pc i = .run (.read1 j)) (he : c.tab (slot P (key i) j) = P.emp) :
      CStep P lim key v i c { c with pc := Atomics.set c.pc i (.run (.cas j)) }
  | read1N (c : CConf K V ι) (i : ι) (j : Nat) (h : c.pc i = .run (.read1 j)) (he : c.tab (slot P (key i) j) ≠ P.emp) :
      CStep P lim key v i c { c with pc := Atomics.set c.pc i (.run (.read2 j)) }
  | casT (c : CConf K V ι) (i : ι) (j : Nat) (h : c.pc i = .run (.cas j)) (he : c.tab (slot P (key i) j) = P.emp) :
      CStep P lim key v i c
        { c with tab := Atomics.set c.tab (slot P (key i) j) (key i), pc := Atomics.set c.pc i (.run (.post j true)) }
  | casF (c : CConf K V ι) (i : ι) (j : Nat) (h : c.pc i = .run (.cas j)) (he : c.tab (slot P (key i) j) ≠ P.emp) :
      CStep P lim key v i c { c with pc := Atomics.set c.pc i (.run (.read2 j)) }
  | read2E (c : CConf K V ι) (i : ι) (j : Nat) (h : c.pc i = .run (.read2 j)) (he : c.tab (slot P (key i) j) = key i) :
      CStep P lim key v i c { c with pc := Atomics.set c.pc i (.run (.done j false)) }
  | read2N (c : CConf K V ι) (i : ι) (j : Nat) (h : c.pc i = .run (.read2 j)) (he : c.tab (slot P (key i) j) ≠ key i) :
      CStep P lim key v i c
        { c with pc := Atomics.set c.pc i (if lim < j + 1 then .setAb (j + 1) else .run (.read1 (j + 1))) }
  | setAb (c : CConf K V ι) (i : ι) (j : Nat) (h : c.pc i = .setAb j) :
      CStep P lim key v i c { c with abort := true, pc := Atomics.set c.pc i (.gaveUp j) }
  | post (c : CConf K V ι) (i : ι) (j : Nat) (w : Bool) (h : c.pc i = .run (.post j w)) :
      CStep P lim key v i c
        { c with val := Atomics.set c.val (slot P (key i) j) (v i), pc := Atomics.set c.pc i (.run (.done j w)) }

/-- A run of `n` accesses. -/
inductive Run (P : Par K) (lim : Nat) (key : ι → K) (v : ι → V) : Nat → CConf K V ι → CConf K V ι → Prop
  | refl (c) : Run P lim key v 0 c c
  | tail {n c c' c'' i} (h : Run P lim key v n c c') (s : CStep P lim key v i c' c'') : Run P lim key v (n + 1) c c''

/-- The call of a thread has returned. -/
def Returned : CPc → Prop
  | .run (.done _ _) => True
  | .gaveUp _ => True
  | .skipped => True
  | _ => False

/-- What it returned. -/
def result : CPc → Bool
  | .run (.done _ w) => w
  | _ => false

/-- The place of the thread in `insert`. -/
def toPc : CPc → Pc
  | .start => .read1 0
  | .run p => p
  | .setAb j => .read1 j
  | .gaveUp j => .read1 j
  | .skipped => .read1 0

def proj (c : CConf K V ι) : Conf K V ι := ⟨c.tab, c.val, fun i => toPc (c.pc i)⟩

omit [DecidableEq K] in
theorem proj_pc (pc : ι → CPc) (i : ι) (p : CPc) :
    (fun x => toPc (Atomics.set pc i p x)) = Atomics.set (fun x => toPc (pc x)) i (toPc p) := by
  funext x
  unfold Atomics.set
  split <;> rfl

/-- Every access is one of `insert`, or none. -/
theorem sim {P : Par K} {lim : Nat} {key : ι → K} {v : ι → V} {i : ι} {c c' : CConf K V ι} (h : CStep P lim key v i c c') :
    proj c' = proj c ∨ Step P (fun _ x => x) false key v (proj c) (proj c') := by
  have same : ∀ (i : ι) (p : CPc), toPc p = toPc (c.pc i) → (fun x => toPc (Atomics.set c.pc i p x)) = fun x => toPc (c.pc x) := by
    intro i p hp
    funext x
    unfold Atomics.set
    split
    · next hx => rw [hx, hp]
    · rfl
  cases h with
  | skip _ _ h ha => left; simp only [proj]; rw [same _ _ (by rw [h]; rfl)]
  | go _ _ h ha => left; simp only [proj]; rw [same _ _ (by rw [h]; rfl)]
  | read1E _ _ j h he =>
    right; simp only [proj]; rw [proj_pc]; exact Step.read1E (proj c) _ j (by simp [proj, h, toPc]) he
  | read1N _ _ j h he =>
    right; simp only [proj]; rw [proj_pc]; exact Step.read1N (proj c) _ j (by simp [proj, h, toPc]) he
  | casT _ _ j h he =>
    right; simp only [proj]; rw [proj_pc]; exact Step.casT (proj c) _ j (by simp [proj, h, toPc]) he
  | casF _ _ j h he =>
    right; simp only [proj]; rw [proj_pc]; exact Step.casF (proj c) _ j (by simp [proj, h, toPc]) he
  | read2E _ _ j h he =>
    right; simp only [proj]; rw [proj_pc]
    exact Step.read2E (both := false) (proj c) _ j (by simp [proj, h, toPc]) he
  | read2N _ _ j h he =>
    right; simp only [proj]; rw [proj_pc]
    have : toPc (if lim < j + 1 then CPc.setAb (j + 1) else CPc.run (Pc.read1 (j + 1))) = .read1 (j + 1) := by split <;> rfl
    rw [this]
    exact Step.read2N (proj c) _ j (by simp [proj, h, toPc]) he
  | setAb _ _ j h => left; simp only [proj]; rw [same _ _ (by rw [h]; rfl)]
  | post _ _ j w h =>
    right; simp only [proj]; rw [proj_pc]; exact Step.post (proj c) _ j w (by simp [proj, h, toPc])

/-- The initial configuration of a batch of calls. -/
def init (tab0 : Nat → K) (val0 : Nat → V) : CConf K V ι := ⟨tab0, val0, false, fun _ => .start⟩

theorem run_steps {P : Par K} {lim : Nat} {key : ι → K} {v : ι → V} {tab0 : Nat → K} {val0 : Nat → V} {n : Nat} {c : CConf K V ι}
    (h : Run P lim key v n (init tab0 val0) c) :
    Steps (Step P (fun _ x => x) false key v) ⟨tab0, val0, fun _ => .read1 0⟩ (proj c) := by
  generalize hc0 : init tab0 val0 = c0 at h
  induction h with
  | refl c => subst hc0; exact .refl _
  | tail h s ih =>
    rcases sim s with e | e
    · rw [e]; exact ih hc0
    · exact .tail (ih hc0) e

/-- The flag, the threads that did not insert, and the number of increments. -/
structure FInv (lim : Nat) (c : CConf K V ι) : Prop where
  skipped : ∀ i, c.pc i = .skipped → c.abort = true
  gaveUp : ∀ i j, c.pc i = .gaveUp j → c.abort = true
  setAb : ∀ i j, c.pc i = .setAb j → j = lim + 1
  who : c.abort = true → ∃ i, c.pc i = .gaveUp (lim + 1)
  le : ∀ i p, c.pc i = .run p → (∃ j, j ≤ lim ∧ (p = .read1 j ∨ p = .cas j ∨ p = .read2 j ∨ ∃ w, p = .post j w ∨ p = .done j w))

omit [DecidableEq K] [DecidableEq ι] in
theorem FInv.init {lim : Nat} {tab0 : Nat → K} {val0 : Nat → V} : FInv lim (init tab0 val0 : CConf K V ι) :=
  ⟨fun _ h => (nomatch h), fun _ _ h => (nomatch h), fun _ _ h => (nomatch h), fun h => (nomatch h), fun _ _ h => (nomatch h)⟩

theorem FInv.step {P : Par K} {lim : Nat} {key : ι → K} {v : ι → V} {i : ι} {c c' : CConf K V ι} (hi : FInv lim c)
    (h : CStep P lim key v i c c') : FInv lim c' := by
  have mk : ∀ (tab : Nat → K) (val : Nat → V) (p : CPc), c.pc i ≠ .gaveUp (lim + 1) → (p = .skipped → c.abort = true) →
      (∀ j, p ≠ .gaveUp j) → (∀ j, p = .setAb j → j = lim + 1) →
      (∀ q, p = .run q → ∃ j, j ≤ lim ∧ (q = .read1 j ∨ q = .cas j ∨ q = .read2 j ∨ ∃ w, q = .post j w ∨ q = .done j w)) →
      FInv lim (⟨tab, val, c.abort, Atomics.set c.pc i p⟩ : CConf K V ι) := by
    intro tab val p h0 h1 h2 h3 h4
    have at_ : ∀ x q, Atomics.set c.pc i p x = q → (x = i ∧ p = q) ∨ c.pc x = q := by
      intro x q hq
      by_cases hx : x = i
      · left; simp only [Atomics.set, hx, if_true] at hq; exact ⟨hx, hq⟩
      · right; simpa [Atomics.set, hx] using hq
    refine ⟨fun x hx => ?_, fun x j hx => ?_, fun x j hx => ?_, fun ha => ?_, fun x q hx => ?_⟩
    · rcases at_ x _ hx with ⟨_, e⟩ | e
      · exact h1 e
      · exact hi.skipped x e
    · rcases at_ x _ hx with ⟨_, e⟩ | e
      · exact absurd e (h2 j)
      · exact hi.gaveUp x j e
    · rcases at_ x _ hx with ⟨_, e⟩ | e
      · exact h3 j e
      · exact hi.setAb x j e
    · obtain ⟨x, hx⟩ := hi.who ha
      have : x ≠ i := by rintro rfl; exact h0 hx
      exact ⟨x, by simp only [Atomics.set, this, if_false]; exact hx⟩
    · rcases at_ x _ hx with ⟨_, e⟩ | e
      · exact h4 q e
      · exact hi.le x q e
  have idx_le : ∀ {q j}, c.pc i = .run q → (q = .read1 j ∨ q = .cas j ∨ q = .read2 j ∨ ∃ w, q = .post j w) → j ≤ lim := by
    intro q j hq hj
    obtain ⟨l, hl, h⟩ := hi.le i q hq
    rcases hj with rfl | rfl | rfl | ⟨w, rfl⟩ <;>
      rcases h with h | h | h | ⟨w', h | h⟩ <;> first | (cases h; exact hl) | cases h
  cases h with
  | skip _ _ h ha => exact mk _ _ _ (by rw [h]; nofun) (fun _ => ha) nofun nofun nofun
  | go _ _ h ha =>
    exact mk _ _ _ (by rw [h]; nofun) nofun nofun nofun (fun q hq => by cases hq; exact ⟨0, Nat.zero_le _, Or.inl rfl⟩)
  | read1E _ _ j h he =>
    exact mk _ _ _ (by rw [h]; nofun) nofun nofun nofun
      (fun q hq => by cases hq; exact ⟨j, idx_le h (Or.inl rfl), Or.inr (Or.inl rfl)⟩)
  | read1N _ _ j h he =>
    exact mk _ _ _ (by rw [h]; nofun) nofun nofun nofun
      (fun q hq => by cases hq; exact ⟨j, idx_le h (Or.inl rfl), Or.inr (Or.inr (Or.inl rfl))⟩)
  | casT _ _ j h he =>
    exact mk _ _ _ (by rw [h]; nofun) nofun nofun nofun
      (fun q hq => by cases hq; exact ⟨j, idx_le h (Or.inr (Or.inl rfl)), Or.inr (Or.inr (Or.inr ⟨_, Or.inl rfl⟩))⟩)
  | casF _ _ j h he =>
    exact mk _ _ _ (by rw [h]; nofun) nofun nofun nofun
      (fun q hq => by cases hq; exact ⟨j, idx_le h (Or.inr (Or.inl rfl)), Or.inr (Or.inr (Or.inl rfl))⟩)
  | read2E _ _ j h he =>
    exact mk _ _ _ (by rw [h]; nofun) nofun nofun nofun
      (fun q hq => by cases hq; exact ⟨j, idx_le h (Or.inr (Or.inr (Or.inl rfl))), Or.inr (Or.inr (Or.inr ⟨_, Or.inr rfl⟩))⟩)
  | read2N _ _ j h he =>
    have hj := idx_le h (Or.inr (Or.inr (Or.inl rfl)))
    by_cases hl : lim < j + 1
    · simp only [hl, if_true]
      exact mk _ _ _ (by rw [h]; nofun) nofun nofun (fun l hl' => by cases hl'; omega) nofun
    · simp only [hl, if_false]
      exact mk _ _ _ (by rw [h]; nofun) nofun nofun nofun (fun q hq => by cases hq; exact ⟨j + 1, by omega, Or.inl rfl⟩)
  | setAb _ _ j h =>
    have hj := hi.setAb _ j h
    subst hj
    refine ⟨fun _ _ => rfl, fun _ _ _ => rfl, fun x l hx => ?_, fun _ => ⟨i, by simp [Atomics.set]⟩, fun x q hx => ?_⟩
    · by_cases hxi : x = i
      · simp [Atomics.set, hxi] at hx
      · simp only [Atomics.set, hxi, if_false] at hx; exact hi.setAb x l hx
    · by_cases hxi : x = i
      · simp [Atomics.set, hxi] at hx
      · simp only [Atomics.set, hxi, if_false] at hx; exact hi.le x q hx
  | post _ _ j w h =>
    exact mk _ _ _ (by rw [h]; nofun) nofun nofun nofun
      (fun q hq => by cases hq; exact ⟨j, idx_le h (Or.inr (Or.inr (Or.inr ⟨w, rfl⟩))), Or.inr (Or.inr (Or.inr ⟨_, Or.inr rfl⟩))⟩)

theorem run_finv {P : Par K} {lim : Nat} {key : ι → K} {v : ι → V} {tab0 : Nat → K} {val0 : Nat → V} {n : Nat} {c : CConf K V ι}
    (h : Run P lim key v n (init tab0 val0) c) : FInv lim c := by
  generalize hc0 : init tab0 val0 = c0 at h
  induction h with
  | refl c => subst hc0; exact FInv.init
  | tail h s ih => exact (ih hc0).step s

/-- C148: if all calls of `insert_check` have returned and `abort` is not set, then the table holds exactly the old keys and those of the
calls, each once, and lookups work; for every new key exactly one call returned true, and its value is in the table. -/
theorem C148_check {P : Par K} (hm : 0 < P.m) {lim : Nat} {key : ι → K} {v : ι → V} (hkey : ∀ i, key i ≠ P.emp) {tab0 : Nat → K}
    (hw : WF P tab0) {val0 : Nat → V} {n : Nat} {c : CConf K V ι} (h : Run P lim key v n (init tab0 val0) c)
    (hr : ∀ i, Returned (c.pc i)) (ha : c.abort = false) :
    WF P c.tab ∧ (∀ k, k ≠ P.emp → (In P c.tab k ↔ In P tab0 k ∨ ∃ i, key i = k)) ∧
    (∀ i, result (c.pc i) = true → ¬ In P tab0 (key i) ∧ ∀ s, s < P.m → c.tab s = key i → c.val s = v i) ∧
    (∀ i, ¬ In P tab0 (key i) → ∃! i', key i' = key i ∧ result (c.pc i') = true) ∧
    (∀ s, tab0 s ≠ P.emp → c.tab s = tab0 s ∧ c.val s = val0 s) := by
  have hf := run_finv h
  have hdone : ∀ i, ∃ j w, c.pc i = .run (.done j w) := by
    intro i
    have := hr i
    cases hp : c.pc i with
    | start => rw [hp] at this; exact this.elim
    | run p =>
      rw [hp] at this
      cases p with
      | done j w => exact ⟨j, w, rfl⟩
      | read1 j => exact this.elim
      | cas j => exact this.elim
      | read2 j => exact this.elim
      | post j w => exact this.elim
    | setAb j => rw [hp] at this; exact this.elim
    | gaveUp j => have := hf.gaveUp i j hp; rw [ha] at this; cases this
    | skipped => have := hf.skipped i hp; rw [ha] at this; cases this
  have hc : Complete P (fun _ x => x) false key v tab0 val0 (proj c) :=
    ⟨run_steps h, fun i => by obtain ⟨j, w, e⟩ := hdone i; exact ⟨j, w, by simp [proj, e, toPc]⟩⟩
  have hres : ∀ i, result (c.pc i) = true ↔ ∃ j, (proj c).pc i = .done j true := by
    intro i
    obtain ⟨j, w, e⟩ := hdone i
    simp [proj, e, toPc, result]
  obtain ⟨k1, _, k3, k4, k5, k6⟩ := insert_keys hm hkey hw hc
  obtain ⟨v1, v2⟩ := insert_values hm hkey hw hc
  refine ⟨k1, k4, fun i hi => ?_, fun i hi => ?_, fun s hs => ⟨k3 s hs, v2 s hs⟩⟩
  · obtain ⟨j, e⟩ := (hres i).1 hi
    exact ⟨k5 i j e, fun s hs hsk => v1 i j s e hs hsk⟩
  · obtain ⟨i', ⟨a, b⟩, u⟩ := k6 i hi
    exact ⟨i', ⟨a, (hres i').2 b⟩, fun y hy => u y ⟨hy.1, (hres y).1 hy.2⟩⟩

/-- C148: in a table with at most `lim` (10000) slots, `abort` is set only if the table is full. -/
theorem C148_check_noabort {P : Par K} (hm : 0 < P.m) {lim : Nat} (hlim : P.m ≤ lim) {key : ι → K} {v : ι → V}
    (hkey : ∀ i, key i ≠ P.emp) {tab0 : Nat → K} (hw : WF P tab0) {val0 : Nat → V} {n : Nat} {c : CConf K V ι}
    (h : Run P lim key v n (init tab0 val0) c) (ha : c.abort = true) : ∀ s, s < P.m → c.tab s ≠ P.emp := by
  intro s hs he
  obtain ⟨i, hi⟩ := (run_finv h).who ha
  obtain ⟨j, hj, e⟩ := probes_bounded hm hkey hw (run_steps h) ⟨s, hs, he⟩ i
  have e' : (proj c).pc i = .read1 (lim + 1) := by simp [proj, hi, toPc]
  rw [e'] at e
  rcases e with e | e | e | ⟨w, e | e⟩
  · cases e; omega
  all_goals cases e

/-- Accesses that a thread can still make. -/
def left (lim : Nat) : CPc → Nat
  | .start => 3 * lim + 6
  | .run (.read1 j) => 3 * (lim - j) + 5
  | .run (.cas j) => 3 * (lim - j) + 4
  | .run (.read2 j) => 3 * (lim - j) + 3
  | .run (.post _ _) => 1
  | .run (.done _ _) => 0
  | .setAb _ => 1
  | .gaveUp _ => 0
  | .skipped => 0

theorem left_step {P : Par K} {lim : Nat} {key : ι → K} {v : ι → V} {i : ι} {c c' : CConf K V ι} (h : CStep P lim key v i c c') :
    left lim (c'.pc i) < left lim (c.pc i) ∧ ∀ x, x ≠ i → c'.pc x = c.pc x := by
  cases h with
  | read2N _ _ j h he =>
    refine ⟨?_, fun x hx => by simp [Atomics.set, hx]⟩
    by_cases hl : lim < j + 1
    · simp [Atomics.set, h, left, hl]
    · simp only [Atomics.set, h, left, hl, if_true, if_false]; omega
  | _ =>
    rename_i h
    refine ⟨?_, fun x hx => by simp [Atomics.set, hx]⟩
    simp_all [Atomics.set, left]

/-- C148: `insert_check` returns in every table, also in a full one: a batch makes at most `3 * lim + 6` accesses per call, and a call
that has not returned can always make its next access. -/
theorem C148_check_returns [Fintype ι] {P : Par K} {lim : Nat} {key : ι → K} {v : ι → V} {tab0 : Nat → K} {val0 : Nat → V} {n : Nat}
    {c : CConf K V ι} (h : Run P lim key v n (init tab0 val0) c) :
    n ≤ Fintype.card ι * (3 * lim + 6) ∧ ∀ i, ¬ Returned (c.pc i) → ∃ c', CStep P lim key v i c c' := by
  constructor
  · have key2 : n + ∑ i, left lim (c.pc i) ≤ Fintype.card ι * (3 * lim + 6) := by
      generalize hc0 : init tab0 val0 = c0 at h
      induction h with
      | refl c => subst hc0; simp [init, left]
      | @tail n c c' c'' i h s ih =>
        obtain ⟨h1, h2⟩ := left_step s
        have : ∑ x, left lim (c''.pc x) < ∑ x, left lim (c'.pc x) := by
          refine Finset.sum_lt_sum (fun x _ => ?_) ⟨i, Finset.mem_univ _, h1⟩
          by_cases hx : x = i
          · subst hx; exact Nat.le_of_lt h1
          · rw [h2 x hx]
        have := ih hc0
        omega
    omega
  · intro i hi
    cases hp : c.pc i with
    | start =>
      cases ha : c.abort with
      | true => exact ⟨_, .skip c i hp ha⟩
      | false => exact ⟨_, .go c i hp ha⟩
    | setAb j => exact ⟨_, .setAb c i j hp⟩
    | gaveUp j => rw [hp] at hi; exact absurd trivial hi
    | skipped => rw [hp] at hi; exact absurd trivial hi
    | run p =>
      cases p with
      | read1 j =>
        by_cases he : c.tab (slot P (key i) j) = P.emp
        · exact ⟨_, .read1E c i j hp he⟩
        · exact ⟨_, .read1N c i j hp he⟩
      | cas j =>
        by_cases he : c.tab (slot P (key i) j) = P.emp
        · exact ⟨_, .casT c i j hp he⟩
        · exact ⟨_, .casF c i j hp he⟩
      | read2 j =>
        by_cases he : c.tab (slot P (key i) j) = key i
        · exact ⟨_, .read2E c i j hp he⟩
        · exact ⟨_, .read2N c i j hp he⟩
      | post j w => exact ⟨_, .post c i j w hp⟩
      | done j w => rw [hp] at hi; exact absurd trivial hi

/-- One thread, a full table with one slot, limit 0: the call gives up. -/
example : ∃ c : CConf Nat Nat (Fin 1), Run ⟨1, id, 9⟩ 0 (fun _ => 3) (fun _ => 30) 4 (init (fun _ => 5) (fun _ => 50)) c ∧
    c.abort = true ∧ c.pc 0 = .gaveUp 1 ∧ c.tab 0 = 5 := by
  refine ⟨_, .tail (.tail (.tail (.tail (.refl _) (.go _ 0 rfl rfl)) (.read1N _ 0 0 rfl (by decide))) (.read2N _ 0 0 rfl (by decide)))
    (.setAb _ 0 1 rfl), rfl, rfl, rfl⟩

/-- One thread, a free slot after one increment. -/
example : ∃ c : CConf Nat Nat (Fin 1), Run ⟨2, id, 9⟩ 10000 (fun _ => 3) (fun _ => 30) 6
      (init (Atomics.set (fun _ => 9) 1 5) (fun _ => 50)) c ∧
    c.abort = false ∧ (∀ i, Returned (c.pc i)) ∧ c.tab 0 = 3 ∧ c.val 0 = 30 := by
  refine ⟨_, .tail (.tail (.tail (.tail (.tail (.tail (.refl _) (.go _ 0 rfl rfl)) (.read1N _ 0 0 rfl (by decide)))
    (.read2N _ 0 0 rfl (by decide))) (.read1E _ 0 1 rfl (by decide))) (.casT _ 0 1 rfl (by decide))) (.post _ 0 1 true rfl), rfl, ?_, rfl, rfl⟩
  intro i
  obtain rfl : i = 0 := Subsingleton.elim _ _
  exact trivial

/-! ### `resize` -/

theorem log2Up_le : ∀ (fuel x k : Nat), x ≤ 2 ^ k → log2Up fuel x ≤ k
  | 0, _, _, _ => Nat.zero_le _
  | fuel + 1, x, k, h => by
    unfold log2Up
    split
    · exact Nat.zero_le _
    · next hx =>
      have hx : ¬ 1 ≥ x := hx
      cases k with
      | zero => simp at h; omega
      | succ k =>
        have := log2Up_le fuel ((x + 1) / 2) k (by rw [Nat.pow_succ] at h; omega)
        omega

/-- A table with its places. A table made by the second constructor (`sparse_table.h:73-86`) lies in foreign memory: `table` refers to it,
and `backing` is empty. -/
structure Obj (K V : Type) where
  m : Nat
  own : Bool
  t : Tab K V

/-- `new_size`, `sparse_table.h:253`: `1 << k` is computed in `int` (32 bits) and converted to `size_t`; `none` for `k ≥ 32`, which is
undefined. -/
def newSize (m incoming : Nat) : Option Nat :=
  let k := log2Up (2 * (m + incoming)) (2 * (m + incoming))
  if 32 ≤ k then none else if k = 31 then some (2 ^ 64 - 2 ^ 31) else some (2 ^ k)

/-- What `old_backing` contains, `sparse_table.h:258`, `:264-268`. -/
def oldEntries (hash : K → Nat) (emp : K) (o : Obj K V) : List (K × V) :=
  if o.own then entries ⟨o.m, hash, emp⟩ o.t.tab o.t.val else []

/-- `resize`, `sparse_table.h:251-269`; the insertions one after the other (`resize_spec` of C20 has them concurrent). -/
def resize (hash : K → Nat) (emp tomb : K) (ev : V) (o : Obj K V) (incoming : Nat) : Option (Obj K V) :=
  if incoming > o.m then
    (newSize o.m incoming).bind fun m' =>
      (calls ⟨m', hash, emp⟩ tomb ev (clear ⟨m', hash, emp⟩ ev) ((oldEntries hash emp o).map fun e => Op.ins e.1 e.2)).map fun r =>
        ⟨m', true, r.1⟩
  else some o

theorem refIns : ∀ (es : List (K × V)) (r : Ref K V), (es.map Prod.fst).Nodup → (∀ e ∈ es, r.map e.1 = none) →
    (r.calls (es.map fun e => Op.ins e.1 e.2)).1.used = r.used + es.length ∧
    ∀ k x, (r.calls (es.map fun e => Op.ins e.1 e.2)).1.map k = some x ↔ r.map k = some x ∨ (k, x) ∈ es
  | [], r, _, _ => ⟨rfl, fun k x => by simp [Ref.calls]⟩
  | e :: es, r, hn, hr => by
    have he : r.map e.1 = none := hr e (by simp)
    rw [List.map_cons, List.nodup_cons] at hn
    have hc : (r.call (.ins e.1 e.2)).1 = ⟨fun x => if x = e.1 then some e.2 else r.map x, r.used + 1⟩ := by simp [Ref.call, he]
    obtain ⟨h1, h2⟩ := refIns es (r.call (.ins e.1 e.2)).1 hn.2 (fun e' he' => by
      rw [hc]
      have : e'.1 ≠ e.1 := fun hcon => hn.1 (List.mem_map.2 ⟨e', he', hcon⟩)
      simp only [this, if_false]
      exact hr e' (by simp [he']))
    refine ⟨?_, fun k x => ?_⟩
    · show ((r.call (.ins e.1 e.2)).1.calls _).1.used = _
      rw [h1, hc, List.length_cons]
      simp only
      omega
    · show ((r.call (.ins e.1 e.2)).1.calls _).1.map k = _ ↔ _
      rw [h2, hc, List.mem_cons]
      by_cases hk : k = e.1
      · subst hk
        simp only [if_true, he, reduceCtorEq, false_or, Option.some.injEq]
        refine or_congr ?_ Iff.rfl
        exact ⟨fun h => by rw [← h], fun h => by rw [← h]⟩
      · simp only [hk, if_false]
        constructor
        · rintro (h | h)
          · exact Or.inl h
          · exact Or.inr (Or.inr h)
        · rintro (h | rfl | h)
          · exact Or.inl h
          · exact absurd rfl hk
          · exact Or.inr h

theorem fitsIns (m : Nat) : ∀ (es : List (K × V)) (r : Ref K V), r.used + es.length < m →
    Fits m r (es.map fun e => Op.ins e.1 e.2)
  | [], r, h => by simpa [Fits] using h
  | e :: es, r, h => by
    simp only [List.length_cons] at h
    refine ⟨by omega, fitsIns m es _ ?_⟩
    simp only [Ref.call]
    split <;> simp only <;> omega

/-- C148: `resize` of a table with its own memory, for sizes whose sum is at most 2^29: the entries stay, and the table is large enough
for as many more as were announced. -/
theorem C148_resize {hash : K → Nat} {emp tomb : K} {ev : V} (ht : tomb ≠ emp) {o : Obj K V} (ho : o.own = true)
    (hw : WF ⟨o.m, hash, emp⟩ o.t.tab) (hnt : ∀ s, s < o.m → o.t.tab s ≠ tomb) {incoming : Nat} (hs : o.m + incoming ≤ 2 ^ 29) :
    ∃ o', resize hash emp tomb ev o incoming = some o' ∧ incoming ≤ o'.m ∧
      ∀ k x, k ≠ tomb → ((k, x) ∈ entries ⟨o'.m, hash, emp⟩ o'.t.tab o'.t.val ↔ (k, x) ∈ entries ⟨o.m, hash, emp⟩ o.t.tab o.t.val) := by
  unfold resize
  by_cases hi : incoming > o.m
  swap
  · rw [if_neg hi]
    exact ⟨o, rfl, by omega, fun _ _ _ => Iff.rfl⟩
  rw [if_pos hi]
  have hlog := log2Up_spec (2 * (o.m + incoming)) (2 * (o.m + incoming)) (by omega)
  have hup : log2Up (2 * (o.m + incoming)) (2 * (o.m + incoming)) ≤ 30 := log2Up_le _ _ 30 (by omega)
  have hns : newSize o.m incoming = some (2 ^ log2Up (2 * (o.m + incoming)) (2 * (o.m + incoming))) := by
    unfold newSize
    simp only
    rw [if_neg (by omega), if_neg (by omega)]
  rw [hns]
  simp only [Option.bind_some]
  generalize hM : 2 ^ log2Up (2 * (o.m + incoming)) (2 * (o.m + incoming)) = M at hlog
  have hes : oldEntries hash emp o = entries ⟨o.m, hash, emp⟩ o.t.tab o.t.val := by simp [oldEntries, ho]
  rw [hes]
  obtain ⟨hnd, hmem⟩ := entries_spec o.t.val hw
  have hlen : (entries ⟨o.m, hash, emp⟩ o.t.tab o.t.val).length ≤ o.m := by
    unfold entries
    rw [List.length_map]
    exact (List.length_filter_le _ _).trans (by simp)
  obtain ⟨t, e, a, u⟩ := calls_spec (P := ⟨M, hash, emp⟩) ht (ev := ev)
    ((entries ⟨o.m, hash, emp⟩ o.t.tab o.t.val).map fun e => Op.ins e.1 e.2) Abs.clear
    (fitsIns M _ _ (by simp only; omega)) (by
      intro op hop
      obtain ⟨⟨k, x⟩, he, rfl⟩ := List.mem_map.1 hop
      obtain ⟨h1, s, h2, h3, _⟩ := (hmem k x).1 he
      exact ⟨h1, by rw [← h3]; exact hnt s h2⟩)
  rw [e]
  refine ⟨_, rfl, by simp only; omega, fun k x hk => ?_⟩
  have href := (refIns (entries ⟨o.m, hash, emp⟩ o.t.tab o.t.val) ⟨fun _ => none, 0⟩ hnd (fun _ _ => rfl)).2 k x
  simp only [reduceCtorEq, false_or] at href
  rw [← href]
  by_cases hke : k = emp
  · subst hke
    constructor
    · intro h
      unfold entries at h
      simp only [List.mem_map, List.mem_filter, decide_eq_true_eq, Prod.mk.injEq] at h
      obtain ⟨s, ⟨_, h1⟩, h2, _⟩ := h
      exact absurd h2 h1
    · intro h
      exact absurd rfl ((hmem k x).1 (href.1 h)).1
  · rw [a.map k x hke hk]
    unfold entries
    simp only [List.mem_map, List.mem_filter, List.mem_range, decide_eq_true_eq, Prod.mk.injEq]
    constructor
    · rintro ⟨s, ⟨hs, _⟩, hsk, hsv⟩
      exact ⟨s, hs, hsk, hsv⟩
    · rintro ⟨s, hs, hsk, hsv⟩
      exact ⟨s, ⟨hs, by rw [hsk]; exact hke⟩, hsk, hsv⟩

example : (resize id 9 8 0 (⟨2, true, ⟨Atomics.set (fun _ => 9) 1 5, fun _ => 50⟩⟩ : Obj Nat Nat) 4).map
      (fun o => (o.m, entries ⟨o.m, id, 9⟩ o.t.tab o.t.val)) = some (16, [(5, 50)]) ∧
    WF ⟨2, id, 9⟩ (Atomics.set (fun _ => 9) 1 5) := by
  refine ⟨by decide, fun s hs hne => ?_⟩
  obtain rfl | rfl : s = 0 ∨ s = 1 := by simp only at hs; omega
  · exact absurd rfl hne
  · exact ⟨0, by decide, by decide, fun _ h => absurd h (Nat.not_lt_zero _)⟩

/-- C148, refuted: `resize` of a table over foreign memory loses all its entries. -/
theorem C148_resize_foreign_refuted : ∃ (o o' : Obj Nat Nat), WF ⟨o.m, id, 9⟩ o.t.tab ∧ contains ⟨o.m, id, 9⟩ o.t.tab 5 o.m 0 = some true ∧
    resize id 9 8 0 o 4 = some o' ∧ contains ⟨o'.m, id, 9⟩ o'.t.tab 5 o'.m 0 = some false ∧ entries ⟨o'.m, id, 9⟩ o'.t.tab o'.t.val = [] := by
  refine ⟨⟨2, false, ⟨Atomics.set (fun _ => 9) 1 5, fun _ => 50⟩⟩, _, ?_, by decide, rfl, by decide, by decide⟩
  intro s hs hne
  obtain rfl | rfl : s = 0 ∨ s = 1 := by simp only at hs; omega
  · exact absurd rfl hne
  · exact ⟨0, by decide, by decide, fun _ h => absurd h (Nat.not_lt_zero _)⟩

/-- C148, refuted: from a sum of the sizes above 2^29 on, the new size is undefined or 2^64 - 2^31, more places than memory has. -/
theorem C148_resize_overflow_refuted (m incoming : Nat) (h : 2 ^ 29 < m + incoming) :
    newSize m incoming = none ∨ newSize m incoming = some (2 ^ 64 - 2 ^ 31) := by
  have hlog := log2Up_spec (2 * (m + incoming)) (2 * (m + incoming)) (by omega)
  have : 31 ≤ log2Up (2 * (m + incoming)) (2 * (m + incoming)) := by
    by_contra hcon
    have := Nat.pow_le_pow_right (n := 2) (by decide) (show log2Up (2 * (m + incoming)) (2 * (m + incoming)) ≤ 30 by omega)
    omega
  unfold newSize
  simp only
  by_cases h32 : 32 ≤ log2Up (2 * (m + incoming)) (2 * (m + incoming))
  · left; rw [if_pos h32]
  · right; rw [if_neg h32, if_pos (by omega)]

end Gbbs.Hash.Ops
