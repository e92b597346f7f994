/-
C20, C55: concurrent insertion into the open-addressing tables of `gbbs/helpers/sparse_table.h` and
`gbbs/helpers/sparse_additive_map.h`, lookups, `entries`, `resize`.
-/
import Verif.Atomics.Model
import Mathlib.Algebra.BigOperators.Group.Finset.Basic
import Mathlib.Data.Fintype.Basic

namespace Gbbs.Hash

open Gbbs.Atomics (Steps)

variable {K V ι : Type} [DecidableEq K] [DecidableEq ι]

/-! ### Model -/

/-- Parameters: `m` slots, hash function, reserved key. -/
structure Par (K : Type) where
  m : Nat
  hash : K → Nat
  emp : K

/-- The `j`-th slot probed for key `k`: `firstIndex` followed by `j` times `incrementIndex`,
`sparse_table.h:49-51` (`h & mask` is `h % m` since `m` is a power of two). -/
def slot (P : Par K) (k : K) (j : Nat) : Nat := (P.hash k + j) % P.m

/-- Program counter of a thread inside `insert`, after `j` increments of the index:
about to read the key of the slot and compare it with the empty key (`sparse_table.h:102`);
about to CAS (103); about to read the key and compare it with `k` (109); about to access the value
(105); returned.  `w` says whether the CAS succeeded, i.e. the return value. -/
inductive Pc
  | read1 (j : Nat)
  | cas (j : Nat)
  | read2 (j : Nat)
  | post (j : Nat) (w : Bool)
  | done (j : Nat) (w : Bool)
deriving DecidableEq

/-- Keys and values of the slots, and the threads. -/
structure Conf (K V ι : Type) where
  tab : Nat → K
  val : Nat → V
  pc : ι → Pc

/-- One access by thread `i` inserting `(key i, v i)`.  `upd old new` is what the thread does to the
value: assignment for `sparse_table::insert` (`sparse_table.h:98-115`), atomic addition for
`sparse_additive_map::insert` (`sparse_additive_map.h:89-108`).  `both` says whether a thread that
finds its key already present does it too (true for the additive map). -/
inductive Step (P : Par K) (upd : V → V → V) (both : Bool) (key : ι → K) (v : ι → V) :
    Conf K V ι → Conf K V ι → Prop
  | read1E (c : Conf K V ι) (i : ι) (j : Nat) (h : c.pc i = .read1 j)
      (he : c.tab (slot P (key i) j) = P.emp) :
      Step P upd both key v c ⟨c.tab, c.val, Atomics.set c.pc i (.cas j)⟩
  | read1N (c : Conf K V ι) (i : ι) (j : Nat) (h : c.pc i = .read1 j)
      (he : c.tab (slot P (key i) j) ≠ P.emp) :
      Step P upd both key v c ⟨c.tab, c.val, Atomics.set c.pc i (.read2 j)⟩
  | casT (c : Conf K V ι) (i : ι) (j : Nat) (h : c.pc i = .cas j)
      (he : c.tab (slot P (key i) j) = P.emp) :
      Step P upd both key v c
        ⟨Atomics.set c.tab (slot P (key i) j) (key i), c.val, Atomics.set c.pc i (.post j true)⟩
  | casF (c : Conf K V ι) (i : ι) (j : Nat) (h : c.pc i = .cas j)
      (he : c.tab (slot P (key i) j) ≠ P.emp) :
      Step P upd both key v c ⟨c.tab, c.val, Atomics.set c.pc i (.read2 j)⟩
  | read2E (c : Conf K V ι) (i : ι) (j : Nat) (h : c.pc i = .read2 j)
      (he : c.tab (slot P (key i) j) = key i) :
      Step P upd both key v c ⟨c.tab, c.val,
        Atomics.set c.pc i (if both then .post j false else .done j false)⟩
  | read2N (c : Conf K V ι) (i : ι) (j : Nat) (h : c.pc i = .read2 j)
      (he : c.tab (slot P (key i) j) ≠ key i) :
      Step P upd both key v c ⟨c.tab, c.val, Atomics.set c.pc i (.read1 (j + 1))⟩
  | post (c : Conf K V ι) (i : ι) (j : Nat) (w : Bool) (h : c.pc i = .post j w) :
      Step P upd both key v c
        ⟨c.tab, Atomics.set c.val (slot P (key i) j) (upd (c.val (slot P (key i) j)) (v i)),
          Atomics.set c.pc i (.done j w)⟩

/-- `contains`, `sparse_table.h:197-208`, with at most `fuel` more iterations after `j`
increments; `none`: still looping. -/
def contains (P : Par K) (tab : Nat → K) (k : K) : Nat → Nat → Option Bool
  | 0, _ => none
  | fuel + 1, j =>
    if tab (slot P k j) = k then some true
    else if tab (slot P k j) = P.emp then some false
    else contains P tab k fuel (j + 1)

/-- `find`, `sparse_table.h:210-221`. -/
def find (P : Par K) (tab : Nat → K) (val : Nat → V) (k : K) (dflt : V) : Nat → Nat → Option V
  | 0, _ => none
  | fuel + 1, j =>
    if tab (slot P k j) = k then some (val (slot P k j))
    else if tab (slot P k j) = P.emp then some dflt
    else find P tab val k dflt fuel (j + 1)

/-- `entries`, `sparse_table.h:232-235`. -/
def entries (P : Par K) (tab : Nat → K) (val : Nat → V) : List (K × V) :=
  ((List.range P.m).filter fun s => decide (tab s ≠ P.emp)).map fun s => (tab s, val s)

/-! ### Specification -/

/-- A run of the insertions, started in table `(tab0, val0)`, in which every thread returned. -/
def Complete (P : Par K) (upd : V → V → V) (both : Bool) (key : ι → K) (v : ι → V)
    (tab0 : Nat → K) (val0 : Nat → V) (c : Conf K V ι) : Prop :=
  Steps (Step P upd both key v) ⟨tab0, val0, fun _ => .read1 0⟩ c ∧ ∀ i, ∃ j w, c.pc i = .done j w

/-- The slots `0..j-1` of the probe sequence of `k` are occupied by other keys. -/
def Passed (P : Par K) (tab : Nat → K) (k : K) (j : Nat) : Prop :=
  ∀ j', j' < j → tab (slot P k j') ≠ P.emp ∧ tab (slot P k j') ≠ k

/-- A table in which lookups work: every key is reachable by its probe sequence.  The empty table is
one, and insertions preserve it. -/
def WF (P : Par K) (tab : Nat → K) : Prop :=
  ∀ s, s < P.m → tab s ≠ P.emp → ∃ j, j < P.m ∧ slot P (tab s) j = s ∧ Passed P tab (tab s) j

/-- Key `k` occurs in the table. -/
def In (P : Par K) (tab : Nat → K) (k : K) : Prop := ∃ s, s < P.m ∧ tab s = k

/-! ### Probing -/

omit [DecidableEq K] in
theorem slot_lt (P : Par K) (hm : 0 < P.m) (k : K) (j : Nat) : slot P k j < P.m := Nat.mod_lt _ hm

omit [DecidableEq K] in
theorem slot_surj (P : Par K) (k : K) {s : Nat} (hs : s < P.m) : ∃ j, j < P.m ∧ slot P k j = s := by
  have hm : 0 < P.m := by omega
  refine ⟨(s + (P.m - P.hash k % P.m)) % P.m, Nat.mod_lt _ hm, ?_⟩
  unfold slot
  rw [Nat.add_mod, Nat.mod_mod, ← Nat.add_mod]
  have h1 := Nat.mod_lt (P.hash k) hm
  have h2 := Nat.div_add_mod (P.hash k) P.m
  have : P.hash k + (s + (P.m - P.hash k % P.m)) = s + P.m * (P.hash k / P.m + 1) := by
    rw [Nat.mul_add]; omega
  rw [this, Nat.add_mul_mod_self_left, Nat.mod_eq_of_lt hs]

omit [DecidableEq K] in
theorem slot_mod (P : Par K) (k : K) (j : Nat) : slot P k (j % P.m) = slot P k j := by
  unfold slot
  rw [Nat.add_mod, Nat.mod_mod, ← Nat.add_mod]

omit [DecidableEq K] in
/-- After `m` unsuccessful probes the table is full and does not contain the key. -/
theorem passed_full {P : Par K} {tab : Nat → K} {k : K} {j : Nat} (h : Passed P tab k j)
    (hj : P.m ≤ j) : ∀ s, s < P.m → tab s ≠ P.emp ∧ tab s ≠ k := by
  intro s hs
  obtain ⟨j', hj', rfl⟩ := slot_surj P k hs
  exact h j' (by omega)

omit [DecidableEq K] in
theorem passed_lt {P : Par K} {tab : Nat → K} {k : K} {j : Nat} (hm : 0 < P.m)
    (h : Passed P tab k j)
    (hj : tab (slot P k j) = P.emp ∨ tab (slot P k j) = k) : j < P.m := by
  by_contra hcon
  have := passed_full h (by omega) _ (slot_lt P hm k j)
  rcases hj with h1 | h1
  · exact this.1 h1
  · exact this.2 h1

omit [DecidableEq K] in
/-- Two slots cannot hold the same key. -/
theorem wf_unique {P : Par K} {tab : Nat → K} (hw : WF P tab) {s t : Nat} (hs : s < P.m)
    (ht : t < P.m) (he : tab s ≠ P.emp) (h : tab s = tab t) : s = t := by
  obtain ⟨j, _, hj1, hj2⟩ := hw s hs he
  obtain ⟨l, _, hl1, hl2⟩ := hw t ht (by rw [← h]; exact he)
  rw [← h] at hl1 hl2
  rcases Nat.lt_trichotomy j l with hlt | rfl | hlt
  · have := (hl2 j hlt).2; rw [hj1] at this; exact absurd rfl this
  · rw [← hj1, hl1]
  · have := (hj2 l hlt).2; rw [hl1] at this; exact absurd h.symm this

/-! ### Lookups -/

omit [DecidableEq ι] in
/-- In a well-formed table with an empty slot, `contains` terminates within `m` probes with the
right answer. -/
theorem contains_spec {P : Par K} {tab : Nat → K} (hw : WF P tab) (k : K) (hk : k ≠ P.emp)
    (hfree : ∃ s, s < P.m ∧ tab s = P.emp) :
    ∃ b, contains P tab k P.m 0 = some b ∧ (b = true ↔ In P tab k) := by
  classical
  obtain ⟨s0, hs0, hs0e⟩ := hfree
  have hm : 0 < P.m := by omega
  have key : ∀ fuel j, j + fuel = P.m → Passed P tab k j →
      ∃ b, contains P tab k fuel j = some b ∧ (b = true ↔ In P tab k) := by
    intro fuel
    induction fuel with
    | zero =>
      intro j hj hp
      exact absurd hs0e (passed_full hp (by omega) s0 hs0).1
    | succ fuel ih =>
      intro j hj hp
      unfold contains
      by_cases h1 : tab (slot P k j) = k
      · rw [if_pos h1]
        exact ⟨true, rfl, fun _ => ⟨_, slot_lt P hm k j, h1⟩, fun _ => rfl⟩
      · rw [if_neg h1]
        by_cases h2 : tab (slot P k j) = P.emp
        · rw [if_pos h2]
          refine ⟨false, rfl, fun h => (by cases h), ?_⟩
          rintro ⟨s, hs, hsk⟩
          exfalso
          obtain ⟨l, hl, hl1, hl2⟩ := hw s hs (by rw [hsk]; exact hk)
          rw [hsk] at hl1 hl2
          rcases Nat.lt_trichotomy j l with hlt | rfl | hlt
          · exact (hl2 j hlt).1 h2
          · rw [hl1] at h1; exact h1 hsk
          · have := (hp l hlt).2; rw [hl1] at this; exact this hsk
        · rw [if_neg h2]
          refine ih (j + 1) (by omega) (fun j' hj' => ?_)
          rcases Nat.lt_succ_iff_lt_or_eq.1 hj' with h3 | rfl
          · exact hp j' h3
          · exact ⟨h2, h1⟩
  exact key P.m 0 (by omega) (fun j' h => absurd h (Nat.not_lt_zero _))

omit [DecidableEq ι] in
/-- `find` terminates with the value of the key's slot, or the default if the key is absent. -/
theorem find_spec {P : Par K} {tab : Nat → K} (val : Nat → V) (hw : WF P tab) (k : K)
    (hk : k ≠ P.emp) (dflt : V) (hfree : ∃ s, s < P.m ∧ tab s = P.emp) :
    (∀ s, s < P.m → tab s = k → find P tab val k dflt P.m 0 = some (val s)) ∧
    (¬ In P tab k → find P tab val k dflt P.m 0 = some dflt) := by
  obtain ⟨s0, hs0, hs0e⟩ := hfree
  have hm : 0 < P.m := by omega
  have key : ∀ fuel j, j + fuel = P.m → Passed P tab k j →
      (∀ s, s < P.m → tab s = k → find P tab val k dflt fuel j = some (val s)) ∧
      (¬ In P tab k → find P tab val k dflt fuel j = some dflt) := by
    intro fuel
    induction fuel with
    | zero =>
      intro j hj hp
      exact absurd hs0e (passed_full hp (by omega) s0 hs0).1
    | succ fuel ih =>
      intro j hj hp
      unfold find
      by_cases h1 : tab (slot P k j) = k
      · simp only [h1, if_true]
        refine ⟨fun s hs hsk => ?_, fun h => absurd ⟨_, slot_lt P hm k j, h1⟩ h⟩
        rw [wf_unique hw hs (slot_lt P hm k j) (by rw [hsk]; exact hk) (by rw [hsk, h1])]
      · rw [if_neg h1]
        by_cases h2 : tab (slot P k j) = P.emp
        · rw [if_pos h2]
          refine ⟨fun s hs hsk => ?_, fun _ => rfl⟩
          exfalso
          obtain ⟨l, hl, hl1, hl2⟩ := hw s hs (by rw [hsk]; exact hk)
          rw [hsk] at hl1 hl2
          rcases Nat.lt_trichotomy j l with hlt | rfl | hlt
          · exact (hl2 j hlt).1 h2
          · rw [hl1] at h1; exact h1 hsk
          · have := (hp l hlt).2; rw [hl1] at this; exact this hsk
        · rw [if_neg h2]
          refine ih (j + 1) (by omega) (fun j' hj' => ?_)
          rcases Nat.lt_succ_iff_lt_or_eq.1 hj' with h3 | rfl
          · exact hp j' h3
          · exact ⟨h2, h1⟩
  exact key P.m 0 (by omega) (fun j' h => absurd h (Nat.not_lt_zero _))

omit [DecidableEq ι] in
/-- In a full table `contains` never returns for an absent key. -/
theorem contains_full_loops {P : Par K} {tab : Nat → K} (k : K) (hm : 0 < P.m)
    (hfull : ∀ s, s < P.m → tab s ≠ P.emp ∧ tab s ≠ k) (fuel j : Nat) :
    contains P tab k fuel j = none := by
  induction fuel generalizing j with
  | zero => rfl
  | succ fuel ih =>
    unfold contains
    have := hfull _ (slot_lt P hm k j)
    rw [if_neg this.2, if_neg this.1]
    exact ih _

omit [DecidableEq ι] in
/-- `entries` lists every key of the table exactly once, with its value. -/
theorem entries_spec {P : Par K} {tab : Nat → K} (val : Nat → V) (hw : WF P tab) :
    ((entries P tab val).map Prod.fst).Nodup ∧
    ∀ k x, (k, x) ∈ entries P tab val ↔ k ≠ P.emp ∧ ∃ s, s < P.m ∧ tab s = k ∧ val s = x := by
  constructor
  · unfold entries
    rw [List.map_map, List.nodup_map_iff_inj_on (List.nodup_range.filter _)]
    intro s hs t ht h
    simp only [List.mem_filter, List.mem_range, decide_eq_true_eq] at hs ht
    exact wf_unique hw hs.1 ht.1 hs.2 h
  · intro k x
    unfold entries
    simp only [List.mem_map, List.mem_filter, List.mem_range, decide_eq_true_eq, Prod.mk.injEq]
    constructor
    · rintro ⟨s, ⟨hs, hne⟩, rfl, rfl⟩
      exact ⟨hne, s, hs, rfl, rfl⟩
    · rintro ⟨hne, s, hs, rfl, rfl⟩
      exact ⟨s, ⟨hs, hne⟩, rfl, rfl⟩

/-! ### The invariant of concurrent insertion -/

/-- What a thread knows at its program counter. -/
def PcOk (P : Par K) (tab : Nat → K) (k : K) : Pc → Prop
  | .read1 j => Passed P tab k j
  | .cas j => Passed P tab k j
  | .read2 j => Passed P tab k j ∧ tab (slot P k j) ≠ P.emp
  | .post j _ => Passed P tab k j ∧ tab (slot P k j) = k
  | .done j _ => Passed P tab k j ∧ tab (slot P k j) = k

/-- The slot a thread has won, if any. -/
def won (P : Par K) (k : K) : Pc → Option Nat
  | .post j true => some (slot P k j)
  | .done j true => some (slot P k j)
  | _ => none

structure Inv (P : Par K) (key : ι → K) (tab0 : Nat → K) (c : Conf K V ι) : Prop where
  wf : WF P c.tab
  thr : ∀ i, PcOk P c.tab (key i) (c.pc i)
  keep : ∀ s, tab0 s ≠ P.emp → c.tab s = tab0 s
  wonEmp : ∀ i s, won P (key i) (c.pc i) = some s → tab0 s = P.emp ∧ c.tab s = key i
  wonInj : ∀ i i' s, won P (key i) (c.pc i) = some s → won P (key i') (c.pc i') = some s → i = i'
  occ : ∀ s, s < P.m → c.tab s ≠ P.emp → tab0 s = c.tab s ∨ ∃ i, won P (key i) (c.pc i) = some s

omit [DecidableEq ι] in
theorem passed_set {P : Par K} {tab : Nat → K} {k k' : K} {j s : Nat} (h : Passed P tab k j)
    (hs : tab s = P.emp) : Passed P (Atomics.set tab s k') k j := by
  intro j' hj'
  have h1 := h j' hj'
  have hne : slot P k j' ≠ s := by intro h2; rw [h2] at h1; exact h1.1 hs
  simp only [Atomics.set, hne, if_false]
  exact h1

omit [DecidableEq ι] in
theorem pcOk_set {P : Par K} {tab : Nat → K} {k k' : K} {s : Nat} {p : Pc} (hk : k ≠ P.emp)
    (hk' : k' ≠ P.emp) (h : PcOk P tab k p)
    (hs : tab s = P.emp) : PcOk P (Atomics.set tab s k') k p := by
  cases p with
  | read1 j => exact passed_set h hs
  | cas j => exact passed_set h hs
  | read2 j =>
    refine ⟨passed_set h.1 hs, ?_⟩
    unfold Atomics.set
    split
    · exact hk'
    · exact h.2
  | post j w =>
    refine ⟨passed_set h.1 hs, ?_⟩
    have hne : slot P k j ≠ s := by intro h2; have := h.2; rw [h2, hs] at this; exact hk this.symm
    simp only [Atomics.set, hne, if_false]; exact h.2
  | done j w =>
    refine ⟨passed_set h.1 hs, ?_⟩
    have hne : slot P k j ≠ s := by intro h2; have := h.2; rw [h2, hs] at this; exact hk this.symm
    simp only [Atomics.set, hne, if_false]; exact h.2

/-- Steps that do not change the table nor the set of winners. -/
theorem inv_local {P : Par K} {key : ι → K} {tab0 : Nat → K} {c : Conf K V ι} {i : ι} {p : Pc}
    {val : Nat → V} (hi : Inv P key tab0 c) (hp : PcOk P c.tab (key i) p)
    (hw : won P (key i) p = won P (key i) (c.pc i)) :
    Inv P key tab0 ⟨c.tab, val, Atomics.set c.pc i p⟩ := by
  have hwon : ∀ i', won P (key i') (Atomics.set c.pc i p i') = won P (key i') (c.pc i') := by
    intro i'
    by_cases h : i' = i
    · subst h; simp only [Atomics.set, if_true]; exact hw
    · simp only [Atomics.set, h, if_false]
  refine ⟨hi.wf, fun i' => ?_, hi.keep, fun i' s h => ?_, fun i1 i2 s h1 h2 => ?_, fun s hs he => ?_⟩
  · show PcOk P c.tab (key i') (Atomics.set c.pc i p i')
    by_cases h : i' = i
    · subst h; simp only [Atomics.set, if_true]; exact hp
    · simp only [Atomics.set, h, if_false]; exact hi.thr i'
  · rw [hwon] at h; exact hi.wonEmp i' s h
  · rw [hwon] at h1 h2; exact hi.wonInj i1 i2 s h1 h2
  · rcases hi.occ s hs he with h | ⟨i', h⟩
    · exact Or.inl h
    · exact Or.inr ⟨i', by rw [hwon]; exact h⟩

theorem inv_step {P : Par K} (hm : 0 < P.m) {upd : V → V → V} {both : Bool} {key : ι → K} {v : ι → V}
    (hkey : ∀ i, key i ≠ P.emp) {tab0 : Nat → K} {c c' : Conf K V ι} (hi : Inv P key tab0 c)
    (hs : Step P upd both key v c c') : Inv P key tab0 c' := by
  cases hs with
  | read1E i j h he =>
    have := hi.thr i
    rw [h] at this
    exact inv_local hi this (by rw [h]; rfl)
  | read1N i j h he =>
    have := hi.thr i
    rw [h] at this
    exact inv_local hi ⟨this, he⟩ (by rw [h]; rfl)
  | casF i j h he =>
    have := hi.thr i
    rw [h] at this
    exact inv_local hi ⟨this, he⟩ (by rw [h]; rfl)
  | read2E i j h he =>
    have := hi.thr i
    rw [h] at this
    refine inv_local hi ?_ ?_
    · split
      · exact ⟨this.1, he⟩
      · exact ⟨this.1, he⟩
    · rw [h]; split <;> rfl
  | read2N i j h he =>
    have := hi.thr i
    rw [h] at this
    refine inv_local hi ?_ (by rw [h]; rfl)
    intro j' hj'
    rcases Nat.lt_succ_iff_lt_or_eq.1 hj' with h3 | rfl
    · exact this.1 j' h3
    · exact ⟨this.2, he⟩
  | post i j w h =>
    have := hi.thr i
    rw [h] at this
    exact inv_local hi this (by rw [h]; cases w <;> rfl)
  | casT i j h he =>
    have hp := hi.thr i
    rw [h] at hp
    have hp : Passed P c.tab (key i) j := hp
    have hlt : j < P.m := passed_lt hm hp (Or.inl he)
    have hsl := slot_lt P hm (key i) j
    have hwon : ∀ i', i' ≠ i → won P (key i') (Atomics.set c.pc i (.post j true) i') =
        won P (key i') (c.pc i') := by
      intro i' hne; simp only [Atomics.set, hne, if_false]
    have hwi : won P (key i) (Atomics.set c.pc i (.post j true) i) = some (slot P (key i) j) := by
      simp only [Atomics.set, if_true]; rfl
    have h0 : tab0 (slot P (key i) j) = P.emp := by
      by_contra hne
      exact hne ((hi.keep _ hne).symm.trans he)
    have hnw : ∀ i' s, won P (key i') (c.pc i') = some s → s ≠ slot P (key i) j := by
      intro i' s hw hss
      have := (hi.wonEmp i' s hw).2
      rw [hss, he] at this
      exact hkey i' this.symm
    refine ⟨?_, fun i' => ?_, fun s hs => ?_, fun i' s hw => ?_, fun i1 i2 s h1 h2 => ?_,
      fun s hs hse => ?_⟩
    · intro s hs hse
      show ∃ l, l < P.m ∧ slot P (Atomics.set c.tab _ _ s) l = s ∧
        Passed P (Atomics.set c.tab _ _) (Atomics.set c.tab _ _ s) l
      by_cases hss : s = slot P (key i) j
      · have e : Atomics.set c.tab (slot P (key i) j) (key i) s = key i := by
          simp only [Atomics.set, hss, if_true]
        rw [e]
        exact ⟨j, hlt, hss.symm, passed_set hp he⟩
      · have e : Atomics.set c.tab (slot P (key i) j) (key i) s = c.tab s := by
          simp only [Atomics.set, hss, if_false]
        have hse' : c.tab s ≠ P.emp := by rw [← e]; exact hse
        rw [e]
        obtain ⟨l, hl, h1, h2⟩ := hi.wf s hs hse'
        exact ⟨l, hl, h1, passed_set h2 he⟩
    · show PcOk P (Atomics.set c.tab _ _) (key i') (Atomics.set c.pc i (.post j true) i')
      by_cases hne : i' = i
      · subst hne
        have e : Atomics.set c.pc i' (.post j true) i' = .post j true := by
          simp only [Atomics.set, if_true]
        rw [e]
        exact ⟨passed_set hp he, by simp only [Atomics.set, if_true]⟩
      · have e : Atomics.set c.pc i (.post j true) i' = c.pc i' := by
          simp only [Atomics.set, hne, if_false]
        rw [e]
        exact pcOk_set (hkey i') (hkey i) (hi.thr i') he
    · show Atomics.set c.tab _ _ s = tab0 s
      have : s ≠ slot P (key i) j := by rintro rfl; exact hs h0
      simp only [Atomics.set, this, if_false]
      exact hi.keep s hs
    · show tab0 s = P.emp ∧ Atomics.set c.tab _ _ s = key i'
      by_cases hne : i' = i
      · subst hne
        have : some (slot P (key i') j) = some s := hwi.symm.trans hw
        injection this with this
        subst this
        exact ⟨h0, by simp only [Atomics.set, if_true]⟩
      · have hw' := (hwon i' hne).symm.trans hw
        have := hnw i' s hw'
        simp only [Atomics.set, this, if_false]
        exact hi.wonEmp i' s hw'
    · by_cases e1 : i1 = i
      · by_cases e2 : i2 = i
        · rw [e1, e2]
        · subst e1
          have : some (slot P (key i1) j) = some s := hwi.symm.trans h1
          injection this with this
          exact absurd this.symm (hnw i2 s ((hwon i2 e2).symm.trans h2))
      · by_cases e2 : i2 = i
        · subst e2
          have : some (slot P (key i2) j) = some s := hwi.symm.trans h2
          injection this with this
          exact absurd this.symm (hnw i1 s ((hwon i1 e1).symm.trans h1))
        · exact hi.wonInj i1 i2 s ((hwon i1 e1).symm.trans h1) ((hwon i2 e2).symm.trans h2)
    · show tab0 s = Atomics.set c.tab _ _ s ∨ ∃ i', won P (key i') (Atomics.set c.pc i _ i') = some s
      by_cases hss : s = slot P (key i) j
      · right; exact ⟨i, by rw [hwi, hss]⟩
      · have e : Atomics.set c.tab (slot P (key i) j) (key i) s = c.tab s := by
          simp only [Atomics.set, hss, if_false]
        have hse' : c.tab s ≠ P.emp := by rw [← e]; exact hse
        rw [e]
        rcases hi.occ s hs hse' with h1 | ⟨i', h1⟩
        · exact Or.inl h1
        · right
          refine ⟨i', ?_⟩
          by_cases hne : i' = i
          · subst hne; rw [h] at h1; cases h1
          · rw [hwon i' hne]; exact h1

theorem inv_steps {P : Par K} (hm : 0 < P.m) {upd : V → V → V} {both : Bool} {key : ι → K}
    {v : ι → V} (hkey : ∀ i, key i ≠ P.emp) {tab0 : Nat → K} {c c' : Conf K V ι}
    (hi : Inv P key tab0 c) (hs : Steps (Step P upd both key v) c c') : Inv P key tab0 c' := by
  induction hs with
  | refl => exact hi
  | tail _ h ih => exact inv_step hm hkey ih h

omit [DecidableEq ι] in
theorem inv_init {P : Par K} {key : ι → K} {tab0 : Nat → K} (hw : WF P tab0) (val0 : Nat → V) :
    Inv P key tab0 (⟨tab0, val0, fun _ => .read1 0⟩ : Conf K V ι) :=
  ⟨hw, fun _ j' h => absurd h (Nat.not_lt_zero _), fun _ _ => rfl, (fun i s h => by cases h),
    (fun i i' s h => by cases h), fun _ _ _ => Or.inl rfl⟩

/-- C20, keys.  After any interleaving of insertions of non-reserved keys into a well-formed table:
the table is well formed (so lookups are right); every inserted key occurs in exactly one slot; old
entries stay; no other key appears; for a key that was present no insertion returned true, and for a
new key exactly one did. -/
theorem insert_keys {P : Par K} (hm : 0 < P.m) {upd : V → V → V} {both : Bool} {key : ι → K}
    {v : ι → V} (hkey : ∀ i, key i ≠ P.emp) {tab0 : Nat → K} (hw : WF P tab0) {val0 : Nat → V}
    {c : Conf K V ι} (hc : Complete P upd both key v tab0 val0 c) :
    WF P c.tab ∧
    (∀ i, ∃ s, (s < P.m ∧ c.tab s = key i) ∧ ∀ t, t < P.m ∧ c.tab t = key i → t = s) ∧
    (∀ s, tab0 s ≠ P.emp → c.tab s = tab0 s) ∧
    (∀ k, k ≠ P.emp → (In P c.tab k ↔ In P tab0 k ∨ ∃ i, key i = k)) ∧
    (∀ i j, c.pc i = .done j true → ¬ In P tab0 (key i)) ∧
    (∀ i, ¬ In P tab0 (key i) → ∃ i', (key i' = key i ∧ ∃ j, c.pc i' = .done j true) ∧
      ∀ i'', (key i'' = key i ∧ ∃ j, c.pc i'' = .done j true) → i'' = i') := by
  have hi := inv_steps hm hkey (inv_init hw val0) hc.1
  have hin : ∀ i, ∃ s, s < P.m ∧ c.tab s = key i := by
    intro i
    obtain ⟨j, w, hj⟩ := hc.2 i
    have := hi.thr i
    rw [hj] at this
    exact ⟨_, slot_lt P hm _ _, this.2⟩
  have huniq : ∀ s t, s < P.m → t < P.m → c.tab s ≠ P.emp → c.tab s = c.tab t → s = t :=
    fun s t hs ht he h => wf_unique hi.wf hs ht he h
  have hwon : ∀ i s, won P (key i) (c.pc i) = some s → ∃ j, c.pc i = .done j true ∧ slot P (key i) j = s := by
    intro i s h
    obtain ⟨j, w, hj⟩ := hc.2 i
    rw [hj] at h
    cases w with
    | true => injection h with h; exact ⟨j, hj, h⟩
    | false => cases h
  have hwon' : ∀ i j, c.pc i = .done j true → won P (key i) (c.pc i) = some (slot P (key i) j) := by
    intro i j h; rw [h]; rfl
  refine ⟨hi.wf, fun i => ?_, hi.keep, fun k hk => ⟨?_, ?_⟩, fun i j hij => ?_, fun i hni => ?_⟩
  · obtain ⟨s, hs, hsk⟩ := hin i
    exact ⟨s, ⟨hs, hsk⟩, fun t ht => huniq t s ht.1 hs (by rw [ht.2]; exact hkey i) (by rw [ht.2, hsk])⟩
  · rintro ⟨s, hs, rfl⟩
    rcases hi.occ s hs hk with h | ⟨i, h⟩
    · exact Or.inl ⟨s, hs, h⟩
    · exact Or.inr ⟨i, (hi.wonEmp i s h).2.symm⟩
  · rintro (⟨s, hs, rfl⟩ | ⟨i, rfl⟩)
    · exact ⟨s, hs, hi.keep s hk⟩
    · exact hin i
  · rintro ⟨s, hs, hsk⟩
    have h1 := hi.wonEmp i _ (hwon' i j hij)
    have h2 := hi.keep s (by rw [hsk]; exact hkey i)
    have h3 := huniq s _ hs (slot_lt P hm (key i) j) (by rw [h2, hsk]; exact hkey i)
      (by rw [h2, hsk, h1.2])
    rw [← h3, hsk] at h1
    exact hkey i h1.1
  · obtain ⟨s, hs, hsk⟩ := hin i
    have hne : c.tab s ≠ P.emp := by rw [hsk]; exact hkey i
    rcases hi.occ s hs hne with h | ⟨i', h⟩
    · exact absurd ⟨s, hs, h.trans hsk⟩ hni
    · obtain ⟨j, hj, hjs⟩ := hwon i' s h
      have hk' := (hi.wonEmp i' s h).2
      refine ⟨i', ⟨hk'.symm.trans hsk, j, hj⟩, ?_⟩
      rintro i'' ⟨hk'', j'', hj''⟩
      have h4 := hwon' i'' j'' hj''
      have h5 := hi.wonEmp i'' _ h4
      have h6 := huniq s _ hs (slot_lt P hm _ _) hne (by rw [hsk, h5.2, hk''])
      rw [← h6] at h4
      exact hi.wonInj i'' i' s h4 h

/-- C20, termination: as long as the table has an empty slot, no thread has probed `m` slots; a
thread's own steps therefore number at most `3 m + 1`. -/
theorem probes_bounded {P : Par K} (hm : 0 < P.m) {upd : V → V → V} {both : Bool} {key : ι → K}
    {v : ι → V} (hkey : ∀ i, key i ≠ P.emp) {tab0 : Nat → K} (hw : WF P tab0) {val0 : Nat → V}
    {c : Conf K V ι} (hs : Steps (Step P upd both key v) ⟨tab0, val0, fun _ => .read1 0⟩ c)
    (hfree : ∃ s, s < P.m ∧ c.tab s = P.emp) (i : ι) :
    ∃ j, j < P.m ∧ (c.pc i = .read1 j ∨ c.pc i = .cas j ∨ c.pc i = .read2 j ∨
      ∃ w, c.pc i = .post j w ∨ c.pc i = .done j w) := by
  have hi := inv_steps hm hkey (inv_init hw val0) hs
  obtain ⟨s, hs, hse⟩ := hfree
  have hthr := hi.thr i
  have hp : ∀ j, Passed P c.tab (key i) j → j < P.m := by
    intro j hj
    by_contra hcon
    exact (passed_full hj (by omega) s hs).1 hse
  cases h : c.pc i with
  | read1 j => rw [h] at hthr; exact ⟨j, hp j hthr, Or.inl rfl⟩
  | cas j => rw [h] at hthr; exact ⟨j, hp j hthr, Or.inr (Or.inl rfl)⟩
  | read2 j => rw [h] at hthr; exact ⟨j, hp j hthr.1, Or.inr (Or.inr (Or.inl rfl))⟩
  | post j w => rw [h] at hthr; exact ⟨j, hp j hthr.1, Or.inr (Or.inr (Or.inr ⟨w, Or.inl rfl⟩))⟩
  | done j w => rw [h] at hthr; exact ⟨j, hp j hthr.1, Or.inr (Or.inr (Or.inr ⟨w, Or.inr rfl⟩))⟩

/-! ### Values -/

/-- `sparse_table::insert`: the value of a new key is the one of the insertion that returned true,
the values of old keys do not change. -/
theorem insert_values {P : Par K} (hm : 0 < P.m) {key : ι → K}
    {v : ι → V} (hkey : ∀ i, key i ≠ P.emp) {tab0 : Nat → K} (hw : WF P tab0) {val0 : Nat → V}
    {c : Conf K V ι} (hc : Complete P (fun _ x => x) false key v tab0 val0 c) :
    (∀ i j s, c.pc i = .done j true → s < P.m → c.tab s = key i → c.val s = v i) ∧
    (∀ s, tab0 s ≠ P.emp → c.val s = val0 s) := by
  have key2 : ∀ c : Conf K V ι, Steps (Step P (fun _ x => x) false key v)
      ⟨tab0, val0, fun _ => .read1 0⟩ c →
      (∀ i j, c.pc i = .done j true → c.val (slot P (key i) j) = v i) ∧
      (∀ i j, c.pc i ≠ .post j false) ∧ (∀ s, tab0 s ≠ P.emp → c.val s = val0 s) := by
    intro c hs
    induction hs with
    | refl => exact ⟨(fun i j h => by cases h), (fun i j h => by cases h), fun _ _ => rfl⟩
    | tail hs hst ih =>
      rename_i b c
      have hi := inv_steps hm hkey (inv_init hw val0) hs
      obtain ⟨ih1, ih2, ih3⟩ := ih
      have loc : ∀ (i : ι) (p : Pc) (c' : Conf K V ι), c'.val = b.val →
          c'.pc = Atomics.set b.pc i p → (∀ j, p ≠ .done j true) → (∀ j, p ≠ .post j false) →
          (∀ i j, c'.pc i = .done j true → c'.val (slot P (key i) j) = v i) ∧
          (∀ i j, c'.pc i ≠ .post j false) ∧ (∀ s, tab0 s ≠ P.emp → c'.val s = val0 s) := by
        intro i p c' hv hpc h1 h2
        refine ⟨fun i' j h => ?_, fun i' j h => ?_, fun s hs => by rw [hv]; exact ih3 s hs⟩
        · rw [hpc] at h
          by_cases e : i' = i
          · simp only [Atomics.set, e, if_true] at h; exact absurd h (h1 j)
          · simp only [Atomics.set, e, if_false] at h; rw [hv]; exact ih1 i' j h
        · rw [hpc] at h
          by_cases e : i' = i
          · simp only [Atomics.set, e, if_true] at h; exact absurd h (h2 j)
          · simp only [Atomics.set, e, if_false] at h; exact ih2 i' j h
      cases hst with
      | read1E i j h he => exact loc i _ _ rfl rfl (by simp) (by simp)
      | read1N i j h he => exact loc i _ _ rfl rfl (by simp) (by simp)
      | casT i j h he => exact loc i _ _ rfl rfl (by simp) (by simp)
      | casF i j h he => exact loc i _ _ rfl rfl (by simp) (by simp)
      | read2E i j h he => exact loc i _ _ rfl rfl (by simp) (by simp)
      | read2N i j h he => exact loc i _ _ rfl rfl (by simp) (by simp)
      | post i j w h =>
        cases w with
        | false => exact absurd h (ih2 i j)
        | true =>
          have hwi : won P (key i) (b.pc i) = some (slot P (key i) j) := by rw [h]; rfl
          refine ⟨fun i' j' h' => ?_, fun i' j' h' => ?_, fun s hs => ?_⟩
          · show Atomics.set b.val _ _ _ = v i'
            have h' : Atomics.set b.pc i (.done j true) i' = .done j' true := h'
            by_cases e : i' = i
            · subst e
              simp only [Atomics.set, if_true] at h'
              injection h' with h' _
              subst h'
              simp only [Atomics.set, if_true]
            · simp only [Atomics.set, e, if_false] at h'
              have hwi' : won P (key i') (b.pc i') = some (slot P (key i') j') := by rw [h']; rfl
              have hne : slot P (key i') j' ≠ slot P (key i) j := by
                intro he; rw [he] at hwi'; exact e (hi.wonInj i' i _ hwi' hwi)
              simp only [Atomics.set, hne, if_false]
              exact ih1 i' j' h'
          · have h' : Atomics.set b.pc i (.done j true) i' = .post j' false := h'
            by_cases e : i' = i
            · simp only [Atomics.set, e, if_true] at h'; cases h'
            · simp only [Atomics.set, e, if_false] at h'; exact ih2 i' j' h'
          · show Atomics.set b.val _ _ s = val0 s
            have hne : s ≠ slot P (key i) j := by
              rintro rfl; exact hs (hi.wonEmp i _ hwi).1
            simp only [Atomics.set, hne, if_false]
            exact ih3 s hs
  obtain ⟨h1, _, h3⟩ := key2 c hc.1
  refine ⟨fun i j s hij hs hsk => ?_, h3⟩
  have hi := inv_steps hm hkey (inv_init hw val0) hc.1
  have hthr := hi.thr i
  rw [hij] at hthr
  rw [wf_unique hi.wf hs (slot_lt P hm (key i) j) (by rw [hsk]; exact hkey i) (by rw [hsk, hthr.2])]
  exact h1 i j hij

/-- Contribution of a thread to the value of slot `s`. -/
def contrib [Zero V] (P : Par K) (key : ι → K) (v : ι → V) (pc : ι → Pc) (s : Nat) (i : ι) : V :=
  match pc i with
  | .done j _ => if slot P (key i) j = s then v i else 0
  | _ => 0

/-- C55: after any interleaving of `sparse_additive_map::insert`, the value of each key is its old
value plus the sum of all inserted values for this key. -/
theorem additive_values [AddCommMonoid V] [Fintype ι] {P : Par K} (hm : 0 < P.m) {key : ι → K}
    {v : ι → V} (hkey : ∀ i, key i ≠ P.emp) {tab0 : Nat → K} (hw : WF P tab0) {val0 : Nat → V}
    {c : Conf K V ι} (hc : Complete P (· + ·) true key v tab0 val0 c) (s : Nat) (hs : s < P.m)
    (hne : c.tab s ≠ P.emp) :
    c.val s = val0 s + ∑ i, if key i = c.tab s then v i else 0 := by
  have key2 : ∀ c : Conf K V ι, Steps (Step P (· + ·) true key v)
      ⟨tab0, val0, fun _ => .read1 0⟩ c →
      (∀ s, c.val s = val0 s + ∑ i, contrib P key v c.pc s i) := by
    intro c hst
    induction hst with
    | refl => intro s; simp [contrib]
    | tail hst hstep ih =>
      rename_i b c
      have loc : ∀ (i : ι) (p : Pc) (c' : Conf K V ι), c'.val = b.val →
          c'.pc = Atomics.set b.pc i p → (∀ j w, p ≠ .done j w) → (∀ j w, b.pc i ≠ .done j w) →
          ∀ s, c'.val s = val0 s + ∑ i, contrib P key v c'.pc s i := by
        intro i p c' hv hpc h1 h2 s
        rw [hv, ih s]
        congr 1
        refine Finset.sum_congr rfl fun i' _ => ?_
        unfold contrib
        rw [hpc]
        by_cases e : i' = i
        · subst e
          have e : Atomics.set b.pc i' p i' = p := by simp only [Atomics.set, if_true]
          rw [e]
          have e1 : ∀ q : Pc, (∀ j w, q ≠ .done j w) →
              (match q with | .done j _ => if slot P (key i') j = s then v i' else 0 | _ => 0) = (0 : V) := by
            intro q hq
            cases q with
            | done j w => exact absurd rfl (hq j w)
            | _ => rfl
          exact (e1 _ h2).trans (e1 _ h1).symm
        · simp only [Atomics.set, e, if_false]
      cases hstep with
      | read1E i j h he => exact loc i _ _ rfl rfl (by simp) (by simp [h])
      | read1N i j h he => exact loc i _ _ rfl rfl (by simp) (by simp [h])
      | casT i j h he => exact loc i _ _ rfl rfl (by simp) (by simp [h])
      | casF i j h he => exact loc i _ _ rfl rfl (by simp) (by simp [h])
      | read2E i j h he => exact loc i _ _ rfl rfl (by simp) (by simp [h])
      | read2N i j h he => exact loc i _ _ rfl rfl (by simp) (by simp [h])
      | post i j w h =>
        intro s
        show Atomics.set b.val _ _ s = val0 s + ∑ i', contrib P key v (Atomics.set b.pc i (.done j w)) s i'
        have hsplit : ∑ i', contrib P key v (Atomics.set b.pc i (.done j w)) s i' =
            (∑ i', contrib P key v b.pc s i') + if slot P (key i) j = s then v i else 0 := by
          rw [← Finset.add_sum_erase _ _ (Finset.mem_univ i),
            ← Finset.add_sum_erase _ (fun i' => contrib P key v b.pc s i') (Finset.mem_univ i)]
          have e1 : contrib P key v (Atomics.set b.pc i (.done j w)) s i =
              if slot P (key i) j = s then v i else 0 := by
            simp only [contrib, Atomics.set, if_true]
          have e2 : contrib P key v b.pc s i = 0 := by simp only [contrib, h]
          have e3 : ∑ x ∈ Finset.univ.erase i, contrib P key v (Atomics.set b.pc i (.done j w)) s x =
              ∑ x ∈ Finset.univ.erase i, contrib P key v b.pc s x := by
            refine Finset.sum_congr rfl fun x hx => ?_
            have : x ≠ i := (Finset.mem_erase.1 hx).1
            simp only [contrib, Atomics.set, this, if_false]
          rw [e1, e2, e3, zero_add, add_comm]
        rw [hsplit]
        by_cases e : s = slot P (key i) j
        · subst e
          simp only [Atomics.set, if_true]
          rw [ih, add_assoc]
        · simp only [Atomics.set, e, if_false]
          rw [if_neg (fun h => e h.symm), add_zero]
          exact ih s
  rw [key2 c hc.1 s]
  congr 1
  have hi := inv_steps hm hkey (inv_init hw val0) hc.1
  refine Finset.sum_congr rfl fun i _ => ?_
  obtain ⟨j, w, hj⟩ := hc.2 i
  have hthr := hi.thr i
  rw [hj] at hthr
  unfold contrib
  rw [hj]
  simp only
  by_cases e : slot P (key i) j = s
  · rw [if_pos e, if_pos (by rw [← e, hthr.2])]
  · rw [if_neg e, if_neg]
    intro h
    exact e (wf_unique hi.wf (slot_lt P hm _ _) hs (by rw [hthr.2]; exact hkey i) (by rw [hthr.2, h]))

/-! ### The empty table, capacity, `resize` -/

omit [DecidableEq K] [DecidableEq ι] in
theorem wf_empty (P : Par K) : WF P (fun _ => P.emp) := fun _ _ h => absurd rfl h

/-- `log2_up` of parlay: the least exponent whose power of two is at least `x`. -/
def log2Up : Nat → Nat → Nat
  | 0, _ => 0
  | fuel + 1, x => if 2 ^ 0 ≥ x then 0 else log2Up fuel ((x + 1) / 2) + 1

theorem log2Up_spec (fuel x : Nat) (hf : x ≤ fuel + 1) : x ≤ 2 ^ log2Up fuel x := by
  induction fuel generalizing x with
  | zero => simp [log2Up]; omega
  | succ fuel ih =>
    unfold log2Up
    split
    · rename_i h; simpa using h
    · rename_i h
      have h : ¬ 1 ≥ x := h
      have := ih ((x + 1) / 2) (by omega)
      rw [Nat.pow_succ]
      omega

/-- Constructor of `sparse_table`, `sparse_table.h:57-69`: the number of slots for `cap` values.
`mul` is the truncated product `(size_t)(space_mult * cap)`, at least `cap` for any multiplier
`≥ 1`. -/
def tableSize (mul : Nat) : Nat := 2 ^ log2Up (mul + 1) (mul + 1)

/-- Constructor of `sparse_additive_map`, `sparse_additive_map.h:65-76`. -/
def additiveSize (mul : Nat) : Nat := 2 ^ log2Up mul mul

omit [DecidableEq K] [DecidableEq ι] in
/-- A `sparse_table` built for `cap` values always has an empty slot while it holds at most `cap`
keys: the hypothesis of `contains_spec`, `find_spec` and `probes_bounded` holds. -/
theorem table_has_free {P : Par K} {tab : Nat → K} (cap mul : Nat) (hmul : cap ≤ mul)
    (hm : P.m = tableSize mul) (keys : List K) (hk : keys.length ≤ cap) (hw : WF P tab)
    (hin : ∀ s, s < P.m → tab s ≠ P.emp → tab s ∈ keys) : ∃ s, s < P.m ∧ tab s = P.emp := by
  classical
  by_contra hcon
  have hcon : ∀ s, s < P.m → tab s ≠ P.emp := fun s hs he => hcon ⟨s, hs, he⟩
  have hnd : ((List.range P.m).map tab).Nodup := by
    rw [List.nodup_map_iff_inj_on List.nodup_range]
    intro s hs t ht h
    exact wf_unique hw (List.mem_range.1 hs) (List.mem_range.1 ht) (hcon s (List.mem_range.1 hs)) h
  have hsub : ((List.range P.m).map tab) ⊆ keys := by
    intro k hk
    obtain ⟨s, hs, rfl⟩ := List.mem_map.1 hk
    exact hin s (List.mem_range.1 hs) (hcon s (List.mem_range.1 hs))
  have := (hnd.subperm hsub).length_le
  simp only [List.length_map, List.length_range] at this
  have h2 := log2Up_spec (mul + 1) (mul + 1) (by omega)
  rw [hm] at this
  unfold tableSize at this
  omega

/-- C55, negative part: a `sparse_additive_map` built for one value (`(size_t)(1.1 * 1) = 1`) has one
slot; once the value is inserted, `contains` of any other key never returns. -/
theorem additive_map_full :
    additiveSize 1 = 1 ∧
    ∀ (P : Par Nat) (tab : Nat → Nat), P.m = additiveSize 1 → P.emp = 0 → tab 0 = 5 →
      ∀ fuel, contains P tab 7 fuel 0 = none := by
  refine ⟨by decide, fun P tab hm he h0 fuel => ?_⟩
  have hm : P.m = 1 := hm
  refine contains_full_loops 7 (by omega) (fun s hs => ?_) fuel 0
  have : s = 0 := by omega
  subst this
  rw [h0, he]; decide

/-- C20, `resize` (`sparse_table.h:251-269`): the old entries, inserted concurrently into a new
empty table, are exactly the entries of the new table. -/
theorem resize_spec {P P' : Par K} (hm' : 0 < P'.m) (hemp : P'.emp = P.emp) {tab : Nat → K}
    {val : Nat → V} (hw : WF P tab) {val0 : Nat → V}
    (sel : Fin P.m → Prop) (hsel : ∀ s, sel s ↔ tab s ≠ P.emp)
    {c : Conf K V {s : Fin P.m // sel s}} [DecidableEq {s : Fin P.m // sel s}]
    (hc : Complete P' (fun _ x => x) false (fun s => tab s.1) (fun s => val s.1)
      (fun _ => P'.emp) val0 c) :
    ∀ k x, (k, x) ∈ entries P' c.tab c.val ↔ (k, x) ∈ entries P tab val := by
  have hkey : ∀ s : {s : Fin P.m // sel s}, tab s.1 ≠ P'.emp := by
    intro s; rw [hemp]; exact (hsel s.1).1 s.2
  have hk := insert_keys hm' hkey (wf_empty P') hc
  have hv := insert_values hm' hkey (wf_empty P') hc
  have hnotin : ∀ k, k ≠ P'.emp → ¬ In P' (fun _ => P'.emp) k := by
    rintro k hk ⟨s, _, hs⟩; exact hk hs.symm
  intro k x
  rw [(entries_spec c.val hk.1).2, (entries_spec val hw).2, hemp]
  constructor
  · rintro ⟨hne, s, hs, rfl, rfl⟩
    refine ⟨hne, ?_⟩
    have hne' : c.tab s ≠ P'.emp := by rw [hemp]; exact hne
    rcases (hk.2.2.2.1 _ hne').1 ⟨s, hs, rfl⟩ with h | ⟨i, hi⟩
    · exact absurd h (hnotin _ hne')
    · obtain ⟨i', ⟨hi'1, j, hi'2⟩, _⟩ := hk.2.2.2.2.2 i (hnotin _ (hkey i))
      have hval := hv.1 i' j s hi'2 hs (by rw [hi'1]; exact hi.symm)
      exact ⟨i'.1, i'.1.2, hi'1.trans hi, hval.symm⟩
  · rintro ⟨hne, s, hs, rfl, rfl⟩
    refine ⟨hne, ?_⟩
    let i : {s : Fin P.m // sel s} := ⟨⟨s, hs⟩, (hsel ⟨s, hs⟩).2 hne⟩
    obtain ⟨t, ⟨ht, htk⟩, _⟩ := hk.2.1 i
    obtain ⟨i', ⟨hi'1, j, hi'2⟩, _⟩ := hk.2.2.2.2.2 i (hnotin _ (hkey i))
    refine ⟨t, ht, htk, ?_⟩
    rw [hv.1 i' j t hi'2 ht (htk.trans hi'1.symm)]
    have : (i'.1 : Nat) = s := wf_unique hw i'.1.2 hs ((hsel i'.1).1 i'.2) hi'1
    show val i'.1 = val s
    rw [this]

/-! ### Example -/

/-- Two threads insert the colliding keys 3 and 7 into a table of 4 slots with reserved key 0:
thread 0 loses the race for slot 3 and moves on to slot 0. -/
example : ∃ c : Conf Nat Nat (Fin 2),
    Complete ⟨4, id, 0⟩ (fun _ x => x) false (fun i => if i = 0 then 3 else 7)
      (fun i => if i = 0 then 30 else 70) (fun _ => 0) (fun _ => 0) c ∧
    c.tab 3 = 7 ∧ c.tab 0 = 3 ∧ c.val 0 = 30 := by
  refine ⟨_, ⟨.tail (.tail (.tail (.tail (.tail (.tail (.tail (.tail (.tail (.refl _)
    (.read1E _ 0 0 rfl rfl)) (.read1E _ 1 0 rfl rfl)) (.casT _ 1 0 rfl rfl))
    (.casF _ 0 0 rfl (by decide))) (.read2N _ 0 0 rfl (by decide))) (.read1E _ 0 1 rfl (by decide)))
    (.casT _ 0 1 rfl (by decide))) (.post _ 1 0 true rfl)) (.post _ 0 1 true rfl), ?_⟩, ?_, ?_, ?_⟩
  · intro i
    match i with
    | 0 => exact ⟨1, true, rfl⟩
    | 1 => exact ⟨0, true, rfl⟩
  all_goals rfl

/-- Two threads add 2 and 5 to the same key of an additive map. -/
example : ∃ c : Conf Nat Nat (Fin 2),
    Complete ⟨4, id, 0⟩ (· + ·) true (fun _ => 3) (fun i => if i = 0 then 2 else 5) (fun _ => 0)
      (fun _ => 0) c ∧ c.tab 3 = 3 ∧ c.val 3 = 7 := by
  refine ⟨_, ⟨.tail (.tail (.tail (.tail (.tail (.tail (.tail (.refl _)
    (.read1E _ 0 0 rfl rfl)) (.read1E _ 1 0 rfl rfl)) (.casT _ 1 0 rfl rfl))
    (.casF _ 0 0 rfl (by decide))) (.read2E _ 0 0 rfl (by decide))) (.post _ 0 0 false rfl))
    (.post _ 1 0 true rfl), ?_⟩, ?_, ?_⟩
  · intro i
    match i with
    | 0 => exact ⟨0, false, rfl⟩
    | 1 => exact ⟨0, true, rfl⟩
  all_goals rfl

end Gbbs.Hash
