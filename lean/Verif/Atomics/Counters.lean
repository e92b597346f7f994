import Verif.Common
import Verif.Atomics.Theorems
import Mathlib.Algebra.BigOperators.Group.List.Basic
import Mathlib.Data.Nat.Log

/-!
# C154: `atomic_sum_counter` and `atomic_max_counter`

`gbbs/helpers/atomic_sum_counter.h`, `gbbs/helpers/atomic_max_counter.h`.

Simplifications: memory is sequentially consistent; the values are elements of a commutative monoid
(machine integers with wrap-around are one; sums of floating-point numbers are not, since they depend
on the order).  A worker runs one call at a time, to its end.
-/

namespace Gbbs.Counter

open Atomics

variable {α : Type}

/-! ## `atomic_sum_counter` -/

/-- `stride` after `initialize`, `atomic_sum_counter.h:18-19`, for a type of `size` bytes. -/
def stride (size : Nat) : Nat := Nat.clog 2 (128 / size)

/-- `id << stride`, lines 24, 34, 41, 48. -/
def slot (st id : Nat) : Nat := id <<< st

/-- `num_elms`, line 21. -/
def numElms (st workers : Nat) : Nat := workers <<< st

/-- The loop of `initialize`, lines 23-25, and of `reset`, lines 33-35; `e` is what the memory holds
before. -/
def clear [Zero α] (st workers : Nat) (e : Nat → α) : Nat → α :=
  (List.range workers).foldl (fun e i => upd e (slot st i) 0) e

/-- `get_value`, lines 38-44. -/
def getValue [Zero α] [Add α] (st workers : Nat) (e : Nat → α) : α :=
  (List.range workers).foldl (fun s i => s + e (slot st i)) 0

/-- The entries and the threads: the arguments of the calls of `update_value` that thread `t` has
still to start, and, inside a call, the entry it has read and the argument. -/
structure Conf (α : Type) where
  entries : Nat → α
  todo : Nat → List α
  pc : Nat → Option (α × α)

/-- One access by thread `t`, whose `worker_id()` is `id t`, in `update_value`, lines 46-49: reading
`entries[id << stride]` and writing the sum, which are two separate accesses. -/
inductive Step [Add α] (st workers : Nat) (id : Nat → Nat) : Conf α → Conf α → Prop
  | read (s : Conf α) (t : Nat) (v : α) (q : List α) (ht : t < workers) (hp : s.pc t = none)
      (hq : s.todo t = v :: q) :
      Step st workers id s
        ⟨s.entries, upd s.todo t q, upd s.pc t (some (s.entries (slot st (id t)), v))⟩
  | write (s : Conf α) (t : Nat) (x v : α) (ht : t < workers) (hp : s.pc t = some (x, v)) :
      Step st workers id s
        ⟨upd s.entries (slot st (id t)) (x + v), s.todo, upd s.pc t none⟩

/-! ### Proof -/

theorem slot_inj {st i j : Nat} (h : slot st i = slot st j) : i = j := by
  simp only [slot, Nat.shiftLeft_eq] at h
  exact Nat.eq_of_mul_eq_mul_right (Nat.two_pow_pos st) h

theorem slot_lt {st i workers : Nat} (h : i < workers) : slot st i < numElms st workers := by
  simp only [slot, numElms, Nat.shiftLeft_eq]
  exact Nat.mul_lt_mul_of_pos_right h (Nat.two_pow_pos st)

theorem clear_slot [Zero α] (st : Nat) (e : Nat → α) : ∀ workers i, i < workers →
    clear st workers e (slot st i) = 0 := by
  intro workers
  induction workers with
  | zero => intro i hi; omega
  | succ k ih =>
    intro i hi
    rw [clear, List.range_succ, List.foldl_append, List.foldl_cons, List.foldl_nil, upd_apply]
    split
    · rfl
    · rename_i hne
      refine ih i ?_
      rcases Nat.lt_succ_iff_lt_or_eq.1 hi with h | rfl
      · exact h
      · exact absurd rfl hne

theorem getValue_eq [AddCommMonoid α] (st : Nat) (e : Nat → α) : ∀ workers,
    getValue st workers e = ((List.range workers).map fun i => e (slot st i)).sum := by
  intro workers
  induction workers with
  | zero => rfl
  | succ k ih =>
    rw [getValue, List.range_succ, List.foldl_append, List.foldl_cons, List.foldl_nil,
      List.map_append, List.sum_append]
    rw [getValue] at ih
    rw [ih]
    simp

/-- `dn t` are the arguments of the calls that thread `t` has finished. -/
structure Inv [AddCommMonoid α] (st workers : Nat) (todo : Nat → List α) (dn : Nat → List α)
    (s : Conf α) : Prop where
  split : ∀ t, t < workers → todo t =
    dn t ++ ((match s.pc t with | none => [] | some (_, v) => [v]) ++ s.todo t)
  val : ∀ t, t < workers → s.entries (slot st t) = (dn t).sum
  held : ∀ t x v, t < workers → s.pc t = some (x, v) → x = s.entries (slot st t)

theorem inv_step [AddCommMonoid α] {st workers : Nat} {todo dn : Nat → List α} {s s' : Conf α}
    (h : Inv st workers todo dn s) (hs : Step st workers (fun t => t) s s') :
    ∃ dn', Inv st workers todo dn' s' := by
  cases hs with
  | read t v q ht hp hq =>
    refine ⟨dn, ⟨fun u hu => ?_, h.val, fun u x w hu hx => ?_⟩⟩
    · have := h.split u hu
      by_cases hut : u = t
      · subst hut
        rw [hp, hq] at this
        simpa using this
      · simpa only [upd_of_ne _ _ hut] using this
    · by_cases hut : u = t
      · subst hut
        simp only [upd_same, Option.some.injEq, Prod.mk.injEq] at hx
        exact hx.1.symm
      · simp only [upd_of_ne _ _ hut] at hx
        exact h.held u x w hu hx
  | write t x v ht hp =>
    refine ⟨upd dn t (dn t ++ [v]), ⟨fun u hu => ?_, fun u hu => ?_, fun u y w hu hy => ?_⟩⟩
    · have := h.split u hu
      by_cases hut : u = t
      · subst hut
        rw [hp] at this
        simpa using this
      · simpa only [upd_of_ne _ _ hut] using this
    · by_cases hut : u = t
      · subst hut
        simp only [upd_same, List.sum_append, List.sum_cons, List.sum_nil, add_zero]
        rw [h.held u x v hu hp, h.val u hu]
      · rw [upd_of_ne _ _ hut]
        show upd s.entries (slot st t) (x + v) (slot st u) = _
        rw [upd_of_ne _ _ (fun h => hut (slot_inj h))]
        exact h.val u hu
    · by_cases hut : u = t
      · subst hut
        simp at hy
      · simp only [upd_of_ne _ _ hut] at hy
        show y = upd s.entries (slot st t) (x + v) (slot st u)
        rw [upd_of_ne _ _ (fun h => hut (slot_inj h))]
        exact h.held u y w hu hy

theorem inv_reach [AddCommMonoid α] {st workers : Nat} {todo : Nat → List α} {e : Nat → α}
    {s : Conf α}
    (h : Steps (Step st workers fun t => t) ⟨clear st workers e, todo, fun _ => none⟩ s) :
    ∃ dn, Inv st workers todo dn s := by
  induction h with
  | refl =>
    exact ⟨fun _ => [], fun t _ => rfl, fun t ht => clear_slot st e workers t ht,
      fun t x v _ h => by simp at h⟩
  | tail _ hs ih => obtain ⟨dn, hd⟩ := ih; exact inv_step hd hs

/-! ### C154 -/

/-- C154, sum: if every thread has its own worker id, then after `initialize` or `reset`, whatever
the memory held, and in every interleaving, `get_value` returns the sum of the arguments of all
finished calls whenever no call is in progress. -/
theorem C154_sum [AddCommMonoid α] (size workers : Nat) (todo : Nat → List α) (e : Nat → α)
    (s : Conf α)
    (h : Steps (Step (stride size) workers fun t => t)
      ⟨clear (stride size) workers e, todo, fun _ => none⟩ s)
    (hq : ∀ t, t < workers → s.pc t = none) :
    ∃ dn : Nat → List α, (∀ t, t < workers → todo t = dn t ++ s.todo t) ∧
      getValue (stride size) workers s.entries =
        ((List.range workers).map fun t => (dn t).sum).sum := by
  obtain ⟨dn, hd⟩ := inv_reach h
  refine ⟨dn, fun t ht => ?_, ?_⟩
  · have := hd.split t ht
    rwa [hq t ht] at this
  · rw [getValue_eq]
    congr 1
    exact List.map_congr_left fun t ht => hd.val t (List.mem_range.1 ht)

/-- When all threads are through, it is the sum of all arguments. -/
theorem C154_sum_all [AddCommMonoid α] (size workers : Nat) (todo : Nat → List α) (e : Nat → α)
    (s : Conf α)
    (h : Steps (Step (stride size) workers fun t => t)
      ⟨clear (stride size) workers e, todo, fun _ => none⟩ s)
    (hq : ∀ t, t < workers → s.pc t = none ∧ s.todo t = []) :
    getValue (stride size) workers s.entries =
      ((List.range workers).map fun t => (todo t).sum).sum := by
  obtain ⟨dn, h1, h2⟩ := C154_sum size workers todo e s h fun t ht => (hq t ht).1
  rw [h2]
  congr 1
  refine List.map_congr_left fun t ht => ?_
  have ht := List.mem_range.1 ht
  rw [h1 t ht, (hq t ht).2, List.append_nil]

/-- All accesses are within the array, and the entries of different workers are at least 64 bytes
apart for the sizes of the numeric types. -/
theorem C154_slots (size workers i : Nat) (hi : i < workers) :
    slot (stride size) i < numElms (stride size) workers ∧
    (0 < size → size ≤ 16 → ∀ j, i < j →
      slot (stride size) i * size + 64 ≤ slot (stride size) j * size) := by
  refine ⟨slot_lt hi, fun h0 h16 j hj => ?_⟩
  have hs : 64 ≤ 2 ^ stride size * size := by
    have : ∀ k : Fin 17, 0 < k.val → 64 ≤ 2 ^ stride k.val * k.val := by decide +kernel
    exact this ⟨size, by omega⟩ h0
  simp only [slot, Nat.shiftLeft_eq, Nat.mul_assoc]
  calc i * (2 ^ stride size * size) + 64
      ≤ i * (2 ^ stride size * size) + 2 ^ stride size * size := Nat.add_le_add_left hs _
    _ = (i + 1) * (2 ^ stride size * size) := by rw [Nat.add_mul, Nat.one_mul]
    _ ≤ j * (2 ^ stride size * size) := Nat.mul_le_mul_right _ hj

/-- Two threads with two calls and one, which read before either has written; the memory was not
zero before. -/
example : ∃ s : Conf Nat, Steps (Step (stride 8) 2 fun t => t)
      ⟨clear (stride 8) 2 (fun _ => 77), fun t => if t = 0 then [5, 6] else [7], fun _ => none⟩ s ∧
    (∀ t, t < 2 → s.pc t = none ∧ s.todo t = []) ∧ getValue (stride 8) 2 s.entries = 18 := by
  refine ⟨_, .tail (.tail (.tail (.tail (.tail (.tail (.refl _)
    (.read _ 0 5 [6] (by decide) rfl rfl)) (.read _ 1 7 [] (by decide) rfl rfl))
    (.write _ 1 _ _ (by decide) rfl)) (.write _ 0 _ _ (by decide) rfl))
    (.read _ 0 6 [] (by decide) rfl rfl)) (.write _ 0 _ _ (by decide) rfl), ?_, ?_⟩
  · intro t ht
    rcases (show t = 0 ∨ t = 1 by omega) with rfl | rfl <;> exact ⟨rfl, rfl⟩
  · decide +kernel

/-- The counter is not atomic in itself: with two threads of the same worker id an update can be
lost. -/
theorem C154_same_id_refuted : ¬ ∀ (todo : Nat → List Nat) (s : Conf Nat),
    Steps (Step (stride 8) 2 fun _ => 0)
      ⟨clear (stride 8) 2 (fun _ => 0), todo, fun _ => none⟩ s →
    (∀ t, t < 2 → s.pc t = none ∧ s.todo t = []) →
    getValue (stride 8) 2 s.entries = ((List.range 2).map fun t => (todo t).sum).sum := by
  intro h
  have := h (fun t => if t = 0 then [5] else [7]) _ (.tail (.tail (.tail (.tail (.refl _)
    (.read _ 0 5 [] (by decide) rfl rfl)) (.read _ 1 7 [] (by decide) rfl rfl))
    (.write _ 1 _ _ (by decide) rfl)) (.write _ 0 _ _ (by decide) rfl))
    (by
      intro t ht
      rcases (show t = 0 ∨ t = 1 by omega) with rfl | rfl <;> exact ⟨rfl, rfl⟩)
  revert this
  decide +kernel

/-! ## `atomic_max_counter` -/

/-- The constructor and `reset`, `atomic_max_counter.h:11-13`. -/
def maxInit [Zero α] : α := 0

/-- Concurrent calls `update_value(b i)`, lines 17-19 (`write_min` with `std::greater`), until all
have returned; `get_value`, line 15, returns `cell`. -/
def MaxRun {ι : Type} [DecidableEq ι] [LT α] (b : ι → α) (v0 cell : α) : Prop :=
  ∃ s : WConf ι α, Steps (WStep (fun x y => x > y) b) ⟨v0, fun _ => .load⟩ s ∧
    (∀ i, ∃ r, s.pc i = .done r) ∧ s.cell = cell

/-- C154, maximum: if one of the values is not negative, then in every interleaving the result is the
greatest of the values. -/
theorem C154_max_partial {ι : Type} [DecidableEq ι] [LinearOrder α] [Zero α] (b : ι → α) (cell : α)
    (h : MaxRun b maxInit cell) (hpos : ∃ i, 0 ≤ b i) :
    (∀ i, b i ≤ cell) ∧ ∃ i, cell = b i := by
  obtain ⟨s, hs, hd, rfl⟩ := h
  choose r hr using hd
  obtain ⟨⟨h1, h2⟩, h3, _, _⟩ := C10_write_max b maxInit s r hs hr
  refine ⟨h2, ?_⟩
  rcases h3 with h3 | ⟨i, _, hi⟩
  · obtain ⟨i, hi⟩ := hpos
    exact ⟨i, le_antisymm (h3 ▸ hi) (h2 i)⟩
  · exact ⟨i, hi⟩

/-- Later calls continue from the value reached before. -/
theorem C154_max_again {ι κ : Type} [DecidableEq ι] [DecidableEq κ] [LinearOrder α] (b : ι → α)
    (b' : κ → α) (v0 c1 c2 : α) (h : MaxRun b v0 c1) (h' : MaxRun b' c1 c2) :
    v0 ≤ c2 ∧ (∀ i, b i ≤ c2) ∧ (∀ i, b' i ≤ c2) ∧
      (c2 = v0 ∨ (∃ i, c2 = b i) ∨ ∃ i, c2 = b' i) := by
  obtain ⟨s, hs, hd, rfl⟩ := h
  obtain ⟨s', hs', hd', rfl⟩ := h'
  choose r hr using hd
  choose r' hr' using hd'
  obtain ⟨⟨h1, h2⟩, h3, _, _⟩ := C10_write_max b v0 s r hs hr
  obtain ⟨⟨k1, k2⟩, k3, _, _⟩ := C10_write_max b' s.cell s' r' hs' hr'
  refine ⟨le_trans h1 k1, fun i => le_trans (h2 i) k1, k2, ?_⟩
  rcases k3 with k3 | ⟨i, _, hi⟩
  · rcases h3 with h3 | ⟨i, _, hi⟩
    · exact Or.inl (k3.trans h3)
    · exact Or.inr (Or.inl ⟨i, k3.trans hi⟩)
  · exact Or.inr (Or.inr ⟨i, hi⟩)

/-- A run with one call with the value 4, and its result. -/
example : MaxRun (fun _ : Unit => (4 : Int)) maxInit 4 ∧ ∃ i, 0 ≤ (fun _ : Unit => (4 : Int)) i :=
  ⟨⟨_, .tail (.tail (.refl _) (.load _ () rfl))
      (.casOk _ () 0 (by simp [Atomics.set, maxInit]) (by decide) rfl),
    fun _ => ⟨true, by simp [Atomics.set]⟩, rfl⟩, ⟨(), by decide⟩⟩

/-- If all values are negative the result is 0, which is none of them, in every interleaving. -/
theorem C154_max_refuted {ι : Type} [DecidableEq ι] [LinearOrder α] [Zero α] (b : ι → α) (cell : α)
    (h : MaxRun b maxInit cell) (hneg : ∀ i, b i < 0) : cell = 0 ∧ ∀ i, cell ≠ b i := by
  obtain ⟨s, hs, hd, rfl⟩ := h
  choose r hr using hd
  obtain ⟨⟨h1, h2⟩, h3, h4, _⟩ := C10_write_max b maxInit s r hs hr
  have h0 : s.cell = 0 := by
    rcases h3 with h3 | ⟨i, hi, _⟩
    · exact h3
    · exact absurd (lt_trans (h4 i hi) (hneg i)) (lt_irrefl _)
  exact ⟨h0, fun i h => absurd (hneg i) (by rw [← h, h0]; exact lt_irrefl _)⟩

example : MaxRun (fun _ : Unit => (-5 : Int)) maxInit 0 ∧ ∀ i, (fun _ : Unit => (-5 : Int)) i < 0 :=
  ⟨⟨_, .tail (.tail (.refl _) (.load _ () rfl))
      (.exit _ () 0 (by simp [Atomics.set, maxInit]) (by decide)),
    fun _ => ⟨false, by simp [Atomics.set]⟩, rfl⟩, fun _ => (by decide : (-5 : Int) < 0)⟩

end Gbbs.Counter
