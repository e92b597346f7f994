/-
Small definitions shared by the models: arrays as functions, slices, schedules of parallel loops,
exclusive scans.
-/
import Mathlib.Data.List.Basic
import Mathlib.Data.List.Nodup
import Mathlib.Data.List.Range
import Mathlib.Data.List.Perm.Basic

namespace Gbbs

/-- Array update (`a[i] = v`). -/
def upd {α : Type} (f : Nat → α) (i : Nat) (v : α) : Nat → α := fun j => if j = i then v else f j

@[simp] theorem upd_same {α : Type} (f : Nat → α) (i : Nat) (v : α) : upd f i v i = v := by
  simp [upd]

theorem upd_of_ne {α : Type} (f : Nat → α) {i j : Nat} (v : α) (h : j ≠ i) : upd f i v j = f j := by
  simp [upd, h]

theorem upd_apply {α : Type} (f : Nat → α) (i j : Nat) (v : α) :
    upd f i v j = if j = i then v else f j := rfl

/-- The elements `f s, ..., f (s+c-1)`. -/
def slice {α : Type} (f : Nat → α) (s c : Nat) : List α := (List.range' s c).map f

@[simp] theorem slice_length {α : Type} (f : Nat → α) (s c : Nat) : (slice f s c).length = c := by
  simp [slice]

@[simp] theorem slice_zero {α : Type} (f : Nat → α) (s : Nat) : slice f s 0 = [] := rfl

theorem slice_succ {α : Type} (f : Nat → α) (s c : Nat) :
    slice f s (c + 1) = f s :: slice f (s + 1) c := by
  simp [slice, List.range'_succ]

theorem slice_add {α : Type} (f : Nat → α) (s c d : Nat) :
    slice f s (c + d) = slice f s c ++ slice f (s + c) d := by
  simp [slice, ← List.map_append]

theorem slice_congr {α : Type} {f g : Nat → α} {s c : Nat}
    (h : ∀ x, s ≤ x → x < s + c → f x = g x) : slice f s c = slice g s c := by
  apply List.map_congr_left
  intro x hx
  rw [List.mem_range'_1] at hx
  exact h x hx.1 hx.2

theorem slice_getElem? {α : Type} (f : Nat → α) (s c i : Nat) (h : i < c) :
    (slice f s c)[i]? = some (f (s + i)) := by
  simp [slice, h]

theorem mem_slice {α : Type} {f : Nat → α} {s c : Nat} {v : α} :
    v ∈ slice f s c ↔ ∃ x, s ≤ x ∧ x < s + c ∧ f x = v := by
  simp [slice, List.mem_range'_1, and_assoc]

/-- An order in which the iterations `0..n-1` of a `parallel_for` take effect: each exactly once.
Loops whose iterations touch disjoint locations are modelled by running the iterations in an
arbitrary such order. -/
def Sched (n : Nat) (order : List Nat) : Prop := order.Nodup ∧ ∀ i, i ∈ order ↔ i < n

theorem sched_range (n : Nat) : Sched n (List.range n) :=
  ⟨List.nodup_range, fun i => by simp⟩

theorem Sched.perm {n : Nat} {order : List Nat} (h : Sched n order) :
    order.Perm (List.range n) := by
  rw [List.perm_ext_iff_of_nodup h.1 List.nodup_range]
  intro i; rw [h.2, List.mem_range]

/-- Exclusive prefix sums (`parlay::scan_inplace`): `exScan f k` is the sum of `f 0..f (k-1)`. -/
def exScan (f : Nat → Nat) : Nat → Nat
  | 0 => 0
  | k + 1 => exScan f k + f k

theorem exScan_congr {f g : Nat → Nat} {k : Nat} (h : ∀ i, i < k → f i = g i) :
    exScan f k = exScan g k := by
  induction k with
  | zero => rfl
  | succ k ih => simp only [exScan, ih (fun i hi => h i (by omega)), h k (by omega)]

theorem exScan_mono (f : Nat → Nat) {i j : Nat} (h : i ≤ j) : exScan f i ≤ exScan f j := by
  induction h with
  | refl => exact Nat.le_refl _
  | step _ ih => simp only [exScan]; omega

/-- Two different blocks of a scanned layout are disjoint. -/
theorem exScan_disjoint (f : Nat → Nat) {i j a b : Nat} (hne : i ≠ j) (ha : a < f i)
    (hb : b < f j) : exScan f i + a ≠ exScan f j + b := by
  rcases Nat.lt_or_gt_of_ne hne with h | h
  · have := exScan_mono f (show i + 1 ≤ j by omega)
    simp only [exScan] at this; omega
  · have := exScan_mono f (show j + 1 ≤ i by omega)
    simp only [exScan] at this; omega

/-- Every position below the total belongs to some block. -/
theorem exScan_find (f : Nat → Nat) {k x : Nat} (h : x < exScan f k) :
    ∃ i j, i < k ∧ j < f i ∧ x = exScan f i + j := by
  induction k with
  | zero => simp [exScan] at h
  | succ k ih =>
    simp only [exScan] at h
    by_cases hx : x < exScan f k
    · obtain ⟨i, j, h1, h2, h3⟩ := ih hx
      exact ⟨i, j, by omega, h2, h3⟩
    · exact ⟨k, x - exScan f k, by omega, by omega, by omega⟩

theorem flatMap_length_exScan {α : Type} (g : Nat → List α) (k : Nat) :
    ((List.range k).flatMap g).length = exScan (fun i => (g i).length) k := by
  induction k with
  | zero => rfl
  | succ k ih => rw [List.range_succ]; simp [exScan, ih]

end Gbbs
