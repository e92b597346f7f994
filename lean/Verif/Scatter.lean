/-
The common pattern "count, exclusive scan, write each part at its offset, in any order".
-/
import Verif.Common

namespace Gbbs

variable {α : Type}

/-- `for k in 0..l.size: a[off + k] = l[k]`. -/
def writeAt (a : Nat → α) (off : Nat) : List α → (Nat → α)
  | [] => a
  | v :: l => writeAt (upd a off v) (off + 1) l

theorem writeAt_apply (a : Nat → α) (off : Nat) (l : List α) (x : Nat) :
    writeAt a off l x = if off ≤ x then (l[x - off]?).getD (a x) else a x := by
  induction l generalizing a off with
  | nil => simp [writeAt]
  | cons v l ih =>
    rw [writeAt, ih]
    by_cases h1 : off + 1 ≤ x
    · rw [if_pos h1, if_pos (by omega), upd_of_ne _ _ (by omega)]
      have : x - off = (x - (off + 1)) + 1 := by omega
      rw [this, List.getElem?_cons_succ]
    · rw [if_neg h1]
      by_cases h2 : x = off
      · subst h2; simp
      · rw [upd_of_ne _ _ h2, if_neg (by omega)]

theorem writeAt_outside (a : Nat → α) (off : Nat) (l : List α) {x : Nat}
    (h : x < off ∨ off + l.length ≤ x) : writeAt a off l x = a x := by
  rw [writeAt_apply]
  rcases h with h | h
  · rw [if_neg (by omega)]
  · split
    · rw [List.getElem?_eq_none (by omega)]; rfl
    · rfl

theorem slice_writeAt (a : Nat → α) (off : Nat) (l : List α) :
    slice (writeAt a off l) off l.length = l := by
  apply List.ext_getElem?
  intro i
  by_cases hi : i < l.length
  · rw [slice_getElem? _ _ _ _ hi, writeAt_apply, if_pos (by omega), Nat.add_sub_cancel_left,
      List.getElem?_eq_getElem hi]
    rfl
  · rw [List.getElem?_eq_none (by simpa using hi), List.getElem?_eq_none (by simpa using hi)]

/-- The parts `g i` written at the offsets `offs i`, in the given order of the parallel loop. -/
def scatter (offs : Nat → Nat) (g : Nat → List α) (order : List Nat) (a : Nat → α) : Nat → α :=
  order.foldl (fun a i => writeAt a (offs i) (g i)) a

theorem scatter_outside (offs : Nat → Nat) (g : Nat → List α) (order : List Nat) (a : Nat → α)
    {x : Nat} (h : ∀ i ∈ order, x < offs i ∨ offs i + (g i).length ≤ x) :
    scatter offs g order a x = a x := by
  induction order generalizing a with
  | nil => rfl
  | cons i order ih =>
    show scatter offs g order (writeAt a (offs i) (g i)) x = a x
    rw [ih _ (fun j hj => h j (List.mem_cons_of_mem _ hj)),
      writeAt_outside _ _ _ (h i List.mem_cons_self)]

theorem slice_flatMap (off : Nat) (g : Nat → List α) (l : Nat) (out : Nat → α)
    (h : ∀ i, i < l → slice out (off + exScan (fun i => (g i).length) i) (g i).length = g i) :
    slice out off (exScan (fun i => (g i).length) l) = (List.range l).flatMap g := by
  induction l with
  | zero => simp [exScan]
  | succ l ih =>
    simp only [exScan]
    rw [slice_add, ih (fun i hi => h i (by omega)), h l (by omega),
      List.range_succ, List.flatMap_append]
    simp

/-- Parts written at the exclusive-scan offsets are disjoint and tile the output. -/
theorem scatter_spec (off : Nat) (g : Nat → List α) (offs : Nat → Nat) (l : Nat)
    (ho : ∀ i, i < l → offs i = off + exScan (fun i => (g i).length) i)
    (order : List Nat) (hs : Sched l order) (a : Nat → α) :
    slice (scatter offs g order a) off (exScan (fun i => (g i).length) l) = (List.range l).flatMap g ∧
    ∀ x, x < off ∨ off + exScan (fun i => (g i).length) l ≤ x → scatter offs g order a x = a x := by
  have main : ∀ (order : List Nat) (a : Nat → α), order.Nodup → (∀ i ∈ order, i < l) → ∀ i ∈ order,
      slice (scatter offs g order a) (offs i) (g i).length = g i := by
    intro order
    induction order with
    | nil => intro a _ _ i hi; simp at hi
    | cons j order ih =>
      intro a hnd hlt i hi
      rw [List.nodup_cons] at hnd
      show slice (scatter offs g order (writeAt a (offs j) (g j))) _ _ = _
      rcases List.mem_cons.1 hi with rfl | hi
      · refine Eq.trans (slice_congr ?_) (slice_writeAt a (offs i) (g i))
        intro x hx1 hx2
        apply scatter_outside
        intro k hk
        have hne : i ≠ k := fun h => hnd.1 (h ▸ hk)
        have hoi := ho i (hlt i List.mem_cons_self)
        have hok := ho k (hlt k (List.mem_cons_of_mem _ hk))
        by_contra hcon
        have h1 : offs k ≤ x ∧ x < offs k + (g k).length := by omega
        exact exScan_disjoint (fun i => (g i).length) (a := x - offs i) (b := x - offs k) hne
          (show x - offs i < (g i).length by omega) (show x - offs k < (g k).length by omega)
          (by omega)
      · exact ih _ hnd.2 (fun k hk => hlt k (List.mem_cons_of_mem _ hk)) i hi
  refine ⟨?_, ?_⟩
  · apply slice_flatMap
    intro i hi
    rw [← ho i hi]
    exact main order a hs.1 (fun k hk => (hs.2 k).1 hk) i ((hs.2 i).2 hi)
  · intro x hx
    apply scatter_outside
    intro i hi
    have hil := (hs.2 i).1 hi
    have h1 := ho i hil
    have h2 := exScan_mono (fun i => (g i).length) (show i + 1 ≤ l from hil)
    simp only [exScan] at h2
    omega

end Gbbs
