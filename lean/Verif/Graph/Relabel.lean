/-
C29: `RelabelIds` of `gbbs/contract.h:19-39`.
-/
import Verif.Common
import Verif.Atomics.Model
import Mathlib.Data.Finset.Card

namespace Gbbs.Relabel

open Atomics (Steps)

/-! ### Model -/

/-- An iteration of the flag loop, `contract.h:27-31`: before the test, between a test that saw 0 and
the store, finished. -/
inductive Pc
  | test | store | done
  deriving DecidableEq

/-- Shared flags and the position of every iteration. -/
structure Conf where
  flag : Nat → Nat
  pc : Nat → Pc

/-- One memory access of one iteration `i < n`. -/
inductive Step (n : Nat) (ids : Nat → Nat) : Conf → Conf → Prop
  | skip {c : Conf} {i : Nat} : i < n → c.pc i = .test → c.flag (ids i) ≠ 0 →
      Step n ids c ⟨c.flag, upd c.pc i .done⟩
  | enter {c : Conf} {i : Nat} : i < n → c.pc i = .test → c.flag (ids i) = 0 →
      Step n ids c ⟨c.flag, upd c.pc i .store⟩
  | store {c : Conf} {i : Nat} : i < n → c.pc i = .store →
      Step n ids c ⟨upd c.flag (ids i) 1, upd c.pc i .done⟩

/-- After `contract.h:25-26`: flags zero. -/
def init : Conf := ⟨fun _ => 0, fun _ => .test⟩

/-- `RelabelIds` after the flag loop, `contract.h:32-38`: exclusive scan in place of the `n + 1` flags
(`parlay::scan_inplace`, trusted), the result, and the renaming loop in the order `order`. All values are
at most `n`, so the element type (which holds ids below `n`, and `n`) does not overflow. -/
def finish (n : Nat) (flag : Nat → Nat) (order : List Nat) (ids : Nat → Nat) : (Nat → Nat) × Nat :=
  let inv := exScan flag
  (order.foldl (fun a i => upd a i (inv (a i))) ids, inv n)

/-! ### Specification -/

/-- `ids'` is the order-preserving renaming of `ids` on positions `0..n-1` onto `0..u-1`. -/
structure DenseRenaming (n u : Nat) (ids ids' : Nat → Nat) : Prop where
  count : u = ((Finset.range n).image ids).card
  range : ∀ i, i < n → ids' i < u
  onto : ∀ k, k < u → ∃ i, i < n ∧ ids' i = k
  lt_iff : ∀ i j, i < n → j < n → (ids' i < ids' j ↔ ids i < ids j)
  eq_iff : ∀ i j, i < n → j < n → (ids' i = ids' j ↔ ids i = ids j)

/-! ### Proofs -/

structure Inv (n : Nat) (ids : Nat → Nat) (c : Conf) : Prop where
  bit : ∀ x, c.flag x = 0 ∨ (c.flag x = 1 ∧ ∃ i, i < n ∧ ids i = x)
  done : ∀ i, i < n → c.pc i = .done → c.flag (ids i) = 1

theorem inv_reach {n : Nat} {ids : Nat → Nat} {c : Conf} (h : Steps (Step n ids) init c) :
    Inv n ids c := by
  induction h with
  | refl => exact ⟨fun x => Or.inl rfl, fun i _ h => by simp [init] at h⟩
  | tail _ hs ih =>
    cases hs with
    | skip hi hp hf =>
      refine ⟨ih.bit, fun j hj hd => ?_⟩
      simp only [upd_apply] at hd
      split at hd
      · rename_i h; subst h
        exact ((ih.bit _).resolve_left hf).1
      · exact ih.done j hj hd
    | enter hi hp hf =>
      refine ⟨ih.bit, fun j hj hd => ?_⟩
      simp only [upd_apply] at hd
      split at hd
      · cases hd
      · exact ih.done j hj hd
    | @store i hi hp =>
      refine ⟨fun x => ?_, fun j hj hd => ?_⟩
      · simp only [upd_apply]
        split
        · rename_i h; exact Or.inr ⟨rfl, i, hi, h.symm⟩
        · exact ih.bit x
      · simp only [upd_apply] at hd ⊢
        split
        · rfl
        · rename_i h1
          split at hd
          · rename_i h2; subst h2; exact absurd rfl h1
          · exact ih.done j hj hd

theorem exScan_indicator (p : Nat → Prop) [DecidablePred p] (k : Nat) :
    exScan (fun x => if p x then 1 else 0) k = ((Finset.range k).filter p).card := by
  induction k with
  | zero => rfl
  | succ k ih =>
    rw [exScan, ih, Finset.range_add_one, Finset.filter_insert]
    split
    · rw [Finset.card_insert_of_notMem (by simp)]
    · rfl

theorem rename_loop (f : Nat → Nat) (order : List Nat) (hnd : order.Nodup) (ids : Nat → Nat) (x : Nat) :
    order.foldl (fun a i => upd a i (f (a i))) ids x = if x ∈ order then f (ids x) else ids x := by
  induction order generalizing ids with
  | nil => simp
  | cons i order ih =>
    have hnd := List.nodup_cons.1 hnd
    rw [List.foldl_cons, ih hnd.2]
    by_cases hx : x = i
    · subst hx
      rw [if_neg hnd.1, if_pos List.mem_cons_self, upd_same]
    · rw [upd_of_ne _ _ hx]
      simp [hx]

/-- Any `k` below an exclusive scan of 0/1 flags is the scan at some flagged position. -/
theorem exScan_hit (f : Nat → Nat) (hf : ∀ x, f x = 0 ∨ f x = 1) {n k : Nat} (h : k < exScan f n) :
    ∃ x, x < n ∧ f x = 1 ∧ exScan f x = k := by
  induction n with
  | zero => simp [exScan] at h
  | succ n ih =>
    rw [exScan] at h
    by_cases h1 : k < exScan f n
    · obtain ⟨x, hx, h2⟩ := ih h1
      exact ⟨x, by omega, h2⟩
    · rcases hf n with h0 | h0
      · omega
      · exact ⟨n, by omega, h0, by omega⟩

/-- C29: for ids below `n`, every interleaving of the flag loop and every order of the renaming loop. -/
theorem relabel_correct (n : Nat) (ids : Nat → Nat) (hids : ∀ i, i < n → ids i < n) (c : Conf)
    (hr : Steps (Step n ids) init c) (hd : ∀ i, i < n → c.pc i = .done) (order : List Nat)
    (hs : Sched n order) :
    DenseRenaming n (finish n c.flag order ids).2 ids (finish n c.flag order ids).1 := by
  have hI := inv_reach hr
  have hbit : ∀ x, c.flag x = 0 ∨ c.flag x = 1 := fun x => (hI.bit x).imp id And.left
  have hflag : ∀ i, i < n → c.flag (ids i) = 1 := fun i hi => hI.done i hi (hd i hi)
  have hnew : ∀ i, i < n → (finish n c.flag order ids).1 i = exScan c.flag (ids i) := by
    intro i hi
    exact (rename_loop _ _ hs.1 ids i).trans (if_pos ((hs.2 i).2 hi))
  have hlt : ∀ i j, i < n → j < n → ids i < ids j → exScan c.flag (ids i) < exScan c.flag (ids j) := by
    intro i j hi hj h
    have h1 := exScan_mono c.flag (show ids i + 1 ≤ ids j by omega)
    rw [exScan, hflag i hi] at h1
    omega
  refine ⟨?_, ?_, ?_, ?_, ?_⟩
  · show exScan c.flag n = _
    have hc : c.flag = fun x => if c.flag x = 1 then 1 else 0 := by
      funext x
      rcases hbit x with h | h <;> simp [h]
    rw [hc, exScan_indicator (fun x => c.flag x = 1)]
    congr 1
    ext x
    simp only [Finset.mem_filter, Finset.mem_range, Finset.mem_image]
    constructor
    · rintro ⟨_, h⟩
      rcases hI.bit x with h0 | ⟨_, i, hi, he⟩
      · omega
      · exact ⟨i, hi, he⟩
    · rintro ⟨i, hi, rfl⟩
      exact ⟨hids i hi, hflag i hi⟩
  · intro i hi
    rw [hnew i hi]
    show _ < exScan c.flag n
    have h1 := exScan_mono c.flag (show ids i + 1 ≤ n from hids i hi)
    rw [exScan, hflag i hi] at h1
    omega
  · intro k hk
    obtain ⟨x, _, h1, h2⟩ := exScan_hit c.flag hbit hk
    rcases hI.bit x with h0 | ⟨_, i, hi, he⟩
    · omega
    · exact ⟨i, hi, by rw [hnew i hi, he, h2]⟩
  · intro i j hi hj
    rw [hnew i hi, hnew j hj]
    refine ⟨fun h => ?_, hlt i j hi hj⟩
    by_contra hle
    have := exScan_mono c.flag (show ids j ≤ ids i by omega)
    omega
  · intro i j hi hj
    rw [hnew i hi, hnew j hj]
    refine ⟨fun h => ?_, fun h => by rw [h]⟩
    rcases Nat.lt_trichotomy (ids i) (ids j) with h1 | h1 | h1
    · have := hlt i j hi hj h1; omega
    · exact h1
    · have := hlt j i hj hi h1; omega

/-- The ids 3, 1, 3, 0. -/
def ex (i : Nat) : Nat := [3, 1, 3, 0].getD i 0

/-- A run in which iterations 0 and 2 both see the flag of 3 unset. -/
example : ∃ c, Steps (Step 4 ex) init c ∧ (∀ i, i < 4 → c.pc i = .done) ∧
    (finish 4 c.flag [2, 0, 1, 3] ex).2 = 3 ∧
    (List.range 4).map (finish 4 c.flag [2, 0, 1, 3] ex).1 = [2, 1, 2, 0] := by
  refine ⟨_, ((((((((Steps.refl _).tail (.enter (i := 0) (by decide) (by decide) (by decide))).tail
    (.enter (i := 2) (by decide) (by decide) (by decide))).tail
    (.store (i := 0) (by decide) (by decide))).tail
    (.store (i := 2) (by decide) (by decide))).tail
    (.enter (i := 1) (by decide) (by decide) (by decide))).tail
    (.store (i := 1) (by decide) (by decide))).tail
    (.enter (i := 3) (by decide) (by decide) (by decide))).tail
    (.store (i := 3) (by decide) (by decide)), by decide, by decide +kernel, by decide +kernel⟩

end Gbbs.Relabel
