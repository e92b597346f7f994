/-
Specification of connected components, shared by the connectivity algorithms (C68 onwards).
-/
import Mathlib.Logic.Relation
import Mathlib.Tactic.ByContra
import Mathlib.Tactic.IntervalCases

namespace Gbbs.Comp

open Relation

/-- Connected by edges in either direction. -/
def Conn (adj : Nat → Nat → Prop) : Nat → Nat → Prop := EqvGen adj

/-- The labels of the vertices `< n` are equal exactly within components. -/
def IsCC (n : Nat) (adj : Nat → Nat → Prop) (lab : Nat → Nat) : Prop :=
  ∀ u v, u < n → v < n → (lab u = lab v ↔ Conn adj u v)

/-- Labels from which connectivity algorithms can start (e.g. those of a sample): every vertex is labelled with a vertex
of its component that has its own label (nothing outside of the array is used; the models have the identity there). -/
structure Start (n : Nat) (adj : Nat → Nat → Prop) (P0 : Nat → Nat) : Prop where
  lt : ∀ x, x < n → P0 x < n
  flat : ∀ x, P0 (P0 x) = P0 x
  sound : ∀ x, Conn adj x (P0 x)
  out : ∀ x, n ≤ x → P0 x = x

variable {adj : Nat → Nat → Prop}

theorem conn_equiv (adj : Nat → Nat → Prop) : Equivalence (Conn adj) := EqvGen.is_equivalence _

theorem conn_le {s : Nat → Nat → Prop} (hs : Equivalence s) (h : ∀ x y, adj x y → s x y) {x y : Nat}
    (hc : Conn adj x y) : s x y := by
  induction hc with
  | rel _ _ h' => exact h _ _ h'
  | refl _ => exact hs.refl _
  | symm _ _ _ ih => exact hs.symm ih
  | trans _ _ _ _ _ ih1 ih2 => exact hs.trans ih1 ih2

/-- A set closed under the edges in both directions is closed under connectivity. -/
theorem conn_closed {S : Nat → Prop} (h : ∀ x y, adj x y → (S x ↔ S y)) {x y : Nat} (hc : Conn adj x y) :
    S x ↔ S y :=
  conn_le (s := fun x y => S x ↔ S y) ⟨fun _ => Iff.rfl, Iff.symm, Iff.trans⟩ h hc

/-- A vertex on no edge to another vertex is alone. -/
theorem conn_isolated {x : Nat} (h : ∀ y, y ≠ x → ¬ adj x y ∧ ¬ adj y x) {y : Nat} (hc : Conn adj x y) : y = x := by
  refine (conn_closed (S := fun z => z = x) (fun a b hab => ?_) hc).1 rfl
  constructor
  · rintro rfl
    by_contra hne
    exact (h b hne).1 hab
  · rintro rfl
    by_contra hne
    exact (h a hne).2 hab

end Gbbs.Comp
