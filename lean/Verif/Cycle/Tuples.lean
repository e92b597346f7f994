/-
C112: five-cycles as tuples. A cycle is given by ten tuples: five rotations and their reversals.
-/
import Mathlib.Algebra.BigOperators.Group.Finset.Basic
import Mathlib.Algebra.BigOperators.Ring.Finset
import Mathlib.Data.Fintype.BigOperators
import Mathlib.Tactic.Ring

namespace Gbbs.Cyc

open Finset (univ)

/-! ### Specification -/

/-- Five distinct vertices, each adjacent to the next one and the last one to the first one. -/
def IsCycle (adj : Nat → Nat → Prop) (a b c d e : Nat) : Prop :=
  (adj a b ∧ adj b c ∧ adj c d ∧ adj d e ∧ adj e a) ∧ (a ≠ b ∧ a ≠ c ∧ a ≠ d ∧ a ≠ e) ∧ (b ≠ c ∧ b ≠ d ∧ b ≠ e) ∧ (c ≠ d ∧ c ≠ e) ∧ d ≠ e

instance {adj : Nat → Nat → Prop} [∀ a b, Decidable (adj a b)] (a b c d e : Nat) : Decidable (IsCycle adj a b c d e) := by
  unfold IsCycle; infer_instance

/-- The number of tuples that run around a five-cycle, once for every start and direction: ten times the number of five-cycles. -/
def tuples (adj : Nat → Nat → Prop) [∀ a b, Decidable (adj a b)] (n : Nat) : Nat :=
  (univ.filter fun t : Fin n × Fin n × Fin n × Fin n × Fin n => IsCycle adj t.1 t.2.1 t.2.2.1 t.2.2.2.1 t.2.2.2.2).card

/-! ### Counting one tuple per cycle -/

abbrev Tup (n : Nat) := Fin n × Fin n × Fin n × Fin n × Fin n

def rot {n : Nat} : Tup n ≃ Tup n where
  toFun t := (t.2.1, t.2.2.1, t.2.2.2.1, t.2.2.2.2, t.1)
  invFun t := (t.2.2.2.2, t.1, t.2.1, t.2.2.1, t.2.2.2.1)
  left_inv _ := rfl
  right_inv _ := rfl

def rev {n : Nat} : Tup n ≃ Tup n where
  toFun t := (t.1, t.2.2.2.2, t.2.2.2.1, t.2.2.1, t.2.1)
  invFun t := (t.1, t.2.2.2.2, t.2.2.2.1, t.2.2.1, t.2.1)
  left_inv _ := rfl
  right_inv _ := rfl

/-- If exactly one of the ten tuples of every cycle is counted, ten times the count is the number of tuples. -/
theorem ten_times {adj : Nat → Nat → Prop} [∀ a b, Decidable (adj a b)] {n : Nat} (A : Nat → Nat → Nat → Nat → Nat → Nat)
    (h : ∀ a b c d e, A a b c d e + A b c d e a + A c d e a b + A d e a b c + A e a b c d +
      (A a e d c b + A b a e d c + A c b a e d + A d c b a e + A e d c b a) = if IsCycle adj a b c d e then 1 else 0) :
    10 * ∑ t : Tup n, A t.1 t.2.1 t.2.2.1 t.2.2.2.1 t.2.2.2.2 = tuples adj n := by
  let f : Tup n → Nat := fun t => A t.1 t.2.1 t.2.2.1 t.2.2.2.1 t.2.2.2.2
  have e : ∀ g : Tup n ≃ Tup n, ∑ t, f t = ∑ t, f (g t) := fun g => (Equiv.sum_comp g f).symm
  unfold tuples
  rw [Finset.card_filter]
  have : ∀ t : Tup n, (if IsCycle adj t.1 t.2.1 t.2.2.1 t.2.2.2.1 t.2.2.2.2 then 1 else 0) =
      f t + f (rot t) + f (rot (rot t)) + f (rot (rot (rot t))) + f (rot (rot (rot (rot t)))) +
      (f (rev t) + f (rev (rot t)) + f (rev (rot (rot t))) + f (rev (rot (rot (rot t)))) + f (rev (rot (rot (rot (rot t)))))) :=
    fun t => (h t.1 t.2.1 t.2.2.1 t.2.2.2.1 t.2.2.2.2).symm
  rw [Finset.sum_congr rfl fun t _ => this t]
  simp only [Finset.sum_add_distrib]
  have e1 := e rot
  have e2 := e (rot.trans rot)
  have e3 := e ((rot.trans rot).trans rot)
  have e4 := e (((rot.trans rot).trans rot).trans rot)
  have e5 := e rev
  have e6 := e (rot.trans rev)
  have e7 := e ((rot.trans rot).trans rev)
  have e8 := e (((rot.trans rot).trans rot).trans rev)
  have e9 := e ((((rot.trans rot).trans rot).trans rot).trans rev)
  simp only [Equiv.trans_apply] at e1 e2 e3 e4 e5 e6 e7 e8 e9
  rw [← e1, ← e2, ← e3, ← e4, ← e5, ← e6, ← e7, ← e8, ← e9]
  show 10 * ∑ t, f t = _
  ring

theorem IsCycle.rot {adj : Nat → Nat → Prop} {a b c d e : Nat} : IsCycle adj b c d e a ↔ IsCycle adj a b c d e := by
  unfold IsCycle
  constructor
  · rintro ⟨⟨h1, h2, h3, h4, h5⟩, ⟨a1, a2, a3, a4⟩, ⟨b1, b2, b3⟩, ⟨c1, c2⟩, d1⟩
    exact ⟨⟨h5, h1, h2, h3, h4⟩, ⟨a4.symm, b3.symm, c2.symm, d1.symm⟩, ⟨a1, a2, a3⟩, ⟨b1, b2⟩, c1⟩
  · rintro ⟨⟨h1, h2, h3, h4, h5⟩, ⟨a1, a2, a3, a4⟩, ⟨b1, b2, b3⟩, ⟨c1, c2⟩, d1⟩
    exact ⟨⟨h2, h3, h4, h5, h1⟩, ⟨b1, b2, b3, a1.symm⟩, ⟨c1, c2, a2.symm⟩, ⟨d1, a3.symm⟩, a4.symm⟩

theorem IsCycle.rev {adj : Nat → Nat → Prop} (hs : ∀ a b, adj a b → adj b a) {a b c d e : Nat} : IsCycle adj a e d c b ↔ IsCycle adj a b c d e := by
  have aux : ∀ {a b c d e : Nat}, IsCycle adj a b c d e → IsCycle adj a e d c b := by
    rintro a b c d e ⟨⟨h1, h2, h3, h4, h5⟩, ⟨a1, a2, a3, a4⟩, ⟨b1, b2, b3⟩, ⟨c1, c2⟩, d1⟩
    exact ⟨⟨hs _ _ h5, hs _ _ h4, hs _ _ h3, hs _ _ h2, hs _ _ h1⟩, ⟨a4, a3, a2, a1⟩, ⟨d1.symm, c2.symm, b3.symm⟩, ⟨c1.symm, b2.symm⟩, b1.symm⟩
  exact ⟨aux, aux⟩

theorem one_min {a b c d e : Nat} (hab : a ≠ b) (hac : a ≠ c) (had : a ≠ d) (hae : a ≠ e) (hbc : b ≠ c) (hbd : b ≠ d) (hbe : b ≠ e) (hcd : c ≠ d) (hce : c ≠ e) (hde : d ≠ e) :
    (if a < b ∧ a < c ∧ a < d ∧ a < e then 1 else 0) + (if b < c ∧ b < d ∧ b < e ∧ b < a then 1 else 0) + (if c < d ∧ c < e ∧ c < a ∧ c < b then 1 else 0) +
      (if d < e ∧ d < a ∧ d < b ∧ d < c then 1 else 0) + (if e < a ∧ e < b ∧ e < c ∧ e < d then 1 else 0) = 1 := by
  have key : (a < b ∧ a < c ∧ a < d ∧ a < e) ∨ (b < c ∧ b < d ∧ b < e ∧ b < a) ∨ (c < d ∧ c < e ∧ c < a ∧ c < b) ∨ (d < e ∧ d < a ∧ d < b ∧ d < c) ∨ (e < a ∧ e < b ∧ e < c ∧ e < d) := by
    rcases Nat.lt_or_gt_of_ne hab with h1 | h1
    · rcases Nat.lt_or_gt_of_ne hac with h2 | h2
      · rcases Nat.lt_or_gt_of_ne had with h3 | h3
        · rcases Nat.lt_or_gt_of_ne hae with h4 | h4
          · exact .inl ⟨h1, h2, h3, h4⟩
          · exact .inr (.inr (.inr (.inr ⟨h4, by omega, by omega, by omega⟩)))
        · rcases Nat.lt_or_gt_of_ne hde with h4 | h4
          · exact .inr (.inr (.inr (.inl ⟨h4, by omega, by omega, by omega⟩)))
          · exact .inr (.inr (.inr (.inr ⟨by omega, by omega, by omega, by omega⟩)))
      · rcases Nat.lt_or_gt_of_ne hcd with h3 | h3
        · rcases Nat.lt_or_gt_of_ne hce with h4 | h4
          · exact .inr (.inr (.inl ⟨h3, h4, h2, by omega⟩))
          · exact .inr (.inr (.inr (.inr ⟨by omega, by omega, by omega, by omega⟩)))
        · rcases Nat.lt_or_gt_of_ne hde with h4 | h4
          · exact .inr (.inr (.inr (.inl ⟨h4, by omega, by omega, by omega⟩)))
          · exact .inr (.inr (.inr (.inr ⟨by omega, by omega, by omega, by omega⟩)))
    · rcases Nat.lt_or_gt_of_ne hbc with h2 | h2
      · rcases Nat.lt_or_gt_of_ne hbd with h3 | h3
        · rcases Nat.lt_or_gt_of_ne hbe with h4 | h4
          · exact .inr (.inl ⟨h2, h3, h4, h1⟩)
          · exact .inr (.inr (.inr (.inr ⟨by omega, by omega, by omega, by omega⟩)))
        · rcases Nat.lt_or_gt_of_ne hde with h4 | h4
          · exact .inr (.inr (.inr (.inl ⟨h4, by omega, by omega, by omega⟩)))
          · exact .inr (.inr (.inr (.inr ⟨by omega, by omega, by omega, by omega⟩)))
      · rcases Nat.lt_or_gt_of_ne hcd with h3 | h3
        · rcases Nat.lt_or_gt_of_ne hce with h4 | h4
          · exact .inr (.inr (.inl ⟨h3, h4, by omega, h2⟩))
          · exact .inr (.inr (.inr (.inr ⟨by omega, by omega, by omega, by omega⟩)))
        · rcases Nat.lt_or_gt_of_ne hde with h4 | h4
          · exact .inr (.inr (.inr (.inl ⟨h4, by omega, by omega, by omega⟩)))
          · exact .inr (.inr (.inr (.inr ⟨by omega, by omega, by omega, by omega⟩)))
  have as : ∀ {x y : Nat}, x < y → ¬ y < x := fun h => Nat.lt_asymm h
  rcases key with ⟨h1, h2, h3, h4⟩ | ⟨h1, h2, h3, h4⟩ | ⟨h1, h2, h3, h4⟩ | ⟨h1, h2, h3, h4⟩ | ⟨h1, h2, h3, h4⟩ <;>
    simp only [h1, h2, h3, h4, as h1, as h2, as h3, as h4, and_true, true_and, and_false, false_and, and_self, if_true, if_false]

section
variable {adj : Nat → Nat → Prop} [∀ a b, Decidable (adj a b)]

/-- Kowalik's choice: the first vertex is the least one, and the third one has a lower rank than the fourth one. -/
theorem kowalik_unique (hs : ∀ a b, adj a b → adj b a) (n : Nat) (r : Nat → Nat) (hr : ∀ a b, adj a b → r a ≠ r b) :
    10 * ∑ t : Tup n, (if IsCycle adj t.1 t.2.1 t.2.2.1 t.2.2.2.1 t.2.2.2.2 ∧ (t.1 < t.2.1 ∧ t.1 < t.2.2.1 ∧ t.1 < t.2.2.2.1 ∧ t.1 < t.2.2.2.2) ∧
      r t.2.2.1 < r t.2.2.2.1 then 1 else 0) = tuples adj n := by
  refine ten_times (fun a b c d e => if IsCycle adj a b c d e ∧ (a < b ∧ a < c ∧ a < d ∧ a < e) ∧ r c < r d then 1 else 0) fun a b c d e => ?_
  have r1 : IsCycle adj b c d e a ↔ IsCycle adj a b c d e := IsCycle.rot
  have r2 : IsCycle adj c d e a b ↔ IsCycle adj a b c d e := IsCycle.rot.trans r1
  have r3 : IsCycle adj d e a b c ↔ IsCycle adj a b c d e := IsCycle.rot.trans r2
  have r4 : IsCycle adj e a b c d ↔ IsCycle adj a b c d e := IsCycle.rot.trans r3
  have s0 : IsCycle adj a e d c b ↔ IsCycle adj a b c d e := IsCycle.rev hs
  have s1 : IsCycle adj b a e d c ↔ IsCycle adj a b c d e := (IsCycle.rev hs).trans r1
  have s2 : IsCycle adj c b a e d ↔ IsCycle adj a b c d e := (IsCycle.rev hs).trans r2
  have s3 : IsCycle adj d c b a e ↔ IsCycle adj a b c d e := (IsCycle.rev hs).trans r3
  have s4 : IsCycle adj e d c b a ↔ IsCycle adj a b c d e := (IsCycle.rev hs).trans r4
  simp only [r1, r2, r3, r4, s0, s1, s2, s3, s4]
  by_cases hc : IsCycle adj a b c d e
  · simp only [hc, true_and, if_true]
    obtain ⟨⟨h1, h2, h3, h4, h5⟩, ⟨a1, a2, a3, a4⟩, ⟨b1, b2, b3⟩, ⟨c1, c2⟩, d1⟩ := hc
    have p1 := hr _ _ h1
    have p2 := hr _ _ h2
    have p3 := hr _ _ h3
    have p4 := hr _ _ h4
    have p5 := hr _ _ h5
    have pair : ∀ (P Q : Prop) [Decidable P] [Decidable Q] (x y : Nat), (P ↔ Q) → x ≠ y → (if P ∧ x < y then 1 else 0) + (if Q ∧ y < x then 1 else 0) = if P then 1 else 0 := by
      intro P Q _ _ x y h hne
      by_cases hp : P
      · have := h.1 hp
        rcases Nat.lt_or_gt_of_ne hne with h | h
        · simp [hp, this, h, Nat.le_of_lt h]
        · simp [hp, this, h, Nat.le_of_lt h]
      · simp [hp, mt h.2 hp]
    have q1 := pair (a < b ∧ a < c ∧ a < d ∧ a < e) (a < e ∧ a < d ∧ a < c ∧ a < b) (r c) (r d) ⟨fun ⟨x, y, z, w⟩ => ⟨w, z, y, x⟩, fun ⟨x, y, z, w⟩ => ⟨w, z, y, x⟩⟩ p3
    have q2 := pair (b < c ∧ b < d ∧ b < e ∧ b < a) (b < a ∧ b < e ∧ b < d ∧ b < c) (r d) (r e) ⟨fun ⟨x, y, z, w⟩ => ⟨w, z, y, x⟩, fun ⟨x, y, z, w⟩ => ⟨w, z, y, x⟩⟩ p4
    have q3 := pair (c < d ∧ c < e ∧ c < a ∧ c < b) (c < b ∧ c < a ∧ c < e ∧ c < d) (r e) (r a) ⟨fun ⟨x, y, z, w⟩ => ⟨w, z, y, x⟩, fun ⟨x, y, z, w⟩ => ⟨w, z, y, x⟩⟩ p5
    have q4 := pair (d < e ∧ d < a ∧ d < b ∧ d < c) (d < c ∧ d < b ∧ d < a ∧ d < e) (r a) (r b) ⟨fun ⟨x, y, z, w⟩ => ⟨w, z, y, x⟩, fun ⟨x, y, z, w⟩ => ⟨w, z, y, x⟩⟩ p1
    have q5 := pair (e < a ∧ e < b ∧ e < c ∧ e < d) (e < d ∧ e < c ∧ e < b ∧ e < a) (r b) (r c) ⟨fun ⟨x, y, z, w⟩ => ⟨w, z, y, x⟩, fun ⟨x, y, z, w⟩ => ⟨w, z, y, x⟩⟩ p2
    have tot := one_min a1 a2 a3 a4 b1 b2 b3 c1 c2 d1
    clear hr hs r1 r2 r3 r4 s0 s1 s2 s3 s4 p1 p2 p3 p4 p5 a1 a2 a3 a4 b1 b2 b3 c1 c2 d1
    omega
  · simp only [hc, false_and, if_false, Nat.add_zero]

/-- The choice of ESCAPE: the path from the third vertex over the second to the first ascends, the fourth is above the third, and the fifth is not
above both of its neighbours. -/
theorem escape_unique (hs : ∀ a b, adj a b → adj b a) (n : Nat) :
    10 * ∑ t : Tup n, (if IsCycle adj t.1 t.2.1 t.2.2.1 t.2.2.2.1 t.2.2.2.2 ∧ t.2.1 < t.1 ∧ t.2.2.1 < t.2.1 ∧ t.2.2.1 < t.2.2.2.1 ∧
      ¬ (t.1 < t.2.2.2.2 ∧ t.2.2.2.1 < t.2.2.2.2) then 1 else 0) = tuples adj n := by
  refine ten_times (fun a b c d e => if IsCycle adj a b c d e ∧ b < a ∧ c < b ∧ c < d ∧ ¬ (a < e ∧ d < e) then 1 else 0) fun a b c d e => ?_
  have r1 : IsCycle adj b c d e a ↔ IsCycle adj a b c d e := IsCycle.rot
  have r2 : IsCycle adj c d e a b ↔ IsCycle adj a b c d e := IsCycle.rot.trans r1
  have r3 : IsCycle adj d e a b c ↔ IsCycle adj a b c d e := IsCycle.rot.trans r2
  have r4 : IsCycle adj e a b c d ↔ IsCycle adj a b c d e := IsCycle.rot.trans r3
  have s0 : IsCycle adj a e d c b ↔ IsCycle adj a b c d e := IsCycle.rev hs
  have s1 : IsCycle adj b a e d c ↔ IsCycle adj a b c d e := (IsCycle.rev hs).trans r1
  have s2 : IsCycle adj c b a e d ↔ IsCycle adj a b c d e := (IsCycle.rev hs).trans r2
  have s3 : IsCycle adj d c b a e ↔ IsCycle adj a b c d e := (IsCycle.rev hs).trans r3
  have s4 : IsCycle adj e d c b a ↔ IsCycle adj a b c d e := (IsCycle.rev hs).trans r4
  simp only [r1, r2, r3, r4, s0, s1, s2, s3, s4]
  by_cases hc : IsCycle adj a b c d e
  · simp only [hc, true_and, if_true]
    obtain ⟨-, ⟨a1, a2, a3, a4⟩, ⟨b1, b2, b3⟩, ⟨c1, c2⟩, d1⟩ := hc
    have flip : ∀ x y : Nat, x ≠ y → ((y < x) ↔ ¬ (x < y)) := by intro x y h; omega
    have hcyc : ¬ (a < b ∧ b < c ∧ c < d ∧ d < e ∧ e < a) := by omega
    have hcyc' : ¬ (¬ a < b ∧ ¬ b < c ∧ ¬ c < d ∧ ¬ d < e ∧ ¬ e < a) := by omega
    have f1 := flip a b a1
    have f2 := flip b c b1
    have f3 := flip c d c1
    have f4 := flip d e d1
    have f5 := flip e a a4.symm
    clear r1 r2 r3 r4 s0 s1 s2 s3 s4 flip
    by_cases p1 : a < b <;> by_cases p2 : b < c <;> by_cases p3 : c < d <;> by_cases p4 : d < e <;> by_cases p5 : e < a <;>
      try simp only [f1, f2, f3, f4, f5, p1, p2, p3, p4, p5, not_true_eq_false, not_false_eq_true, and_true, true_and, and_false, false_and, and_self, if_true, if_false, Nat.add_zero, Nat.zero_add]
    · exact absurd ⟨p1, p2, p3, p4, p5⟩ hcyc
    · exact absurd ⟨p1, p2, p3, p4, p5⟩ hcyc'
  · simp only [hc, false_and, if_false, Nat.add_zero]

end

end Gbbs.Cyc
