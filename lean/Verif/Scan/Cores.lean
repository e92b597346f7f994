/-
C107: the union-find phase on the cores, in an array that holds `kUnclustered` elsewhere.

For the union-find results the other vertices hang below the (non-existing) vertex `kUnclustered`, as if sampled.
-/
import Verif.Scan.Index

namespace Gbbs.Scan

open UF Conc Conc.Prog Relation
open Atomics (Steps)

set_option linter.unusedSectionVars false

/-- The array before the calls: `C` are the cores. -/
structure Pre (n : Nat) (C : Nat → Prop) (P0 : Nat → Nat) : Prop where
  fits : n ≤ uMax
  lt : ∀ x, C x → x < n
  out : ∀ x, n ≤ x → P0 x = x
  non : ∀ x, x < n → ¬ C x → P0 x = uMax
  core : ∀ x, C x → C (P0 x)
  flat : ∀ x, C x → P0 (P0 x) = P0 x
  le : ∀ x, C x → P0 x ≤ x

/-- Connected by the calls, or before. -/
def Joined (C : Nat → Prop) (P0 : Nat → Nat) (calls : List (Nat × Nat)) : Nat → Nat → Prop :=
  EqvGen fun a b => (a, b) ∈ calls ∨ C a ∧ b = P0 a

section
variable {n : Nat} {C : Nat → Prop} {P0 : Nat → Nat}

theorem Pre.flat' (h : Pre n C P0) (x : Nat) : P0 (P0 x) = P0 x := by
  by_cases hx : n ≤ x
  · rw [h.out x hx, h.out x hx]
  · by_cases hc : C x
    · exact h.flat x hc
    · rw [h.non x (by omega) hc, h.out _ h.fits]

/-- The three kinds of vertices that the calls keep apart. -/
theorem kinds (h : Pre n C P0) {calls : List (Nat × Nat)} (hcalls : ∀ e ∈ calls, C e.1 ∧ C e.2) {κ : Type} {g : Gh κ} {call : κ → Nat × Nat}
    (hcall : ∀ k, call k ∈ calls ∨ ∃ x, P0 x ≠ x ∧ call k = (x, P0 x)) {x y : Nat} (hxy : EqvGen (Rec call g) x y) :
    (C x ↔ C y) ∧ (¬ C x ∧ (x < n ∨ x = uMax) ↔ ¬ C y ∧ (y < n ∨ y = uMax)) := by
  have hu : ¬ C uMax := fun hc => absurd (h.lt _ hc) (Nat.not_lt_of_le h.fits)
  refine eqvGen_le (s := fun x y => (C x ↔ C y) ∧ (¬ C x ∧ (x < n ∨ x = uMax) ↔ ¬ C y ∧ (y < n ∨ y = uMax)))
    ⟨fun _ => ⟨Iff.rfl, Iff.rfl⟩, fun h => ⟨h.1.symm, h.2.symm⟩, fun h1 h2 => ⟨h1.1.trans h2.1, h1.2.trans h2.2⟩⟩ ?_ hxy
  rintro a b ⟨_, k, -, hk⟩
  rcases hcall k with h1 | ⟨z, h1, h2⟩
  · rw [hk] at h1
    have h2 := hcalls _ h1
    dsimp only at h2
    simp [h2.1, h2.2]
  · rw [hk] at h2
    cases h2
    have hz : a < n := Nat.lt_of_not_le fun hle => h1 (h.out _ hle)
    by_cases hc : C a
    · simp [hc, h.core a hc]
    · rw [h.non a hz hc]
      simp [hc, hu, hz]

end

/-- The arrays that the two loops can leave. -/
theorem unites_spec {n : Nat} {C : Nat → Prop} {P0 : Nat → Nat} (h : Pre n C P0) {calls : List (Nat × Nat)} (hcalls : ∀ e ∈ calls, C e.1 ∧ C e.2)
    {cores : List Nat} (hcores : ∀ x, x ∈ cores ↔ C x) {lab : Nat → Nat} (hr : Unites P0 calls cores lab) :
    (∀ x, x < n → ¬ C x → lab x = uMax) ∧
      ∀ x, C x → C (lab x) ∧ Joined C P0 calls x (lab x) ∧ ∀ y, C y → Joined C P0 calls x y → lab x ≤ y := by
  obtain ⟨f, f', fg, c1, c2, h1, hd1, h2, hd2, rfl⟩ := hr
  let call : Fin calls.length → Nat × Nat := fun i => calls[i]
  let o := ordS P0 fun _ => True
  have hi0 : UInv o (callS call P0) .cas 0 (gS P0) (memS P0 0) := by
    refine invS_of (fun x hx => ?_) h.flat' (fun _ _ => trivial) (fun _ => ⟨trivial, trivial⟩) fun h => by cases h
    show (if P0 (P0 x) = P0 x then 2 * P0 x else 2 * P0 (P0 x) + 1) < (if P0 x = x then 2 * x else 2 * P0 x + 1)
    rw [if_pos (h.flat' x), if_neg hx]; omega
  obtain ⟨g, hi, -, hp⟩ := safe_reach (rg o (callS call P0) .cas 0) (CPost (callS call P0)) (steps_lift P0 h1) (gS P0) hi0 (fun i => by
    cases i with
    | inl i => exact (IsCon.rep (.unite (.compress (f' i)) (f i))).safe (i := i) (fun h => by cases h) (fun _ => ⟨trivial, trivial⟩)
    | inr x => exact (postS x).weaken fun _ _ h => h.1)
  have hsame : ∀ i, SameRoot (par c1.mem) (callS call P0 i).1 (callS call P0 i).2 := fun i => by
    cases i with
    | inl i =>
      obtain ⟨a, ha⟩ := hd1 i
      exact sameRoot_of_same hi (hp (.inl i) a ha)
    | inr x => exact sameRoot_of_same hi (hp (.inr x) (some x.1) rfl)
  have hi : UInv o (callS call P0) .cas 0 g c1.mem := hi
  have heqv := sameRoot_equiv hi
  have hcallS : ∀ k, callS call P0 k ∈ calls ∨ ∃ x, P0 x ≠ x ∧ callS call P0 k = (x, P0 x) := fun k => by
    cases k with
    | inl i => exact .inl (List.getElem_mem _)
    | inr x => exact .inr ⟨x.1, x.2, rfl⟩
  have hkind : ∀ {x y}, SameRoot (par c1.mem) x y → (C x ↔ C y) ∧ (¬ C x ∧ (x < n ∨ x = uMax) ↔ ¬ C y ∧ (y < n ∨ y = uMax)) := fun hxy =>
    kinds h hcalls hcallS (sameRoot_rec hi hxy)
  -- the classes of the cores
  have hconn : ∀ x y, C x → (SameRoot (par c1.mem) x y ↔ Joined C P0 calls x y) := by
    intro x y hx
    constructor
    · intro hxy
      have hrec := sameRoot_rec hi hxy
      have : C x → C y ∧ Joined C P0 calls x y := by
        have hmain : (C x ↔ C y) ∧ (C x → Joined C P0 calls x y) := by
          refine eqvGen_le (s := fun x y => (C x ↔ C y) ∧ (C x → Joined C P0 calls x y)) ⟨fun _ => ⟨Iff.rfl, fun _ => .refl _⟩,
            fun h => ⟨h.1.symm, fun hy => (h.2 (h.1.2 hy)).symm⟩, fun h1 h2 => ⟨h1.1.trans h2.1, fun hx => (h1.2 hx).trans _ _ _ (h2.2 (h1.1.1 hx))⟩⟩ ?_ hrec
          rintro a b ⟨z, k, hz, hk⟩
          refine ⟨(kinds h hcalls hcallS (g := g) (.rel _ _ ⟨z, k, hz, hk⟩)).1, fun ha => ?_⟩
          rcases hcallS k with h3 | ⟨w, h3, h4⟩
          · rw [hk] at h3; exact .rel _ _ (.inl h3)
          · rw [hk] at h4; cases h4; exact .rel _ _ (.inr ⟨ha, rfl⟩)
        exact fun hx => ⟨hmain.1.1 hx, hmain.2 hx⟩
      exact (this hx).2
    · intro hxy
      refine eqvGen_le heqv ?_ hxy
      rintro a b (hab | ⟨ha, rfl⟩)
      · obtain ⟨i, hi', he⟩ := List.mem_iff_getElem.1 hab
        have := hsame (.inl ⟨i, hi'⟩)
        have e : callS call P0 (.inl ⟨i, hi'⟩) = (a, b) := he
        rw [e] at this; exact this
      · by_cases hz : P0 a = a
        · rw [hz]; exact heqv.refl a
        · exact hsame (.inr ⟨a, hz⟩)
  -- the last loop
  choose rt hrt using exists_root hi
  have hstep : ∀ x, RootOf (par c1.mem) x (rt (par c1.mem x)) := fun x => by
    obtain ⟨h1, k, h2⟩ := hrt (par c1.mem x)
    exact ⟨h1, k + 1, h2⟩
  have heq : ∀ x, rt (par c1.mem x) = rt x := fun x => rootOf_unique (hstep x) (hrt x)
  have hanc : ∀ x, Anc g x (rt x) := fun x => ((rootOf_iff hi).1 (hrt x)).1
  have hle : ∀ {a b : Nat}, Anc g a b → o.le b a := fun h => anc_lt hi.lt h
  have hF : Fr o rt (par c1.mem) := by
    refine ⟨heq, fun x => ?_, fun x => hle (hi.anc x), fun x => hi.par_cn x, fun x hx => rootOf_unique (hrt x) ⟨hx, 0, rfl⟩⟩
    rw [← heq x]
    exact hle (hanc _)
  have hid : ∀ x, rt (rt x) = rt x := fun x => rootOf_unique (hrt (rt x)) ⟨(hrt x).1, 0, rfl⟩
  have hrc : ∀ x, o.cn (rt x) := fun x => by
    have h := hi.par_cn (rt x)
    have h' : c1.mem (.par (rt x)) = rt x := (hrt x).1
    rwa [h'] at h
  obtain ⟨v, hv, -, hpv⟩ := safe_reach (rgF (Fin cores.length) o rt) (fun i v _ => o.le (v cores[i]) (rt cores[i])) h2 (par c1.mem) ⟨fun _ => rfl, hF⟩
    (fun i => by
      refine (fr_find hid hrc (.compress (fg i)) _ _).bind fun r g' hr' => ?_
      refine fr_write hid hrc hr' fun v _ he => ?_
      intro v' hv'
      exact Ord.le_trans (hv' cores[i]) (by rw [he, hr']; exact o.le_refl _))
  have hsr : ∀ x, SameRoot (par c1.mem) x (rt x) := fun x => ⟨rt x, hrt x, (hrt x).1, 0, rfl⟩
  have hval : ∀ x, par c2.mem x = v x := hv.1
  refine ⟨fun x hx hc => ?_, fun x hx => ?_⟩
  · rw [hval]
    have h3 : SameRoot (par c1.mem) x (v x) := by
      refine heqv.trans (hsr x) ?_
      rw [← hv.2.rt_eq x]
      exact heqv.symm (hsr _)
    have h4 := ((hkind h3).2.1 ⟨hc, .inl hx⟩)
    have h5 : P0 (v x) = v x := hv.2.cen x
    rcases h4.2 with h6 | h6
    · rw [← h5, h.non _ h6 h4.1]
    · exact h6
  · have hlabx : par c2.mem x = rt x := by
      rw [hval]
      obtain ⟨i, hi', he⟩ := List.mem_iff_getElem.1 ((hcores x).2 hx)
      have h3 : o.le (v x) (rt x) := by
        have := hpv ⟨i, hi'⟩ () (hd2 ⟨i, hi'⟩)
        rw [← he]; exact this
      rcases h3 with h3 | h3
      · exact h3
      · rcases hv.2.ge x with h4 | h4
        · exact h4.symm
        · omega
    rw [hlabx]
    refine ⟨(hkind (hsr x)).1.1 hx, (hconn _ _ hx).1 (hsr x), fun y hy hxy => ?_⟩
    have h3 := (hconn _ _ hx).2 hxy
    have h4 : rt y = rt x := rootOf_unique (hrt y) (by
      obtain ⟨r, h5, h6⟩ := h3
      rw [rootOf_unique (hrt x) h5]; exact h6)
    have h5 : o.le (rt x) y := h4 ▸ hle (hanc y)
    rcases h5 with h5 | h5
    · omega
    · have h6 : (if P0 (rt x) = rt x then 2 * rt x else 2 * P0 (rt x) + 1) < (if P0 y = y then 2 * y else 2 * P0 y + 1) := h5
      have h7 : P0 (rt x) = rt x := hrc x
      rw [if_pos h7] at h6
      have h8 := h.le y hy
      split at h6 <;> omega

end Gbbs.Scan
