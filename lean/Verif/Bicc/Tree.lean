/-
C105: biconnected components from a breadth-first tree (the argument behind `benchmarks/Biconnectivity/TarjanVishkin`).
-/
import Mathlib.Logic.Relation
import Mathlib.Logic.Function.Iterate
import Mathlib.Tactic.ByContra
import Mathlib.Tactic.Push
import Mathlib.Data.Nat.Find

namespace Gbbs.Bicc

open Relation

/-! ### Specification -/

/-- `x` and `y` are connected by a path that avoids the vertex `w`. -/
def Avoid (E : Nat → Nat → Prop) (w x y : Nat) : Prop := x ≠ w ∧ y ≠ w ∧ ReflTransGen (fun a b => E a b ∧ a ≠ w ∧ b ≠ w) x y

/-- Two edges are in the same biconnected component: no vertex separates them. -/
def SameBlock (E : Nat → Nat → Prop) (e f : Nat × Nat) : Prop :=
  ∀ w, ∃ x y, (x = e.1 ∨ x = e.2) ∧ (y = f.1 ∨ y = f.2) ∧ Avoid E w x y

/-! ### Trees -/

/-- `a` is `x` or above `x`. -/
def Anc (par : Nat → Nat) (a x : Nat) : Prop := ∃ k, par^[k] x = a

/-- A breadth-first forest: a tree for every component, edges join vertices of the same or of adjacent depths. -/
structure BfsTree (E : Nat → Nat → Prop) (par dp : Nat → Nat) : Prop where
  sym : ∀ u v, E u v → E v u
  root : ∀ v, dp v = 0 → par v = v
  step : ∀ v, dp v ≠ 0 → E (par v) v ∧ dp (par v) + 1 = dp v
  near : ∀ u v, E u v → dp v ≤ dp u + 1
  one : ∀ u v, dp u = 0 → dp v = 0 → EqvGen E u v → u = v

/-- The tree edge from `i` to its parent is critical: all other edges from the subtree of `i` stay in the subtree of the parent. -/
def Crit (E : Nat → Nat → Prop) (par : Nat → Nat) (i : Nat) : Prop :=
  ∀ x y, Anc par i x → E x y → par x ≠ y → par y ≠ x → Anc par (par i) y

/-- The graph without the critical edges. -/
def H (E : Nat → Nat → Prop) (par : Nat → Nat) (u v : Nat) : Prop :=
  E u v ∧ ¬ (par u = v ∧ u ≠ v ∧ Crit E par u) ∧ ¬ (par v = u ∧ u ≠ v ∧ Crit E par v)

/-- The vertex whose label is that of the edge. -/
def rep (par : Nat → Nat) (e : Nat × Nat) : Nat := if par e.1 = e.2 then e.1 else e.2

variable {E : Nat → Nat → Prop} {par dp : Nat → Nat}

theorem Anc.refl (x : Nat) : Anc par x x := ⟨0, rfl⟩

theorem Anc.one (x : Nat) : Anc par (par x) x := ⟨1, rfl⟩

theorem Anc.trans {a b c : Nat} (h1 : Anc par a b) (h2 : Anc par b c) : Anc par a c := by
  obtain ⟨j, rfl⟩ := h1
  obtain ⟨k, rfl⟩ := h2
  exact ⟨j + k, Function.iterate_add_apply _ _ _ _⟩

theorem Anc.up {a x : Nat} (h : Anc par a x) (hne : a ≠ x) : Anc par a (par x) := by
  obtain ⟨k, rfl⟩ := h
  cases k with
  | zero => exact absurd rfl hne
  | succ k => exact ⟨k, (Function.iterate_succ_apply _ _ _).symm⟩

namespace BfsTree

variable (T : BfsTree E par dp)
include T

theorem dp_par (x : Nat) : dp (par x) = dp x - 1 := by
  by_cases h : dp x = 0
  · rw [T.root x h, h]
  · have := (T.step x h).2; omega

theorem dp_iter (k x : Nat) : dp (par^[k] x) = dp x - k := by
  induction k with
  | zero => rfl
  | succ k ih => rw [Function.iterate_succ_apply', T.dp_par, ih]; omega

theorem dp_le {a x : Nat} (h : Anc par a x) : dp a ≤ dp x := by
  obtain ⟨k, rfl⟩ := h
  rw [T.dp_iter]; omega

theorem iter_root {x : Nat} (h : dp x = 0) (k : Nat) : par^[k] x = x := by
  induction k with
  | zero => rfl
  | succ k ih => rw [Function.iterate_succ_apply', ih, T.root x h]

/-- Ancestors of a vertex are on one line. -/
theorem anc_line {a b x : Nat} (h1 : Anc par a x) (h2 : Anc par b x) (hd : dp a ≤ dp b) : Anc par a b := by
  obtain ⟨j, rfl⟩ := h1
  obtain ⟨k, rfl⟩ := h2
  by_cases hjk : k ≤ j
  · exact ⟨j - k, by rw [← Function.iterate_add_apply]; congr 1; omega⟩
  · rw [T.dp_iter, T.dp_iter] at hd
    have h0 : dp (par^[j] x) = 0 := by rw [T.dp_iter]; omega
    refine ⟨0, ?_⟩
    have : k = (k - j) + j := by omega
    show par^[k] x = par^[j] x
    rw [this, Function.iterate_add_apply, T.iter_root h0]

theorem anc_eq {a x : Nat} (h : Anc par a x) (hd : dp x ≤ dp a) : a = x := by
  obtain ⟨k, rfl⟩ := h
  rw [T.dp_iter] at hd
  by_cases h0 : dp x = 0
  · exact T.iter_root h0 k
  · have : k = 0 := by omega
    subst this; rfl

theorem par_ne {x : Nat} (h : dp x ≠ 0) : par x ≠ x := fun hc => by
  have := (T.step x h).2; rw [hc] at this; omega

theorem conn {a x : Nat} (h : Anc par a x) : EqvGen E x a := by
  obtain ⟨k, rfl⟩ := h
  induction k with
  | zero => exact EqvGen.refl _
  | succ k ih =>
    rw [Function.iterate_succ_apply']
    refine ih.trans _ _ _ ?_
    by_cases h : dp (par^[k] x) = 0
    · rw [T.root _ h]; exact EqvGen.refl _
    · exact (EqvGen.rel _ _ (T.step _ h).1).symm

theorem has_root (x : Nat) : ∃ r, dp r = 0 ∧ Anc par r x := ⟨par^[dp x] x, by rw [T.dp_iter]; omega, _, rfl⟩

/-! ### Paths that avoid a vertex -/

omit T in
theorem avoid_symm (hs : ∀ u v, E u v → E v u) {w x y : Nat} (h : Avoid E w x y) : Avoid E w y x := by
  obtain ⟨h1, h2, h3⟩ := h
  refine ⟨h2, h1, ?_⟩
  induction h3 with
  | refl => exact ReflTransGen.refl
  | tail _ h ih => exact ReflTransGen.head ⟨hs _ _ h.1, h.2.2, h.2.1⟩ (ih h.2.1)

omit T in
theorem avoid_trans {w x y z : Nat} (h1 : Avoid E w x y) (h2 : Avoid E w y z) : Avoid E w x z := ⟨h1.1, h2.2.1, h1.2.2.trans h2.2.2⟩

theorem avoid_up {w x r : Nat} (h : Anc par r x) (hw : ¬ Anc par w x) : Avoid E w x r := by
  obtain ⟨k, rfl⟩ := h
  refine ⟨fun hc => hw (hc ▸ Anc.refl _), fun hc => hw ⟨k, hc⟩, ?_⟩
  induction k with
  | zero => exact ReflTransGen.refl
  | succ k ih =>
    by_cases h : dp (par^[k] x) = 0
    · rw [Function.iterate_succ_apply', T.root _ h]; exact ih
    · refine ih.tail ?_
      rw [Function.iterate_succ_apply']
      exact ⟨T.sym _ _ (T.step _ h).1, fun hc => hw ⟨k, hc⟩, fun hc => hw ⟨k + 1, by rw [Function.iterate_succ_apply']; exact hc⟩⟩

/-- Two vertices of a component that are not below `w` are connected without it. -/
theorem avoid_root {w x y : Nat} (hx : ¬ Anc par w x) (hy : ¬ Anc par w y) (h : EqvGen E x y) : Avoid E w x y := by
  obtain ⟨r, h1, h2⟩ := T.has_root x
  obtain ⟨r', h3, h4⟩ := T.has_root y
  have : r = r' := T.one _ _ h1 h3 (((T.conn h2).symm.trans _ _ _ h).trans _ _ _ (T.conn h4))
  subst this
  exact avoid_trans (T.avoid_up h2 hx) (avoid_symm T.sym (T.avoid_up h4 hy))

theorem not_anc_par {x : Nat} (h : dp x ≠ 0) : ¬ Anc par x (par x) := fun hc => by
  have := T.dp_le hc; have := (T.step x h).2; omega

/-- A chain upwards within the subtree of `a` avoids what is not in it. -/
theorem avoid_chain {w a x : Nat} (h : Anc par a x) (hw : ∀ z, Anc par a z → Anc par z x → z ≠ w) : Avoid E w x a := by
  obtain ⟨k, rfl⟩ := h
  refine ⟨hw _ ⟨k, rfl⟩ (Anc.refl _), hw _ (Anc.refl _) ⟨k, rfl⟩, ?_⟩
  have : ∀ j, j ≤ k → ReflTransGen (fun a b => E a b ∧ a ≠ w ∧ b ≠ w) x (par^[j] x) := by
    intro j
    induction j with
    | zero => exact fun _ => ReflTransGen.refl
    | succ j ih =>
      intro hj
      have hn : ∀ i, i ≤ k → par^[i] x ≠ w := fun i hi => hw _ ⟨k - i, by rw [← Function.iterate_add_apply]; congr 1; omega⟩ ⟨i, rfl⟩
      by_cases h : dp (par^[j] x) = 0
      · rw [Function.iterate_succ_apply', T.root _ h]; exact ih (by omega)
      · refine (ih (by omega)).tail ⟨?_, hn _ (by omega), hn _ hj⟩
        rw [Function.iterate_succ_apply']
        exact T.sym _ _ (T.step _ h).1
  exact this k (Nat.le_refl _)

/-- Edges outside the tree join vertices of which neither is above the other. -/
theorem unrelated {u v : Nat} (h : E u v) (h1 : par u ≠ v) (h2 : par v ≠ u) (hne : u ≠ v) : ¬ Anc par u v := fun hc => by
  have := T.near u v h
  have h3 := T.dp_le hc
  by_cases he : dp v = dp u
  · exact hne (T.anc_eq hc (Nat.le_of_eq he))
  · refine h2 (T.anc_eq (hc.up hne) ?_).symm
    rw [T.dp_par]; omega

/-! ### `SameBlock` -/

omit T in
theorem sb_symm (hs : ∀ u v, E u v → E v u) {e f : Nat × Nat} (h : SameBlock E e f) : SameBlock E f e := fun w => by
  obtain ⟨x, y, h1, h2, h3⟩ := h w
  exact ⟨y, x, h2, h1, avoid_symm hs h3⟩

omit T in
theorem sb_trans (hs : ∀ u v, E u v → E v u) {e f g : Nat × Nat} (hf : E f.1 f.2) (h1 : SameBlock E e f) (h2 : SameBlock E f g) : SameBlock E e g := fun w => by
  obtain ⟨x, y, h1, h2f, h3⟩ := h1 w
  obtain ⟨y', z, h4, h5, h6⟩ := h2 w
  refine ⟨x, z, h1, h5, avoid_trans (avoid_trans h3 ?_) h6⟩
  have hy := h3.2.1
  have hy' := h6.1
  refine ⟨hy, hy', ?_⟩
  rcases h2f with rfl | rfl <;> rcases h4 with rfl | rfl
  · exact ReflTransGen.refl
  · exact ReflTransGen.single ⟨hf, hy, hy'⟩
  · exact ReflTransGen.single ⟨hs _ _ hf, hy, hy'⟩
  · exact ReflTransGen.refl

omit T in
theorem sb_refl {e : Nat × Nat} (hne : e.1 ≠ e.2) : SameBlock E e e := fun w => by
  by_cases h : e.1 = w
  · exact ⟨e.2, e.2, Or.inr rfl, Or.inr rfl, fun hc => hne (h.trans hc.symm), fun hc => hne (h.trans hc.symm), ReflTransGen.refl⟩
  · exact ⟨e.1, e.1, Or.inl rfl, Or.inl rfl, h, h, ReflTransGen.refl⟩

/-! ### Edges that are not critical keep the component -/

theorem h_root {u v : Nat} (h : H E par u v) (h0 : dp u = 0) : u = v := by
  by_contra hne
  have hE := h.1
  have hn := T.near u v hE
  have hv : dp v ≠ 0 := fun hc => hne (T.one _ _ h0 hc (EqvGen.rel _ _ hE))
  have hv1 : dp (par v) = 0 := by rw [T.dp_par]; omega
  have hpv : par v = u := T.one _ _ hv1 h0 (((EqvGen.rel _ _ (T.step v hv).1)).trans _ _ _ (EqvGen.rel _ _ (T.sym _ _ hE)))
  refine h.2.2 ⟨hpv, hne, fun x y hx hxy _ _ => ?_⟩
  obtain ⟨r, h1, h2⟩ := T.has_root y
  have : r = u := T.one _ _ h1 h0 ((((T.conn h2).symm.trans _ _ _ (EqvGen.rel _ _ (T.sym _ _ hxy))).trans _ _ _ (T.conn hx)).trans _ _ _
    (EqvGen.rel _ _ (T.sym _ _ hE)))
  rw [hpv, ← this]; exact h2

omit T in
theorem h_symm (hs : ∀ u v, E u v → E v u) {u v : Nat} (h : H E par u v) : H E par v u :=
  ⟨hs _ _ h.1, fun hc => h.2.2 ⟨hc.1, hc.2.1.symm, hc.2.2⟩, fun hc => h.2.1 ⟨hc.1, hc.2.1.symm, hc.2.2⟩⟩

theorem eqv_root {u v : Nat} (h : EqvGen (H E par) u v) : dp u = 0 ∨ dp v = 0 → u = v := by
  induction h with
  | rel x y h => exact fun h0 => h0.elim (T.h_root h) fun h0 => (T.h_root (h_symm T.sym h) h0).symm
  | refl x => exact fun _ => rfl
  | symm x y _ ih => exact fun h0 => (ih h0.symm).symm
  | trans x y z _ _ ih1 ih2 =>
    rintro (h0 | h0)
    · have := ih1 (Or.inl h0); subst this; exact ih2 (Or.inl h0)
    · have := ih2 (Or.inr h0); subst this; exact ih1 (Or.inr h0)

theorem up_block {u v : Nat} (hu : dp u ≠ 0) (hv : dp v ≠ 0) (hp : par u = v) (hc : ¬ Crit E par u) : SameBlock E (u, par u) (v, par v) := fun w => by
  subst hp
  by_cases hw : w = par u
  · subst hw
    rw [Crit] at hc
    push Not at hc
    obtain ⟨x, y, h1, h2, h3, h4, h5⟩ := hc
    have hxu : Avoid E (par u) x u := T.avoid_chain h1 fun z hz _ he => by
      have := T.dp_le hz
      have := (T.step u hu).2
      rw [he] at *; omega
    have hy : Avoid E (par u) y (par (par u)) := by
      refine T.avoid_root h5 (T.not_anc_par hv) ?_
      exact ((EqvGen.rel _ _ (T.sym _ _ h2)).trans _ _ _ (T.conn h1)).trans _ _ _ ((T.conn (Anc.one u)).trans _ _ _ (T.conn (Anc.one (par u))))
    exact ⟨u, par (par u), Or.inl rfl, Or.inr rfl, avoid_trans (avoid_symm T.sym hxu) (avoid_trans ⟨hxu.1, hy.1, ReflTransGen.single ⟨h2, hxu.1, hy.1⟩⟩ hy)⟩
  · exact ⟨par u, par u, Or.inr rfl, Or.inl rfl, fun h => hw h.symm, fun h => hw h.symm, ReflTransGen.refl⟩

/-- An edge outside the tree is in the component of the tree edges above its ends. -/
theorem cross_block {u v : Nat} (hv : dp v ≠ 0) (h : E u v) (hne : u ≠ v) (h1 : par u ≠ v) (h2 : par v ≠ u) : SameBlock E (u, v) (v, par v) := fun w => by
  by_cases hw : v = w
  · subst hw
    refine ⟨u, par v, Or.inl rfl, Or.inr rfl, T.avoid_root (T.unrelated (T.sym _ _ h) h2 h1 hne.symm) (T.not_anc_par hv) ?_⟩
    exact (EqvGen.rel _ _ h).trans _ _ _ (T.conn (Anc.one v))
  · exact ⟨v, v, Or.inr rfl, Or.inl rfl, hw, hw, ReflTransGen.refl⟩

theorem h_block {u v : Nat} (hu : dp u ≠ 0) (h : H E par u v) : SameBlock E (u, par u) (v, par v) := by
  have hv : dp v ≠ 0 := fun hc => hu (by rw [(T.h_root (h_symm T.sym h) hc).symm]; exact hc)
  have tE : ∀ x, dp x ≠ 0 → E x (par x) := fun x hx => T.sym _ _ (T.step x hx).1
  by_cases hne : u = v
  · subst hne; exact sb_refl (T.par_ne hu).symm
  by_cases h1 : par u = v
  · exact T.up_block hu hv h1 fun hc => h.2.1 ⟨h1, hne, hc⟩
  by_cases h2 : par v = u
  · exact sb_symm T.sym (T.up_block hv hu h2 fun hc => h.2.2 ⟨h2, hne, hc⟩)
  · have a1 := T.cross_block hv h.1 hne h1 h2
    have a2 := T.cross_block hu (T.sym _ _ h.1) (Ne.symm hne) h2 h1
    refine sb_trans T.sym (f := (v, u)) (T.sym _ _ h.1) (sb_symm T.sym a2) fun w => ?_
    obtain ⟨x, y, h3, h4, h5⟩ := a1 w
    exact ⟨x, y, h3.symm, h4, h5⟩

theorem eqv_block {u v : Nat} (h : EqvGen (H E par) u v) : dp u ≠ 0 → SameBlock E (u, par u) (v, par v) := by
  induction h with
  | rel x y h => exact fun hx => T.h_block hx h
  | refl x => exact fun hx => sb_refl (T.par_ne hx).symm
  | symm x y h ih =>
    intro hy
    refine sb_symm T.sym (ih fun hc => hy ?_)
    have := T.eqv_root h (Or.inl hc)
    rw [← this]; exact hc
  | trans x y z h1 _ ih1 ih2 =>
    intro hx
    have hy : dp y ≠ 0 := fun hc => hx (by rw [T.eqv_root h1 (Or.inr hc)]; exact hc)
    exact sb_trans T.sym (f := (y, par y)) (T.sym _ _ (T.step y hy).1) (ih1 hx) (ih2 hy)

/-! ### Critical edges separate -/

/-- Up the tree: either connected to `a` by edges that are not critical, or there is a critical edge on the way. -/
theorem chain (a : Nat) : ∀ k x, par^[k] x = a → EqvGen (H E par) x a ∨ ∃ t, Anc par t x ∧ Crit E par t ∧ Anc par a (par t) := by
  intro k
  induction k with
  | zero => intro x hx; rw [show x = a from hx]; exact Or.inl (EqvGen.refl _)
  | succ k ih =>
    intro x hx
    rw [Function.iterate_succ_apply] at hx
    by_cases h0 : dp x = 0
    · rw [T.root x h0] at hx; exact ih x hx
    by_cases hc : Crit E par x
    · exact Or.inr ⟨x, Anc.refl _, hc, k, hx⟩
    · rcases ih (par x) hx with h | ⟨t, h1, h2, h3⟩
      · refine Or.inl (EqvGen.trans _ _ _ (EqvGen.rel _ _ ⟨T.sym _ _ (T.step x h0).1, fun h => hc h.2.2, fun h => ?_⟩) h)
        have := (T.step x h0).2
        have h5 := T.dp_par (par x)
        rw [h.1] at h5; omega
      · exact Or.inr ⟨t, h1.trans (Anc.one x), h2, h3⟩

theorem step_in {a x y : Nat} (h : H E par x y) (hn : ¬ EqvGen (H E par) x a) (hx : Anc par a x ∧ x ≠ a) : Anc par a y ∧ y ≠ a := by
  have hya : y ≠ a := fun hc => hn (hc ▸ EqvGen.rel _ _ h)
  refine ⟨?_, hya⟩
  by_cases h1 : par x = y
  · exact h1 ▸ hx.1.up hx.2.symm
  by_cases h2 : par y = x
  · exact hx.1.trans (h2 ▸ Anc.one y)
  obtain ⟨k, hk⟩ := hx.1
  rcases T.chain a k x hk with h3 | ⟨t, h3, h4, h5⟩
  · exact absurd h3 hn
  · exact h5.trans (h4 x y h3 h.1 h1 h2)

/-- A component of the graph without critical edges that does not contain `a` is below `a` or not. -/
theorem comp_in {a x y : Nat} (h : EqvGen (H E par) x y) : ¬ EqvGen (H E par) x a → ((Anc par a x ∧ x ≠ a) ↔ (Anc par a y ∧ y ≠ a)) := by
  induction h with
  | rel x y h =>
    intro hn
    exact ⟨T.step_in h hn, T.step_in (h_symm T.sym h) fun hc => hn ((EqvGen.rel _ _ h).trans _ _ _ hc)⟩
  | refl x => exact fun _ => Iff.rfl
  | symm x y h ih => exact fun hn => (ih fun hc => hn ((h.symm).trans _ _ _ hc)).symm
  | trans x y z h1 _ ih1 ih2 => exact fun hn => (ih1 hn).trans (ih2 fun hc => hn (h1.trans _ _ _ hc))

/-- Every component hangs below one vertex. -/
theorem comp_top {i : Nat} (hi : dp i ≠ 0) : ∃ w, (∀ y, EqvGen (H E par) i y → Anc par w y ∧ y ≠ w) ∧
    ∀ t, EqvGen (H E par) i t → EqvGen (H E par) i (par t) ∨ par t = w := by
  classical
  have hex : ∃ d m, EqvGen (H E par) i m ∧ dp m = d := ⟨_, i, EqvGen.refl _, rfl⟩
  obtain ⟨m, hm, hd⟩ := Nat.find_spec hex
  have hmin : ∀ y, EqvGen (H E par) i y → dp m ≤ dp y := fun y hy => by rw [hd]; exact Nat.find_min' hex ⟨y, hy, rfl⟩
  have hne : ∀ y, EqvGen (H E par) i y → dp y ≠ 0 := fun y hy hc => hi (by rw [T.eqv_root hy (Or.inr hc)]; exact hc)
  have hm0 := hne m hm
  have hw : ¬ EqvGen (H E par) i (par m) := fun hc => by have := hmin _ hc; have := (T.step m hm0).2; omega
  have hin : ∀ y, EqvGen (H E par) i y → Anc par (par m) y ∧ y ≠ par m := fun y hy =>
    (T.comp_in (hm.symm.trans _ _ _ hy) fun hc => hw (hm.trans _ _ _ hc)).1 ⟨Anc.one m, (T.par_ne hm0).symm⟩
  refine ⟨par m, hin, fun t ht => ?_⟩
  by_cases hp : EqvGen (H E par) i (par t)
  · exact Or.inl hp
  · right
    have ht0 := hne t ht
    have h1 := (T.comp_in (a := par t) (ht.symm.trans _ _ _ hm) fun hc => hp (ht.trans _ _ _ hc)).1 ⟨Anc.one t, (T.par_ne ht0).symm⟩
    have h2 := (hin t ht).1.up (hin t ht).2.symm
    have h3 : dp (par t) ≤ dp (par m) := T.dp_le (h1.1.up h1.2.symm)
    exact (T.anc_eq h2 h3).symm

/-- What hangs below a component is attached by its top vertex only. -/
theorem below_closed {i w : Nat} (hw : ∀ t, EqvGen (H E par) i t → EqvGen (H E par) i (par t) ∨ par t = w) {y z : Nat} (hE : E y z) (hz : z ≠ w)
    (hy : ∃ x, EqvGen (H E par) i x ∧ Anc par x y) : ∃ x, EqvGen (H E par) i x ∧ Anc par x z := by
  obtain ⟨x, hx, hxy⟩ := hy
  by_cases h1 : par y = z
  · by_cases he : x = y
    · subst he
      rcases hw x hx with h | h
      · exact ⟨z, h1 ▸ h, Anc.refl _⟩
      · exact absurd (h1.symm.trans h) hz
    · exact ⟨x, hx, h1 ▸ hxy.up he⟩
  by_cases h2 : par z = y
  · exact ⟨x, hx, hxy.trans (h2 ▸ Anc.one z)⟩
  have hH : H E par y z := ⟨hE, fun h => h1 h.1, fun h => h2 h.1⟩
  by_cases hyx : EqvGen (H E par) y x
  · exact ⟨z, hx.trans _ _ _ (hyx.symm.trans _ _ _ (EqvGen.rel _ _ hH)), Anc.refl _⟩
  · have hne : y ≠ x := fun hc => hyx (hc ▸ EqvGen.refl _)
    exact ⟨x, hx, (T.step_in hH hyx ⟨hxy, hne⟩).1⟩

theorem sep {i j w : Nat} (hi : dp i ≠ 0) (hw1 : ∀ y, EqvGen (H E par) i y → Anc par w y ∧ y ≠ w)
    (hw : ∀ t, EqvGen (H E par) i t → EqvGen (H E par) i (par t) ∨ par t = w) (hj : ¬ ∃ x, EqvGen (H E par) i x ∧ Anc par x j) :
    ¬ SameBlock E (i, par i) (j, par j) := fun hs => by
  obtain ⟨x, y, h1, h2, h3, h4, h5⟩ := hs w
  have hxS : ∃ z, EqvGen (H E par) i z ∧ Anc par z x := by
    rcases h1 with rfl | rfl
    · exact ⟨_, EqvGen.refl _, Anc.refl _⟩
    · rcases hw i (EqvGen.refl _) with h | h
      · exact ⟨_, h, Anc.refl _⟩
      · exact absurd h h3
  have hyS : ∃ z, EqvGen (H E par) i z ∧ Anc par z y := by
    clear h4 h2
    induction h5 with
    | refl => exact hxS
    | tail _ h ih => exact T.below_closed hw h.1 h.2.2 ih
  obtain ⟨z, hz, hzy⟩ := hyS
  refine hj ⟨z, hz, ?_⟩
  rcases h2 with rfl | rfl
  · exact hzy
  · exact hzy.trans (Anc.one j)

/-- **Components of the tree edges.** -/
theorem tree_edges {i j : Nat} (hi : dp i ≠ 0) (hj : dp j ≠ 0) : EqvGen (H E par) i j ↔ SameBlock E (i, par i) (j, par j) := by
  refine ⟨fun h => T.eqv_block h hi, fun hs => ?_⟩
  by_contra hn
  obtain ⟨w, h1, h2⟩ := T.comp_top hi
  obtain ⟨w', h3, h4⟩ := T.comp_top hj
  by_cases hjS : ∃ x, EqvGen (H E par) i x ∧ Anc par x j
  · by_cases hiS : ∃ x, EqvGen (H E par) j x ∧ Anc par x i
    · obtain ⟨x, hx, hxj⟩ := hjS
      obtain ⟨y, hy, hyi⟩ := hiS
      have e1 := (T.comp_in (a := x) hy fun hc => hn (hx.trans _ _ _ hc.symm)).1 ⟨hxj, fun hc => hn (hc ▸ hx)⟩
      have e2 := (T.comp_in (a := y) hx fun hc => hn (hc.trans _ _ _ hy.symm)).1 ⟨hyi, fun hc => hn ((hc ▸ hy).symm)⟩
      exact e1.2 (T.anc_eq e2.1 (T.dp_le e1.1))
    · exact T.sep hj h3 h4 hiS (sb_symm T.sym hs)
  · exact T.sep hi h1 h2 hjS hs

/-- **Components of all edges.** -/
theorem all_edges {e f : Nat × Nat} (he : E e.1 e.2) (hf : E f.1 f.2) (hne : e.1 ≠ e.2) (hnf : f.1 ≠ f.2) :
    EqvGen (H E par) (rep par e) (rep par f) ↔ SameBlock E e f := by
  have key : ∀ e : Nat × Nat, E e.1 e.2 → e.1 ≠ e.2 → dp (rep par e) ≠ 0 ∧ SameBlock E e (rep par e, par (rep par e)) := by
    rintro ⟨u, v⟩ (he : E u v) (hne : u ≠ v)
    by_cases h1 : par u = v
    · rw [rep, if_pos h1]
      refine ⟨fun hc => hne ?_, ?_⟩
      · rw [← h1]; exact (T.root u hc).symm
      · show SameBlock E (u, v) (u, par u)
        rw [h1]; exact sb_refl hne
    · rw [rep, if_neg h1]
      by_cases h2 : par v = u
      · refine ⟨fun hc => hne ?_, ?_⟩
        · rw [← h2]; exact T.root v hc
        · show SameBlock E (u, v) (v, par v)
          rw [h2]
          intro w
          obtain ⟨x, y, h3, h4, h5⟩ := sb_refl (E := E) (e := (u, v)) hne w
          exact ⟨x, y, h3, h4.symm, h5⟩
      · have hH : H E par u v := ⟨he, fun h => h1 h.1, fun h => h2 h.1⟩
        have hv : dp v ≠ 0 := fun hc => hne (T.h_root (h_symm T.sym hH) hc).symm
        exact ⟨hv, T.cross_block hv he hne h1 h2⟩
  obtain ⟨a1, a2⟩ := key e he hne
  obtain ⟨b1, b2⟩ := key f hf hnf
  rw [T.tree_edges a1 b1]
  constructor
  · intro h
    exact sb_trans T.sym (f := (rep par f, par (rep par f))) (T.sym _ _ (T.step _ b1).1)
      (sb_trans T.sym (f := (rep par e, par (rep par e))) (T.sym _ _ (T.step _ a1).1) a2 h) (sb_symm T.sym b2)
  · intro h
    exact sb_trans T.sym hf (sb_trans T.sym he (sb_symm T.sym a2) h) b2

end BfsTree

end Gbbs.Bicc
