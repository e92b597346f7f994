/-
`edgeMap` with a client that adds a value per edge to a cell of the destination, e.g. `PR_F` (`benchmarks/PageRank/PageRank.h:60-79`)
and `SSBetweennessCentrality_F` (`benchmarks/SSBetweenessCentrality/Brandes/SSBetweennessCentrality.h:36-53`).
-/
import Verif.EdgeMap.Once
import Verif.EdgeMap.Total
import Mathlib.Algebra.BigOperators.Group.List.Basic

namespace Gbbs.Em

open Conc Conc.Prog
open Atomics (Steps)

set_option linter.unusedSectionVars false

variable {W L V : Type}

/-- What differs between the clients: the cell read for the source, the cell of the destination, the value added (from the contents of
the source cell), the constant `cond` (an array which nobody writes during the call), and whether a given old value makes `update`
return true. -/
structure AccP (W L V : Type) where
  src : Nat → L
  dst : Nat → L
  val : Edge W → V → V
  c : Nat → Bool
  q : V → Bool

/-- `gbbs::fetch_and_add`, `bridge.h:254-262`; `f` bounds the retries. -/
def faaG [Add V] : Nat → L → V → Prog L V V
  | 0, _, _ => stuck
  | f + 1, a, b => read a fun c => cas a c (c + b) fun r => if r then ret c else faaG f a b

/-- `SSBetweennessCentrality_F::update`, `updateAtomic`, `cond`, `SSBetweennessCentrality.h:42-52`; `PR_F`, `PageRank.h:67-78`. -/
def accF [Add V] (f : Nat) (K : AccP W L V) : Func W L V Unit where
  cond d := ret (K.c d)
  upd s d w := read (K.dst d) fun old => read (K.dst d) fun y => read (K.src s) fun x =>
    write (K.dst d) (y + K.val ⟨s, d, w⟩ x) (ret (if K.q old then some () else none))
  updA s d w := read (K.src s) fun x => (faaG f (K.dst d) (K.val ⟨s, d, w⟩ x)).bind fun old =>
    ret (if K.q old then some () else none)

/-! ### Verification -/

structure AGh (W V : Type) where
  p : Nat → V
  did : Edge W → Prop
  z : Nat → Option (Nat × Nat)

section
open Classical

/-- The values of the edges to `d` satisfying `q`, added. -/
noncomputable def sumTo [AddCommMonoid V] (acts : List (Edge W)) (v : Edge W → V) (q : Edge W → Prop) (d : Nat) : V :=
  (acts.map fun e => if q e ∧ e.d = d then v e else 0).sum

section
variable [AddCommMonoid V]

theorem sumTo_congr {acts : List (Edge W)} {v : Edge W → V} {q q' : Edge W → Prop} {d : Nat}
    (h : ∀ e, e ∈ acts → e.d = d → (q e ↔ q' e)) : sumTo acts v q d = sumTo acts v q' d := by
  unfold sumTo
  congr 1
  refine List.map_congr_left fun e he => ?_
  by_cases hd : e.d = d
  · by_cases hq : q e
    · rw [if_pos ⟨hq, hd⟩, if_pos ⟨(h e he hd).1 hq, hd⟩]
    · rw [if_neg fun hc => hq hc.1, if_neg fun hc => hq ((h e he hd).2 hc.1)]
  · rw [if_neg fun hc => hd hc.2, if_neg fun hc => hd hc.2]

theorem sumTo_none {acts : List (Edge W)} {v : Edge W → V} {q : Edge W → Prop} {d : Nat}
    (h : ∀ e, e ∈ acts → q e → e.d ≠ d) : sumTo acts v q d = 0 := by
  unfold sumTo
  refine List.sum_eq_zero fun x hx => ?_
  obtain ⟨e, he, rfl⟩ := List.mem_map.1 hx
  rw [if_neg fun hc => h e he hc.1 hc.2]

theorem sumTo_add {acts : List (Edge W)} {v : Edge W → V} (hn : acts.Nodup) {q : Edge W → Prop} {e : Edge W} (he : e ∈ acts)
    (hq : ¬ q e) (d : Nat) : sumTo acts v (fun e' => e' = e ∨ q e') d = sumTo acts v q d + if e.d = d then v e else 0 := by
  induction acts with
  | nil => cases he
  | cons a l ih =>
    rw [List.nodup_cons] at hn
    unfold sumTo at ih ⊢
    rw [List.map_cons, List.sum_cons, List.map_cons, List.sum_cons]
    rcases List.mem_cons.1 he with h | h
    · subst h
      have := sumTo_congr (acts := l) (v := v) (q := fun e' => e' = e ∨ q e') (q' := q) (d := d)
        fun e' he' _ => ⟨fun h => h.resolve_left fun hc => hn.1 (hc ▸ he'), Or.inr⟩
      unfold sumTo at this
      rw [this]
      by_cases hd : e.d = d
      · simp [hd, hq, add_comm]
      · simp [hd]
    · have hae : a ≠ e := fun hc => hn.1 (hc ▸ h)
      rw [ih hn.2 h, ← add_assoc]
      by_cases hd : q a ∧ a.d = d
      · rw [if_pos hd, if_pos ⟨Or.inr hd.1, hd.2⟩]
      · rw [if_neg hd, if_neg fun h => hd ⟨h.1.resolve_left hae, h.2⟩]
end

variable [DecidableEq L] [DecidableEq V] [AddCommMonoid V]

/-- The value of an edge, from the memory before the call. -/
def AccP.v0 (K : AccP W L V) (m0 : L → V) (e : Edge W) : V := K.val e (m0 (K.src e.s))

/-- The cells read for sources are not written during the call, and destinations have cells of their own. -/
structure AccP.Sep (K : AccP W L V) (acts : List (Edge W)) : Prop where
  inj : ∀ d d', K.dst d = K.dst d' → d = d'
  sep : ∀ e e', e ∈ acts → e' ∈ acts → K.c e.d = true → K.c e'.d = true → K.src e.s ≠ K.dst e'.d

/-- Once something was added to a cell, `update` no longer returns true for it. -/
structure AccP.Up (K : AccP W L V) (acts : List (Edge W)) (m0 : L → V) (nn : V → Prop) : Prop where
  init : ∀ d, nn (m0 (K.dst d))
  step : ∀ e ∈ acts, K.c e.d = true → ∀ x, nn x → nn (x + K.v0 m0 e) ∧ K.q (x + K.v0 m0 e) = false

structure AInv (acts : List (Edge W)) (K : AccP W L V) (nn : V → Prop) (m0 : L → V) (g : AGh W V) (m : L → V) : Prop where
  mem : ∀ d, m (K.dst d) = g.p d
  oth : ∀ l, (∀ d, l ≠ K.dst d) → m l = m0 l
  ok : ∀ e, g.did e → e ∈ acts ∧ K.c e.d = true
  sum : ∀ d, g.p d = m0 (K.dst d) + sumTo acts (K.v0 m0) g.did d
  pos : K.Up acts m0 nn → ∀ d, nn (g.p d)
  low : K.Up acts m0 nn → ∀ e, g.did e → K.q (g.p e.d) = false
  em : K.Up acts m0 nn → ∀ d, g.z d ≠ none ↔ K.q (m0 (K.dst d)) = true ∧ ∃ e, g.did e ∧ e.d = d

variable {acts : List (Edge W)} {K : AccP W L V} {nn : V → Prop} {m0 : L → V}

/-- The source cells are unchanged. -/
theorem AInv.src (hS : K.Sep acts) {g : AGh W V} {m : L → V} (h : AInv acts K nn m0 g m) {e : Edge W} (he : e ∈ acts)
    (hc : K.c e.d = true) : m (K.src e.s) = m0 (K.src e.s) := by
  by_cases hd : ∃ d, K.src e.s = K.dst d
  · obtain ⟨d, hd⟩ := hd
    rw [hd, h.mem, h.sum, sumTo_none, add_zero]
    rintro e' he' hq rfl
    exact hS.sep e e' he he' hc (h.ok e' hq).2 hd
  · exact h.oth _ fun d hc => hd ⟨d, hc⟩

/-- The ghost state after thread `i` adds for `e`. -/
noncomputable def AGh.add (g : AGh W V) (K : AccP W L V) (m0 : L → V) (i : Nat × Nat) (e : Edge W) : AGh W V :=
  ⟨fun x => if x = e.d then g.p x + K.v0 m0 e else g.p x, fun e' => e' = e ∨ g.did e',
    fun x => if x = e.d ∧ K.q (g.p x) = true then some i else g.z x⟩

def arg (acts : List (Edge W)) (K : AccP W L V) (nn : V → Prop) (m0 : L → V) (P : Plan W) : RG (Nat × Nat) (AGh W V) L V where
  Inv := AInv acts K nn m0
  R i g g' := (∀ e, P.mine i e → (g'.did e ↔ g.did e)) ∧ (∀ e, g.did e → g'.did e) ∧
    (K.Up acts m0 nn → ∀ d, g'.z d = some i ↔ g.z d = some i) ∧ ∀ d, Excl P.may i d → g'.p d = g.p d
  Gu i g g' := (∀ e, ¬ P.mine i e → (g'.did e ↔ g.did e)) ∧ (∀ e, g.did e → g'.did e) ∧
    (K.Up acts m0 nn → ∀ d j, j ≠ i → (g'.z d = some j ↔ g.z d = some j)) ∧ ∀ d, g'.p d ≠ g.p d → P.may i d
  refl _ _ := ⟨fun _ _ => Iff.rfl, fun _ h => h, fun _ _ => Iff.rfl, fun _ _ => rfl⟩
  trans i g g' g'' h1 h2 := ⟨fun e he => (h2.1 e he).trans (h1.1 e he), fun e he => h2.2.1 e (h1.2.1 e he),
    fun hu d => (h2.2.2.1 hu d).trans (h1.2.2.1 hu d), fun d hd => (h2.2.2.2 d hd).trans (h1.2.2.2 d hd)⟩
  compat i j g g' hne h := ⟨fun e he => h.1 e fun hc => hne (P.disj _ _ _ hc he), h.2.1,
    fun hu d => h.2.2.1 hu d j (Ne.symm hne), fun d hd => by
      by_contra hc
      exact hd i hne (h.2.2.2 d hc)⟩

def AT (acts : List (Edge W)) (K : AccP W L V) (nn : V → Prop) (m0 : L → V) (P : Plan W) (i : Nat × Nat) (g : AGh W V)
    (l : List (Nat × Unit)) (S : Edge W → Prop) : Prop :=
  (K.Up acts m0 nn → (l.map Prod.fst).Nodup ∧ ∀ d, d ∈ l.map Prod.fst ↔ g.z d = some i) ∧
    ∀ e, S e → P.mine i e ∧ ¬ g.did e

def ADn (K : AccP W L V) (g : AGh W V) (e : Edge W) : Prop := K.c e.d = true → g.did e

theorem arg_gu_refl (P : Plan W) (i : Nat × Nat) (g : AGh W V) : (arg acts K nn m0 P).Gu i g g :=
  ⟨fun _ _ => Iff.rfl, fun _ h => h, fun _ _ _ _ => Iff.rfl, fun _ h => absurd rfl h⟩

theorem AT.stable {P : Plan W} {i : Nat × Nat} {g g' : AGh W V} {l : List (Nat × Unit)} {S : Edge W → Prop}
    (hr : (arg acts K nn m0 P).R i g g') (h : AT acts K nn m0 P i g l S) : AT acts K nn m0 P i g' l S :=
  ⟨fun hu => ⟨(h.1 hu).1, fun d => ((h.1 hu).2 d).trans (hr.2.2.1 hu d).symm⟩, fun e he => ⟨(h.2 e he).1, fun hc =>
    (h.2 e he).2 ((hr.1 e (h.2 e he).1).1 hc)⟩⟩

theorem AT.less {P : Plan W} {i : Nat × Nat} {g : AGh W V} {l : List (Nat × Unit)} {S S' : Edge W → Prop}
    (hs : ∀ e, S' e → S e) (h : AT acts K nn m0 P i g l S) : AT acts K nn m0 P i g l S' :=
  ⟨h.1, fun e he => h.2 e (hs e he)⟩

/-- The addition. -/
theorem add_ok (hn : acts.Nodup) (hSep : K.Sep acts) {P : Plan W} {i : Nat × Nat} {g : AGh W V} {m : L → V}
    (hi : AInv acts K nn m0 g m) {e : Edge W} (he : e ∈ acts) (hc : K.c e.d = true)
    (hm : P.may i e.d) {l : List (Nat × Unit)} {S : Edge W → Prop} (hS : ¬ S e)
    (hT : AT acts K nn m0 P i g l (fun e' => e' = e ∨ S e')) :
    (arg acts K nn m0 P).Gu i g (g.add K m0 i e) ∧
    AInv acts K nn m0 (g.add K m0 i e) (put m (K.dst e.d) (m (K.dst e.d) + K.v0 m0 e)) ∧
    AT acts K nn m0 P i (g.add K m0 i e) (emit e.d (if K.q (m (K.dst e.d)) then some () else none) l) S ∧
    ADn K (g.add K m0 i e) e := by
  obtain ⟨hmi, hnd⟩ := hT.2 e (Or.inl rfl)
  have hmd := hi.mem e.d
  have hz : K.Up acts m0 nn → K.q (g.p e.d) = true → g.z e.d = none := by
    intro hu hq
    by_contra hz
    obtain ⟨_, e', h1, h2⟩ := (hi.em hu e.d).1 hz
    have := hi.low hu e' h1
    rw [h2, hq] at this; cases this
  refine ⟨⟨fun e' he' => ?_, fun e' he' => Or.inr he', fun hu d j hj => ?_, fun d hd => ?_⟩,
    ⟨fun d => ?_, fun x hx => ?_, fun e' he' => ?_, fun d => ?_, fun hu d => ?_, fun hu e' he' => ?_, fun hu d => ?_⟩,
    ⟨fun hu => ⟨?_, fun d => ?_⟩, fun e' he' => ?_⟩, fun _ => Or.inl rfl⟩
  · have : e' ≠ e := fun h => he' (h ▸ hmi)
    simp [AGh.add, this]
  · by_cases h : d = e.d ∧ K.q (g.p d) = true
    · have h1 : (g.add K m0 i e).z d = some i := if_pos h
      rw [h1, h.1, hz hu (h.1 ▸ h.2), Option.some.injEq]
      exact ⟨fun h => absurd h.symm hj, fun h => by cases h⟩
    · simp only [AGh.add, h, if_false]
  · by_cases h : d = e.d
    · rw [h]; exact hm
    · simp [AGh.add, h] at hd
  · by_cases h : d = e.d
    · subst h; rw [put_same, hmd]; simp [AGh.add]
    · rw [put_ne _ _ fun hc => h (hSep.inj _ _ hc), hi.mem]; simp [AGh.add, h]
  · rw [put_ne _ _ (hx _)]; exact hi.oth x hx
  · rcases he' with rfl | he'
    · exact ⟨he, hc⟩
    · exact hi.ok e' he'
  · have h1 : sumTo acts (K.v0 m0) (g.add K m0 i e).did d = _ := sumTo_add hn he hnd d
    have h2 := hi.sum d
    rw [h1, ← add_assoc, ← h2]
    by_cases h : d = e.d
    · subst h; simp [AGh.add]
    · rw [if_neg (Ne.symm h), add_zero]; simp [AGh.add, h]
  · by_cases h : d = e.d
    · subst h
      have := (hu.step e he hc _ (hi.pos hu e.d)).1
      simpa [AGh.add] using this
    · have := hi.pos hu d
      simpa [AGh.add, h] using this
  · by_cases h : e'.d = e.d
    · rw [h]
      have := (hu.step e he hc _ (hi.pos hu e.d)).2
      simpa [AGh.add] using this
    · rcases he' with rfl | he'
      · exact absurd rfl h
      · have := hi.low hu e' he'
        simpa [AGh.add, h] using this
  · by_cases h : d = e.d
    · subst h
      have h1 : (∃ e', (g.add K m0 i e).did e' ∧ e'.d = e.d) := ⟨e, Or.inl rfl, rfl⟩
      by_cases hq : K.q (g.p e.d) = true
      · have hn' : ¬ ∃ e', g.did e' ∧ e'.d = e.d := by
          rintro ⟨e', h1, h2⟩
          have := hi.low hu e' h1
          rw [h2, hq] at this; cases this
        have hp : g.p e.d = m0 (K.dst e.d) := by
          rw [hi.sum, sumTo_none, add_zero]
          exact fun e' _ h1 h2 => hn' ⟨e', h1, h2⟩
        have hq0 : K.q (m0 (K.dst e.d)) = true := hp ▸ hq
        have h2 : (g.add K m0 i e).z e.d = some i := if_pos ⟨rfl, hq⟩
        rw [h2]
        exact ⟨fun _ => ⟨hq0, h1⟩, fun _ => by simp⟩
      · have h2 : (g.add K m0 i e).z e.d = g.z e.d := if_neg fun hc => hq hc.2
        rw [h2, hi.em hu]
        refine ⟨fun h => ⟨h.1, h1⟩, fun h => ⟨h.1, ?_⟩⟩
        by_contra hn'
        apply hq
        rw [hi.sum, sumTo_none, add_zero]
        · exact h.1
        · exact fun e' _ h1 h2 => hn' ⟨e', h1, h2⟩
    · have h2 : (g.add K m0 i e).z d = g.z d := if_neg fun hc => h hc.1
      rw [h2, hi.em hu]
      refine ⟨fun ⟨h1, e', h2, h3⟩ => ⟨h1, e', Or.inr h2, h3⟩, fun ⟨h1, e', h2, h3⟩ => ⟨h1, e', h2.resolve_left ?_, h3⟩⟩
      rintro rfl
      exact h h3.symm
  · by_cases h : K.q (m (K.dst e.d)) = true
    · rw [if_pos h, emit, List.map_cons, List.nodup_cons]
      refine ⟨fun hin => ?_, (hT.1 hu).1⟩
      have := ((hT.1 hu).2 _).1 hin
      rw [hz hu (hmd ▸ h)] at this; cases this
    · rw [if_neg h]; exact (hT.1 hu).1
  · by_cases h : K.q (m (K.dst e.d)) = true
    · rw [if_pos h, emit, List.map_cons, List.mem_cons, (hT.1 hu).2]
      have h1 : K.q (g.p e.d) = true := hmd ▸ h
      by_cases hd : d = e.d
      · subst hd; simp [AGh.add, h1]
      · simp [AGh.add, hd]
    · rw [if_neg h, emit, (hT.1 hu).2]
      have h1 : ¬ K.q (g.p e.d) = true := hmd ▸ h
      by_cases hd : d = e.d
      · subst hd; simp [AGh.add, h1]
      · simp [AGh.add, hd]
  · refine ⟨(hT.2 e' (Or.inr he')).1, ?_⟩
    rintro (rfl | h)
    · exact hS he'
    · exact (hT.2 e' (Or.inr he')).2 h

theorem ADn.stable {P : Plan W} {i : Nat × Nat} {g g' : AGh W V} {e : Edge W} (hr : (arg acts K nn m0 P).R i g g')
    (h : ADn K g e) : ADn K g' e := fun h1 => hr.2.1 e (h h1)

theorem faaG_spec (hn : acts.Nodup) (hSep : K.Sep acts) {P : Plan W} {i : Nat × Nat} {e : Edge W} (he : e ∈ acts)
    (hc : K.c e.d = true) (hm : P.may i e.d) {l : List (Nat × Unit)} {S : Edge W → Prop}
    (hS : ¬ S e) (f : Nat) : ∀ g, AT acts K nn m0 P i g l (fun e' => e' = e ∨ S e') →
      Safe (arg acts K nn m0 P) i (fun g x => AT acts K nn m0 P i g (emit e.d (if K.q x then some () else none) l) S ∧ ADn K g e)
        (faaG f (K.dst e.d) (K.v0 m0 e)) g := by
  induction f with
  | zero => intro g _; trivial
  | succ f ih =>
    intro g hT
    intro g1 m1 hr1 hi1
    refine ⟨g1, arg_gu_refl _ _ _, hi1, ?_⟩
    intro g2 m2 hr2 hi2
    have hT2 := (hT.stable hr1).stable hr2
    refine ⟨fun hx => ?_, fun hx => ?_⟩
    · obtain ⟨h1, h2, h3, h4⟩ := add_ok hn hSep hi2 he hc hm hS hT2
      rw [hx] at h2 h3
      refine ⟨_, h1, h2, fun g3 hr3 => ⟨h3.stable hr3, h4.stable hr3⟩⟩
    · exact ⟨g2, arg_gu_refl _ _ _, hi2, ih g2 hT2⟩

theorem acc_spec (f : Nat) (hn : acts.Nodup) (hSep : K.Sep acts) :
    XSpec (arg acts K nn m0) (accF f K) (· ∈ acts) (fun d => K.c d = true) (AT acts K nn m0) (ADn K) where
  keep P i e := ⟨fun g g' hr h => h.stable hr, fun g g' hr h h1 => hr.2.1 e (h h1)⟩
  stable P i l S g g' hr h := h.stable hr
  less P i l S S' g hs h := h.less hs
  cond P i l S g d hT := by
    intro g1 hr1
    refine ⟨hT.stable hr1, id, fun hb e _ _ hd h => ?_⟩
    rw [hd, hb] at h; cases h
  updA P i l S g e hac hC hm hS hT := by
    intro g1 m1 hr1 hi1
    refine ⟨g1, arg_gu_refl _ _ _, hi1, ?_⟩
    rw [hi1.src hSep hac hC]
    exact (faaG_spec hn hSep hac hC hm hS f g1 (hT.stable hr1)).bind fun x g1 h1 g2 hr2 => ⟨h1.1.stable hr2, h1.2.stable hr2⟩
  upd P i l S g e hac hC hm hx hS hT := by
    intro g1 m1 hr1 hi1
    refine ⟨g1, arg_gu_refl _ _ _, hi1, ?_⟩
    intro g2 m2 hr2 hi2
    refine ⟨g2, arg_gu_refl _ _ _, hi2, ?_⟩
    intro g3 m3 hr3 hi3
    refine ⟨g3, arg_gu_refl _ _ _, hi3, ?_⟩
    intro g4 m4 hr4 hi4
    have hT4 := (((hT.stable hr1).stable hr2).stable hr3).stable hr4
    have h43 : m4 (K.dst e.d) = m2 (K.dst e.d) := by
      rw [hi4.mem, hi2.mem, hr4.2.2.2 _ hx, hr3.2.2.2 _ hx]
    have h21 : m2 (K.dst e.d) = m1 (K.dst e.d) := by
      rw [hi2.mem, hi1.mem, hr2.2.2.2 _ hx]
    obtain ⟨h1, h2, h3, h4⟩ := add_ok hn hSep hi4 hac hC hm hS hT4
    rw [h43] at h2 h3
    rw [hi3.src hSep hac hC]
    refine ⟨_, h1, h2, ?_⟩
    intro g5 hr5
    rw [h21] at h3
    exact ⟨h3.stable hr5, h4.stable hr5⟩

/-- One `edgeMap` with an adding client: the cell of every destination for which `cond` is true grows by the values of the frontier's
edges to it, all other cells are unchanged; and if no old value returns true twice, the destinations reached whose cell had such a
value are emitted, once. -/
theorem acc_round {f : Nat} (G : Gr W) (hG : G.Ok) (hO : G.Once) (inF : Nat → Bool) {m m' : L → V}
    {o : List (Nat × Unit)} (hS : K.Sep (activeEdges G inF)) (hr : EdgeMapX (accF f K) G inF m m' o) :
    (∀ d, m' (K.dst d) = m (K.dst d) + sumTo (activeEdges G inF) (K.v0 m) (fun e => K.c e.d = true) d) ∧
    (∀ l, (∀ d, l ≠ K.dst d) → m' l = m l) ∧
    ((∃ nn, K.Up (activeEdges G inF) m nn) → (o.map Prod.fst).Nodup ∧
      ∀ d, d ∈ o.map Prod.fst ↔ K.q (m (K.dst d)) = true ∧ K.c d = true ∧ ∃ e, e ∈ activeEdges G inF ∧ e.d = d) := by
  have main : ∀ nn, ∃ P g out, AInv (activeEdges G inF) K nn m g m' ∧ (∀ e, Active G inF e → ADn K g e) ∧
      (∀ i, AT (activeEdges G inF) K nn m P i g (out i) (fun _ => False)) ∧ Collect (ι := Nat × Nat) out o := fun nn =>
    edgeMap_soundX (acc_spec f (activeEdges_nodup hO inF) hS) G hG hO inF
    (fun e he => (mem_activeEdges hG e).2 he) (AInv (activeEdges G inF) K nn m) (fun _ _ _ => Iff.rfl)
    ⟨fun d => m (K.dst d), fun _ => False, fun _ => none⟩
    ⟨fun _ => rfl, fun _ _ => rfl, fun _ h => h.elim, fun d => by rw [sumTo_none (fun _ _ h => h.elim), add_zero],
      fun hu d => hu.init d, fun _ _ h => h.elim, fun _ d => ⟨fun h => absurd rfl h, fun ⟨_, _, h, _⟩ => h.elim⟩⟩
    (fun P i => ⟨fun _ => ⟨List.nodup_nil, fun d => ⟨fun h => (by cases h), fun h => (by cases h)⟩⟩, fun e he => ⟨he, id⟩⟩) hr
  refine ⟨fun d => ?_, fun l hl => ?_, ?_⟩
  · obtain ⟨P, g, out, hi, hdn, -, -⟩ := main fun _ => True
    rw [hi.mem, hi.sum]
    congr 1
    exact sumTo_congr fun e he _ => ⟨fun h => (hi.ok e h).2, fun h => hdn e ((mem_activeEdges hG e).1 he) h⟩
  · obtain ⟨P, g, out, hi, -⟩ := main fun _ => True
    exact hi.oth l hl
  · rintro ⟨nn, hu⟩
    obtain ⟨P, g, out, hi, hdn, hT, hcol⟩ := main nn
    have hmem : ∀ d, d ∈ o.map Prod.fst ↔ ∃ i, g.z d = some i := by
      intro d
      constructor
      · intro h
        obtain ⟨⟨d', x⟩, h1, rfl⟩ := List.mem_map.1 h
        obtain ⟨i, hi'⟩ := hcol.sub _ h1
        exact ⟨i, (((hT i).1 hu).2 _).1 (List.mem_map.2 ⟨_, hi', rfl⟩)⟩
      · rintro ⟨i, h⟩
        obtain ⟨⟨d', x⟩, h1, rfl⟩ := List.mem_map.1 ((((hT i).1 hu).2 d).2 h)
        obtain ⟨y, hy⟩ := hcol.all i _ _ h1
        exact List.mem_map.2 ⟨_, hy, rfl⟩
    refine ⟨?_, fun d => ?_⟩
    · refine hcol.nodup (fun i => ((hT i).1 hu).1) fun i j d x y h1 h2 => ?_
      have e1 := (((hT i).1 hu).2 d).1 (List.mem_map.2 ⟨_, h1, rfl⟩)
      have e2 := (((hT j).1 hu).2 d).1 (List.mem_map.2 ⟨_, h2, rfl⟩)
      exact Option.some.inj (e1.symm.trans e2)
    · rw [hmem, ← Option.ne_none_iff_exists', hi.em hu]
      refine and_congr_right fun _ => ⟨fun ⟨e, h1, h2⟩ => ⟨h2 ▸ (hi.ok e h1).2, e, (hi.ok e h1).1, h2⟩, fun ⟨h1, e, h2, h3⟩ => ?_⟩
      exact ⟨e, hdn e ((mem_activeEdges hG e).1 h2) (h3 ▸ h1), h3⟩

end

/-- Calls exist. -/
theorem accF_exists [DecidableEq L] [DecidableEq V] [Add V] {f : Nat} (K : AccP W L V) {G : Gr W} (hG : G.Ok) (hO : G.Once)
    (inF : Nat → Bool) (m : L → V) : ∃ m' o, EdgeMapX (accF (f + 1) K) G inF m m' o := by
  obtain ⟨⟨o, m'⟩, h⟩ := sparseRun_total (F := accF (f + 1) K) (fun d => total_ret _) (fun s d w => by
    intro m
    refine ⟨(if K.q (m (K.dst d)) then some () else none,
      put m (K.dst d) (m (K.dst d) + K.val ⟨s, d, w⟩ (m (K.src s)))), ?_⟩
    show exec (Prog.bind (faaG (f + 1) (K.dst d) (K.val ⟨s, d, w⟩ (m (K.src s)))) _) m = _
    rw [exec_bind]
    have : exec (faaG (f + 1) (K.dst d) (K.val ⟨s, d, w⟩ (m (K.src s)))) m =
        some (m (K.dst d), put m (K.dst d) (m (K.dst d) + K.val ⟨s, d, w⟩ (m (K.src s)))) := by
      show (if m (K.dst d) = m (K.dst d) then _ else _) = _
      rw [if_pos rfl]; rfl
    rw [this]; rfl) (activeEdges G inF) [] m
  exact ⟨m', o, edgeMapX_seq _ (mem_activeEdges hG) (activeEdges_nodup hO inF) h⟩

end Gbbs.Em
