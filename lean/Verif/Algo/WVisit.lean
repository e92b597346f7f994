/-
One `edgeMapData` with the client of the bucketed widest path algorithm (`Visit_F`,
`benchmarks/SSWidestPath/JulienneDBS17/SSWidestPath.h:35-71`) under every interleaving.
-/
import Verif.Algo.Visit

namespace Gbbs.Widest

open Conc Conc.Prog Em
open WBFS (top inf orTop)
open Atomics (Steps)

/-! ### Model -/

/-- `gbbs::write_max`, `bridge.h:331-339, 371-373`; `f` bounds the retries. -/
def writeMax {L V : Type} [LT V] [DecidableLT V] : Nat → L → V → Prog L V Bool
  | 0, _, _ => stuck
  | f + 1, a, b => read a fun c => if c < b then cas a c b fun r => if r then ret true else writeMax f a b
      else ret false

/-- `std::min((width[s] | TOP_BIT), (w | TOP_BIT))`, `SSWidestPath.h:44, 59`; `w` is converted to 32-bit
unsigned. -/
def newW (y : Nat) (w : Int) : Nat := min (orTop y) (orTop (w % 4294967296).toNat)

/-- `Visit_F`, `SSWidestPath.h:35-71`. The data is the previous width. -/
def visitF (f : Nat) : Func Int Nat Nat Nat where
  cond _ := ret true
  upd s d w := read d fun oval => read s fun y =>
    if orTop oval < newW y w then
      if oval < top then write d (newW y w) (ret (some oval))
      else write d (newW y w) (ret none)
    else ret none
  updA s d w := read d fun oval => read s fun y =>
    if orTop oval < newW y w then
      if oval < top then cas d oval (newW y w) fun r =>
        if r then ret (some oval) else (writeMax f d (newW y w)).bind fun _ => ret none
      else (writeMax f d (newW y w)).bind fun _ => ret none
    else ret none

/-! ### Verification -/

structure VGh where
  m : Nat → Nat
  own : Nat → Option (Nat × Nat)

structure VInv (b : Nat) (d0 : Nat → Nat) (Ac : Edge Int → Prop) (g : VGh) (m : Nat → Nat) : Prop where
  mem : ∀ d, m d = g.m d
  old : ∀ d, g.own d = none → g.m d = d0 d
  new : ∀ d i, g.own d = some i → ∃ e, Ac e ∧ e.d = d ∧ g.m d = top + min b e.w.toNat ∧ d0 d < min b e.w.toNat

def vrg (b : Nat) (d0 : Nat → Nat) (Ac : Edge Int → Prop) (may : Nat × Nat → Nat → Prop) :
    RG (Nat × Nat) VGh Nat Nat where
  Inv := VInv b d0 Ac
  R i g g' := (∀ d, g'.own d = some i ↔ g.own d = some i) ∧
    (∀ d, g.own d ≠ none → g'.own d ≠ none ∧ g.m d ≤ g'.m d) ∧
    ∀ d, Excl may i d → g'.m d = g.m d ∧ g'.own d = g.own d
  Gu i g g' := (∀ d j, j ≠ i → (g'.own d = some j ↔ g.own d = some j)) ∧
    (∀ d, g.own d ≠ none → g'.own d ≠ none ∧ g.m d ≤ g'.m d) ∧
    ∀ d, ¬ (g'.m d = g.m d ∧ g'.own d = g.own d) → may i d
  refl _ _ := ⟨fun _ => Iff.rfl, fun _ h => ⟨h, Nat.le_refl _⟩, fun _ _ => ⟨rfl, rfl⟩⟩
  trans i g g' g'' h1 h2 := ⟨fun d => (h2.1 d).trans (h1.1 d),
    fun d hd => ⟨(h2.2.1 d (h1.2.1 d hd).1).1, Nat.le_trans (h1.2.1 d hd).2 (h2.2.1 d (h1.2.1 d hd).1).2⟩,
    fun d hd => ⟨(h2.2.2 d hd).1.trans (h1.2.2 d hd).1, (h2.2.2 d hd).2.trans (h1.2.2 d hd).2⟩⟩
  compat i j g g' hne h := ⟨fun d => h.1 d j (Ne.symm hne), h.2.1, fun d hd => by
    by_contra hc
    exact hd i hne (h.2.2 d hc)⟩

def VT (d0 : Nat → Nat) (i : Nat × Nat) (g : VGh) (l : List (Nat × Nat)) : Prop :=
  (l.map Prod.fst).Nodup ∧ (∀ d, d ∈ l.map Prod.fst ↔ g.own d = some i) ∧ ∀ p ∈ l, p.2 = d0 p.1

/-- The edge has been relaxed. -/
def VDn (b : Nat) (d0 : Nat → Nat) (g : VGh) (e : Edge Int) : Prop :=
  (g.own e.d ≠ none ∧ top + min b e.w.toNat ≤ g.m e.d) ∨ min b e.w.toNat ≤ d0 e.d

def VGh.claim (g : VGh) (i : Nat × Nat) (d x : Nat) : VGh :=
  ⟨fun y => if y = d then x else g.m y, fun y => if y = d then some i else g.own y⟩

def VGh.lower (g : VGh) (d x : Nat) : VGh := ⟨fun y => if y = d then x else g.m y, g.own⟩

section
variable {b : Nat} {d0 : Nat → Nat} {Ac : Edge Int → Prop} {may : Nat × Nat → Nat → Prop}

theorem vrg_gu_refl (i : Nat × Nat) (g : VGh) : (vrg b d0 Ac may).Gu i g g :=
  ⟨fun _ _ _ => Iff.rfl, fun _ h => ⟨h, Nat.le_refl _⟩, fun _ h => absurd ⟨rfl, rfl⟩ h⟩

theorem VT.stable {i : Nat × Nat} {g g' : VGh} {l : List (Nat × Nat)} (hr : (vrg b d0 Ac may).R i g g')
    (h : VT d0 i g l) : VT d0 i g' l :=
  ⟨h.1, fun d => (h.2.1 d).trans (hr.1 d).symm, h.2.2⟩

theorem VDn.stable {i : Nat × Nat} {g g' : VGh} {e : Edge Int} (hr : (vrg b d0 Ac may).R i g g')
    (h : VDn b d0 g e) : VDn b d0 g' e :=
  h.imp (fun h => ⟨(hr.2.1 _ h.1).1, Nat.le_trans h.2 (hr.2.1 _ h.1).2⟩) id

theorem VDn.stableG {i : Nat × Nat} {g g' : VGh} {e : Edge Int} (hr : (vrg b d0 Ac may).Gu i g g')
    (h : VDn b d0 g e) : VDn b d0 g' e :=
  h.imp (fun h => ⟨(hr.2.1 _ h.1).1, Nat.le_trans h.2 (hr.2.1 _ h.1).2⟩) id

theorem claim_ok {i : Nat × Nat} {g : VGh} {m : Nat → Nat} (hi : VInv b d0 Ac g m) {e : Edge Int} (he : Ac e)
    (hm : may i e.d) (hn : g.own e.d = none) (hx : d0 e.d < min b e.w.toNat) {l : List (Nat × Nat)}
    (hT : VT d0 i g l) :
    (vrg b d0 Ac may).Gu i g (g.claim i e.d (top + min b e.w.toNat)) ∧
    VInv b d0 Ac (g.claim i e.d (top + min b e.w.toNat)) (put m e.d (top + min b e.w.toNat)) ∧
    VT d0 i (g.claim i e.d (top + min b e.w.toNat)) ((e.d, d0 e.d) :: l) ∧
    VDn b d0 (g.claim i e.d (top + min b e.w.toNat)) e := by
  refine ⟨⟨fun d j hj => ?_, fun d hd => ?_, fun d hd => ?_⟩, ⟨fun d => ?_, fun d hd => ?_, fun d j hd => ?_⟩,
    ⟨?_, fun d => ?_, fun p hp => ?_⟩, Or.inl ?_⟩
  · by_cases h : d = e.d
    · subst h; simp [VGh.claim, hn, Ne.symm hj]
    · simp [VGh.claim, h]
  · have h : d ≠ e.d := by rintro rfl; exact hd hn
    simp [VGh.claim, h, hd]
  · by_cases h : d = e.d
    · subst h; exact hm
    · simp [VGh.claim, h] at hd
  · by_cases h : d = e.d
    · subst h; rw [put_same]; simp [VGh.claim]
    · rw [put_ne _ _ h]; simp [VGh.claim, h, hi.mem]
  · by_cases h : d = e.d
    · subst h; simp [VGh.claim] at hd
    · simp only [VGh.claim, h, if_false] at hd ⊢; exact hi.old d hd
  · by_cases h : d = e.d
    · subst h; exact ⟨e, he, rfl, by simp [VGh.claim], hx⟩
    · simp only [VGh.claim, h, if_false] at hd ⊢; exact hi.new d j hd
  · rw [List.map_cons, List.nodup_cons]
    refine ⟨fun hin => ?_, hT.1⟩
    have := (hT.2.1 _).1 hin
    rw [hn] at this; cases this
  · rw [List.map_cons, List.mem_cons, hT.2.1]
    by_cases h : d = e.d <;> simp [VGh.claim, h]
  · rcases List.mem_cons.1 hp with rfl | hp
    · rfl
    · exact hT.2.2 p hp
  · simp [VGh.claim]

theorem lower_ok {i : Nat × Nat} {g : VGh} {m : Nat → Nat} (hi : VInv b d0 Ac g m) {e : Edge Int} (he : Ac e)
    (hm : may i e.d) (ho : g.own e.d ≠ none) (hx : m e.d < top + min b e.w.toNat) {l : List (Nat × Nat)}
    (hT : VT d0 i g l) :
    (vrg b d0 Ac may).Gu i g (g.lower e.d (top + min b e.w.toNat)) ∧
    VInv b d0 Ac (g.lower e.d (top + min b e.w.toNat)) (put m e.d (top + min b e.w.toNat)) ∧
    VT d0 i (g.lower e.d (top + min b e.w.toNat)) l ∧
    VDn b d0 (g.lower e.d (top + min b e.w.toNat)) e := by
  refine ⟨⟨fun d j hj => Iff.rfl, fun d hd => ⟨hd, ?_⟩, fun d hd => ?_⟩, ⟨fun d => ?_, fun d hd => ?_, fun d j hd => ?_⟩,
    hT, Or.inl ⟨ho, by simp [VGh.lower]⟩⟩
  · by_cases h : d = e.d
    · subst h; rw [hi.mem] at hx; simp only [VGh.lower, if_true]; omega
    · simp [VGh.lower, h]
  · by_cases h : d = e.d
    · subst h; exact hm
    · simp [VGh.lower, h] at hd
  · by_cases h : d = e.d
    · subst h; rw [put_same]; simp [VGh.lower]
    · rw [put_ne _ _ h]; simp [VGh.lower, h, hi.mem]
  · have h : d ≠ e.d := by rintro rfl; exact ho hd
    simp only [VGh.lower, h, if_false]; exact hi.old d hd
  · by_cases h : d = e.d
    · subst h
      obtain ⟨e', h1, h2, h3, h4⟩ := hi.new _ j hd
      rw [hi.mem, h3] at hx
      exact ⟨e, he, rfl, by simp [VGh.lower], by omega⟩
    · simp only [VGh.lower, h, if_false]; exact hi.new d j hd

theorem VInv.owned_ge {g : VGh} {m : Nat → Nat} (hi : VInv b d0 Ac g m) {d : Nat} (h : g.own d ≠ none) :
    top ≤ m d := by
  obtain ⟨i, hi'⟩ := Option.ne_none_iff_exists'.1 h
  obtain ⟨e, _, _, h3, _⟩ := hi.new d i hi'
  rw [hi.mem, h3]; omega

theorem VInv.free_of_lt {g : VGh} {m : Nat → Nat} (hi : VInv b d0 Ac g m) {d : Nat} (h : m d < top) :
    g.own d = none := by
  by_contra hc
  have := hi.owned_ge hc
  omega

/-- The source of an edge of the frontier is not touched during the round. -/
theorem newW_eq (hd0 : ∀ d, d0 d ≤ inf) (hs : ∀ e, Ac e → d0 e.s = b) (hw : ∀ e, Ac e → 0 ≤ e.w ∧ e.w ≤ inf)
    {g : VGh} {m : Nat → Nat} (hi : VInv b d0 Ac g m) {e : Edge Int}
    (he : Ac e) : newW (m e.s) e.w = top + min b e.w.toNat := by
  have hsrc : m e.s = b := by
    rw [hi.mem]
    cases ho : g.own e.s with
    | none => rw [hi.old _ ho]; exact hs e he
    | some i =>
      obtain ⟨e', _, _, _, h4⟩ := hi.new _ _ ho
      rw [hs e he] at h4; omega
  have h1 := hd0 e.s
  rw [hs e he] at h1
  have h2 := hw e he
  simp only [inf] at h1 h2
  have h3 : e.w % 4294967296 = e.w := by omega
  rw [newW, hsrc, h3, orTop, if_pos (by simp only [top]; omega), orTop, if_pos (by simp only [top]; omega)]
  omega

theorem writeMax_spec (f : Nat) {i : Nat × Nat} {e : Edge Int} (he : Ac e) (hm : may i e.d)
    {l : List (Nat × Nat)} (g : VGh) (ho : g.own e.d ≠ none) (hT : VT d0 i g l) :
    Safe (vrg b d0 Ac may) i (fun g _ => VT d0 i g l ∧ VDn b d0 g e)
      (writeMax f e.d (top + min b e.w.toNat)) g := by
  induction f generalizing g with
  | zero => trivial
  | succ f ih =>
    intro g1 m1 hr1 hi1
    have hT1 := hT.stable hr1
    have ho1 := (hr1.2.1 _ ho).1
    refine ⟨g1, vrg_gu_refl _ _, hi1, ?_⟩
    beta_reduce
    by_cases hx : m1 e.d < top + min b e.w.toNat
    · rw [if_pos hx]
      intro g2 m2 hr2 hi2
      have hT2 := hT1.stable hr2
      have ho2 := (hr2.2.1 _ ho1).1
      refine ⟨fun heq => ?_, fun _ => ⟨g2, vrg_gu_refl _ _, hi2, ih g2 ho2 hT2⟩⟩
      obtain ⟨h1, h2, h3, h4⟩ := lower_ok hi2 he hm ho2 (by rw [heq]; exact hx) hT2
      exact ⟨_, h1, h2, fun g3 hr3 => ⟨h3.stable hr3, h4.stable hr3⟩⟩
    · rw [if_neg hx]
      intro g2 hr2
      refine ⟨hT1.stable hr2, VDn.stable hr2 (Or.inl ⟨ho1, ?_⟩)⟩
      rw [hi1.mem] at hx; omega

/-- The client of the widest path algorithm: `b` is the width of the frontier. -/
theorem visit_spec (f b : Nat) (d0 : Nat → Nat) (Ac : Edge Int → Prop) (hd0 : ∀ d, d0 d ≤ inf)
    (hs : ∀ e, Ac e → d0 e.s = b) (hw : ∀ e, Ac e → 0 ≤ e.w ∧ e.w ≤ inf) :
    FSpec (vrg b d0 Ac) (visitF f) Ac (VT d0) (VDn b d0) where
  keep may i e := ⟨fun g g' hr h => VDn.stable hr h, fun g g' hr h => VDn.stableG hr h⟩
  stable may i l g g' hr h := h.stable hr
  cond may i l g d hT := fun g' hr => ⟨hT.stable hr, fun h => by cases h⟩
  updA may i l g e he hm hT := by
    intro g1 m1 hr1 hi1
    have hT1 := hT.stable hr1
    refine ⟨g1, vrg_gu_refl _ _, hi1, ?_⟩
    intro g2 m2 hr2 hi2
    have hT2 := hT1.stable hr2
    refine ⟨g2, vrg_gu_refl _ _, hi2, ?_⟩
    have hnd := newW_eq hd0 hs hw hi2 he
    beta_reduce
    rw [hnd]
    by_cases hlt : m1 e.d < top
    · have hn1 := hi1.free_of_lt hlt
      have hv1 : m1 e.d = d0 e.d := by rw [hi1.mem]; exact hi1.old _ hn1
      rw [orTop, if_pos hlt, if_pos hlt]
      by_cases hx : m1 e.d + top < top + min b e.w.toNat
      · rw [if_pos hx]
        intro g3 m3 hr3 hi3
        have hT3 := hT2.stable hr3
        refine ⟨fun heq => ?_, fun heq => ⟨g3, vrg_gu_refl _ _, hi3, ?_⟩⟩
        · obtain ⟨h1, h2, h3, h4⟩ := claim_ok hi3 he hm (hi3.free_of_lt (by omega)) (by omega) hT3
          refine ⟨_, h1, h2, fun g4 hr4 => ⟨?_, h4.stable hr4⟩⟩
          rw [hv1]; exact h3.stable hr4
        · have ho : g3.own e.d ≠ none := fun h => heq (by rw [hi3.mem, hi3.old _ h, hv1])
          refine (writeMax_spec f he hm g3 ho hT3).bind fun _ g4 h4 => ?_
          exact fun g5 hr5 => ⟨h4.1.stable hr5, h4.2.stable hr5⟩
      · rw [if_neg hx]
        exact fun g3 hr3 => ⟨hT2.stable hr3, Or.inr (by omega)⟩
    · have ho1 : g1.own e.d ≠ none := fun h => by
        have := hi1.old _ h
        have := hd0 e.d
        have := hi1.mem e.d
        have : inf < top := by decide
        omega
      have ho2 := hr2.2.1 _ ho1
      rw [orTop, if_neg hlt, if_neg hlt]
      by_cases hx : m1 e.d < top + min b e.w.toNat
      · rw [if_pos hx]
        refine (writeMax_spec f he hm g2 ho2.1 hT2).bind fun _ g4 h4 => ?_
        exact fun g5 hr5 => ⟨h4.1.stable hr5, h4.2.stable hr5⟩
      · rw [if_neg hx]
        refine fun g3 hr3 => ⟨hT2.stable hr3, VDn.stable hr3 (Or.inl ⟨ho2.1, ?_⟩)⟩
        rw [hi1.mem] at hx
        have := ho2.2
        omega
  upd may i l g e he hm hex hT := by
    intro g1 m1 hr1 hi1
    have hT1 := hT.stable hr1
    refine ⟨g1, vrg_gu_refl _ _, hi1, ?_⟩
    intro g2 m2 hr2 hi2
    have hT2 := hT1.stable hr2
    refine ⟨g2, vrg_gu_refl _ _, hi2, ?_⟩
    have hnd := newW_eq hd0 hs hw hi2 he
    beta_reduce
    rw [hnd]
    by_cases hlt : m1 e.d < top
    · have hn1 := hi1.free_of_lt hlt
      have hv1 : m1 e.d = d0 e.d := by rw [hi1.mem]; exact hi1.old _ hn1
      rw [orTop, if_pos hlt, if_pos hlt]
      by_cases hx : m1 e.d + top < top + min b e.w.toNat
      · rw [if_pos hx]
        intro g3 m3 hr3 hi3
        have hT3 := hT2.stable hr3
        have hn3 : g3.own e.d = none := by rw [(hr3.2.2 _ hex).2, (hr2.2.2 _ hex).2]; exact hn1
        obtain ⟨h1, h2, h3, h4⟩ := claim_ok hi3 he hm hn3 (by omega) hT3
        refine ⟨_, h1, h2, fun g4 hr4 => ⟨?_, h4.stable hr4⟩⟩
        rw [hv1]; exact h3.stable hr4
      · rw [if_neg hx]
        exact fun g3 hr3 => ⟨hT2.stable hr3, Or.inr (by omega)⟩
    · have ho1 : g1.own e.d ≠ none := fun h => by
        have := hi1.old _ h
        have := hd0 e.d
        have := hi1.mem e.d
        have : inf < top := by decide
        omega
      have ho2 := hr2.2.1 _ ho1
      rw [orTop, if_neg hlt, if_neg hlt]
      by_cases hx : m1 e.d < top + min b e.w.toNat
      · rw [if_pos hx]
        intro g3 m3 hr3 hi3
        have hT3 := hT2.stable hr3
        have hm3 : m3 e.d = m1 e.d := by
          rw [hi3.mem, hi1.mem, (hr3.2.2 _ hex).1, (hr2.2.2 _ hex).1]
        obtain ⟨h1, h2, h3, h4⟩ := lower_ok hi3 he hm (hr3.2.1 _ ho2.1).1 (by omega) hT3
        exact ⟨_, h1, h2, fun g4 hr4 => ⟨h3.stable hr4, h4.stable hr4⟩⟩
      · rw [if_neg hx]
        refine fun g3 hr3 => ⟨hT2.stable hr3, VDn.stable hr3 (Or.inl ⟨ho2.1, ?_⟩)⟩
        rw [hi1.mem] at hx
        have := ho2.2
        omega

end

end Gbbs.Widest
