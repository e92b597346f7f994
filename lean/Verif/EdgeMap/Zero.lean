/-
`edgeMap` with a client that sets positive destinations to 0 with a CAS: `GetNghs`
(`benchmarks/MaximalIndependentSet/RandomGreedy/MaximalIndependentSet.h:63-82`).
-/
import Verif.EdgeMap.Rounds

namespace Gbbs.Em

open Conc Conc.Prog
open Atomics (Steps)

variable {W : Type}

/-- `GetNghs`, `MaximalIndependentSet.h:63-82`. -/
def zeroF : Func W Nat Int Unit where
  cond d := read d fun x => ret (decide (0 < x))
  updA _ d _ := read d fun x => if 0 < x then cas d x 0 fun b => ret (if b then some () else none) else ret none
  upd _ d _ := read d fun x => if 0 < x then write d 0 (ret (some ())) else ret none

/-! ### Verification -/

structure ZGh where
  p : Nat → Int
  own : Nat → Option (Nat × Nat)

structure ZInv (p0 : Nat → Int) (Ac : Edge W → Prop) (g : ZGh) (m : Nat → Int) : Prop where
  mem : ∀ x, m x = g.p x
  old : ∀ d, g.own d = none → g.p d = p0 d
  new : ∀ d i, g.own d = some i → 0 < p0 d ∧ g.p d = 0 ∧ ∃ e, Ac e ∧ e.d = d

def zrg (p0 : Nat → Int) (Ac : Edge W → Prop) (may : Nat × Nat → Nat → Prop) : RG (Nat × Nat) ZGh Nat Int where
  Inv := ZInv p0 Ac
  R i g g' := (∀ d, g'.own d = some i ↔ g.own d = some i) ∧ (∀ d, ¬ 0 < g.p d → g'.p d = g.p d) ∧
    ∀ d, Excl may i d → g'.p d = g.p d
  Gu i g g' := (∀ d j, j ≠ i → (g'.own d = some j ↔ g.own d = some j)) ∧
    (∀ d, ¬ 0 < g.p d → g'.p d = g.p d) ∧ ∀ d, g'.p d ≠ g.p d → may i d
  refl _ _ := ⟨fun _ => Iff.rfl, fun _ _ => rfl, fun _ _ => rfl⟩
  trans i g g' g'' h1 h2 := ⟨fun d => (h2.1 d).trans (h1.1 d),
    fun d hd => (h2.2.1 d (by rw [h1.2.1 d hd]; exact hd)).trans (h1.2.1 d hd),
    fun d hd => (h2.2.2 d hd).trans (h1.2.2 d hd)⟩
  compat i j g g' hne h := ⟨fun d => h.1 d j (Ne.symm hne), h.2.1, fun d hd => by
    by_contra hc
    exact hd i hne (h.2.2 d hc)⟩

def ZT (i : Nat × Nat) (g : ZGh) (l : List (Nat × Unit)) : Prop :=
  (l.map Prod.fst).Nodup ∧ ∀ d, d ∈ l.map Prod.fst ↔ g.own d = some i

/-- The ghost state after thread `i` zeroes `d`. -/
def ZGh.claim (g : ZGh) (i : Nat × Nat) (d : Nat) : ZGh :=
  ⟨fun x => if x = d then 0 else g.p x, fun x => if x = d then some i else g.own x⟩

section
variable {p0 : Nat → Int} {Ac : Edge W → Prop} {may : Nat × Nat → Nat → Prop}

theorem zero_ok {i : Nat × Nat} {g : ZGh} {m : Nat → Int} (hi : ZInv p0 Ac g m) {e : Edge W} (he : Ac e)
    (hm : may i e.d) (hu : 0 < m e.d) {l : List (Nat × Unit)} (hT : ZT i g l) :
    (zrg p0 Ac may).Gu i g (g.claim i e.d) ∧ ZInv p0 Ac (g.claim i e.d) (put m e.d 0) ∧
    ZT i (g.claim i e.d) (emit e.d (some ()) l) ∧ ¬ 0 < (g.claim i e.d).p e.d := by
  have hpu : 0 < g.p e.d := by rw [← hi.mem]; exact hu
  have hno : g.own e.d = none := by
    cases h : g.own e.d with
    | none => rfl
    | some j =>
      have := (hi.new _ _ h).2.1
      omega
  refine ⟨⟨fun d j hj => ?_, fun d hd => ?_, fun d hd => ?_⟩, ⟨fun x => ?_, fun d hd => ?_, fun d j hd => ?_⟩,
    ⟨?_, fun d => ?_⟩, ?_⟩
  · by_cases h : d = e.d
    · subst h; simp [ZGh.claim, hno, Ne.symm hj]
    · simp [ZGh.claim, h]
  · have : d ≠ e.d := fun h => hd (h ▸ hpu)
    simp [ZGh.claim, this]
  · by_cases h : d = e.d
    · subst h; exact hm
    · simp [ZGh.claim, h] at hd
  · by_cases h : x = e.d
    · subst h; rw [put_same]; simp [ZGh.claim]
    · rw [put_ne _ _ h]; simp [ZGh.claim, h, hi.mem]
  · by_cases h : d = e.d
    · subst h; simp [ZGh.claim] at hd
    · simp only [ZGh.claim, h, if_false] at hd ⊢; exact hi.old d hd
  · by_cases h : d = e.d
    · subst h; exact ⟨by rw [← hi.old _ hno]; exact hpu, by simp [ZGh.claim], e, he, rfl⟩
    · simp only [ZGh.claim, h, if_false] at hd ⊢; exact hi.new d j hd
  · rw [emit, List.map_cons, List.nodup_cons]
    refine ⟨fun hin => ?_, hT.1⟩
    have := (hT.2 _).1 hin
    rw [hno] at this; cases this
  · rw [emit, List.map_cons, List.mem_cons, hT.2]
    by_cases h : d = e.d
    · simp [ZGh.claim, h]
    · simp [ZGh.claim, h]
  · simp [ZGh.claim]

theorem ZT.stable {i : Nat × Nat} {g g' : ZGh} {l : List (Nat × Unit)} (hr : (zrg p0 Ac may).R i g g') (h : ZT i g l) :
    ZT i g' l := ⟨h.1, fun d => (h.2 d).trans (hr.1 d).symm⟩

theorem zrg_gu_refl (i : Nat × Nat) (g : ZGh) : (zrg p0 Ac may).Gu i g g :=
  ⟨fun _ _ _ => Iff.rfl, fun _ _ => rfl, fun _ h => absurd rfl h⟩

theorem zero_spec (p0 : Nat → Int) (Ac : Edge W → Prop) :
    FSpec (zrg p0 Ac) zeroF Ac ZT (fun g e => ¬ 0 < g.p e.d) where
  keep may i e := ⟨fun g g' hr h => by rw [hr.2.1 _ h]; exact h, fun g g' hr h => by rw [hr.2.1 _ h]; exact h⟩
  stable may i l g g' hr h := h.stable hr
  cond may i l g d hT := by
    intro g1 m1 hr1 hi1
    refine ⟨g1, zrg_gu_refl _ _, hi1, ?_⟩
    intro g2 hr2
    refine ⟨(hT.stable hr1).stable hr2, fun hb e _ he => ?_⟩
    subst he
    have hne : ¬ 0 < g1.p e.d := by
      rw [← hi1.mem]
      simpa using hb
    rw [hr2.2.1 _ hne]; exact hne
  updA may i l g e he hm hT := by
    intro g1 m1 hr1 hi1
    have hT1 := hT.stable hr1
    refine ⟨g1, zrg_gu_refl _ _, hi1, ?_⟩
    beta_reduce
    by_cases hu : 0 < m1 e.d
    · rw [if_pos hu]
      intro g2 m2 hr2 hi2
      refine ⟨fun hx => ?_, fun hx => ?_⟩
      · obtain ⟨h1, h2, h3, h4⟩ := zero_ok hi2 he hm (by rw [hx]; exact hu) (hT1.stable hr2)
        refine ⟨_, h1, h2, fun g3 hr3 => ⟨h3.stable hr3, ?_⟩⟩
        rw [hr3.2.1 _ h4]; exact h4
      · refine ⟨g2, zrg_gu_refl _ _, hi2, fun g3 hr3 => ⟨(hT1.stable hr2).stable hr3, ?_⟩⟩
        have h1 : g1.own e.d = none := by
          cases h : g1.own e.d with
          | none => rfl
          | some j =>
            have h1 := (hi1.new _ _ h).2.1
            have h2 := hi1.mem e.d
            omega
        have hne : ¬ 0 < g2.p e.d := by
          cases h : g2.own e.d with
          | none =>
            rw [hi2.mem, hi2.old _ h, hi1.mem, hi1.old _ h1] at hx
            exact absurd rfl hx
          | some j => rw [(hi2.new _ _ h).2.1]; omega
        rw [hr3.2.1 _ hne]; exact hne
    · rw [if_neg hu]
      intro g2 hr2
      refine ⟨hT1.stable hr2, ?_⟩
      have hne : ¬ 0 < g1.p e.d := by rw [← hi1.mem]; exact hu
      rw [hr2.2.1 _ hne]; exact hne
  upd may i l g e he hm hx hT := by
    intro g1 m1 hr1 hi1
    have hT1 := hT.stable hr1
    refine ⟨g1, zrg_gu_refl _ _, hi1, ?_⟩
    beta_reduce
    by_cases hu : 0 < m1 e.d
    · rw [if_pos hu]
      intro g2 m2 hr2 hi2
      have hu2 : 0 < m2 e.d := by rw [hi2.mem, hr2.2.2 _ hx, ← hi1.mem]; exact hu
      obtain ⟨h1, h2, h3, h4⟩ := zero_ok hi2 he hm hu2 (hT1.stable hr2)
      refine ⟨_, h1, h2, fun g3 hr3 => ⟨h3.stable hr3, ?_⟩⟩
      rw [hr3.2.1 _ h4]; exact h4
    · rw [if_neg hu]
      intro g2 hr2
      refine ⟨hT1.stable hr2, ?_⟩
      have hne : ¬ 0 < g1.p e.d := by rw [← hi1.mem]; exact hu
      rw [hr2.2.1 _ hne]; exact hne

/-- One `edgeMap` with `GetNghs`: the positive destinations of edges of the frontier are zeroed and emitted once;
nothing else changes. -/
theorem zero_round (G : Gr W) (hG : G.Ok) (inF : Nat → Bool) {m m' : Nat → Int} {o : List (Nat × Unit)}
    (hr : EdgeMap zeroF G inF m m' o) :
    (o.map Prod.fst).Nodup ∧
    (∀ d, d ∈ o.map Prod.fst ↔ 0 < m d ∧ ∃ e, Active G inF e ∧ e.d = d) ∧
    (∀ d, d ∈ o.map Prod.fst → m' d = 0) ∧ ∀ d, d ∉ o.map Prod.fst → m' d = m d := by
  obtain ⟨g, out, hi, hdn, hT, hcol⟩ := edgeMap_sound (zero_spec m (Active G inF)) G hG inF
    (fun _ h => h) (ZInv m (Active G inF)) (fun _ _ _ => Iff.rfl) ⟨m, fun _ => none⟩
    ⟨fun _ => rfl, fun _ _ => rfl, fun _ _ h => (by cases h)⟩
    (fun i => ⟨List.nodup_nil, fun d => ⟨fun h => (by cases h), fun h => (by cases h)⟩⟩) hr
  have hmem : ∀ d, d ∈ o.map Prod.fst ↔ ∃ i, g.own d = some i := by
    intro d
    constructor
    · intro h
      obtain ⟨⟨d', x⟩, h1, rfl⟩ := List.mem_map.1 h
      obtain ⟨i, hi'⟩ := hcol.sub _ h1
      exact ⟨i, ((hT i).2 _).1 (List.mem_map.2 ⟨_, hi', rfl⟩)⟩
    · rintro ⟨i, h⟩
      obtain ⟨⟨d', x⟩, h1, rfl⟩ := List.mem_map.1 (((hT i).2 d).2 h)
      obtain ⟨y, hy⟩ := hcol.all i _ _ h1
      exact List.mem_map.2 ⟨_, hy, rfl⟩
  refine ⟨?_, fun d => ?_, fun d hd => ?_, fun d hd => ?_⟩
  · refine hcol.nodup (fun i => (hT i).1) fun i j d x y h1 h2 => ?_
    have e1 := ((hT i).2 d).1 (List.mem_map.2 ⟨_, h1, rfl⟩)
    have e2 := ((hT j).2 d).1 (List.mem_map.2 ⟨_, h2, rfl⟩)
    exact Option.some.inj (e1.symm.trans e2)
  · rw [hmem]
    constructor
    · rintro ⟨i, h⟩
      obtain ⟨h1, _, h2⟩ := hi.new d i h
      exact ⟨h1, h2⟩
    · rintro ⟨h1, e, h2, rfl⟩
      cases h : g.own e.d with
      | none => exact absurd (by rw [hi.old _ h]; exact h1) (hdn e h2)
      | some i => exact ⟨i, rfl⟩
  · obtain ⟨i, h⟩ := (hmem d).1 hd
    exact (hi.mem d).trans (hi.new d i h).2.1
  · cases h : g.own d with
    | none => exact (hi.mem d).trans (hi.old d h)
    | some i => exact absurd ((hmem d).2 ⟨i, h⟩) hd
end

end Gbbs.Em
