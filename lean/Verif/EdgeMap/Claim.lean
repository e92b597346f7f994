/-
`edgeMap` with a client that claims unset destinations with a CAS, e.g. `BFS_F`
(`benchmarks/BFS/NonDeterministicBFS/BFS.h:30-46`).
-/
import Verif.EdgeMap.Rounds

namespace Gbbs.Em

open Conc Conc.Prog
open Atomics (Steps)

variable {W : Type}

/-- `BFS_F` and similar: `cond(d)`: `a[d] == unset`; `updateAtomic`: `CAS(&a[d], unset, val)`; `update`: the
same with a read and a write (`BFS.h:34-46`). -/
def claimF (unset : Nat) (val : Nat → Nat → W → Nat) : Func W Nat Nat Unit where
  cond d := read d fun x => ret (x == unset)
  updA s d w := cas d unset (val s d w) fun b => ret (if b then some () else none)
  upd s d w := read d fun x => if x = unset then write d (val s d w) (ret (some ())) else ret none

/-! ### Verification -/

structure CGh where
  p : Nat → Nat
  own : Nat → Option (Nat × Nat)

structure CInv (unset : Nat) (p0 : Nat → Nat) (Ac : Edge W → Prop) (val : Nat → Nat → W → Nat) (g : CGh)
    (m : Nat → Nat) : Prop where
  mem : ∀ x, m x = g.p x
  old : ∀ d, g.own d = none → g.p d = p0 d
  new : ∀ d i, g.own d = some i → p0 d = unset ∧ ∃ e, Ac e ∧ e.d = d ∧ g.p d = val e.s e.d e.w

def crg (unset : Nat) (p0 : Nat → Nat) (Ac : Edge W → Prop) (val : Nat → Nat → W → Nat)
    (may : Nat × Nat → Nat → Prop) : RG (Nat × Nat) CGh Nat Nat where
  Inv := CInv unset p0 Ac val
  R i g g' := (∀ d, g'.own d = some i ↔ g.own d = some i) ∧ (∀ d, g.p d ≠ unset → g'.p d = g.p d) ∧
    ∀ d, Excl may i d → g'.p d = g.p d
  Gu i g g' := (∀ d j, j ≠ i → (g'.own d = some j ↔ g.own d = some j)) ∧
    (∀ d, g.p d ≠ unset → g'.p d = g.p d) ∧ ∀ d, g'.p d ≠ g.p d → may i d
  refl _ _ := ⟨fun _ => Iff.rfl, fun _ _ => rfl, fun _ _ => rfl⟩
  trans i g g' g'' h1 h2 := ⟨fun d => (h2.1 d).trans (h1.1 d),
    fun d hd => (h2.2.1 d (by rw [h1.2.1 d hd]; exact hd)).trans (h1.2.1 d hd),
    fun d hd => (h2.2.2 d hd).trans (h1.2.2 d hd)⟩
  compat i j g g' hne h := ⟨fun d => h.1 d j (Ne.symm hne), h.2.1, fun d hd => by
    by_contra hc
    exact hd i hne (h.2.2 d hc)⟩

def CT (i : Nat × Nat) (g : CGh) (l : List (Nat × Unit)) : Prop :=
  (l.map Prod.fst).Nodup ∧ ∀ d, d ∈ l.map Prod.fst ↔ g.own d = some i

/-- The ghost state after thread `i` claims `d`. -/
def CGh.claim (g : CGh) (i : Nat × Nat) (d v : Nat) : CGh :=
  ⟨fun x => if x = d then v else g.p x, fun x => if x = d then some i else g.own x⟩

section
variable {unset : Nat} {p0 : Nat → Nat} {Ac : Edge W → Prop} {val : Nat → Nat → W → Nat}
  {may : Nat × Nat → Nat → Prop}

theorem claim_ok (hval : ∀ e, Ac e → val e.s e.d e.w ≠ unset) {i : Nat × Nat} {g : CGh} {m : Nat → Nat}
    (hi : CInv unset p0 Ac val g m) {e : Edge W} (he : Ac e) (hm : may i e.d) (hu : m e.d = unset)
    {l : List (Nat × Unit)} (hT : CT i g l) :
    (crg unset p0 Ac val may).Gu i g (g.claim i e.d (val e.s e.d e.w)) ∧
    CInv unset p0 Ac val (g.claim i e.d (val e.s e.d e.w)) (put m e.d (val e.s e.d e.w)) ∧
    CT i (g.claim i e.d (val e.s e.d e.w)) (emit e.d (some ()) l) ∧
    (g.claim i e.d (val e.s e.d e.w)).p e.d ≠ unset := by
  have hpu : g.p e.d = unset := (hi.mem _).symm.trans hu
  have hno : g.own e.d = none := by
    cases h : g.own e.d with
    | none => rfl
    | some j =>
      obtain ⟨_, e', h1, h2, h3⟩ := hi.new _ _ h
      exact absurd (h3.symm.trans hpu) (hval e' h1)
  refine ⟨⟨fun d j hj => ?_, fun d hd => ?_, fun d hd => ?_⟩, ⟨fun x => ?_, fun d hd => ?_, fun d j hd => ?_⟩,
    ⟨?_, fun d => ?_⟩, ?_⟩
  · by_cases h : d = e.d
    · subst h; simp [CGh.claim, hno, Ne.symm hj]
    · simp [CGh.claim, h]
  · have : d ≠ e.d := fun h => hd (h ▸ hpu)
    simp [CGh.claim, this]
  · by_cases h : d = e.d
    · subst h; exact hm
    · simp [CGh.claim, h] at hd
  · by_cases h : x = e.d
    · subst h; rw [put_same]; simp [CGh.claim]
    · rw [put_ne _ _ h]; simp [CGh.claim, h, hi.mem]
  · by_cases h : d = e.d
    · subst h; simp [CGh.claim] at hd
    · simp only [CGh.claim, h, if_false] at hd ⊢; exact hi.old d hd
  · by_cases h : d = e.d
    · subst h; exact ⟨(hi.old _ hno).symm.trans hpu, e, he, rfl, by simp [CGh.claim]⟩
    · simp only [CGh.claim, h, if_false] at hd ⊢; exact hi.new d j hd
  · rw [emit, List.map_cons, List.nodup_cons]
    refine ⟨fun hin => ?_, hT.1⟩
    have := (hT.2 _).1 hin
    rw [hno] at this; cases this
  · rw [emit, List.map_cons, List.mem_cons, hT.2]
    by_cases h : d = e.d
    · simp [CGh.claim, h]
    · simp [CGh.claim, h]
  · simp only [CGh.claim, if_true]; exact hval e he

theorem CT.stable {i : Nat × Nat} {g g' : CGh} {l : List (Nat × Unit)}
    (hr : (crg unset p0 Ac val may).R i g g') (h : CT i g l) : CT i g' l :=
  ⟨h.1, fun d => (h.2 d).trans (hr.1 d).symm⟩

theorem crg_gu_refl (i : Nat × Nat) (g : CGh) : (crg unset p0 Ac val may).Gu i g g :=
  ⟨fun _ _ _ => Iff.rfl, fun _ _ => rfl, fun _ h => absurd rfl h⟩

theorem claim_spec (unset : Nat) (p0 : Nat → Nat) (Ac : Edge W → Prop) (val : Nat → Nat → W → Nat)
    (hval : ∀ e, Ac e → val e.s e.d e.w ≠ unset) :
    FSpec (crg unset p0 Ac val) (claimF unset val) Ac CT (fun g e => g.p e.d ≠ unset) where
  keep may i e := ⟨fun g g' hr h => by rw [hr.2.1 _ h]; exact h, fun g g' hr h => by rw [hr.2.1 _ h]; exact h⟩
  stable may i l g g' hr h := h.stable hr
  cond may i l g d hT := by
    intro g1 m1 hr1 hi1
    refine ⟨g1, crg_gu_refl _ _, hi1, ?_⟩
    intro g2 hr2
    refine ⟨(hT.stable hr1).stable hr2, fun hb e _ he => ?_⟩
    subst he
    have hne : g1.p e.d ≠ unset := by
      rw [← hi1.mem]
      simpa using hb
    rw [hr2.2.1 _ hne]; exact hne
  updA may i l g e he hm hT := by
    intro g1 m1 hr1 hi1
    have hT1 := hT.stable hr1
    refine ⟨fun hu => ?_, fun hu => ?_⟩
    · obtain ⟨h1, h2, h3, h4⟩ := claim_ok hval hi1 he hm hu hT1
      refine ⟨_, h1, h2, fun g2 hr2 => ⟨h3.stable hr2, ?_⟩⟩
      rw [hr2.2.1 _ h4]; exact h4
    · refine ⟨g1, crg_gu_refl _ _, hi1, fun g2 hr2 => ⟨hT1.stable hr2, ?_⟩⟩
      have hne : g1.p e.d ≠ unset := by rw [← hi1.mem]; exact hu
      rw [hr2.2.1 _ hne]; exact hne
  upd may i l g e he hm hx hT := by
    intro g1 m1 hr1 hi1
    have hT1 := hT.stable hr1
    refine ⟨g1, crg_gu_refl _ _, hi1, ?_⟩
    beta_reduce
    by_cases hu : m1 e.d = unset
    · rw [if_pos hu]
      intro g2 m2 hr2 hi2
      have hu2 : m2 e.d = unset := by rw [hi2.mem, hr2.2.2 _ hx, ← hi1.mem]; exact hu
      obtain ⟨h1, h2, h3, h4⟩ := claim_ok hval hi2 he hm hu2 (hT1.stable hr2)
      refine ⟨_, h1, h2, fun g3 hr3 => ⟨h3.stable hr3, ?_⟩⟩
      rw [hr3.2.1 _ h4]; exact h4
    · rw [if_neg hu]
      intro g2 hr2
      refine ⟨hT1.stable hr2, ?_⟩
      have hne : g1.p e.d ≠ unset := by rw [← hi1.mem]; exact hu
      rw [hr2.2.1 _ hne]; exact hne

/-- One `edgeMap` with a client that meets the specification of a claim. -/
theorem claim_round_of (F : Func W Nat Nat Unit) (Cn : Nat → CGh → Prop) (G : Gr W) (hG : G.Ok) (inF : Nat → Bool)
    {m m' : Nat → Nat} {o : List (Nat × Unit)}
    (hs : FSpecC (crg unset m (Active G inF) val) F (Active G inF) CT (fun g e => g.p e.d ≠ unset) Cn)
    (hr : EdgeMap F G inF m m' o) :
    (o.map Prod.fst).Nodup ∧
    (∀ d, d ∈ o.map Prod.fst ↔ m d = unset ∧ ∃ e, Active G inF e ∧ e.d = d) ∧
    (∀ d, d ∈ o.map Prod.fst → ∃ e, Active G inF e ∧ e.d = d ∧ m' d = val e.s e.d e.w) ∧
    ∀ d, d ∉ o.map Prod.fst → m' d = m d := by
  obtain ⟨g, out, hi, hdn, hT, hcol⟩ := edgeMap_soundC hs G hG inF
    (fun _ h => h) (CInv unset m (Active G inF) val) (fun _ _ _ => Iff.rfl) ⟨m, fun _ => none⟩
    ⟨fun _ => rfl, fun _ _ => rfl, fun _ _ h => (by cases h)⟩
    (fun i => ⟨List.nodup_nil, fun d => ⟨fun h => (by cases h), fun h => (by cases h)⟩⟩) hr
  have hmem : ∀ d, d ∈ o.map Prod.fst ↔ ∃ i, g.own d = some i := by
    intro d
    constructor
    · intro h
      obtain ⟨⟨d', x⟩, h1, rfl⟩ := List.mem_map.1 h
      obtain ⟨i, hi'⟩ := hcol.sub _ h1
      exact ⟨i, ((hT i).2 _).1 (List.mem_map.2 ⟨_, hi', rfl⟩)⟩
    · rintro ⟨i, h⟩
      obtain ⟨⟨d', x⟩, h1, rfl⟩ := List.mem_map.1 (((hT i).2 d).2 h)
      obtain ⟨y, hy⟩ := hcol.all i _ _ h1
      exact List.mem_map.2 ⟨_, hy, rfl⟩
  refine ⟨?_, fun d => ?_, fun d hd => ?_, fun d hd => ?_⟩
  · refine hcol.nodup (fun i => (hT i).1) fun i j d x y h1 h2 => ?_
    have e1 := ((hT i).2 d).1 (List.mem_map.2 ⟨_, h1, rfl⟩)
    have e2 := ((hT j).2 d).1 (List.mem_map.2 ⟨_, h2, rfl⟩)
    exact Option.some.inj (e1.symm.trans e2)
  · rw [hmem]
    constructor
    · rintro ⟨i, h⟩
      obtain ⟨h1, e, h2, h3, _⟩ := hi.new d i h
      exact ⟨h1, e, h2, h3⟩
    · rintro ⟨h1, e, h2, rfl⟩
      cases h : g.own e.d with
      | none => exact absurd ((hi.old _ h).trans h1) (hdn e h2)
      | some i => exact ⟨i, rfl⟩
  · obtain ⟨i, h⟩ := (hmem d).1 hd
    obtain ⟨_, e, h2, h3, h4⟩ := hi.new d i h
    exact ⟨e, h2, h3, (hi.mem d).trans h4⟩
  · cases h : g.own d with
    | none => exact (hi.mem d).trans (hi.old d h)
    | some i => exact absurd ((hmem d).2 ⟨i, h⟩) hd

/-- One `edgeMap` with a claiming client: every unset destination of an edge of the frontier is claimed for
exactly one such edge and emitted once; nothing else changes. -/
theorem claim_round (G : Gr W) (hG : G.Ok) (inF : Nat → Bool)
    (hval : ∀ e, Active G inF e → val e.s e.d e.w ≠ unset) {m m' : Nat → Nat} {o : List (Nat × Unit)}
    (hr : EdgeMap (claimF unset val) G inF m m' o) :
    (o.map Prod.fst).Nodup ∧
    (∀ d, d ∈ o.map Prod.fst ↔ m d = unset ∧ ∃ e, Active G inF e ∧ e.d = d) ∧
    (∀ d, d ∈ o.map Prod.fst → ∃ e, Active G inF e ∧ e.d = d ∧ m' d = val e.s e.d e.w) ∧
    ∀ d, d ∉ o.map Prod.fst → m' d = m d :=
  claim_round_of _ _ G hG inF (claim_spec unset m (Active G inF) val hval).toC hr
end

end Gbbs.Em
