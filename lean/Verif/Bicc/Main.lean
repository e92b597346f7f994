/-
C105: `critical_connectivity` and `Biconnectivity`, `benchmarks/Biconnectivity/TarjanVishkin/Biconnectivity.h:424-546`.
-/
import Verif.Bicc.Low
import Verif.Bicc.Forest
import Verif.Bicc.Csr
import Mathlib.Data.Nat.Bitwise
import Mathlib.Tactic.Tauto

namespace Gbbs.Bicc

open Em Relation Conc Conc.Prog
open BFSSF (Adj none32)

variable {W : Type}

/-! ### Model -/

/-- `bc::TOP_BIT`, `:33`. -/
def topBit : Nat := 2 ^ 31

/-- `bc::VAL_MASK`, `:34`. -/
def valMask : Nat := 2 ^ 31 - 1

/-- The loop that marks the critical edges, `:434-446`. Every iteration reads and writes its own cell of `Parents` only. -/
def mark (p : Nat → Nat) (lo hi PN sz : Nat → Int) (i : Nat) : Nat :=
  if p i ≠ i then
    if PN (p i) ≤ lo i ∧ hi i < PN (p i) + sz (p i) then p i ||| topBit else p i
  else p i

/-- `not_critical_edge`, `:448-460`. -/
def notCrit (P : Nat → Nat) (u v : Nat) : Bool :=
  if v = P u &&& valMask then decide (P u &&& topBit = 0)
  else if P v &&& valMask = u then decide (P v &&& topBit = 0)
  else true

/-- The arcs, in the order of the vertices. -/
def arcs (G : Gr W) : List (Nat × Nat) := (List.range G.n).flatMap fun u => (G.fwd u).map fun e => (u, e.1)

/-- One call (or one application of a mapped function) for every arc of a list. -/
def callOf (l : List (Nat × Nat)) (i : Fin l.length) : Nat × Nat := l[i]

/-- The initial sizes (`:164-165`); the other cells are not used before they are written. -/
def mem1 (g : Loc → Int) : Loc → Int
  | (.sz, _) => 1
  | x => g x

/-- `MM` before the map over the edges, `:256-260`. -/
def mem2 (PN : Nat → Int) (m : Loc → Int) : Loc → Int
  | (.lo, v) => PN v
  | (.hi, v) => PN v + m (.sz, v) - 1
  | x => m x

/-- `Biconnectivity`, `:503-546`, with all the intermediate results: `lab` is `Components`, `s` the order of the `write_min`s of `cc_sources`, `p` is
`Parents`, the `m`s are the memories after the loops of `preorder_number`, `cc` the labels. The result is `Parents` with the marks, and `cc`. -/
structure Run (G : Gr W) where
  lab : Nat → Nat
  hlab : UF.SimpleUnion (callOf (arcs G)) G.n lab
  s : List Nat
  hs : Sched G.n s
  p : Nat → Nat
  hp : MultiBfs G (sources G.n lab s) p
  g : Loc → Int
  f1 : Nat
  m1 : Loc → Int
  h1 : Leaffix (augF f1) G.n p (mem1 g) m1
  PN : Nat → Int
  hPN : Numbering G.n p (fun v => m1 (.sz, v)) (sources G.n lab s) PN
  m3 : Loc → Int
  h3 : MapEdges (callOf (arcs G)) p PN (mem2 PN m1) m3
  f4 : Nat
  m4 : Loc → Int
  h4 : Leaffix (mmF f4) G.n p m3 m4
  cc : Nat → Nat
  hcc : UF.SimpleUnion
    (callOf ((arcs G).filter fun e => notCrit (mark p (fun v => m4 (.lo, v)) (fun v => m4 (.hi, v)) PN (fun v => m4 (.sz, v))) e.1 e.2)) G.n cc

/-- `Parents` as returned, with the marks. -/
def Run.parents {G : Gr W} (R : Run G) : Nat → Nat :=
  mark R.p (fun v => R.m4 (.lo, v)) (fun v => R.m4 (.hi, v)) R.PN (fun v => R.m4 (.sz, v))

/-- How a user labels an edge from the two arrays: by the label of the end that is not the parent of the other end. -/
def Run.edgeLabel {G : Gr W} (R : Run G) (e : Nat × Nat) : Nat :=
  R.cc (if R.parents e.1 &&& valMask = e.2 then e.1 else e.2)

/-! ### Verification -/

theorem mask_mark {a : Nat} (h : a < 2 ^ 31) : (a ||| topBit) &&& valMask = a ∧ a &&& valMask = a ∧ (a ||| topBit) &&& topBit ≠ 0 ∧ a &&& topBit = 0 := by
  have h0 : a &&& topBit = 0 := by
    rw [topBit, Nat.and_two_pow, Nat.testBit_lt_two_pow h]; rfl
  have h1 : a &&& valMask = a := by rw [valMask, Nat.and_two_pow_sub_one_eq_mod, Nat.mod_eq_of_lt h]
  refine ⟨?_, h1, ?_, h0⟩
  · rw [Nat.and_or_distrib_right, h1, show topBit &&& valMask = 0 by decide, Nat.or_zero]
  · rw [Nat.and_or_distrib_right, h0]; decide

theorem mem_arcs {G : Gr W} (hG : G.Ok) {u v : Nat} : (u, v) ∈ arcs G ↔ Adj G u v := by
  have : (u, v) ∈ arcs G ↔ u < G.n ∧ Adj G u v := by simp [arcs, Adj]
  rw [this]
  exact ⟨fun h => h.2, fun h => ⟨(hG.bound _ _ _ h.choose_spec).1, h⟩⟩

theorem callOf_iff {l : List (Nat × Nat)} {e : Nat × Nat} : (∃ i, callOf l i = e) ↔ e ∈ l := by
  rw [List.mem_iff_get]; rfl

theorem foldl_sum (sz : Nat → Int) (l : List Nat) (a : Int) : l.foldl (fun x c => op .sz x (sz c)) a = a + (l.map sz).sum := by
  induction l generalizing a with
  | nil => simp
  | cons c l ih => rw [List.foldl_cons, ih, List.map_cons, List.sum_cons]; show a + sz c + _ = _; omega

theorem kids_congr {n : Nat} {p q : Nat → Nat} (h : ∀ v < n, p v = q v) (v : Nat) : kids n p v = kids n q v :=
  List.filter_congr fun c hc => by rw [h c (List.mem_range.1 hc)]

section
variable {G : Gr W} (R : Run G) (hG : G.Ok) (hsym : ∀ u v, Adj G u v → Adj G v u)
include hG hsym

/-- The forest, the test for critical edges, and the labels. -/
theorem Run.core (hN : G.n ≤ none32) : ∃ par dp, BfsTree (Adj G) par dp ∧ (∀ v < G.n, par v = R.p v) ∧ (∀ v < G.n, par v < G.n) ∧
    (∀ v < G.n, (par v ≠ v ∧ Crit (Adj G) par v → R.parents v = par v ||| topBit) ∧ (¬ (par v ≠ v ∧ Crit (Adj G) par v) → R.parents v = par v)) ∧
    ∀ u v, u < G.n → v < G.n → (R.cc u = R.cc v ↔ EqvGen (fun a b => Adj G a b ∧ notCrit R.parents a b = true) u v) := by
  have hE : ∀ u v, Adj G u v → u < G.n ∧ v < G.n := fun u v h => hG.bound _ _ _ h.choose_spec
  have hlab := UF.simpleUnion_correct R.hlab
  have hIss : UF.Issued (callOf (arcs G)) = Adj G := by
    funext a b; exact propext (callOf_iff.trans (mem_arcs hG))
  rw [hIss] at hlab
  have hS := sources_one hN hlab (fun v hv => Nat.lt_of_le_of_lt ((hlab v hv).2 v (.refl v)) hv) R.hs
  obtain ⟨dp, B, hlt, hdn, hdS⟩ := multiBfs_forest hG hN hsym hS R.hp
  generalize hq : (fun v => if v < G.n then R.p v else v) = par at B
  have hpar : ∀ v < G.n, R.p v = par v := fun v hv => by rw [← hq]; exact (if_pos hv).symm
  have T : Tr G.n R.p dp := by
    refine ⟨hlt, fun v hv h => ?_, fun v hv h => ?_⟩
    · rw [hpar v hv]; exact B.root v h
    · rw [hpar v hv]; exact (B.step v h).2
  have T' : Tr G.n par dp := ⟨fun v hv => hpar v hv ▸ hlt v hv, fun v _ h => B.root v h, fun v _ h => (B.step v h).2⟩
  have hk := kids_congr hpar
  -- the sizes
  obtain ⟨hz1, -⟩ := leaffix_fix T (K := [.sz, .ct]) (by simp) (fun m acts a b c => aug_spec R.f1 a b c) R.h1
  have hz : IsSize G.n par fun v => R.m1 (.sz, v) := by
    intro v
    show R.m1 (.sz, v) = _
    rw [hz1 .sz (by simp) (by decide) v, foldl_sum (fun c => R.m1 (.sz, c)), hk]; rfl
  -- the numbers
  have hPN0 := numbering_isPN T (fun v => ⟨fun h => ⟨hS.lt v h, (hdS v (hS.lt v h)).2 h⟩, fun h => (hdS v h.1).1 h.2⟩) R.hPN
  have hPN : IsPN G.n par dp (fun v => R.m1 (.sz, v)) R.PN := ⟨hPN0.root, fun v c hc => by
    have := hPN0.kid v c (by rw [hk]; exact hc); rw [hk] at this; exact this⟩
  have hpos := size_pos T' hz
  -- the bounds
  let Nt : Nat → Nat → Prop := fun u v => Adj G u v ∧ par u ≠ v ∧ par v ≠ u
  have harc : ∀ i, Adj G (callOf (arcs G) i).1 (callOf (arcs G) i).2 := fun i => (mem_arcs hG).1 (callOf_iff.1 ⟨i, rfl⟩)
  have hnt : ∀ i, (callOf (arcs G) i).1 ≠ R.p (callOf (arcs G) i).2 → (callOf (arcs G) i).2 ≠ R.p (callOf (arcs G) i).1 →
      (callOf (arcs G) i).1 < (callOf (arcs G) i).2 →
      Nt (callOf (arcs G) i).1 (callOf (arcs G) i).2 ∧ Nt (callOf (arcs G) i).2 (callOf (arcs G) i).1 := by
    intro i h1 h2 _
    obtain ⟨b1, b2⟩ := hE _ _ (harc i)
    rw [hpar _ b2] at h1
    rw [hpar _ b1] at h2
    exact ⟨⟨harc i, h2.symm, h1.symm⟩, hsym _ _ (harc i), h1.symm, h2.symm⟩
  obtain ⟨hM, hMa⟩ := mapEdges_spec (Nt := Nt) (m0 := mem2 R.PN R.m1)
    (fun v => by show R.PN v ≤ R.PN v + R.m1 (.sz, v) - 1; have := hpos v; omega) hnt R.h3
  have hBd : Bounds G.n (Adj G) par R.PN (fun v => R.m1 (.sz, v)) (fun v => R.m3 (.lo, v)) (fun v => R.m3 (.hi, v)) := by
    refine ⟨fun x y hxy h1 h2 hne => ?_, fun x => ?_, fun x => ?_⟩
    · obtain ⟨bx, bY⟩ := hE x y hxy
      rcases Nat.lt_or_gt_of_ne hne with hlt' | hlt'
      · obtain ⟨i, hi⟩ := callOf_iff.2 ((mem_arcs hG).2 hxy)
        have := hMa i
        rw [hi] at this
        exact (this (by rw [hpar y bY]; exact h2.symm) (by rw [hpar x bx]; exact h1.symm) hlt').2
      · obtain ⟨i, hi⟩ := callOf_iff.2 ((mem_arcs hG).2 (hsym _ _ hxy))
        have := hMa i
        rw [hi] at this
        exact (this (by rw [hpar x bx]; exact h1.symm) (by rw [hpar y bY]; exact h2.symm) hlt').1
    · rcases (hM.lo x).2 with h | ⟨u, ⟨h1, h2, h3⟩, h⟩
      · exact Or.inl h
      · exact Or.inr ⟨u, hsym _ _ h1, h3, h2, h⟩
    · rcases (hM.hi x).2 with h | ⟨u, ⟨h1, h2, h3⟩, h⟩
      · exact Or.inl h
      · exact Or.inr ⟨u, hsym _ _ h1, h3, h2, h⟩
  obtain ⟨hm1, hm2⟩ := leaffix_fix T (K := [.lo, .hi, .ct]) (by simp) (fun m acts a b c => mm_spec R.f4 a b c) R.h4
  have hsz : ∀ v, R.m4 (.sz, v) = R.m1 (.sz, v) := fun v => (hm2 .sz (by simp) v).trans (hM.sz v)
  have hcr : ∀ i < G.n, (R.PN (par i) ≤ R.m4 (.lo, i) ∧ R.m4 (.hi, i) < R.PN (par i) + R.m4 (.sz, par i)) ↔ Crit (Adj G) par i := by
    intro i hi
    rw [hsz]
    refine crit_iff B T' hE hz hPN hBd (L := fun v => R.m4 (.lo, v)) (U := fun v => R.m4 (.hi, v)) (fun v => ?_) (fun v => ?_) hi
    · have := hm1 .lo (by simp) (by decide) v; rw [hk] at this; exact this
    · have := hm1 .hi (by simp) (by decide) v; rw [hk] at this; exact this
  refine ⟨par, dp, B, fun v hv => (hpar v hv).symm, T'.lt, fun v hv => ?_, fun u v hu hv => ?_⟩
  · have e : R.parents v = if par v ≠ v then
        if R.PN (par v) ≤ R.m4 (.lo, v) ∧ R.m4 (.hi, v) < R.PN (par v) + R.m4 (.sz, par v) then par v ||| topBit else par v else par v := by
      unfold Run.parents mark; rw [hpar v hv]
    rw [e]
    constructor
    · rintro ⟨h1, h2⟩
      rw [if_pos h1, if_pos ((hcr v hv).2 h2)]
    · intro h
      by_cases h1 : par v ≠ v
      · rw [if_pos h1, if_neg fun h2 => h ⟨h1, (hcr v hv).1 h2⟩]
      · rw [if_neg h1]
  · rw [(UF.simpleUnion_correct R.hcc).eq_iff hu hv]
    have : UF.Issued (callOf ((arcs G).filter fun e => notCrit (mark R.p (fun v => R.m4 (.lo, v)) (fun v => R.m4 (.hi, v)) R.PN (fun v => R.m4 (.sz, v))) e.1 e.2)) =
        fun a b => Adj G a b ∧ notCrit R.parents a b = true := by
      funext a b
      refine propext (callOf_iff.trans ?_)
      rw [List.mem_filter, mem_arcs hG]; rfl
    rw [this]

/-- **C105.** For edges that are not self-loops, the labels are equal if and only if the edges are in the same biconnected component. -/
theorem Run.correct (hn : G.n ≤ 2 ^ 31) {e f : Nat × Nat} (he : Adj G e.1 e.2) (hf : Adj G f.1 f.2) (hne : e.1 ≠ e.2) (hnf : f.1 ≠ f.2) :
    R.edgeLabel e = R.edgeLabel f ↔ SameBlock (Adj G) e f := by
  obtain ⟨par, dp, B, -, hlt, hP, hcc⟩ := R.core hG hsym (Nat.le_trans hn (by decide))
  have hE : ∀ u v, Adj G u v → u < G.n ∧ v < G.n := fun u v h => hG.bound _ _ _ h.choose_spec
  have hmask : ∀ v < G.n, R.parents v &&& valMask = par v ∧ (R.parents v &&& topBit = 0 ↔ ¬ (par v ≠ v ∧ Crit (Adj G) par v)) := by
    intro v hv
    have hb := mask_mark (a := par v) (Nat.lt_of_lt_of_le (hlt v hv) hn)
    by_cases h : par v ≠ v ∧ Crit (Adj G) par v
    · rw [(hP v hv).1 h]; exact ⟨hb.1, fun h0 => absurd h0 hb.2.2.1, fun h0 => absurd h h0⟩
    · rw [(hP v hv).2 h]; exact ⟨hb.2.1, fun _ => h, fun _ => hb.2.2.2⟩
  have hrep : ∀ e : Nat × Nat, Adj G e.1 e.2 → R.edgeLabel e = R.cc (rep par e) := by
    intro e he
    unfold Run.edgeLabel rep
    rw [(hmask _ (hE _ _ he).1).1]
  have hno : ∀ u v, par u = v → par v = u → u = v := by
    intro u v h1 h2
    by_contra hc
    have d1 : dp u ≠ 0 := fun h0 => hc ((B.root u h0).symm.trans h1)
    have d2 : dp v ≠ 0 := fun h0 => hc (h2.symm.trans (B.root v h0))
    have h3 := (B.step u d1).2
    have h4 := (B.step v d2).2
    rw [h1] at h3; rw [h2] at h4; omega
  have hH : (fun a b => Adj G a b ∧ notCrit R.parents a b = true) = H (Adj G) par := by
    funext u v
    refine propext (and_congr_right fun ha => ?_)
    obtain ⟨hu, hv⟩ := hE u v ha
    unfold notCrit
    rw [(hmask u hu).1, (hmask v hv).1]
    by_cases h1 : v = par u
    · rw [if_pos h1, decide_eq_true_iff, (hmask u hu).2]
      have h2 : ¬ (par v = u ∧ u ≠ v ∧ Crit (Adj G) par v) := fun h => h.2.1 (hno u v h1.symm h.1)
      constructor
      · intro h; exact ⟨fun h' => h ⟨fun h0 => h'.2.1 (h0.symm.trans h'.1), h'.2.2⟩, h2⟩
      · intro h h'; exact h.1 ⟨h1.symm, fun h0 => h'.1 (h1.symm.trans h0.symm), h'.2⟩
    · rw [if_neg h1]
      by_cases h3 : par v = u
      · rw [if_pos h3, decide_eq_true_iff, (hmask v hv).2]
        constructor
        · intro h; exact ⟨fun h' => h1 h'.1.symm, fun h' => h ⟨fun h0 => h'.2.1 (h'.1.symm.trans h0), h'.2.2⟩⟩
        · intro h h'; exact h.2 ⟨h3, fun h0 => h'.1 (h3.trans h0), h'.2⟩
      · rw [if_neg h3]
        exact ⟨fun _ => ⟨fun h => h1 h.1.symm, fun h => h3 h.1⟩, fun _ => rfl⟩
  have hr : ∀ e : Nat × Nat, Adj G e.1 e.2 → rep par e < G.n := by
    intro e he
    unfold rep
    split
    · exact (hE _ _ he).1
    · exact (hE _ _ he).2
  rw [hrep e he, hrep f hf, hcc _ _ (hr e he) (hr f hf), hH]
  exact B.all_edges he hf hne hnf

end

end Gbbs.Bicc
