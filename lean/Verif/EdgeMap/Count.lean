/-
`edgeMap` with a client that decrements a counter per edge and emits the destinations whose counter
reaches 0, e.g. `mis_f` (`benchmarks/MaximalIndependentSet/RandomGreedy/MaximalIndependentSet.h:96-115`)
and `coloring_f` (`benchmarks/GraphColoring/Hasenplaugh14/GraphColoring.h:64-86`).
-/
import Verif.EdgeMap.Once

namespace Gbbs.Em

open Conc Conc.Prog
open Atomics (Steps)

variable {W : Type}

/-- `gbbs::fetch_and_add`, `bridge.h:254-262`; `f` bounds the retries. -/
def faa {L : Type} : Nat → L → Int → Prog L Int Int
  | 0, _, _ => stuck
  | f + 1, a, b => read a fun c => cas a c (c + b) fun r => if r then ret c else faa f a b

/-- `mis_f`, `coloring_f`; `cnt s d`: whether the edge counts (`perm[s] < perm[d]`, or always). -/
def decF (f : Nat) (cnt : Nat → Nat → Bool) : Func W Nat Int Unit where
  cond d := read d fun x => ret (decide (0 < x))
  upd s d _ := if cnt s d then read d fun x => write d (x - 1) (read d fun y => ret (if y = 0 then some () else none))
    else ret none
  updA s d _ := if cnt s d then (faa f d (-1)).bind fun x => ret (if x = 1 then some () else none) else ret none

/-! ### Verification -/

structure DGh (W : Type) where
  p : Nat → Int
  did : Edge W → Prop
  z : Nat → Option (Nat × Nat)

section
open Classical

/-- Edges to `d` satisfying `q`. -/
noncomputable def cntTo (acts : List (Edge W)) (q : Edge W → Prop) (d : Nat) : Nat :=
  acts.countP fun e => decide (q e ∧ e.d = d)

theorem cntTo_mono {acts : List (Edge W)} {q q' : Edge W → Prop} (h : ∀ e, e ∈ acts → q e → q' e) (d : Nat) :
    cntTo acts q d ≤ cntTo acts q' d := by
  refine List.countP_mono_left fun e he hq => ?_
  simp only [decide_eq_true_eq] at hq ⊢
  exact ⟨h e he hq.1, hq.2⟩

theorem cntTo_cons (a : Edge W) (l : List (Edge W)) (q : Edge W → Prop) (d : Nat) :
    cntTo (a :: l) q d = cntTo l q d + if q a ∧ a.d = d then 1 else 0 := by
  unfold cntTo
  rw [List.countP_cons]
  by_cases h : q a ∧ a.d = d <;> simp [h]

theorem cntTo_congr {acts : List (Edge W)} {q q' : Edge W → Prop} (h : ∀ e, e ∈ acts → (q e ↔ q' e)) (d : Nat) :
    cntTo acts q d = cntTo acts q' d :=
  Nat.le_antisymm (cntTo_mono (fun e he => (h e he).1) d) (cntTo_mono (fun e he => (h e he).2) d)

theorem cntTo_add {acts : List (Edge W)} (hn : acts.Nodup) {q : Edge W → Prop} {e : Edge W} (he : e ∈ acts)
    (hq : ¬ q e) (d : Nat) : cntTo acts (fun e' => e' = e ∨ q e') d = cntTo acts q d + if e.d = d then 1 else 0 := by
  induction acts with
  | nil => cases he
  | cons a l ih =>
    rw [List.nodup_cons] at hn
    rw [cntTo_cons, cntTo_cons]
    rcases List.mem_cons.1 he with h | h
    · subst h
      rw [cntTo_congr (acts := l) (q := fun e' => e' = e ∨ q e') (q' := q) fun e' he' => ⟨fun h => h.resolve_left fun hc => hn.1 (hc ▸ he'), Or.inr⟩]
      by_cases hd : e.d = d <;> simp [hd, hq]
    · have hae : a ≠ e := fun hc => hn.1 (hc ▸ h)
      rw [ih hn.2 h]
      by_cases hd : q a ∧ a.d = d
      · have h1 : (a = e ∨ q a) ∧ a.d = d := ⟨Or.inr hd.1, hd.2⟩
        rw [if_pos hd, if_pos h1]; omega
      · have h1 : ¬ ((a = e ∨ q a) ∧ a.d = d) := fun h => hd ⟨h.1.resolve_left hae, h.2⟩
        rw [if_neg hd, if_neg h1]; omega

structure DInv (acts : List (Edge W)) (cnt : Nat → Nat → Bool) (p0 : Nat → Int) (g : DGh W) (m : Nat → Int) : Prop where
  mem : ∀ x, m x = g.p x
  ok : ∀ e, g.did e → e ∈ acts ∧ cnt e.s e.d = true ∧ 0 < p0 e.d
  live : ∀ d, 0 < p0 d → g.p d + cntTo acts g.did d = p0 d
  dead : ∀ d, ¬ 0 < p0 d → g.p d = p0 d ∧ g.z d = none
  zero : ∀ d, 0 < p0 d → (g.p d = 0 ↔ g.z d ≠ none)

/-- The counter of a destination covers the edges that count. -/
def Enough (acts : List (Edge W)) (cnt : Nat → Nat → Bool) (p0 : Nat → Int) : Prop :=
  ∀ d, 0 < p0 d → (cntTo acts (fun e => cnt e.s e.d = true) d : Int) ≤ p0 d

variable {acts : List (Edge W)} {cnt : Nat → Nat → Bool} {p0 : Nat → Int}

theorem DInv.pos (hn : acts.Nodup) (hE : Enough acts cnt p0) {g : DGh W} {m : Nat → Int} (h : DInv acts cnt p0 g m)
    {e : Edge W} (he : e ∈ acts) (hc : cnt e.s e.d = true) (hl : 0 < p0 e.d) (hd : ¬ g.did e) : 0 < g.p e.d := by
  have h1 := cntTo_add hn he hd e.d
  rw [if_pos rfl] at h1
  have h2 : cntTo acts (fun e' => e' = e ∨ g.did e') e.d ≤ cntTo acts (fun e => cnt e.s e.d = true) e.d := by
    refine cntTo_mono (fun e' _ h' => ?_) _
    rcases h' with rfl | h'
    · exact hc
    · exact (h.ok _ h').2.1
  have h3 := hE e.d hl
  have h4 := h.live e.d hl
  omega

/-- The ghost state after thread `i` decrements for `e`. -/
noncomputable def DGh.dec (g : DGh W) (i : Nat × Nat) (e : Edge W) : DGh W :=
  ⟨fun x => if x = e.d then g.p x - 1 else g.p x, fun e' => e' = e ∨ g.did e',
    fun x => if x = e.d ∧ g.p x = 1 then some i else g.z x⟩

def drg (acts : List (Edge W)) (cnt : Nat → Nat → Bool) (p0 : Nat → Int) (P : Plan W) : RG (Nat × Nat) (DGh W) Nat Int where
  Inv := DInv acts cnt p0
  R i g g' := (∀ e, P.mine i e → (g'.did e ↔ g.did e)) ∧ (∀ e, g.did e → g'.did e) ∧
    (∀ d, g'.z d = some i ↔ g.z d = some i) ∧ ∀ d, Excl P.may i d → g'.p d = g.p d
  Gu i g g' := (∀ e, ¬ P.mine i e → (g'.did e ↔ g.did e)) ∧ (∀ e, g.did e → g'.did e) ∧
    (∀ d j, j ≠ i → (g'.z d = some j ↔ g.z d = some j)) ∧ ∀ d, g'.p d ≠ g.p d → P.may i d
  refl _ _ := ⟨fun _ _ => Iff.rfl, fun _ h => h, fun _ => Iff.rfl, fun _ _ => rfl⟩
  trans i g g' g'' h1 h2 := ⟨fun e he => (h2.1 e he).trans (h1.1 e he), fun e he => h2.2.1 e (h1.2.1 e he),
    fun d => (h2.2.2.1 d).trans (h1.2.2.1 d), fun d hd => (h2.2.2.2 d hd).trans (h1.2.2.2 d hd)⟩
  compat i j g g' hne h := ⟨fun e he => h.1 e fun hc => hne (P.disj _ _ _ hc he), h.2.1,
    fun d => h.2.2.1 d j (Ne.symm hne), fun d hd => by
      by_contra hc
      exact hd i hne (h.2.2.2 d hc)⟩

def DT (P : Plan W) (i : Nat × Nat) (g : DGh W) (l : List (Nat × Unit)) (S : Edge W → Prop) : Prop :=
  (l.map Prod.fst).Nodup ∧ (∀ d, d ∈ l.map Prod.fst ↔ g.z d = some i) ∧ ∀ e, S e → P.mine i e ∧ ¬ g.did e

def DDn (cnt : Nat → Nat → Bool) (p0 : Nat → Int) (g : DGh W) (e : Edge W) : Prop :=
  cnt e.s e.d = true → 0 < p0 e.d → g.did e

theorem drg_gu_refl (P : Plan W) (i : Nat × Nat) (g : DGh W) : (drg acts cnt p0 P).Gu i g g :=
  ⟨fun _ _ => Iff.rfl, fun _ h => h, fun _ _ _ => Iff.rfl, fun _ h => absurd rfl h⟩

theorem DT.stable {P : Plan W} {i : Nat × Nat} {g g' : DGh W} {l : List (Nat × Unit)} {S : Edge W → Prop}
    (hr : (drg acts cnt p0 P).R i g g') (h : DT P i g l S) : DT P i g' l S :=
  ⟨h.1, fun d => (h.2.1 d).trans (hr.2.2.1 d).symm, fun e he => ⟨(h.2.2 e he).1, fun hc =>
    (h.2.2 e he).2 ((hr.1 e (h.2.2 e he).1).1 hc)⟩⟩

theorem DT.less {P : Plan W} {i : Nat × Nat} {g : DGh W} {l : List (Nat × Unit)} {S S' : Edge W → Prop}
    (hs : ∀ e, S' e → S e) (h : DT P i g l S) : DT P i g l S' := ⟨h.1, h.2.1, fun e he => h.2.2 e (hs e he)⟩

/-- The decrement. -/
theorem dec_ok (hn : acts.Nodup) (hE : Enough acts cnt p0) {P : Plan W} {i : Nat × Nat} {g : DGh W} {m : Nat → Int}
    (hi : DInv acts cnt p0 g m) {e : Edge W} (he : e ∈ acts) (hc : cnt e.s e.d = true) (hl : 0 < p0 e.d)
    (hm : P.may i e.d) {l : List (Nat × Unit)} {S : Edge W → Prop} (hS : ¬ S e) (hT : DT P i g l (fun e' => e' = e ∨ S e')) :
    (drg acts cnt p0 P).Gu i g (g.dec i e) ∧ DInv acts cnt p0 (g.dec i e) (put m e.d (m e.d - 1)) ∧
    DT P i (g.dec i e) (emit e.d (if m e.d = 1 then some () else none) l) S ∧ DDn cnt p0 (g.dec i e) e := by
  obtain ⟨hmi, hnd⟩ := hT.2.2 e (Or.inl rfl)
  have hpos := hi.pos hn hE he hc hl hnd
  have hz : g.z e.d = none := by
    by_contra hz
    have := (hi.zero e.d hl).2 hz
    omega
  have hmd := hi.mem e.d
  refine ⟨⟨fun e' he' => ?_, fun e' he' => Or.inr he', fun d j hj => ?_, fun d hd => ?_⟩,
    ⟨fun x => ?_, fun e' he' => ?_, fun d hd => ?_, fun d hd => ?_, fun d hd => ?_⟩, ⟨?_, fun d => ?_, fun e' he' => ?_⟩,
    fun _ _ => Or.inl rfl⟩
  · have : e' ≠ e := fun h => he' (h ▸ hmi)
    simp [DGh.dec, this]
  · by_cases h : d = e.d ∧ g.p d = 1
    · have h1 : (g.dec i e).z d = some i := if_pos h
      rw [h1, h.1, hz, Option.some.injEq]
      exact ⟨fun h => absurd h.symm hj, fun h => by cases h⟩
    · simp only [DGh.dec, h, if_false]
  · by_cases h : d = e.d
    · rw [h]; exact hm
    · simp [DGh.dec, h] at hd
  · by_cases h : x = e.d
    · subst h; rw [put_same, hmd]; simp [DGh.dec]
    · rw [put_ne _ _ h, hi.mem]; simp [DGh.dec, h]
  · rcases he' with rfl | he'
    · exact ⟨he, hc, hl⟩
    · exact hi.ok e' he'
  · have h1 : cntTo acts (g.dec i e).did d = _ := cntTo_add hn he hnd d
    have h2 := hi.live d hd
    rw [h1]
    by_cases h : d = e.d
    · subst h; rw [if_pos rfl]; simp only [DGh.dec, if_true]; omega
    · rw [if_neg (Ne.symm h)]; simp only [DGh.dec, h, if_false]; omega
  · have h : d ≠ e.d := fun h => hd (h ▸ hl)
    simp only [DGh.dec, h, if_false, false_and]; exact hi.dead d hd
  · by_cases h : d = e.d
    · subst h
      by_cases h1 : g.p e.d = 1
      · simp [DGh.dec, h1]
      · simp only [DGh.dec, if_true, h1, and_false, if_false, hz, ne_eq, not_true, iff_false]
        omega
    · simp only [DGh.dec, h, if_false, false_and]; exact hi.zero d hd
  · by_cases h : m e.d = 1
    · rw [if_pos h, emit, List.map_cons, List.nodup_cons]
      refine ⟨fun hin => ?_, hT.1⟩
      have := (hT.2.1 _).1 hin
      rw [hz] at this; cases this
    · rw [if_neg h]; exact hT.1
  · by_cases h : m e.d = 1
    · rw [if_pos h, emit, List.map_cons, List.mem_cons, hT.2.1]
      have h1 : g.p e.d = 1 := hmd.symm.trans h
      by_cases hd : d = e.d
      · subst hd; simp [DGh.dec, h1]
      · simp [DGh.dec, hd]
    · rw [if_neg h, emit, hT.2.1]
      have h1 : g.p e.d ≠ 1 := fun hc => h (hmd.trans hc)
      by_cases hd : d = e.d
      · subst hd; simp [DGh.dec, h1]
      · simp [DGh.dec, hd]
  · refine ⟨(hT.2.2 e' (Or.inr he')).1, ?_⟩
    rintro (rfl | h)
    · exact hS he'
    · exact (hT.2.2 e' (Or.inr he')).2 h

theorem DDn.stable {P : Plan W} {i : Nat × Nat} {g g' : DGh W} {e : Edge W} (hr : (drg acts cnt p0 P).R i g g')
    (h : DDn cnt p0 g e) : DDn cnt p0 g' e := fun h1 h2 => hr.2.1 e (h h1 h2)

theorem faa_spec (hn : acts.Nodup) (hE : Enough acts cnt p0) {P : Plan W} {i : Nat × Nat} {e : Edge W} (he : e ∈ acts)
    (hc : cnt e.s e.d = true) (hl : 0 < p0 e.d) (hm : P.may i e.d) {l : List (Nat × Unit)} {S : Edge W → Prop}
    (hS : ¬ S e) (f : Nat) : ∀ g, DT P i g l (fun e' => e' = e ∨ S e') →
      Safe (drg acts cnt p0 P) i (fun g x => DT P i g (emit e.d (if x = 1 then some () else none) l) S ∧ DDn cnt p0 g e)
        (faa f e.d (-1)) g := by
  induction f with
  | zero => intro g _; trivial
  | succ f ih =>
    intro g hT
    intro g1 m1 hr1 hi1
    refine ⟨g1, drg_gu_refl _ _ _, hi1, ?_⟩
    intro g2 m2 hr2 hi2
    have hT2 := (hT.stable hr1).stable hr2
    refine ⟨fun hx => ?_, fun hx => ?_⟩
    · obtain ⟨h1, h2, h3, h4⟩ := dec_ok hn hE hi2 he hc hl hm hS hT2
      rw [hx] at h2 h3
      refine ⟨_, h1, h2, fun g3 hr3 => ⟨h3.stable hr3, h4.stable hr3⟩⟩
    · exact ⟨g2, drg_gu_refl _ _ _, hi2, ih g2 hT2⟩

theorem dec_spec (f : Nat) (hn : acts.Nodup) (hE : Enough acts cnt p0) :
    XSpec (drg acts cnt p0) (decF f cnt) (· ∈ acts) (fun d => 0 < p0 d) DT (DDn cnt p0) where
  keep P i e := ⟨fun g g' hr h => h.stable hr, fun g g' hr h h1 h2 => hr.2.1 e (h h1 h2)⟩
  stable P i l S g g' hr h := h.stable hr
  less P i l S S' g hs h := h.less hs
  cond P i l S g d hT := by
    intro g1 m1 hr1 hi1
    refine ⟨g1, drg_gu_refl _ _ _, hi1, ?_⟩
    intro g2 hr2
    have hT1 := hT.stable hr1
    refine ⟨hT1.stable hr2, fun hb => ?_, fun hb e hac hS hd => ?_⟩
    · by_contra hc
      have h1 := (hi1.dead d hc).1
      have h2 := hi1.mem d
      simp only [decide_eq_true_eq] at hb
      omega
    · subst hd
      intro hc hl
      by_contra hnd
      have h1 : ¬ g1.did e := (hT1.2.2 e hS).2
      have h2 := hi1.pos hn hE hac hc hl h1
      have h3 := hi1.mem e.d
      simp only [decide_eq_false_iff_not] at hb
      omega
  updA P i l S g e hac hC hm hS hT := by
    show Safe _ _ _ (if cnt e.s e.d then _ else _) _
    by_cases hc : cnt e.s e.d = true
    · rw [if_pos hc]
      exact (faa_spec hn hE hac hc hC hm hS f g hT).bind fun x g1 h1 g2 hr2 => ⟨h1.1.stable hr2, h1.2.stable hr2⟩
    · rw [if_neg hc]
      intro g1 hr1
      exact ⟨(hT.stable hr1).less fun _ h => Or.inr h, fun h => absurd h hc⟩
  upd P i l S g e hac hC hm hx hS hT := by
    show Safe _ _ _ (if cnt e.s e.d then _ else _) _
    by_cases hc : cnt e.s e.d = true
    · rw [if_pos hc]
      intro g1 m1 hr1 hi1
      refine ⟨g1, drg_gu_refl _ _ _, hi1, ?_⟩
      intro g2 m2 hr2 hi2
      have hT2 := (hT.stable hr1).stable hr2
      have hme : m2 e.d = m1 e.d := by rw [hi2.mem, hi1.mem, hr2.2.2.2 _ hx]
      obtain ⟨h1, h2, h3, h4⟩ := dec_ok hn hE hi2 hac hc hC hm hS hT2
      rw [hme] at h2 h3
      refine ⟨_, h1, h2, ?_⟩
      intro g3 m3 hr3 hi3
      refine ⟨g3, drg_gu_refl _ _ _, hi3, fun g4 hr4 => ⟨?_, (h4.stable hr3).stable hr4⟩⟩
      have hv : m3 e.d = m1 e.d - 1 := by
        rw [hi3.mem, hr3.2.2.2 _ hx, ← h2.mem, put_same]
      have : (if m3 e.d = 0 then some () else none) = if m1 e.d = 1 then some () else none := by
        by_cases h : m1 e.d = 1
        · rw [if_pos h, if_pos (by omega)]
        · rw [if_neg h, if_neg (by omega)]
      rw [this]
      exact (h3.stable hr3).stable hr4
    · rw [if_neg hc]
      intro g1 hr1
      exact ⟨(hT.stable hr1).less fun _ h => Or.inr h, fun h => absurd h hc⟩

/-- One `edgeMap` with a counting client: positive counters are lowered by the number of edges that count;
the destinations whose counter reaches 0 are emitted, once. -/
theorem count_round {f : Nat} (G : Gr W) (hG : G.Ok) (hO : G.Once) (inF : Nat → Bool) {m m' : Nat → Int}
    {o : List (Nat × Unit)} (hE : Enough (activeEdges G inF) cnt m) (hr : EdgeMapX (decF f cnt) G inF m m' o) :
    (o.map Prod.fst).Nodup ∧ (∀ d, d ∈ o.map Prod.fst ↔ 0 < m d ∧ m' d = 0) ∧
    (∀ d, 0 < m d → m' d = m d - cntTo (activeEdges G inF) (fun e => cnt e.s e.d = true) d) ∧
    ∀ d, ¬ 0 < m d → m' d = m d := by
  obtain ⟨P, g, out, hi, hdn, hT, hcol⟩ := edgeMap_soundX (dec_spec f (activeEdges_nodup hO inF) hE) G hG hO inF
    (fun e he => (mem_activeEdges hG e).2 he) (DInv (activeEdges G inF) cnt m) (fun _ _ _ => Iff.rfl)
    ⟨m, fun _ => False, fun _ => none⟩
    ⟨fun _ => rfl, fun _ h => h.elim, fun d _ => by simp [cntTo], fun _ _ => ⟨rfl, rfl⟩,
      fun d hd => ⟨fun h => by simp only at h; omega, fun h => absurd rfl h⟩⟩
    (fun P i => ⟨List.nodup_nil, fun d => ⟨fun h => (by cases h), fun h => (by cases h)⟩, fun e he => ⟨he, id⟩⟩) hr
  have hmem : ∀ d, d ∈ o.map Prod.fst ↔ ∃ i, g.z d = some i := by
    intro d
    constructor
    · intro h
      obtain ⟨⟨d', x⟩, h1, rfl⟩ := List.mem_map.1 h
      obtain ⟨i, hi'⟩ := hcol.sub _ h1
      exact ⟨i, ((hT i).2.1 _).1 (List.mem_map.2 ⟨_, hi', rfl⟩)⟩
    · rintro ⟨i, h⟩
      obtain ⟨⟨d', x⟩, h1, rfl⟩ := List.mem_map.1 (((hT i).2.1 d).2 h)
      obtain ⟨y, hy⟩ := hcol.all i _ _ h1
      exact List.mem_map.2 ⟨_, hy, rfl⟩
  refine ⟨?_, fun d => ?_, fun d hd => ?_, fun d hd => ?_⟩
  · refine hcol.nodup (fun i => (hT i).1) fun i j d x y h1 h2 => ?_
    have e1 := ((hT i).2.1 d).1 (List.mem_map.2 ⟨_, h1, rfl⟩)
    have e2 := ((hT j).2.1 d).1 (List.mem_map.2 ⟨_, h2, rfl⟩)
    exact Option.some.inj (e1.symm.trans e2)
  · rw [hmem, ← Option.ne_none_iff_exists']
    by_cases hd : 0 < m d
    · rw [← hi.zero d hd, hi.mem]
      exact ⟨fun h => ⟨hd, h⟩, fun h => h.2⟩
    · exact ⟨fun h => absurd (hi.dead d hd).2 h, fun h => absurd h.1 hd⟩
  · have h1 := hi.live d hd
    have h2 : cntTo (activeEdges G inF) g.did d = cntTo (activeEdges G inF) (fun e => cnt e.s e.d = true) d := by
      refine Nat.le_antisymm (cntTo_mono (fun e _ h => (hi.ok e h).2.1) d) ?_
      refine List.countP_mono_left fun e he hq => ?_
      simp only [decide_eq_true_eq] at hq ⊢
      exact ⟨hdn e ((mem_activeEdges hG e).1 he) hq.1 (hq.2 ▸ hd), hq.2⟩
    rw [hi.mem, ← h2]; omega
  · rw [hi.mem]; exact (hi.dead d hd).1

end

end Gbbs.Em
