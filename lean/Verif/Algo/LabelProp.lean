/-
C71: connectivity by label propagation, `benchmarks/Connectivity/LabelPropagation/Connectivity.h`.
-/
import Verif.EdgeMap.Rounds
import Verif.Algo.Components
import Mathlib.Algebra.BigOperators.Group.Finset.Basic
import Mathlib.Algebra.Order.BigOperators.Group.Finset
import Mathlib.Data.Finset.Range

namespace Gbbs.LabelProp

open Conc Conc.Prog Em Comp
open Atomics (Steps)

variable {W : Type}

/-! ### Model -/

/-- `largest_comp`, `common.h:38`. -/
def big : Nat := 4294967295

/-- `lp_less`, `Connectivity.h:36-43`. -/
def lpLess (u v : Nat) : Bool := if u = big then v != big else if v = big then false else decide (u < v)

/-- `Parents` and `changed`. -/
inductive L
  | par (x : Nat)
  | chg (x : Nat)
  deriving DecidableEq

/-- `write_min(a, b, less)`, `bridge.h:300-308`; at most `f` iterations are considered. -/
def writeBy (less : Nat → Nat → Bool) : Nat → L → Nat → Prog L Nat Bool
  | 0, _, _ => stuck
  | f + 1, a, b => read a fun c => if less b c then cas a c b fun r => if r then ret true else writeBy less f a b
      else ret false

/-- `std::greater<uint8_t>`. -/
def gt (u v : Nat) : Bool := decide (v < u)

/-- `LabelProp_F::updateAtomic`, `Connectivity.h:56-69`; `unemitted`, `need_emit` and `emitted` are 0, 1, 2. -/
def updA (f : Nat) (s d : Nat) : Prog L Nat (Option Unit) :=
  read (.par s) fun a => read (.par d) fun b =>
    if lpLess a b then
      read (.par s) fun a => (writeBy lpLess f (.par d) a).bind fun _ =>
        (writeBy gt f (.chg d) 2).bind fun r => ret (if r then some () else none)
    else read (.par d) fun b => read (.par s) fun a =>
      if lpLess b a then
        read (.par d) fun b => (writeBy lpLess f (.par s) b).bind fun r =>
          if r then read (.chg s) fun c =>
            if c = 0 then (writeBy gt f (.chg s) 1).bind fun _ => ret none else ret none
          else ret none
      else ret none

/-- `LabelProp_F`, `Connectivity.h:45-72`. -/
def lpF (f : Nat) : Func W L Nat Unit where
  cond _ := ret true
  updA s d _ := updA f s d
  upd s d _ := updA f s d

/-- `vertexMap(vs, changed[u] = unemitted)`, `Connectivity.h:119`. -/
def reset (vs : List Nat) (m : L → Nat) : L → Nat
  | .par x => m (.par x)
  | .chg x => if x ∈ vs then 0 else m (.chg x)

/-- The loop `Connectivity.h:100-121` from `Parents`, `changed` and the frontier; the index counts the rounds. The
frontier is the output of `edgeMap` in any traversal and interleaving and the vertices of the old frontier marked
`need_emit`. -/
inductive Loop (G : Gr W) : Nat → (L → Nat) → List Nat → (L → Nat) → Prop
  | done (m) : Loop G 0 m [] m
  | round {k m F m' o m''} (f : Nat) (hF : F ≠ [])
      (h : EdgeMap (lpF f) G (fun v => decide (v ∈ F)) m m' o)
      (hl : Loop G k (reset (o.map Prod.fst ++ F.filter fun v => m' (.chg v) == 1) m')
        (o.map Prod.fst ++ F.filter fun v => m' (.chg v) == 1) m'') : Loop G (k + 1) m F m''

/-- The memory at the start. -/
def init (P : Nat → Nat) : L → Nat
  | .par x => P x
  | .chg _ => 0

/-- `compute_components<sampling_option>(Parents, frequent_comp)`, `Connectivity.h:79-126`: `frq` is `none` without
sampling. -/
def Components (G : Gr W) (frq : Option Nat) (P : Nat → Nat) (k : Nat) (par : Nat → Nat) : Prop :=
  ∃ m, Loop G k (init P) ((List.range G.n).filter fun v => match frq with | none => true | some c => P v != c) m ∧
    ∀ x, par x = m (.par x)

/-- `SamplingAlgorithmTemplate::components` for `label_prop_type`, `ConnectIt/sampling.h:30-49`: the labels `P` of the
sample, the most frequent one (any value) renamed to `largest_comp` and back. -/
def Sampled (G : Gr W) (frq : Nat) (P : Nat → Nat) (k : Nat) (par : Nat → Nat) : Prop :=
  ∃ p, Components G (some big) (fun x => if P x = frq then big else P x) k p ∧
    ∀ x, par x = if p x = big then frq else p x

/-! ### Specification -/

/-- There is an edge from `u` to `v`. -/
def Adj (G : Gr W) (u v : Nat) : Prop := ∃ w, (v, w) ∈ G.fwd u

/-! ### The order of the labels -/

def key (x : Nat) : Nat := if x = big then 0 else x + 1

theorem lpLess_iff (u v : Nat) : lpLess u v = true ↔ key u < key v := by
  unfold lpLess key
  by_cases hu : u = big <;> by_cases hv : v = big <;> simp [hu, hv]

theorem key_inj {u v : Nat} (h : key u = key v) : u = v := by
  unfold key at h
  by_cases hu : u = big <;> by_cases hv : v = big <;> simp [hu, hv] at h ⊢
  exact h

/-! ### One round -/

/-- Ghost state: the memory, who emitted a vertex, and who lowered its label last. -/
structure Gh where
  m : L → Nat
  own : Nat → Option (Nat × Nat)
  lw : Nat → Option (Nat × Nat)

/-- Relative to the memory `m0` at the start of the round. `C` is the connectivity relation. -/
structure RInv (C : Nat → Nat → Prop) (inF : Nat → Prop) (m0 : L → Nat) (g : Gh) (m : L → Nat) : Prop where
  mem : g.m = m
  dec : ∀ x, key (m (.par x)) ≤ key (m0 (.par x))
  sound : ∀ x, ∃ y, C x y ∧ m (.par x) = m0 (.par y)
  own : ∀ x, (∃ i, g.own x = some i) ↔ m (.chg x) = 2
  le2 : ∀ x, m (.chg x) ≤ 2
  one : ∀ x, m (.chg x) = 1 → inF x
  low : ∀ x, m (.par x) ≠ m0 (.par x) → ∃ i, g.lw x = some i
  emit : ∀ x, 1 ≤ m (.chg x) → key (m (.par x)) < key (m0 (.par x))

/-- What a thread may assume, without its own marks. -/
def Mono (g g' : Gh) : Prop :=
  (∀ x, key (g'.m (.par x)) ≤ key (g.m (.par x))) ∧ ∀ x, g.m (.chg x) ≤ g'.m (.chg x)

def rRG (C : Nat → Nat → Prop) (inF : Nat → Prop) (m0 : L → Nat) : RG (Nat × Nat) Gh L Nat where
  Inv := RInv C inF m0
  R i g g' := Mono g g' ∧ (∀ x, g'.own x = some i ↔ g.own x = some i) ∧ ∀ x, g'.lw x = some i → g.lw x = some i
  Gu i g g' := Mono g g' ∧ (∀ x j, j ≠ i → (g'.own x = some j ↔ g.own x = some j)) ∧
    ∀ x j, j ≠ i → g'.lw x = some j → g.lw x = some j
  refl _ _ := ⟨⟨fun _ => Nat.le_refl _, fun _ => Nat.le_refl _⟩, fun _ => Iff.rfl, fun _ h => h⟩
  trans i g g' g'' h1 h2 := ⟨⟨fun x => Nat.le_trans (h2.1.1 x) (h1.1.1 x), fun x => Nat.le_trans (h1.1.2 x) (h2.1.2 x)⟩,
    fun x => (h2.2.1 x).trans (h1.2.1 x), fun x h => h1.2.2 x (h2.2.2 x h)⟩
  compat i j g g' hne h := ⟨h.1, fun x => h.2.1 x j (Ne.symm hne), fun x => h.2.2 x j (Ne.symm hne)⟩

/-- A thread between two edges, except for the mark of `ex`. -/
def TE (ex : Option Nat) (i : Nat × Nat) (g : Gh) (l : List (Nat × Unit)) : Prop :=
  ((l.map Prod.fst).Nodup ∧ ∀ d, d ∈ l.map Prod.fst ↔ g.own d = some i) ∧
  ∀ x, ex ≠ some x → g.lw x = some i → 1 ≤ g.m (.chg x)

/-- The edge is settled for this round. -/
def Dn (m0 : L → Nat) (g : Gh) (e : Edge W) : Prop :=
  key (g.m (.par e.s)) < key (m0 (.par e.s)) ∨ key (g.m (.par e.d)) < key (m0 (.par e.d)) ∨
    m0 (.par e.s) = m0 (.par e.d)

section
variable {C : Nat → Nat → Prop} {inF : Nat → Prop} {m0 : L → Nat}

theorem TE.stable {ex : Option Nat} {i : Nat × Nat} {g g' : Gh} {l : List (Nat × Unit)}
    (hr : (rRG C inF m0).R i g g') (h : TE ex i g l) : TE ex i g' l :=
  ⟨⟨h.1.1, fun d => (h.1.2 d).trans (hr.2.1 d).symm⟩,
    fun x hx hl => Nat.le_trans (h.2 x hx (hr.2.2 x hl)) (hr.1.2 x)⟩

theorem TE.weaken {ex : Option Nat} {i : Nat × Nat} {g : Gh} {l : List (Nat × Unit)} (h : TE none i g l) : TE ex i g l :=
  ⟨h.1, fun x _ hl => h.2 x (by simp) hl⟩

theorem gu_refl (i : Nat × Nat) (g : Gh) : (rRG C inF m0).Gu i g g :=
  ⟨⟨fun _ => Nat.le_refl _, fun _ => Nat.le_refl _⟩, fun _ _ _ => Iff.rfl, fun _ _ _ h => h⟩

/-- Lower the label of `x` to `v`. -/
theorem lower_ok (i : Nat × Nat) {g : Gh} {m : L → Nat} (hi : RInv C inF m0 g m) {x v y : Nat} (hC : C x y)
    (hy : v = m0 (.par y)) (hv : key v < key (m (.par x))) :
    (rRG C inF m0).Gu i g ⟨put m (.par x) v, g.own, fun z => if z = x then some i else g.lw z⟩ ∧
    RInv C inF m0 ⟨put m (.par x) v, g.own, fun z => if z = x then some i else g.lw z⟩ (put m (.par x) v) := by
  obtain ⟨hm, h1, h2, h3, h4, h5, h6, h7⟩ := hi
  have pp : ∀ z, put m (.par x) v (.par z) = if z = x then v else m (.par z) := by
    intro z
    by_cases hz : z = x
    · subst hz; rw [put_same, if_pos rfl]
    · rw [put_ne _ _ (by simpa using hz), if_neg hz]
  have pc : ∀ z, put m (.par x) v (.chg z) = m (.chg z) := fun z => put_ne _ _ (by simp)
  refine ⟨⟨⟨fun z => ?_, fun z => ?_⟩, fun _ _ _ => Iff.rfl, fun z j hj hl => ?_⟩, rfl, fun z => ?_, fun z => ?_, fun z => ?_,
    fun z => ?_, fun z => ?_, fun z => ?_, fun z => ?_⟩
  · show key (put m (.par x) v (.par z)) ≤ key (g.m (.par z))
    rw [pp, hm]
    split
    · rename_i h; rw [h]; omega
    · exact Nat.le_refl _
  · show g.m (.chg z) ≤ put m (.par x) v (.chg z)
    rw [pc, hm]
  · have hl : (if z = x then some i else g.lw z) = some j := hl
    split at hl
    · cases hl; exact absurd rfl hj
    · exact hl
  · rw [pp]
    split
    · rename_i h; rw [h]; have := h1 x; omega
    · exact h1 z
  · rw [pp]
    split
    · rename_i h; rw [h]; exact ⟨y, hC, hy⟩
    · exact h2 z
  · rw [pc]; exact h3 z
  · rw [pc]; exact h4 z
  · rw [pc]; exact h5 z
  · rw [pp]
    show _ → ∃ j, (if z = x then some i else g.lw z) = some j
    split
    · exact fun _ => ⟨i, rfl⟩
    · exact h6 z
  · rw [pc, pp]
    intro hc
    have := h7 z hc
    split
    · rename_i h; subst h; omega
    · exact this

/-- Mark `x` with `v`. -/
theorem mark_ok (i : Nat × Nat) {g : Gh} {m : L → Nat} (hi : RInv C inF m0 g m) {x v : Nat} (hv : m (.chg x) < v)
    (hlow : key (m (.par x)) < key (m0 (.par x))) (hcase : v = 2 ∨ v = 1 ∧ inF x) :
    (rRG C inF m0).Gu i g ⟨put m (.chg x) v, if v = 2 then fun z => if z = x then some i else g.own z else g.own, g.lw⟩ ∧
    RInv C inF m0 ⟨put m (.chg x) v, if v = 2 then fun z => if z = x then some i else g.own z else g.own, g.lw⟩
      (put m (.chg x) v) := by
  obtain ⟨hm, h1, h2, h3, h4, h5, h6, h7⟩ := hi
  have pp : ∀ z, put m (.chg x) v (.chg z) = if z = x then v else m (.chg z) := by
    intro z
    by_cases hz : z = x
    · subst hz; rw [put_same, if_pos rfl]
    · rw [put_ne _ _ (by simpa using hz), if_neg hz]
  have pc : ∀ z, put m (.chg x) v (.par z) = m (.par z) := fun z => put_ne _ _ (by simp)
  have hno : g.own x = none := by
    cases h : g.own x with
    | none => rfl
    | some j =>
      have := (h3 x).1 ⟨j, h⟩
      rcases hcase with rfl | ⟨rfl, -⟩ <;> omega
  refine ⟨⟨⟨fun z => ?_, fun z => ?_⟩, fun z j hj => ?_, fun _ _ _ h => h⟩, rfl, fun z => ?_, fun z => ?_, fun z => ?_,
    fun z => ?_, fun z => ?_, fun z => ?_, fun z => ?_⟩
  · show key (put m (.chg x) v (.par z)) ≤ key (g.m (.par z))
    rw [pc, hm]
  · show g.m (.chg z) ≤ put m (.chg x) v (.chg z)
    rw [pp, hm]
    split
    · rename_i h; rw [h]; omega
    · exact Nat.le_refl _
  · show (if v = 2 then fun z => if z = x then some i else g.own z else g.own) z = some j ↔ _
    split
    · by_cases hz : z = x
      · subst hz; simp [hno, Ne.symm hj]
      · simp [hz]
    · exact Iff.rfl
  · rw [pc]; exact h1 z
  · rw [pc]; exact h2 z
  · rw [pp]
    show (∃ j, (if v = 2 then fun z => if z = x then some i else g.own z else g.own) z = some j) ↔ _
    rcases hcase with rfl | ⟨rfl, -⟩
    · by_cases hz : z = x
      · simp [hz]
      · simp [hz, h3]
    · by_cases hz : z = x
      · simp [hz, hno]
      · simp [hz, h3]
  · rw [pp]
    split
    · rcases hcase with rfl | ⟨rfl, -⟩ <;> omega
    · exact h4 z
  · rw [pp]
    split
    · rename_i hz
      subst hz
      rcases hcase with rfl | ⟨rfl, hF⟩
      · intro h; cases h
      · exact fun _ => hF
    · exact h5 z
  · rw [pc]; exact h6 z
  · rw [pc, pp]
    split
    · rename_i hz; rw [hz]; exact fun _ => hlow
    · exact h7 z

theorem gt_iff (u v : Nat) : gt u v = true ↔ v < u := by simp [gt]

/-- `write_min(&Parents[x], v, lp_less)`. -/
theorem writePar_safe (f : Nat) (i : Nat × Nat) {x v y : Nat} (hC : C x y) (hy : v = m0 (.par y)) (l : List (Nat × Unit))
    (g : Gh) (hT : TE none i g l) :
    Safe (rRG C inF m0) i (fun g r => key (g.m (.par x)) ≤ key v ∧ TE (if r then some x else none) i g l)
      (writeBy lpLess f (.par x) v) g := by
  induction f generalizing g with
  | zero => trivial
  | succ f ih =>
    intro g1 m1 hr1 hi1
    have hT1 := hT.stable hr1
    refine ⟨g1, gu_refl _ _, hi1, ?_⟩
    beta_reduce
    by_cases hlt : lpLess v (m1 (.par x)) = true
    · rw [if_pos hlt]
      rw [lpLess_iff] at hlt
      intro g2 m2 hr2 hi2
      have hT2 := hT1.stable hr2
      refine ⟨fun heq => ?_, fun _ => ⟨g2, gu_refl _ _, hi2, ih g2 hT2⟩⟩
      obtain ⟨a1, a2⟩ := lower_ok i hi2 hC hy (by rw [heq]; exact hlt)
      refine ⟨_, a1, a2, fun g3 hr3 => ⟨?_, TE.stable hr3 ?_⟩⟩
      · have := hr3.1.1 x
        simp only [put_same] at this
        exact this
      · refine ⟨hT2.1, fun z hz hl => ?_⟩
        have hz : z ≠ x := fun h => hz (by simp [h])
        have hl : (if z = x then some i else g2.lw z) = some i := hl
        rw [if_neg hz] at hl
        show 1 ≤ put m2 (.par x) v (.chg z)
        rw [put_ne _ _ (by simp), ← hi2.mem]
        exact hT2.2 z (by simp) hl
    · rw [if_neg hlt]
      rw [lpLess_iff] at hlt
      intro g2 hr2
      refine ⟨?_, hT1.stable hr2⟩
      have := hr2.1.1 x
      rw [hi1.mem] at this
      omega

/-- `write_min(&changed[x], v, greater)`, once the label of `x` is lowered. -/
theorem writeChg_safe (f : Nat) (i : Nat × Nat) {x v : Nat} (hcase : v = 2 ∨ v = 1 ∧ inF x) (l : List (Nat × Unit))
    (ex : Option Nat) (hex : ex = some x ∨ ex = none) (g : Gh) (hT : TE ex i g l)
    (hlow : key (g.m (.par x)) < key (m0 (.par x))) :
    Safe (rRG C inF m0) i (fun g r => TE none i g (emit x (if r && v == 2 then some () else none) l) ∧
      key (g.m (.par x)) < key (m0 (.par x))) (writeBy gt f (.chg x) v) g := by
  induction f generalizing g with
  | zero => trivial
  | succ f ih =>
    intro g1 m1 hr1 hi1
    have hT1 := hT.stable hr1
    have hlow1 : key (g1.m (.par x)) < key (m0 (.par x)) := Nat.lt_of_le_of_lt (hr1.1.1 x) hlow
    refine ⟨g1, gu_refl _ _, hi1, ?_⟩
    beta_reduce
    by_cases hlt : gt v (m1 (.chg x)) = true
    · rw [if_pos hlt]
      rw [gt_iff] at hlt
      intro g2 m2 hr2 hi2
      have hT2 := hT1.stable hr2
      have hlow2 : key (g2.m (.par x)) < key (m0 (.par x)) := Nat.lt_of_le_of_lt (hr2.1.1 x) hlow1
      refine ⟨fun heq => ?_, fun _ => ⟨g2, gu_refl _ _, hi2, ih g2 hT2 hlow2⟩⟩
      obtain ⟨a1, a2⟩ := mark_ok i hi2 (x := x) (v := v) (by rw [heq]; exact hlt) (by rw [← hi2.mem]; exact hlow2) hcase
      have hno : ∀ j, g2.own x ≠ some j := fun j h => by
        have := (hi2.own x).1 ⟨j, h⟩
        rcases hcase with rfl | ⟨rfl, -⟩ <;> omega
      refine ⟨_, a1, a2, fun g3 hr3 => ⟨TE.stable hr3 ⟨?_, fun z _ hl => ?_⟩, ?_⟩⟩
      · rcases hcase with rfl | ⟨rfl, -⟩
        · simp only [Bool.true_and, beq_self_eq_true, if_true, emit, List.map_cons, List.nodup_cons, List.mem_cons]
          refine ⟨⟨fun h => hno i ((hT2.1.2 x).1 h), hT2.1.1⟩, fun z => ?_⟩
          rw [hT2.1.2]
          by_cases hz : z = x
          · simp [hz]
          · simp [hz]
        · exact hT2.1
      · have hl : g2.lw z = some i := hl
        show 1 ≤ put m2 (.chg x) v (.chg z)
        by_cases hz : z = x
        · subst hz; rw [put_same]; rcases hcase with rfl | ⟨rfl, -⟩ <;> omega
        · rw [put_ne _ _ (by simpa using hz), ← hi2.mem]
          refine hT2.2 z ?_ hl
          rcases hex with rfl | rfl
          · simpa using Ne.symm hz
          · simp
      · have h3 := hr3.1.1 x
        have : key (put m2 (.chg x) v (.par x)) < key (m0 (.par x)) := by
          rw [put_ne _ _ (by simp), ← hi2.mem]; exact hlow2
        exact Nat.lt_of_le_of_lt h3 this
    · rw [if_neg hlt]
      rw [gt_iff] at hlt
      intro g2 hr2
      refine ⟨TE.stable hr2 ⟨hT1.1, fun z _ hl => ?_⟩, Nat.lt_of_le_of_lt (hr2.1.1 x) hlow1⟩
      by_cases hz : z = x
      · subst hz
        rw [hi1.mem]
        rcases hcase with rfl | ⟨rfl, -⟩ <;> omega
      · refine hT1.2 z ?_ hl
        rcases hex with rfl | rfl
        · simpa using Ne.symm hz
        · simp

theorem Dn.keep {i : Nat × Nat} {g g' : Gh} {e : Edge W} (hr : Mono g g') (h : Dn m0 g e) : Dn m0 g' e := by
  rcases h with h | h | h
  · exact .inl (Nat.lt_of_le_of_lt (hr.1 _) h)
  · exact .inr (.inl (Nat.lt_of_le_of_lt (hr.1 _) h))
  · exact .inr (.inr h)

theorem updA_safe (hC : Equivalence C) (f : Nat) (i : Nat × Nat) (l : List (Nat × Unit)) (g : Gh) (e : Edge W)
    (hsd : C e.s e.d) (hF : inF e.s) (hT : TE none i g l) :
    Safe (rRG C inF m0) i (fun g x => TE none i g (emit e.d x l) ∧ Dn m0 g e) (updA f e.s e.d) g := by
  intro g1 m1 hr1 hi1
  refine ⟨g1, gu_refl _ _, hi1, ?_⟩
  intro g2 m2 hr2 hi2
  refine ⟨g2, gu_refl _ _, hi2, ?_⟩
  have hT2 := (hT.stable hr1).stable hr2
  have ha2 : key (g2.m (.par e.s)) ≤ key (m1 (.par e.s)) := by rw [← hi1.mem]; exact hr2.1.1 _
  have hb2 : key (m2 (.par e.d)) ≤ key (m0 (.par e.d)) := hi2.dec _
  have ha1 : key (m1 (.par e.s)) ≤ key (m0 (.par e.s)) := hi1.dec _
  have hgb : key (g2.m (.par e.d)) = key (m2 (.par e.d)) := by rw [hi2.mem]
  generalize m1 (.par e.s) = a at *
  generalize m2 (.par e.d) = b at *
  beta_reduce
  by_cases hab : lpLess a b = true
  · rw [if_pos hab]
    rw [lpLess_iff] at hab
    intro g3 m3 hr3 hi3
    refine ⟨g3, gu_refl _ _, hi3, ?_⟩
    have hT3 := hT2.stable hr3
    have ha3 : key (m3 (.par e.s)) ≤ key a := by
      rw [← hi3.mem]; exact Nat.le_trans (hr3.1.1 _) ha2
    obtain ⟨y, hy1, hy2⟩ := hi3.sound e.s
    generalize m3 (.par e.s) = a' at *
    refine (writePar_safe f i (hC.trans (hC.symm hsd) hy1) hy2 l g3 hT3).bind fun r g4 h4 => ?_
    have hlow : key (g4.m (.par e.d)) < key (m0 (.par e.d)) := by have := h4.1; omega
    refine (writeChg_safe f i (.inl rfl) l (if r then some e.d else none) (by cases r <;> simp) g4 h4.2 hlow).bind
      fun r2 g5 h5 => ?_
    intro g6 hr6
    have h5' := h5.1.stable hr6
    refine ⟨?_, .inr (.inl (Nat.lt_of_le_of_lt (hr6.1.1 _) h5.2))⟩
    simpa using h5'
  · rw [if_neg hab]
    rw [lpLess_iff] at hab
    intro g3 m3 hr3 hi3
    refine ⟨g3, gu_refl _ _, hi3, ?_⟩
    intro g4 m4 hr4 hi4
    refine ⟨g4, gu_refl _ _, hi4, ?_⟩
    have hT4 := (hT2.stable hr3).stable hr4
    have hb3 : key (m3 (.par e.d)) ≤ key b := by
      rw [← hi3.mem, ← hgb]; exact hr3.1.1 _
    have hb4 : key (g4.m (.par e.d)) ≤ key (m3 (.par e.d)) := by rw [← hi3.mem]; exact hr4.1.1 _
    have ha4 : key (m4 (.par e.s)) ≤ key a := by
      rw [← hi4.mem]; exact Nat.le_trans (hr4.1.1 _) (Nat.le_trans (hr3.1.1 _) ha2)
    have hga : key (g4.m (.par e.s)) = key (m4 (.par e.s)) := by rw [hi4.mem]
    generalize m3 (.par e.d) = b' at *
    generalize m4 (.par e.s) = a' at *
    beta_reduce
    by_cases hba : lpLess b' a' = true
    · rw [if_pos hba]
      rw [lpLess_iff] at hba
      intro g5 m5 hr5 hi5
      refine ⟨g5, gu_refl _ _, hi5, ?_⟩
      have hT5 := hT4.stable hr5
      have hb5 : key (m5 (.par e.d)) ≤ key b' := by
        rw [← hi5.mem]; exact Nat.le_trans (hr5.1.1 _) hb4
      obtain ⟨y, hy1, hy2⟩ := hi5.sound e.d
      generalize m5 (.par e.d) = b'' at *
      refine (writePar_safe f i (hC.trans hsd hy1) hy2 l g5 hT5).bind fun r g6 h6 => ?_
      have hlow : key (g6.m (.par e.s)) < key (m0 (.par e.s)) := by have := h6.1; omega
      have hD : Dn m0 g6 e := .inl hlow
      cases r with
      | false =>
        intro g7 hr7
        exact ⟨h6.2.stable hr7, hD.keep (i := i) hr7.1⟩
      | true =>
        intro g7 m7 hr7 hi7
        refine ⟨g7, gu_refl _ _, hi7, ?_⟩
        have hT7 : TE (some e.s) i g7 l := TE.stable hr7 h6.2
        have hlow7 : key (g7.m (.par e.s)) < key (m0 (.par e.s)) := Nat.lt_of_le_of_lt (hr7.1.1 _) hlow
        beta_reduce
        by_cases hc : m7 (.chg e.s) = 0
        · rw [if_pos hc]
          refine (writeChg_safe f i (.inr ⟨rfl, hF⟩) l (some e.s) (.inl rfl) g7 hT7 hlow7).bind fun r2 g8 h8 => ?_
          intro g9 hr9
          have h8' := h8.1.stable hr9
          refine ⟨by simpa [emit] using h8', .inl (Nat.lt_of_le_of_lt (hr9.1.1 _) h8.2)⟩
        · rw [if_neg hc]
          intro g8 hr8
          refine ⟨TE.stable hr8 ⟨hT7.1, fun z _ hl => ?_⟩, .inl (Nat.lt_of_le_of_lt (hr8.1.1 _) hlow7)⟩
          by_cases hz : z = e.s
          · subst hz; rw [hi7.mem]; omega
          · exact hT7.2 z (by simpa using Ne.symm hz) hl
    · rw [if_neg hba]
      rw [lpLess_iff] at hba
      intro g5 hr5
      refine ⟨hT4.stable hr5, ?_⟩
      have h1 := hr5.1.1 e.s
      have h2 := hr5.1.1 e.d
      by_cases hs : key (g5.m (.par e.s)) < key (m0 (.par e.s))
      · exact .inl hs
      · by_cases hd : key (g5.m (.par e.d)) < key (m0 (.par e.d))
        · exact .inr (.inl hd)
        · exact .inr (.inr (key_inj (by omega)))

theorem lp_spec (hC : Equivalence C) (f : Nat) (Ac : Edge W → Prop) (hAc : ∀ e, Ac e → C e.s e.d ∧ inF e.s) :
    FSpec (fun _ => rRG C inF m0) (lpF f : Func W L Nat Unit) Ac (TE none) (Dn m0) where
  keep may i e := ⟨fun g g' hr h => h.keep (i := i) hr.1, fun g g' hr h => h.keep (i := i) hr.1⟩
  stable may i l g g' hr h := h.stable hr
  cond may i l g d hT := fun g' hr => ⟨hT.stable hr, fun h => (by cases h)⟩
  updA may i l g e he _ hT := updA_safe hC f i l g e (hAc e he).1 (hAc e he).2 hT
  upd may i l g e he _ _ hT := updA_safe hC f i l g e (hAc e he).1 (hAc e he).2 hT

end

/-- The next frontier. -/
def nextF (m' : L → Nat) (F : List Nat) (o : List (Nat × Unit)) : List Nat :=
  o.map Prod.fst ++ F.filter fun v => m' (.chg v) == 1

theorem conn_lt {G : Gr W} (hG : G.Ok) {x y : Nat} (h : Conn (Adj G) x y) (hne : x ≠ y) : x < G.n ∧ y < G.n := by
  have : (x = y ∨ x < G.n ∧ y < G.n) := by
    refine conn_le (s := fun x y => x = y ∨ x < G.n ∧ y < G.n) ⟨fun _ => .inl rfl, fun h => ?_, fun h h' => ?_⟩
      (fun a b hab => ?_) h
    · rcases h with rfl | h
      · exact .inl rfl
      · exact .inr ⟨h.2, h.1⟩
    · rcases h with rfl | h
      · exact h'
      · rcases h' with rfl | h'
        · exact .inr h
        · exact .inr ⟨h.1, h'.2⟩
    · obtain ⟨w, hw⟩ := hab
      exact .inr (hG.bound _ _ _ hw)
  exact this.resolve_left hne

/-- One round of any function that meets the specification: exactly the vertices with a new label are in the next frontier,
and every edge out of the frontier is settled or has an end with a new label. -/
theorem lp_round_of {C : Nat → Nat → Prop} (hC : ∀ x, C x x) {G : Gr W} (hG : G.Ok) {Fn : Func W L Nat Unit} {F : List Nat}
    {m m' : L → Nat} {o : List (Nat × Unit)}
    (hs : FSpec (fun _ => rRG C (fun v => v ∈ F) m) Fn (Active G fun v => decide (v ∈ F)) (TE none) (Dn m))
    (h0 : ∀ x, m (.chg x) = 0) (hF : F.Nodup) (hr : EdgeMap Fn G (fun v => decide (v ∈ F)) m m' o) :
    (nextF m' F o).Nodup ∧ (∀ x, x ∈ nextF m' F o ↔ m' (.par x) ≠ m (.par x)) ∧
    (∀ x, key (m' (.par x)) ≤ key (m (.par x))) ∧ (∀ x, ∃ y, C x y ∧ m' (.par x) = m (.par y)) ∧
    (∀ x, reset (nextF m' F o) m' (.chg x) = 0) ∧
    ∀ u v, u ∈ F → Adj G u v → u ∈ nextF m' F o ∨ v ∈ nextF m' F o ∨ m (.par u) = m (.par v) := by
  obtain ⟨g, out, hi, hdn, hT, hcol⟩ := edgeMap_sound hs G hG _ (fun _ h => h)
    (RInv C (fun v => v ∈ F) m) (fun _ _ _ => Iff.rfl) ⟨m, fun _ => none, fun _ => none⟩
    ⟨rfl, fun _ => Nat.le_refl _, fun x => ⟨x, hC x, rfl⟩, fun x => (by simp [h0]), fun x => (by simp [h0]),
      fun x h => (by have := (h0 x).symm.trans h; cases this), fun x h => absurd rfl h, fun x h => (by have h : 1 ≤ m (.chg x) := h; rw [h0] at h; omega)⟩
    (fun i => ⟨⟨List.nodup_nil, fun d => ⟨fun h => (by cases h), fun h => (by cases h)⟩⟩, fun x _ h => (by cases h)⟩) hr
  have hmem : ∀ d, d ∈ o.map Prod.fst ↔ m' (.chg d) = 2 := by
    intro d
    rw [← hi.own]
    constructor
    · intro h
      obtain ⟨⟨d', x⟩, h1, rfl⟩ := List.mem_map.1 h
      obtain ⟨i, hi'⟩ := hcol.sub _ h1
      exact ⟨i, ((hT i).1.2 _).1 (List.mem_map.2 ⟨_, hi', rfl⟩)⟩
    · rintro ⟨i, h⟩
      obtain ⟨⟨d', x⟩, h1, rfl⟩ := List.mem_map.1 (((hT i).1.2 d).2 h)
      obtain ⟨y, hy⟩ := hcol.all i _ _ h1
      exact List.mem_map.2 ⟨_, hy, rfl⟩
  have hnd : (o.map Prod.fst).Nodup := by
    refine hcol.nodup (fun i => (hT i).1.1) fun i j d x y h1 h2 => ?_
    have e1 := ((hT i).1.2 d).1 (List.mem_map.2 ⟨_, h1, rfl⟩)
    have e2 := ((hT j).1.2 d).1 (List.mem_map.2 ⟨_, h2, rfl⟩)
    exact Option.some.inj (e1.symm.trans e2)
  have hnext : ∀ x, x ∈ nextF m' F o ↔ 1 ≤ m' (.chg x) := by
    intro x
    rw [nextF, List.mem_append, hmem, List.mem_filter]
    constructor
    · rintro (h | ⟨-, h⟩)
      · omega
      · have : m' (.chg x) = 1 := by simpa using h
        omega
    · intro h
      have := hi.le2 x
      rcases Nat.lt_or_ge (m' (.chg x)) 2 with h2 | h2
      · have h1 : m' (.chg x) = 1 := by omega
        exact .inr ⟨hi.one x h1, by simpa using h1⟩
      · exact .inl (by omega)
  have hlow : ∀ x, m' (.par x) ≠ m (.par x) → 1 ≤ m' (.chg x) := by
    intro x hx
    obtain ⟨i, h⟩ := hi.low x hx
    have := (hT i).2 x (by simp) h
    rwa [hi.mem] at this
  have hne : ∀ x, key (m' (.par x)) < key (m (.par x)) → m' (.par x) ≠ m (.par x) := fun x h he => by
    rw [he] at h; omega
  refine ⟨?_, fun x => ?_, hi.dec, hi.sound, fun x => ?_, fun u v hu hv => ?_⟩
  · rw [nextF, List.nodup_append]
    refine ⟨hnd, hF.filter _, fun x h1 y h2 he => ?_⟩
    subst he
    have h1 := (hmem x).1 h1
    have h2 := (List.mem_filter.1 h2).2
    rw [h1] at h2
    exact absurd h2 (by decide)
  · rw [hnext]
    exact ⟨fun h => hne x (hi.emit x h), hlow x⟩
  · show (if x ∈ nextF m' F o then 0 else m' (.chg x)) = 0
    split
    · rfl
    · rename_i h
      rw [hnext] at h; omega
  · obtain ⟨w, hw⟩ := hv
    rcases hdn ⟨u, v, w⟩ ⟨by simpa using hu, hw⟩ with h | h | h
    · rw [hi.mem] at h
      exact .inl ((hnext u).2 (hlow u (hne u h)))
    · rw [hi.mem] at h
      exact .inr (.inl ((hnext v).2 (hlow v (hne v h))))
    · exact .inr (.inr h)

/-- One round: exactly the vertices with a new label are in the next frontier, and every edge out of the frontier is
settled or has an end with a new label. -/
theorem lp_round {G : Gr W} (hG : G.Ok) {f : Nat} {F : List Nat} {m m' : L → Nat} {o : List (Nat × Unit)}
    (h0 : ∀ x, m (.chg x) = 0) (hF : F.Nodup) (hr : EdgeMap (lpF f) G (fun v => decide (v ∈ F)) m m' o) :
    (nextF m' F o).Nodup ∧ (∀ x, x ∈ nextF m' F o ↔ m' (.par x) ≠ m (.par x)) ∧
    (∀ x, key (m' (.par x)) ≤ key (m (.par x))) ∧ (∀ x, ∃ y, Conn (Adj G) x y ∧ m' (.par x) = m (.par y)) ∧
    (∀ x, reset (nextF m' F o) m' (.chg x) = 0) ∧
    ∀ u v, u ∈ F → Adj G u v → u ∈ nextF m' F o ∨ v ∈ nextF m' F o ∨ m (.par u) = m (.par v) :=
  lp_round_of (conn_equiv (Adj G)).refl hG
    (lp_spec (m0 := m) (conn_equiv (Adj G)) f (Active G fun v => decide (v ∈ F)) fun e he =>
      ⟨.rel _ _ ⟨_, he.2⟩, by simpa using he.1⟩) h0 hF hr

/-! ### The loop -/

/-- The state at the start of a round. -/
structure LInv (G : Gr W) (P0 : Nat → Nat) (m : L → Nat) (F : List Nat) : Prop where
  zero : ∀ x, m (.chg x) = 0
  nodup : F.Nodup
  sound : ∀ x, ∃ y, Conn (Adj G) x y ∧ m (.par x) = P0 y
  edge : ∀ u v, Adj G u v → u ∉ F → v ∉ F → m (.par u) = m (.par v)

/-- Sum of the labels. -/
def pot (n : Nat) (m : L → Nat) : Nat := ((Finset.range n).sum fun x => key (m (.par x)))

theorem LInv.step {G : Gr W} (hG : G.Ok) (hsym : ∀ u v, Adj G u v → Adj G v u) {f : Nat} {P0 : Nat → Nat} {F : List Nat}
    {m m' : L → Nat} {o : List (Nat × Unit)} (h : LInv G P0 m F)
    (hr : EdgeMap (lpF f) G (fun v => decide (v ∈ F)) m m' o) :
    LInv G P0 (reset (nextF m' F o) m') (nextF m' F o) ∧
    (nextF m' F o ≠ [] → pot G.n (reset (nextF m' F o) m') < pot G.n m) := by
  obtain ⟨h1, h2, h3, h4, h5, h6⟩ := lp_round hG h.zero h.nodup hr
  refine ⟨⟨h5, h1, fun x => ?_, fun u v huv hu hv => ?_⟩, fun hne => ?_⟩
  · obtain ⟨y, hy, he⟩ := h4 x
    obtain ⟨z, hz, he'⟩ := h.sound y
    exact ⟨z, (conn_equiv _).trans hy hz, he.trans he'⟩
  · have eu : m' (.par u) = m (.par u) := by
      by_contra hc; exact hu ((h2 u).2 hc)
    have ev : m' (.par v) = m (.par v) := by
      by_contra hc; exact hv ((h2 v).2 hc)
    show m' (.par u) = m' (.par v)
    rw [eu, ev]
    by_cases hFu : u ∈ F
    · exact ((h6 u v hFu huv).resolve_left hu).resolve_left hv
    · by_cases hFv : v ∈ F
      · exact (((h6 v u hFv (hsym _ _ huv)).resolve_left hv).resolve_left hu).symm
      · exact h.edge u v huv hFu hFv
  · obtain ⟨x, hx⟩ := List.exists_mem_of_ne_nil _ hne
    have hx := (h2 x).1 hx
    have hxn : x < G.n := by
      obtain ⟨y, hy, he⟩ := h4 x
      refine (conn_lt hG hy fun hxy => ?_).1
      subst hxy; exact hx he
    refine Finset.sum_lt_sum (fun z _ => h3 z) ⟨x, Finset.mem_range.2 hxn, ?_⟩
    exact Nat.lt_of_le_of_ne (h3 x) fun he => hx (key_inj he)

theorem loop_inv {G : Gr W} (hG : G.Ok) (hsym : ∀ u v, Adj G u v → Adj G v u) {P0 : Nat → Nat} {F : List Nat}
    {m m' : L → Nat} {k : Nat} (hl : Loop G k m F m') (h : LInv G P0 m F) :
    LInv G P0 m' [] ∧ k ≤ pot G.n m + 1 := by
  induction hl with
  | done m => exact ⟨h, Nat.zero_le _⟩
  | @round k m F m' o m'' f _ hr hl ih =>
    obtain ⟨h1, h2⟩ := h.step hG hsym hr
    obtain ⟨i1, i2⟩ := ih h1
    refine ⟨i1, ?_⟩
    by_cases hne : nextF m' F o = []
    · have hl : Loop G k (reset (nextF m' F o) m') (nextF m' F o) m'' := hl
      rw [hne] at hl
      cases hl with
      | done => omega
      | round _ hF => exact absurd rfl hF
    · have := h2 hne
      have i2 : k ≤ pot G.n (reset (nextF m' F o) m') + 1 := i2
      omega

/-- C71: on a symmetric graph, from labels `P` that are equal only within components (a permutation, or the labels of
a sample), in every traversal and interleaving: labels are equal exactly within components, every label is the
initial label of a vertex of the component, and the loop ends. With sampling the vertices labelled `c` are left out
of the first frontier. -/
theorem lp_correct {G : Gr W} (hG : G.Ok) (hsym : ∀ u v, Adj G u v → Adj G v u) {P : Nat → Nat}
    (hP : ∀ u v, u < G.n → v < G.n → P u = P v → Conn (Adj G) u v) {frq : Option Nat} {k : Nat} {par : Nat → Nat}
    (h : Components G frq P k par) :
    IsCC G.n (Adj G) par ∧ (∀ v, ∃ y, Conn (Adj G) v y ∧ par v = P y) ∧
    k ≤ ((Finset.range G.n).sum fun x => key (P x)) + 1 := by
  obtain ⟨m, hl, hpar⟩ := h
  have hlt : ∀ u v, Adj G u v → u < G.n ∧ v < G.n := fun u v ⟨w, hw⟩ => hG.bound _ _ _ hw
  obtain ⟨h1, h2⟩ := loop_inv hG hsym (P0 := P) hl ⟨fun _ => rfl, List.nodup_range.filter _,
    fun x => ⟨x, (conn_equiv _).refl x, rfl⟩, fun u v huv hu hv => by
      obtain ⟨hu', hv'⟩ := hlt u v huv
      cases frq with
      | none => exact absurd (by simpa using hu') hu
      | some c =>
        have hu : P u = c := by
          by_contra hc
          exact hu (by simp [hu', hc])
        have hv : P v = c := by
          by_contra hc
          exact hv (by simp [hv', hc])
        exact hu.trans hv.symm⟩
  have hsound : ∀ v, ∃ y, Conn (Adj G) v y ∧ par v = P y := fun v => by rw [hpar]; exact h1.sound v
  refine ⟨fun u v hu hv => ⟨fun he => ?_, fun hc => ?_⟩, hsound, h2⟩
  · obtain ⟨y, hy, ey⟩ := hsound u
    obtain ⟨z, hz, ez⟩ := hsound v
    have q := conn_equiv (Adj G)
    have hyn : y < G.n := by
      by_cases h : u = y
      · omega
      · exact (conn_lt hG hy h).2
    have hzn : z < G.n := by
      by_cases h : v = z
      · omega
      · exact (conn_lt hG hz h).2
    exact q.trans hy (q.trans (hP y z hyn hzn (ey.symm.trans (he.trans ez))) (q.symm hz))
  · rw [hpar, hpar]
    exact conn_le (s := fun x y => m (.par x) = m (.par y)) ⟨fun _ => rfl, Eq.symm, Eq.trans⟩
      (fun x y hxy => h1.edge x y hxy (by simp) (by simp)) hc

/-- C71: the same through the renaming of the most frequent label, whatever label is taken for it. -/
theorem lp_sampled {G : Gr W} (hG : G.Ok) (hsym : ∀ u v, Adj G u v → Adj G v u) {P : Nat → Nat}
    (hP : ∀ u v, u < G.n → v < G.n → P u = P v → Conn (Adj G) u v) (hb : ∀ v, v < G.n → P v ≠ big) {frq k : Nat}
    {par : Nat → Nat} (h : Sampled G frq P k par) :
    IsCC G.n (Adj G) par ∧ ∀ v, v < G.n → ∃ y, Conn (Adj G) v y ∧ par v = P y := by
  obtain ⟨p, hc, hpar⟩ := h
  have hP' : ∀ u v, u < G.n → v < G.n → (if P u = frq then big else P u) = (if P v = frq then big else P v) →
      Conn (Adj G) u v := by
    intro u v hu hv he
    refine hP u v hu hv ?_
    have := hb u hu
    have := hb v hv
    split at he <;> split at he <;> omega
  obtain ⟨h1, h2, -⟩ := lp_correct hG hsym hP' hc
  have hy : ∀ v, v < G.n → ∃ y, y < G.n ∧ Conn (Adj G) v y ∧ p v = if P y = frq then big else P y := by
    intro v hv
    obtain ⟨y, hy, he⟩ := h2 v
    refine ⟨y, ?_, hy, he⟩
    by_cases h : v = y
    · omega
    · exact (conn_lt hG hy h).2
  have hval : ∀ v, v < G.n → ∃ y, y < G.n ∧ Conn (Adj G) v y ∧ par v = P y ∧ p v = if P y = frq then big else P y := by
    intro v hv
    obtain ⟨y, hyn, hyc, he⟩ := hy v hv
    refine ⟨y, hyn, hyc, ?_, he⟩
    rw [hpar, he]
    have := hb y hyn
    by_cases hf : P y = frq
    · rw [if_pos hf, if_pos rfl, hf]
    · rw [if_neg hf, if_neg this]
  refine ⟨fun u v hu hv => ?_, fun v hv => ?_⟩
  · rw [← h1 u v hu hv]
    obtain ⟨y, hyn, -, e1, e2⟩ := hval u hu
    obtain ⟨z, hzn, -, e3, e4⟩ := hval v hv
    have := hb y hyn
    have := hb z hzn
    rw [e1, e3, e2, e4]
    constructor
    · intro h; rw [h]
    · intro h
      split at h <;> split at h <;> omega
  · obtain ⟨y, -, hy, e, -⟩ := hval v hv
    exact ⟨y, hy, e⟩

/-! ### Example -/

/-- A path `0 - 3 - 1` and an edge `2 - 4`. -/
def exG : Gr Unit := let l := [[(3, ())], [(3, ())], [(4, ())], [(0, ()), (1, ())], [(2, ())]]; Gr.ofLists l l

theorem exG_ok : exG.Ok := Gr.ofLists_ok (by decide)

theorem exG_sym : ∀ u v, Adj exG u v → Adj exG v u := by
  rintro u v ⟨⟨⟩, h⟩
  have hb := exG_ok.bound _ _ _ h
  have hb1 : u < 5 := hb.1
  have hb2 : v < 5 := hb.2
  refine ⟨(), ?_⟩
  revert h
  interval_cases u <;> interval_cases v <;> decide

/-- A run from the identity. -/
example : ∃ k par, Components exG none (fun x => x) k par ∧ par 0 = 0 ∧ par 1 = 0 ∧ par 2 = 2 ∧ par 3 = 0 ∧ par 4 = 2 := by
  refine ⟨_, _, ⟨_, .round 3 (by decide) (edgeMap_seq (activeEdges exG _) (mem_activeEdges exG_ok) rfl)
    (.round 3 (by decide) (edgeMap_seq (activeEdges exG _) (mem_activeEdges exG_ok) rfl) (.done _)), fun _ => rfl⟩, ?_⟩
  decide +kernel

end Gbbs.LabelProp
