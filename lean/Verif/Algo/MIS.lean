/-
C39: maximal independent set by rootsets, `benchmarks/MaximalIndependentSet/RandomGreedy/MaximalIndependentSet.h`.
-/
import Verif.EdgeMap.Count
import Verif.EdgeMap.Zero
import Mathlib.Data.Finset.Card
import Mathlib.Data.Nat.Find

namespace Gbbs

namespace Em

variable {W : Type}

/-- A symmetric graph without self-loops: both directions of an edge are stored, with the same weight (tag). -/
structure Gr.SymG (G : Gr W) : Prop where
  sym : ∀ u v w, (v, w) ∈ G.fwd u → (u, w) ∈ G.fwd v
  loop : ∀ u v w, (v, w) ∈ G.fwd u → u ≠ v

/-- Edges out of a set into `d` are the stored neighbours of `d` in the set. -/
theorem cntTo_nbrs {G : Gr W} (hG : G.Ok) (hO : G.Once) (hS : G.SymG) (inF : Nat → Bool) (cnt : Nat → Nat → Bool)
    (d : Nat) : cntTo (activeEdges G inF) (fun e => cnt e.s e.d = true) d =
      (G.fwd d).countP fun x => inF x.1 && cnt x.1 d := by
  classical
  rw [cntTo, List.countP_eq_length_filter, List.countP_eq_length_filter]
  have h : ((activeEdges G inF).filter fun e => decide (cnt e.s e.d = true ∧ e.d = d)).Perm
      (((G.fwd d).filter fun x => inF x.1 && cnt x.1 d).map fun x => (⟨x.1, d, x.2⟩ : Edge W)) := by
    refine (List.perm_ext_iff_of_nodup ((activeEdges_nodup hO inF).filter _) (((hO.fwd d).filter _).map ?_)).2 ?_
    · intro x y hxy
      injection hxy with h1 _ h2
      exact Prod.ext h1 h2
    · intro e
      rw [List.mem_filter, List.mem_map, mem_activeEdges hG]
      constructor
      · rintro ⟨⟨h1, h2⟩, h3⟩
        rw [decide_eq_true_eq] at h3
        obtain ⟨h3, rfl⟩ := h3
        refine ⟨(e.s, e.w), List.mem_filter.2 ⟨hS.sym _ _ _ h2, ?_⟩, rfl⟩
        simp [h1, h3]
      · rintro ⟨x, hx, rfl⟩
        obtain ⟨h1, h2⟩ := List.mem_filter.1 hx
        simp only [Bool.and_eq_true] at h2
        refine ⟨⟨h2.1, hS.sym _ _ _ h1⟩, ?_⟩
        rw [decide_eq_true_eq]
        exact ⟨h2.2, rfl⟩
  have hl := h.length_eq
  rw [List.length_map] at hl
  convert hl

end Em

namespace MIS

open Conc Conc.Prog Em

variable {W : Type}

/-! ### Model -/

/-- Conversion to `intE` (32-bit `int`). -/
def toI32 (x : Nat) : Int := if x % 4294967296 < 2147483648 then (x % 4294967296 : Nat) else (x % 4294967296 : Nat) - 4294967296

/-- `priorities[i]`, `MaximalIndependentSet.h:127-134`: the number of neighbours before `i`. -/
def prio (G : Gr W) (perm : Nat → Nat) (i : Nat) : Int := toI32 ((G.fwd i).countP fun x => decide (perm x.1 < perm i))

/-- The initial `roots`, `MaximalIndependentSet.h:139-142`. -/
def roots0 (G : Gr W) (perm : Nat → Nat) : List Nat := (List.range G.n).filter fun i => prio G perm i == 0

/-- State at the head of the loop: `priorities`, `roots`, `in_mis`, `finished`. -/
structure St where
  p : Nat → Int
  roots : List Nat
  mis : Nat → Bool
  fin : Nat

/-- One iteration, `MaximalIndependentSet.h:147-176`: `get_nghs` (`:84-88`) and `edgeMap` with `mis_f` (`:96-115`), each in
any traversal and interleaving; `priorities` of `removed` are set to 0 between them. -/
inductive Round (G : Gr W) (perm : Nat → Nat) : St → St → Prop
  | mk {s : St} {p1 p3 : Nat → Int} {rm nr : List (Nat × Unit)} {f : Nat} (hf : s.fin ≠ G.n)
      (h1 : EdgeMap zeroF G (fun v => decide (v ∈ s.roots)) s.p p1 rm)
      (h2 : EdgeMapX (decF f fun s d => decide (perm s < perm d)) G (fun v => decide (v ∈ rm.map Prod.fst))
        (fun v => if v ∈ rm.map Prod.fst then 0 else p1 v) p3 nr) :
      Round G perm s ⟨p3, nr.map Prod.fst, fun v => s.mis v || decide (v ∈ s.roots),
        s.fin + s.roots.length + rm.length⟩

/-- The states after `k` iterations. -/
inductive After (G : Gr W) (perm : Nat → Nat) : Nat → St → Prop
  | init : After G perm 0 ⟨prio G perm, roots0 G perm, fun _ => false, 0⟩
  | round {k s s'} (h : After G perm k s) (hr : Round G perm s s') : After G perm (k + 1) s'

/-- `MaximalIndependentSet(G)`, `MaximalIndependentSet.h:117-179`, with the random permutation `perm`, returned `mis`. -/
def Mis (G : Gr W) (perm : Nat → Nat) (mis : Nat → Bool) : Prop := ∃ k s, After G perm k s ∧ s.fin = G.n ∧ s.mis = mis

/-! ### Specification -/

/-- No two adjacent vertices are in `S`, and every other vertex has a neighbour in `S`. -/
def IsMIS (G : Gr W) (S : Nat → Prop) : Prop :=
  (∀ u v w, (v, w) ∈ G.fwd u → S u → ¬ S v) ∧ ∀ v, v < G.n → ¬ S v → ∃ u w, (u, w) ∈ G.fwd v ∧ S u

/-- The set chosen by scanning the vertices in the order `perm`, taking each one without an earlier chosen neighbour. -/
def IsGreedy (G : Gr W) (perm : Nat → Nat) (S : Nat → Prop) : Prop :=
  ∀ v, v < G.n → (S v ↔ ∀ u w, (u, w) ∈ G.fwd v → perm u < perm v → ¬ S u)

/-- The greedy set is unique. -/
theorem greedy_unique {G : Gr W} (hG : G.Ok) {perm : Nat → Nat} {S T : Nat → Prop} (h1 : IsGreedy G perm S)
    (h2 : IsGreedy G perm T) : ∀ v, v < G.n → (S v ↔ T v) := by
  intro v
  induction h : perm v using Nat.strong_induction_on generalizing v with
  | _ k ih =>
    intro hv
    rw [h1 v hv, h2 v hv]
    have : ∀ u w, (u, w) ∈ G.fwd v → perm u < perm v → (S u ↔ T u) := fun u w hw hp =>
      ih _ (h ▸ hp) u rfl (hG.bound _ _ _ hw).2
    exact ⟨fun h u w hw hp hT => h u w hw hp ((this u w hw hp).2 hT),
      fun h u w hw hp hT => h u w hw hp ((this u w hw hp).1 hT)⟩

/-! ### Proof -/

section
open Classical

variable {G : Gr W} {perm : Nat → Nat}

/-- Earlier neighbours of `v` outside `X`. -/
noncomputable def before (G : Gr W) (perm : Nat → Nat) (X : Nat → Prop) (v : Nat) : Nat :=
  (G.fwd v).countP fun x => decide (perm x.1 < perm v ∧ ¬ X x.1)

/-- At the head of the loop; `X`: the removed vertices. -/
structure Inv (G : Gr W) (perm : Nat → Nat) (s : St) (X : Nat → Prop) : Prop where
  misb : ∀ v, s.mis v = true → v < G.n
  remb : ∀ v, X v → v < G.n
  disj : ∀ v, s.mis v = true → ¬ X v
  dead : ∀ v, ¬ (v < G.n ∧ s.mis v = false ∧ ¬ X v) → s.p v = 0
  live : ∀ v, v < G.n → s.mis v = false → ¬ X v → s.p v = before G perm X v
  nodup : s.roots.Nodup
  root : ∀ v, v ∈ s.roots ↔ v < G.n ∧ s.mis v = false ∧ ¬ X v ∧ s.p v = 0
  nbrs : ∀ v, s.mis v = true → ∀ u w, (u, w) ∈ G.fwd v → X u
  out : ∀ v, X v → ∃ u w, (u, w) ∈ G.fwd v ∧ perm u < perm v ∧ s.mis u = true
  cnt : s.fin = ((Finset.range G.n).filter fun v => s.mis v = true ∨ X v).card

theorem toI32_eq {x : Nat} (h : x < 2147483648) : toI32 x = x := by
  have : x % 4294967296 = x := Nat.mod_eq_of_lt (by omega)
  rw [toI32, this, if_pos h]

theorem inv_init (hdeg : ∀ v, (G.fwd v).length < 2147483648) (hG : G.Ok) :
    Inv G perm ⟨prio G perm, roots0 G perm, fun _ => false, 0⟩ (fun _ => False) := by
  have hp : ∀ v, prio G perm v = before G perm (fun _ => False) v := by
    intro v
    rw [prio, toI32_eq (Nat.lt_of_le_of_lt List.countP_le_length (hdeg v)), before]
    simp
  refine ⟨fun v h => (by cases h), fun v h => h.elim, fun v h => (by cases h), fun v h => ?_, fun v _ _ _ => hp v,
    List.nodup_range.filter _, fun v => ?_, fun v h => (by cases h), fun v h => h.elim, ?_⟩
  · have hv : ¬ v < G.n := fun hv => h ⟨hv, rfl, id⟩
    show prio G perm v = 0
    have : G.fwd v = [] := by
      rw [List.eq_nil_iff_forall_not_mem]
      exact fun x hx => hv (hG.bound v x.1 x.2 hx).1
    rw [prio, this]; rfl
  · simp [roots0, List.mem_filter]
  · simp

theorem before_zero {X : Nat → Prop} {v u : Nat} {w : W} (h : before G perm X v = 0) (hu : (u, w) ∈ G.fwd v)
    (hp : perm u < perm v) : X u := by
  by_contra hx
  rw [before, List.countP_eq_zero] at h
  have := h _ hu
  simp only [decide_eq_true_eq] at this
  exact this ⟨hp, hx⟩

theorem before_split {X Y : Nat → Prop} (hd : ∀ v, Y v → ¬ X v) (v : Nat) (q : Nat → Bool) (hq : ∀ u, q u = true ↔ Y u) :
    before G perm X v = before G perm (fun u => X u ∨ Y u) v +
      (G.fwd v).countP (fun x => q x.1 && decide (perm x.1 < perm v)) := by
  rw [before, before]
  generalize G.fwd v = l
  induction l with
  | nil => rfl
  | cons a l ih =>
    rw [List.countP_cons, List.countP_cons, List.countP_cons, ih]
    by_cases h1 : perm a.1 < perm v
    · by_cases h2 : Y a.1
      · have := hd _ h2
        simp [h1, h2, this, (hq _).2 h2]; omega
      · have h4 : q a.1 = false := by
          by_contra hc
          exact h2 ((hq _).1 (by simpa using hc))
        by_cases h3 : X a.1 <;> simp [h1, h2, h3, h4]; omega
    · simp [h1]

/-- A neighbour of a root: removed before, or live and after the root. -/
theorem Inv.root_nbr (hS : G.SymG) (hG : G.Ok) (hinj : ∀ u v, u < G.n → v < G.n → perm u = perm v → u = v) {s : St}
    {X : Nat → Prop} (hi : Inv G perm s X) {r d : Nat} {w : W} (hr : r ∈ s.roots) (he : (d, w) ∈ G.fwd r) :
    X d ∨ (d < G.n ∧ s.mis d = false ∧ ¬ X d ∧ perm r < perm d ∧ 0 < s.p d) := by
  obtain ⟨r1, r2, r3, r4⟩ := (hi.root r).1 hr
  by_cases hX : X d
  · exact Or.inl hX
  · right
    have hd := (hG.bound _ _ _ he).2
    have hm : s.mis d = false := by
      by_contra hm
      exact r3 (hi.nbrs d (by simpa using hm) r w (hS.sym _ _ _ he))
    have hp : perm r < perm d := by
      have h0 := hi.live r r1 r2 r3
      rw [r4] at h0
      have h0 : before G perm X r = 0 := by omega
      rcases Nat.lt_trichotomy (perm r) (perm d) with h | h | h
      · exact h
      · exact absurd (hinj _ _ r1 hd h) (hS.loop _ _ _ he)
      · exact absurd (before_zero h0 he h) hX
    refine ⟨hd, hm, hX, hp, ?_⟩
    rw [hi.live d hd hm hX]
    have : 0 < before G perm X d := by
      rw [before, List.countP_pos_iff]
      exact ⟨(r, w), hS.sym _ _ _ he, by simp [hp, r3]⟩
    omega

theorem Inv.step (hS : G.SymG) (hG : G.Ok) (hO : G.Once)
    (hinj : ∀ u v, u < G.n → v < G.n → perm u = perm v → u = v) {s s' : St} {X : Nat → Prop} (hi : Inv G perm s X)
    (hr : Round G perm s s') : ∃ X', Inv G perm s' X' := by
  obtain ⟨hf, h1, h2⟩ := hr
  rename_i p1 p3 rm nr f
  obtain ⟨z1, z2, z3, z4⟩ := zero_round G hG _ h1
  obtain ⟨Y, hY⟩ : ∃ Y : Nat → Prop, ∀ v, Y v ↔ v ∈ rm.map Prod.fst := ⟨_, fun _ => Iff.rfl⟩
  set p2 : Nat → Int := fun v => if v ∈ rm.map Prod.fst then 0 else p1 v with hp2
  have hYl : ∀ d, Y d → d < G.n ∧ s.mis d = false ∧ ¬ X d ∧ ∃ r w, r ∈ s.roots ∧ (r, w) ∈ G.fwd d ∧ perm r < perm d := by
    intro d hd
    obtain ⟨k1, e, ⟨k2, k3⟩, rfl⟩ := (z2 d).1 ((hY d).1 hd)
    rw [decide_eq_true_eq] at k2
    rcases hi.root_nbr hS hG hinj k2 k3 with h | ⟨a, b, c, d, _⟩
    · have := hi.dead e.d (fun hc => hc.2.2 h)
      omega
    · exact ⟨a, b, c, e.s, e.w, k2, hS.sym _ _ _ k3, d⟩
  have hRY : ∀ r, r ∈ s.roots → ¬ Y r := by
    intro r hr hc
    have h1 := ((z2 r).1 ((hY r).1 hc)).1
    have h2 := ((hi.root r).1 hr).2.2.2
    omega
  have hRN : ∀ r d w, r ∈ s.roots → (d, w) ∈ G.fwd r → X d ∨ Y d := by
    intro r d w hr he
    rcases hi.root_nbr hS hG hinj hr he with h | ⟨_, _, _, _, h⟩
    · exact Or.inl h
    · refine Or.inr ((hY d).2 ((z2 d).2 ⟨h, ⟨r, d, w⟩, ⟨by simpa using hr, he⟩, rfl⟩))
  have hp2Y : ∀ v, Y v → p2 v = 0 := fun v hv => by rw [hp2]; exact if_pos ((hY v).1 hv)
  have hp2N : ∀ v, ¬ Y v → p2 v = s.p v := fun v hv => by
    have h := fun hc => hv ((hY v).2 hc)
    rw [hp2]; show (if _ then _ else _) = _
    rw [if_neg h, z4 v h]
  have hlive : ∀ v, 0 < p2 v → v < G.n ∧ s.mis v = false ∧ ¬ X v ∧ ¬ Y v ∧ v ∉ s.roots ∧ p2 v = before G perm X v := by
    intro v hv
    have hy : ¬ Y v := fun hc => by rw [hp2Y v hc] at hv; omega
    rw [hp2N v hy] at hv ⊢
    have hl : v < G.n ∧ s.mis v = false ∧ ¬ X v := by
      by_contra hc
      rw [hi.dead v hc] at hv; omega
    refine ⟨hl.1, hl.2.1, hl.2.2, hy, fun hc => ?_, hi.live v hl.1 hl.2.1 hl.2.2⟩
    have := ((hi.root v).1 hc).2.2.2
    omega
  have hsplit : ∀ v, before G perm X v = before G perm (fun u => X u ∨ Y u) v +
      cntTo (activeEdges G fun v => decide (v ∈ rm.map Prod.fst)) (fun e => decide (perm e.s < perm e.d) = true) v := by
    intro v
    have h := cntTo_nbrs hG hO hS (fun v => decide (v ∈ rm.map Prod.fst)) (fun s d => decide (perm s < perm d)) v
    rw [h]
    exact before_split (fun v hv => (hYl v hv).2.2.1) v (fun v => decide (v ∈ rm.map Prod.fst)) fun u => by
      rw [decide_eq_true_eq, hY]
  have hE : Enough (activeEdges G fun v => decide (v ∈ rm.map Prod.fst)) (fun s d => decide (perm s < perm d)) p2 := by
    intro d hd
    have h1 := (hlive d hd).2.2.2.2.2
    have h2 := hsplit d
    rw [h1]
    beta_reduce
    omega
  obtain ⟨c1, c2, c3, c4⟩ := count_round G hG hO _ hE h2
  have hlive3 : ∀ v, 0 < p2 v → p3 v = before G perm (fun u => X u ∨ Y u) v := by
    intro v hv
    have h1 := (hlive v hv).2.2.2.2.2
    have h2 := hsplit v
    rw [c3 v hv, h1]
    omega
  have hl' : ∀ v, v < G.n → (s.mis v || decide (v ∈ s.roots)) = false → ¬ (X v ∨ Y v) → 0 < p2 v := by
    intro v hv hm hx
    simp only [Bool.or_eq_false_iff, decide_eq_false_iff_not] at hm
    have h1 := hi.live v hv hm.1 fun h => hx (Or.inl h)
    have h2 : s.p v ≠ 0 := fun h => hm.2 ((hi.root v).2 ⟨hv, hm.1, fun h => hx (Or.inl h), h⟩)
    rw [hp2N v fun h => hx (Or.inr h)]
    omega
  refine ⟨fun v => X v ∨ Y v, ⟨fun v hv => ?_, fun v hv => ?_, fun v hv hc => ?_, fun v hv => ?_, fun v hv hm hx => ?_,
    c1, fun v => ?_, fun v hv u w he => ?_, fun v hv => ?_, ?_⟩⟩
  · simp only [Bool.or_eq_true, decide_eq_true_eq] at hv
    rcases hv with hv | hv
    · exact hi.misb v hv
    · exact ((hi.root v).1 hv).1
  · rcases hv with hv | hv
    · exact hi.remb v hv
    · exact (hYl v hv).1
  · simp only [Bool.or_eq_true, decide_eq_true_eq] at hv
    rcases hv with hv | hv
    · rcases hc with hc | hc
      · exact hi.disj v hv hc
      · rw [(hYl v hc).2.1] at hv; cases hv
    · rcases hc with hc | hc
      · exact ((hi.root v).1 hv).2.2.1 hc
      · exact hRY v hv hc
  · have h0 : ¬ 0 < p2 v := fun hc => by
      obtain ⟨a, b, c, d, e, _⟩ := hlive v hc
      exact hv ⟨a, by simp [b, e], fun h => h.elim c d⟩
    show p3 v = 0
    rw [c4 v h0]
    by_cases hy : Y v
    · exact hp2Y v hy
    · rw [hp2N v hy]
      by_cases hr : v ∈ s.roots
      · exact ((hi.root v).1 hr).2.2.2
      · refine hi.dead v fun hc => hv ⟨hc.1, by simp [hc.2.1, hr], fun h => h.elim hc.2.2 hy⟩
  · exact hlive3 v (hl' v hv hm hx)
  · rw [c2]
    constructor
    · rintro ⟨a, b⟩
      obtain ⟨a1, a2, a3, a4, a5, _⟩ := hlive v a
      exact ⟨a1, by simp [a2, a5], fun h => h.elim a3 a4, b⟩
    · rintro ⟨a, b, c, d⟩
      exact ⟨hl' v a b c, d⟩
  · simp only [Bool.or_eq_true, decide_eq_true_eq] at hv
    rcases hv with hv | hv
    · exact Or.inl (hi.nbrs v hv u w he)
    · exact hRN v u w hv he
  · rcases hv with hv | hv
    · obtain ⟨u, w, a, b, c⟩ := hi.out v hv
      exact ⟨u, w, a, b, by simp [c]⟩
    · obtain ⟨_, _, _, r, w, a, b, c⟩ := hYl v hv
      exact ⟨r, w, b, c, by simp [a]⟩
  · have hset : ((Finset.range G.n).filter fun v => (s.mis v || decide (v ∈ s.roots)) = true ∨ X v ∨ Y v) =
        ((Finset.range G.n).filter fun v => s.mis v = true ∨ X v) ∪ (s.roots.toFinset ∪ (rm.map Prod.fst).toFinset) := by
      ext v
      simp only [Finset.mem_filter, Finset.mem_range, Finset.mem_union, List.mem_toFinset, Bool.or_eq_true,
        decide_eq_true_eq]
      rw [← hY]
      constructor
      · rintro ⟨a, (b | b) | (b | b)⟩
        · exact Or.inl ⟨a, Or.inl b⟩
        · exact Or.inr (Or.inl b)
        · exact Or.inl ⟨a, Or.inr b⟩
        · exact Or.inr (Or.inr b)
      · rintro (⟨a, b | b⟩ | b | b)
        · exact ⟨a, Or.inl (Or.inl b)⟩
        · exact ⟨a, Or.inr (Or.inl b)⟩
        · exact ⟨((hi.root v).1 b).1, Or.inl (Or.inr b)⟩
        · exact ⟨(hYl v b).1, Or.inr (Or.inr b)⟩
    have hcard : s.fin + s.roots.length + rm.length = ((Finset.range G.n).filter fun v =>
        (s.mis v || decide (v ∈ s.roots)) = true ∨ X v ∨ Y v).card := ?_
    · convert hcard
    rw [hset, Finset.card_union_of_disjoint, Finset.card_union_of_disjoint, List.toFinset_card_of_nodup hi.nodup,
      List.toFinset_card_of_nodup z1, List.length_map, hi.cnt]
    · omega
    · rw [Finset.disjoint_left]
      intro v hv hc
      rw [List.mem_toFinset] at hv hc
      exact hRY v hv ((hY v).2 hc)
    · rw [Finset.disjoint_left]
      intro v hv hc
      rw [Finset.mem_union, List.mem_toFinset, List.mem_toFinset, ← hY] at hc
      have hv := (Finset.mem_filter.1 hv).2
      have hc : s.mis v = false ∧ ¬ X v := by
        rcases hc with hc | hc
        · exact ⟨((hi.root v).1 hc).2.1, ((hi.root v).1 hc).2.2.1⟩
        · exact ⟨(hYl v hc).2.1, (hYl v hc).2.2.1⟩
      rcases hv with hv | hv
      · rw [hc.1] at hv; cases hv
      · exact hc.2 hv

/-- While vertices are undecided there is a root. -/
theorem Inv.roots_ne (hS : G.SymG) (hG : G.Ok) {s : St} {X : Nat → Prop}
    (hi : Inv G perm s X) (hf : s.fin ≠ G.n) : s.roots ≠ [] := by
  have hex : ∃ k v, perm v = k ∧ v < G.n ∧ s.mis v = false ∧ ¬ X v := by
    by_contra hc
    apply hf
    rw [hi.cnt]
    conv_rhs => rw [← Finset.card_range G.n]
    rw [Finset.card_filter_eq_iff]
    intro v hv
    by_contra hn
    exact hc ⟨_, v, rfl, Finset.mem_range.1 hv, by simpa using fun h => hn (Or.inl h), fun h => hn (Or.inr h)⟩
  obtain ⟨v, h1, h2, h3, h4⟩ := Nat.find_spec hex
  intro hnil
  have h0 : s.p v ≠ 0 := fun h => by
    have := (hi.root v).2 ⟨h2, h3, h4, h⟩
    rw [hnil] at this; cases this
  rw [hi.live v h2 h3 h4] at h0
  have : 0 < before G perm X v := by omega
  rw [before, List.countP_pos_iff] at this
  obtain ⟨x, hx, hq⟩ := this
  rw [decide_eq_true_eq] at hq
  have hm : s.mis x.1 = false := by
    by_contra hm
    have hm : s.mis x.1 = true := by simpa using hm
    exact h4 (hi.nbrs _ hm v x.2 (hS.sym _ _ _ hx))
  exact Nat.find_min hex (h1 ▸ hq.1) ⟨x.1, rfl, (hG.bound _ _ _ hx).2, hm, hq.2⟩

theorem after_inv (hS : G.SymG) (hG : G.Ok) (hO : G.Once) (hdeg : ∀ v, (G.fwd v).length < 2147483648)
    (hinj : ∀ u v, u < G.n → v < G.n → perm u = perm v → u = v) {k : Nat} {s : St} (h : After G perm k s) :
    k ≤ s.fin ∧ ∃ X, Inv G perm s X := by
  induction h with
  | init => exact ⟨Nat.le_refl _, _, inv_init hdeg hG⟩
  | round _ hr ih =>
    obtain ⟨hk, X, hi⟩ := ih
    refine ⟨?_, hi.step hS hG hO hinj hr⟩
    obtain ⟨hf, _, _⟩ := hr
    have := List.length_pos_of_ne_nil (hi.roots_ne hS hG hf)
    show _ ≤ _ + _ + _
    omega

theorem Inv.fin_le {s : St} {X : Nat → Prop} (hi : Inv G perm s X) : s.fin ≤ G.n := by
  rw [hi.cnt]
  exact (Finset.card_filter_le _ _).trans (by rw [Finset.card_range])

end

/-! ### Theorems -/

/-- A greedy set is a maximal independent set. -/
theorem greedy_isMIS {G : Gr W} (hG : G.Ok) (hS : G.SymG) {perm : Nat → Nat}
    (hinj : ∀ u v, u < G.n → v < G.n → perm u = perm v → u = v) {S : Nat → Prop} (h : IsGreedy G perm S) : IsMIS G S := by
  refine ⟨fun u v w he hu hv => ?_, fun v hv hn => ?_⟩
  · have hb := hG.bound _ _ _ he
    rcases Nat.lt_trichotomy (perm u) (perm v) with hp | hp | hp
    · exact (h v hb.2).1 hv u w (hS.sym _ _ _ he) hp hu
    · exact hS.loop _ _ _ he (hinj _ _ hb.1 hb.2 hp)
    · exact (h u hb.1).1 hu v w he hp hv
  · rw [h v hv] at hn
    by_contra hc
    exact hn fun u w he _ hu => hc ⟨u, w, he, hu⟩

/-- C39: in every execution the returned set is the greedy set of the permutation. -/
theorem mis_greedy {G : Gr W} (hG : G.Ok) (hO : G.Once) (hS : G.SymG) (hdeg : ∀ v, (G.fwd v).length < 2147483648)
    {perm : Nat → Nat} (hinj : ∀ u v, u < G.n → v < G.n → perm u = perm v → u = v) {mis : Nat → Bool}
    (h : Mis G perm mis) : IsGreedy G perm (fun v => mis v = true) := by
  classical
  obtain ⟨k, s, ha, hf, rfl⟩ := h
  obtain ⟨_, X, hi⟩ := after_inv hS hG hO hdeg hinj ha
  have hall : ∀ v, v < G.n → s.mis v = true ∨ X v := by
    have h1 := hi.cnt.symm.trans hf
    conv_rhs at h1 => rw [← Finset.card_range G.n]
    rw [Finset.card_filter_eq_iff] at h1
    exact fun v hv => h1 v (Finset.mem_range.2 hv)
  intro v hv
  constructor
  · intro hm u w he _ hc
    exact hi.disj u hc (hi.nbrs v hm u w he)
  · intro hn
    rcases hall v hv with h | h
    · exact h
    · obtain ⟨u, w, he, hp, hm⟩ := hi.out v h
      exact absurd hm (hn u w he hp)

/-- C39: in every execution the returned set is a maximal independent set. -/
theorem mis_correct {G : Gr W} (hG : G.Ok) (hO : G.Once) (hS : G.SymG) (hdeg : ∀ v, (G.fwd v).length < 2147483648)
    {perm : Nat → Nat} (hinj : ∀ u v, u < G.n → v < G.n → perm u = perm v → u = v) {mis : Nat → Bool}
    (h : Mis G perm mis) : IsMIS G (fun v => mis v = true) :=
  greedy_isMIS hG hS hinj (mis_greedy hG hO hS hdeg hinj h)

/-- C39: two executions with the same permutation return the same set. -/
theorem mis_deterministic {G : Gr W} (hG : G.Ok) (hO : G.Once) (hS : G.SymG)
    (hdeg : ∀ v, (G.fwd v).length < 2147483648) {perm : Nat → Nat}
    (hinj : ∀ u v, u < G.n → v < G.n → perm u = perm v → u = v) {mis mis' : Nat → Bool} (h : Mis G perm mis)
    (h' : Mis G perm mis') : ∀ v, v < G.n → mis v = mis' v := by
  intro v hv
  have := greedy_unique hG (mis_greedy hG hO hS hdeg hinj h) (mis_greedy hG hO hS hdeg hinj h') v hv
  rw [Bool.eq_iff_iff]
  exact this

/-- C39: the assertion `roots.size() > 0` (`MaximalIndependentSet.h:148`) holds, and there are at most `n` iterations. -/
theorem mis_rounds {G : Gr W} (hG : G.Ok) (hO : G.Once) (hS : G.SymG) (hdeg : ∀ v, (G.fwd v).length < 2147483648)
    {perm : Nat → Nat} (hinj : ∀ u v, u < G.n → v < G.n → perm u = perm v → u = v) {k : Nat} {s : St}
    (h : After G perm k s) : k ≤ G.n ∧ s.fin ≤ G.n ∧ (s.fin ≠ G.n → s.roots ≠ []) := by
  obtain ⟨h1, X, hi⟩ := after_inv hS hG hO hdeg hinj h
  exact ⟨Nat.le_trans h1 hi.fin_le, hi.fin_le, hi.roots_ne hS hG⟩

/-! ### Example -/

/-- One iteration, every `edgeMap` by one thread. -/
def execRound (G : Gr W) (perm : Nat → Nat) (s : St) : Option St :=
  (exec (sparseRun zeroF (activeEdges G fun v => decide (v ∈ s.roots)) []) s.p).bind fun r =>
    (exec (sparseRun (decF 1 fun s d => decide (perm s < perm d)) (activeEdges G fun v => decide (v ∈ r.1.map Prod.fst)) [])
      (fun v => if v ∈ r.1.map Prod.fst then 0 else r.2 v)).map fun t =>
        ⟨t.2, t.1.map Prod.fst, fun v => s.mis v || decide (v ∈ s.roots), s.fin + s.roots.length + r.1.length⟩

/-- The loop, by one thread. -/
def execLoop (G : Gr W) (perm : Nat → Nat) : Nat → St → Option St
  | 0, s => if s.fin = G.n then some s else none
  | k + 1, s => if s.fin = G.n then some s else (execRound G perm s).bind (execLoop G perm k)

theorem execLoop_sound {G : Gr W} (hG : G.Ok) (hO : G.Once) {perm : Nat → Nat} (k : Nat) :
    ∀ j s t, After G perm j s → execLoop G perm k s = some t → t.fin = G.n ∧ ∃ i, After G perm i t := by
  induction k with
  | zero =>
    intro j s t ha h
    rw [execLoop] at h
    split at h
    · cases h; exact ⟨‹_›, j, ha⟩
    · cases h
  | succ k ih =>
    intro j s t ha h
    rw [execLoop] at h
    split at h
    · cases h; exact ⟨‹_›, j, ha⟩
    · rename_i hf
      obtain ⟨s1, h1, h2⟩ := Option.bind_eq_some_iff.1 h
      obtain ⟨⟨rm, p1⟩, h3, h4⟩ := Option.bind_eq_some_iff.1 h1
      obtain ⟨⟨nr, p3⟩, h5, h6⟩ := Option.map_eq_some_iff.1 h4
      subst h6
      exact ih _ _ _ (.round ha (.mk hf (edgeMap_seq _ (mem_activeEdges hG) h3)
        (edgeMapX_seq _ (mem_activeEdges hG) (activeEdges_nodup hO _) h5))) h2

/-- The set computed by one thread. -/
def execMis (G : Gr W) (perm : Nat → Nat) : Option (List Bool) :=
  (execLoop G perm G.n ⟨prio G perm, roots0 G perm, fun _ => false, 0⟩).map fun s => (List.range G.n).map s.mis

/-- A cycle 0-1-2-3-4 with the chord 1-3. -/
def exG : Gr Unit := Gr.ofLists
  [[(1, ()), (4, ())], [(0, ()), (2, ()), (3, ())], [(1, ()), (3, ())], [(2, ()), (4, ()), (1, ())], [(3, ()), (0, ())]]
  [[(1, ()), (4, ())], [(0, ()), (2, ()), (3, ())], [(1, ()), (3, ())], [(2, ()), (4, ()), (1, ())], [(3, ()), (0, ())]]

def exPerm (v : Nat) : Nat := [3, 1, 4, 0, 2].getD v v

theorem exG_ok : exG.Ok := Gr.ofLists_ok (by decide)

theorem exG_once : exG.Once := by
  have h : ∀ v, (exG.fwd v).Nodup := by
    intro v
    by_cases hv : v < 5
    · exact (by decide : ∀ v < 5, (exG.fwd v).Nodup) v hv
    · have : exG.fwd v = [] := by
        rw [List.eq_nil_iff_forall_not_mem]
        exact fun x hx => hv (exG_ok.bound v x.1 x.2 hx).1
      rw [this]; exact List.nodup_nil
  exact ⟨h, h⟩

theorem exG_sym : exG.SymG := by
  have h : ∀ u < 5, ∀ v < 5, (v, ()) ∈ exG.fwd u → ((u, ()) ∈ exG.fwd v ∧ u ≠ v) := by
    have h1 : (List.range 5).all (fun u => (List.range 5).all fun v =>
        !decide ((v, ()) ∈ exG.fwd u) || (decide ((u, ()) ∈ exG.fwd v) && decide (u ≠ v))) = true := by decide
    intro u hu v hv he
    have := List.all_eq_true.1 (List.all_eq_true.1 h1 u (List.mem_range.2 hu)) v (List.mem_range.2 hv)
    simpa [he] using this
  exact ⟨fun u v w hv => (h u (exG_ok.bound _ _ _ hv).1 v (exG_ok.bound _ _ _ hv).2 hv).1,
    fun u v w hv => (h u (exG_ok.bound _ _ _ hv).1 v (exG_ok.bound _ _ _ hv).2 hv).2⟩

/-- The hypotheses are met by a call that takes two rounds; vertices 3 and 0 are chosen. -/
example : (∀ u v, u < exG.n → v < exG.n → exPerm u = exPerm v → u = v) ∧
    ∃ mis, Mis exG exPerm mis ∧ (List.range 5).map mis = [true, false, false, true, false] := by
  refine ⟨fun u v => ?_, ?_⟩
  · show u < 5 → v < 5 → _
    intro hu hv
    exact (by decide : ∀ u < 5, ∀ v < 5, exPerm u = exPerm v → u = v) u hu v hv
  · have h : execMis exG exPerm = some [true, false, false, true, false] := by decide +kernel
    obtain ⟨s, h1, h2⟩ := Option.map_eq_some_iff.1 h
    obtain ⟨h3, i, h4⟩ := execLoop_sound exG_ok exG_once _ _ _ _ .init h1
    exact ⟨s.mis, ⟨i, s, h4, h3, rfl⟩, h2⟩

end MIS

end Gbbs
