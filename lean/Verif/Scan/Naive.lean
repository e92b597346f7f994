/-
C111: the simple SCAN, `benchmarks/SCAN/Naive/scan.h` and `scan_helpers.{h,cc}`.
-/
import Verif.EdgeMap.Pure
import Verif.Scan.SimMain
import Mathlib.Data.List.Sort

namespace Gbbs.Scan

open Finset (range)
open Em

variable {S : Type} [LinearOrder S]

/-! ### Model -/

/-- `num_shared_neighbors`, `Naive/scan_helpers.h:97-110`: the neighbours of the vertex of smaller degree are looked up in the set of the
other one (C13: a `sparse_table` holds exactly the keys inserted). -/
def nShared (G : WG) (u v : Nat) : Nat :=
  if (G.nb u).length < (G.nb v).length then ((G.nb u).filter fun x => decide (x ∈ G.nb v)).length
  else ((G.nb v).filter fun x => decide (x ∈ G.nb u)).length

/-- The insertions of `ComputeStructuralSimilarities`, `Naive/scan_helpers.h:62-122`. `q a b c` is the floating-point value of `a / (sqrt(b) * sqrt(c))`.
`UndirectedEdge` stores the smaller endpoint first. -/
def table (G : WG) (q : Nat → Nat → Nat → S) : List ((Nat × Nat) × S) :=
  (List.range G.n).flatMap fun u => (G.nb u).filterMap fun v =>
    if u < v then some ((u, v), q (nShared G u v + 2) ((G.nb u).length + 1) ((G.nb v).length + 1)) else none

/-- `similarities.find({u, v}, NaN) >= epsilon`, `Naive/scan.h:43-48`, for the insertions in the order of `t` (C13: the first one of a key counts).
Without an entry the comparison is one with NaN. -/
def similar (t : List ((Nat × Nat) × S)) (eps : S) (u v : Nat) : Bool :=
  match t.find? fun e => e.1 == (min u v, max u v) with
  | some e => decide (eps ≤ e.2)
  | none => false

/-- `core_bitmap`, `Naive/scan.h:49-57`. -/
def coreBit (G : WG) (t : List ((Nat × Nat) × S)) (mu : Nat) (eps : S) (u : Nat) : Bool :=
  decide (mu ≤ (G.nb u).countP (similar t eps u) + 1)

/-- The graph as `edgeMap` sees it. -/
def WG.gr (G : WG) : Gr Unit where
  n := G.n
  fwd u := (G.nb u).map fun v => (v, ())
  bwd u := (G.nb u).map fun v => (v, ())

/-- One iteration of the search from `root`, `Naive/scan.h:70-81`. `cf` is `core_frontier`: the cores of the frontier, without duplicates after
`RemoveDuplicates` (`scan_helpers.cc:39-54`; the sparse frontiers made by `edgeMap` may contain a vertex several times). As `cf` has no duplicates, `vertexMap`
assigns to every sequence at most once. The functions of the `edgeMap` (`scan_helpers.cc:14-37`) only read `clustering`, which is not written meanwhile. -/
inductive BfsStep (G : WG) (t : List ((Nat × Nat) × S)) (mu : Nat) (eps : S) (root : Nat) :
    (Nat → List Nat) × List Nat → (Nat → List Nat) × List Nat → Prop
  | mk {cl F} {cf : List Nat} {o : List (Nat × Unit)} (cl1 : Nat → List Nat) (hF : F ≠ []) (hn : cf.Nodup) (hcf : ∀ v, v ∈ cf ↔ v ∈ F ∧ coreBit G t mu eps v = true)
      (hcl : cl1 = cf.foldl (fun c v x => if x = v then [root] else c x) cl)
      (h : EdgeMap (pureF (fun v => (cl1 v).isEmpty) (fun u v _ => (cl1 v).isEmpty && similar t eps u v) : Func Unit Unit Unit Unit) G.gr
        (fun v => decide (v ∈ cf)) (fun _ => ()) (fun _ => ()) o) :
      BfsStep G t mu eps root (cl, F) (cl1, o.map Prod.fst)

/-- The search. -/
inductive Bfs (G : WG) (t : List ((Nat × Nat) × S)) (mu : Nat) (eps : S) (root : Nat) : (Nat → List Nat) × List Nat → (Nat → List Nat) → Prop
  | done (cl) : Bfs G t mu eps root (cl, []) cl
  | step {a b cl'} (h : BfsStep G t mu eps root a b) (hb : Bfs G t mu eps root b cl') : Bfs G t mu eps root a cl'

/-- The loop over the roots, `Naive/scan.h:62-82`. -/
inductive Roots (G : WG) (t : List ((Nat × Nat) × S)) (mu : Nat) (eps : S) : Nat → (Nat → List Nat) → (Nat → List Nat) → Prop
  | done (cl) : Roots G t mu eps G.n cl cl
  | skip {r cl cl'} (hr : r < G.n) (hc : cl r ≠ []) (h : Roots G t mu eps (r + 1) cl cl') : Roots G t mu eps r cl cl'
  | run {r cl cl1 cl'} (hr : r < G.n) (hc : cl r = []) (hb : Bfs G t mu eps r (cl, [r]) cl1) (h : Roots G t mu eps (r + 1) cl1 cl') : Roots G t mu eps r cl cl'

/-- `neighboring_clusters` of a vertex, `Naive/scan.h:87-101`; `none` for an access to the first element of an empty sequence. -/
def ngbClusters (G : WG) (t : List ((Nat × Nat) × S)) (mu : Nat) (eps : S) (cl : Nat → List Nat) (v : Nat) : Option (List Nat) :=
  ((G.nb v).filter fun u => coreBit G t mu eps u && similar t eps v u).mapM fun u => (cl u)[0]?

/-- `Cluster`, `Naive/scan.h:35-108`. The last loop (`:82-105`) assigns only to vertices without cluster and reads only clusters of cores. `remove_duplicates_ordered`
of parlay sorts and removes duplicates. -/
def NaiveCluster (G : WG) (q : Nat → Nat → Nat → S) (mu : Nat) (eps : S) (cl' : Nat → List Nat) : Prop :=
  ∃ t cl, t.Perm (table G q) ∧ Roots G t mu eps 0 (fun _ => []) cl ∧
    ∀ v, if v < G.n ∧ cl v = [] then ∃ l, ngbClusters G t mu eps cl v = some l ∧ cl' v = l.dedup.mergeSort (fun a b => decide (a ≤ b)) else cl' v = cl v

/-! ### Specification -/

/-- The graph with the cosine similarities of the closed neighbourhoods. -/
def WG.cosSG (G : WG) (q : Nat → Nat → Nat → S) : SG S :=
  ⟨G.n, G.nb, fun u v => q (G.C u ∩ G.C v).card (G.C (min u v)).card (G.C (max u v)).card⟩

/-- The clusterings of SCAN with all memberships: a core has the cluster named after the least core linked to it; another vertex has the clusters
of all cores that are similar neighbours, in ascending order. -/
structure IsNaive (G : SG S) (mu : Nat) (eps : S) (cl : Nat → List Nat) : Prop where
  core : ∀ u, Core G mu eps u → ∃ c, cl u = [c] ∧ Core G mu eps c ∧ Linked G mu eps u c ∧ ∀ v, Core G mu eps v → Linked G mu eps u v → c ≤ v
  other : ∀ v, v < G.n → ¬ Core G mu eps v → (cl v).Pairwise (· < ·) ∧ ∀ x, x ∈ cl v ↔ ∃ u, Near G mu eps u v ∧ cl u = [x]

/-! ### Proof: similarities -/

section
variable {G : WG} {q : Nat → Nat → Nat → S} {t : List ((Nat × Nat) × S)} {mu : Nat} {eps : S}

theorem nShared_card (hG : G.Ok) (u v : Nat) : nShared G u v = (G.N u ∩ G.N v).card := by
  have aux : ∀ a b, ((G.nb a).filter fun x => decide (x ∈ G.nb b)).length = (G.N a ∩ G.N b).card := by
    intro a b
    rw [← List.toFinset_card_of_nodup (((hG.srt a).imp Nat.ne_of_lt).filter _)]
    congr 1
    ext x
    simp [WG.N]
  unfold nShared
  split
  · exact aux u v
  · rw [aux, Finset.inter_comm]

theorem mem_table {e : (Nat × Nat) × S} : e ∈ table G q ↔ e.1.1 < G.n ∧ e.1.2 ∈ G.nb e.1.1 ∧ e.1.1 < e.1.2 ∧
    e.2 = q (nShared G e.1.1 e.1.2 + 2) ((G.nb e.1.1).length + 1) ((G.nb e.1.2).length + 1) := by
  obtain ⟨⟨a, b⟩, s⟩ := e
  simp only [table, List.mem_flatMap, List.mem_range, List.mem_filterMap]
  constructor
  · rintro ⟨u, hu, v, hv, h⟩
    split at h
    · rename_i hlt
      injection h with h
      injection h with h1 h2
      injection h1 with h1 h3
      subst h1 h3 h2
      exact ⟨hu, hv, hlt, rfl⟩
    · cases h
  · rintro ⟨h1, h2, h3, h4⟩
    exact ⟨a, h1, b, h2, by rw [if_pos h3, ← h4]⟩

/-- The table holds the similarities of the closed neighbourhoods of the edges. -/
theorem similar_iff (hG : G.Ok) (ht : t.Perm (table G q)) {u v : Nat} (hv : v ∈ G.nb u) :
    similar t eps u v = decide (eps ≤ (G.cosSG q).sim u v) := by
  have hne : u ≠ v := fun e => hG.loop u (e ▸ hv)
  have key : ∀ a b, a < b → b ∈ G.nb a → q (nShared G a b + 2) ((G.nb a).length + 1) ((G.nb b).length + 1) = q (G.C a ∩ G.C b).card (G.C a).card (G.C b).card := by
    intro a b _ hb
    rw [closed_inter hG hb, nShared_card hG, card_closed hG, card_closed hG]
  have hval : (min u v) < G.n ∧ max u v ∈ G.nb (min u v) ∧ min u v < max u v ∧
      q (nShared G (min u v) (max u v) + 2) ((G.nb (min u v)).length + 1) ((G.nb (max u v)).length + 1) = (G.cosSG q).sim u v := by
    rcases Nat.lt_or_gt_of_ne hne with h | h
    · rw [Nat.min_eq_left h.le, Nat.max_eq_right h.le]
      refine ⟨(hG.lt _ _ hv).1, hv, h, ?_⟩
      rw [key _ _ h hv, WG.cosSG]
      simp only [Nat.min_eq_left h.le, Nat.max_eq_right h.le]
    · rw [Nat.min_eq_right h.le, Nat.max_eq_left h.le]
      have hv' := (hG.symm u v hv).1
      refine ⟨(hG.lt _ _ hv').1, hv', h, ?_⟩
      rw [key _ _ h hv', WG.cosSG]
      simp only [Nat.min_eq_right h.le, Nat.max_eq_left h.le, Finset.inter_comm]
  unfold similar
  cases hf : t.find? fun e => e.1 == (min u v, max u v) with
  | none =>
    rw [List.find?_eq_none] at hf
    exact absurd (by simp) (hf ((min u v, max u v), (G.cosSG q).sim u v) (ht.mem_iff.2 (mem_table.2 ⟨hval.1, hval.2.1, hval.2.2.1, hval.2.2.2.symm⟩)))
  | some e =>
    have h1 := List.find?_some hf
    have h2 := mem_table.1 (ht.mem_iff.1 (List.mem_of_find?_eq_some hf))
    rw [beq_iff_eq] at h1
    rw [h1] at h2
    dsimp only
    rw [h2.2.2.2, hval.2.2.2]

omit [LinearOrder S] in
theorem cosSG_ok (hG : G.Ok) (hn : G.n ≤ UF.uMax) (q : Nat → Nat → Nat → S) : (G.cosSG q).Ok where
  fits := hn
  lt u v _ hv := (hG.lt u v hv).2
  symm u v _ hv := ⟨(hG.symm u v hv).1, by simp only [WG.cosSG]; rw [Finset.inter_comm, Nat.min_comm, Nat.max_comm]⟩

theorem coreBit_iff (hG : G.Ok) (ht : t.Perm (table G q)) {u : Nat} (hu : u < G.n) : coreBit G t mu eps u = true ↔ Core (G.cosSG q) mu eps u := by
  unfold coreBit Core
  rw [decide_eq_true_iff, List.countP_eq_length_filter]
  rw [show (G.nb u).filter (similar t eps u) = (G.nb u).filter fun v => decide (eps ≤ (G.cosSG q).sim u v) from
    List.filter_congr fun v hv => similar_iff hG ht hv]
  exact ⟨fun h => ⟨hu, h⟩, fun h => h.2⟩

theorem near_symm (hG : G.Ok) {u v : Nat} (h : Near (G.cosSG q) mu eps u v) (hv : Core (G.cosSG q) mu eps v) : Near (G.cosSG q) mu eps v u := by
  refine ⟨hv, (hG.symm u v h.2.1).1, ?_⟩
  have : (G.cosSG q).sim v u = (G.cosSG q).sim u v := by simp only [WG.cosSG]; rw [Finset.inter_comm, Nat.min_comm, Nat.max_comm]
  rw [this]; exact h.2.2

theorem gr_ok (hG : G.Ok) : G.gr.Ok where
  same s d w := by
    simp only [WG.gr, List.mem_map, Prod.mk.injEq, and_true, exists_eq_right]
    exact ⟨fun h => (hG.symm s d h).1, fun h => (hG.symm d s h).1⟩
  bound s d w h := by
    simp only [WG.gr, List.mem_map, Prod.mk.injEq, and_true, exists_eq_right] at h
    exact hG.lt s d h

theorem assign_eq (root : Nat) (cf : List Nat) (cl : Nat → List Nat) (v : Nat) :
    cf.foldl (fun c v x => if x = v then [root] else c x) cl v = if v ∈ cf then [root] else cl v := by
  induction cf generalizing cl with
  | nil => simp
  | cons a l ih =>
    rw [List.foldl_cons, ih]
    by_cases h1 : v ∈ l
    · simp [h1]
    · by_cases h2 : v = a
      · simp [h2]
      · simp [h1, h2]

/-- One iteration: the effect on the clusters, and the next frontier. -/
theorem bfsStep_iff (hG : G.Ok) (ht : t.Perm (table G q)) {r : Nat} {a b : (Nat → List Nat) × List Nat} (h : BfsStep G t mu eps r a b) (hlt : ∀ v ∈ a.2, v < G.n) :
    a.2 ≠ [] ∧ (∀ v, (v ∈ a.2 ∧ Core (G.cosSG q) mu eps v ∧ b.1 v = [r]) ∨ (¬ (v ∈ a.2 ∧ Core (G.cosSG q) mu eps v) ∧ b.1 v = a.1 v)) ∧
    ∀ v, v ∈ b.2 ↔ b.1 v = [] ∧ ∃ s ∈ a.2, Near (G.cosSG q) mu eps s v := by
  obtain ⟨cl1, hF, -, hcf, hcl, hE⟩ := h
  have hcf' : ∀ v, v ∈ _ ↔ v ∈ _ ∧ Core (G.cosSG q) mu eps v := fun v =>
    (hcf v).trans (and_congr_right fun hv => coreBit_iff hG ht (hlt v hv))
  refine ⟨hF, fun v => ?_, fun v => ?_⟩
  · dsimp only
    rw [hcl, assign_eq]
    split
    · rename_i h; exact .inl ⟨((hcf' v).1 h).1, ((hcf' v).1 h).2, rfl⟩
    · rename_i h; exact .inr ⟨fun h' => h ((hcf' v).2 h'), rfl⟩
  · dsimp only
    rw [edgeMap_pure (gr_ok hG) hE]
    simp only [WG.gr, List.mem_map, Prod.mk.injEq, and_true, exists_eq_right, decide_eq_true_eq, List.isEmpty_iff, Bool.and_eq_true]
    constructor
    · rintro ⟨s, _, h1, h2, h3, -, h4⟩
      rw [similar_iff hG ht h2, decide_eq_true_iff] at h4
      exact ⟨h3, s, ((hcf' s).1 h1).1, ((hcf' s).1 h1).2, h2, h4⟩
    · rintro ⟨h3, s, h1, hN⟩
      exact ⟨s, (), (hcf' s).2 ⟨h1, hN.1⟩, hN.2.1, h3, h3, by rw [similar_iff hG ht hN.2.1]; exact decide_eq_true hN.2.2⟩

/-! ### Proof: the searches -/

/-- Before the iteration for `r`, the cores with a cluster are those with a linked core below `r`. -/
structure RInv (G : SG S) (mu : Nat) (eps : S) (r : Nat) (cl : Nat → List Nat) : Prop where
  non : ∀ v, ¬ Core G mu eps v → cl v = []
  core : ∀ v, Core G mu eps v → (cl v = [] ∧ ∀ w, Core G mu eps w → Linked G mu eps v w → r ≤ w) ∨
    ∃ c, c < r ∧ cl v = [c] ∧ Core G mu eps c ∧ Linked G mu eps v c ∧ ∀ w, Core G mu eps w → Linked G mu eps v w → c ≤ w

/-- The invariant of the search from `r`. -/
structure BInv (G : SG S) (mu : Nat) (eps : S) (r : Nat) (cl0 : Nat → List Nat) (a : (Nat → List Nat) × List Nat) : Prop where
  val : ∀ v, a.1 v = cl0 v ∨ (cl0 v = [] ∧ a.1 v = [r] ∧ Core G mu eps v ∧ Core G mu eps r ∧ Linked G mu eps v r)
  front : ∀ v ∈ a.2, v < G.n ∧ a.1 v = [] ∧ (Core G mu eps v → Core G mu eps r ∧ Linked G mu eps v r)
  closed : ∀ u v, a.1 u = [r] → Near G mu eps u v → Core G mu eps v → a.1 v ≠ [] ∨ v ∈ a.2
  root : Core G mu eps r → a.1 r = [r] ∨ r ∈ a.2

theorem binv_step (hG : G.Ok) (ht : t.Perm (table G q)) {r : Nat} {cl0 : Nat → List Nat} {a b : (Nat → List Nat) × List Nat}
    (h : BfsStep G t mu eps r a b) (I : BInv (G.cosSG q) mu eps r cl0 a) : BInv (G.cosSG q) mu eps r cl0 b := by
  obtain ⟨-, h1, h2⟩ := bfsStep_iff hG ht h fun v hv => (I.front v hv).1
  refine ⟨fun v => ?_, fun v hv => ?_, fun u v hu hN hv => ?_, fun hr => ?_⟩
  · rcases h1 v with ⟨hF, hc, e⟩ | ⟨-, e⟩
    · obtain ⟨-, h3, h4⟩ := I.front v hF
      have h0 : cl0 v = [] := by
        rcases I.val v with h | ⟨-, h, -⟩
        · rw [← h, h3]
        · rw [h3] at h; cases h
      exact .inr ⟨h0, e, hc, h4 hc⟩
    · rw [e]; exact I.val v
  · obtain ⟨h3, s, hs, hN⟩ := (h2 v).1 hv
    refine ⟨(hG.lt _ _ hN.2.1).2, h3, fun hv => ?_⟩
    obtain ⟨h4, h5⟩ := (I.front s hs).2.2 hN.1
    exact ⟨h4, .trans _ _ _ (.symm _ _ (.rel _ _ ⟨hN, hv⟩)) h5⟩
  · rcases h1 u with ⟨hF, hc, e⟩ | ⟨-, e⟩
    · by_cases he : b.1 v = []
      · exact .inr ((h2 v).2 ⟨he, u, hF, hN⟩)
      · exact .inl he
    · rw [e] at hu
      refine .inl ?_
      rcases h1 v with ⟨_, _, e⟩ | ⟨hn, e⟩
      · rw [e]; simp
      · rw [e]
        rcases I.closed u v hu hN hv with h | h
        · exact h
        · exact absurd ⟨h, hv⟩ hn
  · rcases h1 r with ⟨_, _, e⟩ | ⟨hn, e⟩
    · exact .inl e
    · rcases I.root hr with h | h
      · exact .inl (e ▸ h)
      · exact absurd ⟨h, hr⟩ hn

theorem binv_start {r : Nat} {cl0 : Nat → List Nat} (hr : r < G.n) (h0 : cl0 r = []) (I : RInv (G.cosSG q) mu eps r cl0) :
    BInv (G.cosSG q) mu eps r cl0 (cl0, [r]) where
  val _ := .inl rfl
  front v hv := by
    rw [List.mem_singleton] at hv
    subst hv
    exact ⟨hr, h0, fun h => ⟨h, .refl _⟩⟩
  closed u v hu hN _ := by
    rcases I.core u hN.1 with ⟨h, -⟩ | ⟨c, hc, h, -⟩
    · rw [show cl0 u = [r] from hu] at h; cases h
    · rw [show cl0 u = [r] from hu] at h
      injection h with h; omega
  root _ := .inr (List.mem_singleton.2 rfl)

theorem binv_end (hG : G.Ok) {r : Nat} {cl0 cl : Nat → List Nat} (h0 : cl0 r = []) (I : RInv (G.cosSG q) mu eps r cl0)
    (B : BInv (G.cosSG q) mu eps r cl0 (cl, [])) : RInv (G.cosSG q) mu eps (r + 1) cl := by
  have hclosed : ∀ u v, cl u = [r] → Near (G.cosSG q) mu eps u v → Core (G.cosSG q) mu eps v → Core (G.cosSG q) mu eps r → Linked (G.cosSG q) mu eps u r → cl v = [r] := by
    intro u v hu hN hv hr hl
    rcases B.val v with h | h
    · have h := show cl v = cl0 v from h
      rcases I.core v hv with ⟨h1, -⟩ | ⟨c, h1, -, h2, h3, -⟩
      · rcases B.closed u v hu hN hv with h4 | h4
        · exact absurd (h.trans h1) h4
        · cases h4
      · rcases I.core r hr with ⟨-, h4⟩ | ⟨d, -, h4, -⟩
        · have := h4 c h2 (.trans _ _ _ (.symm _ _ hl) (.trans _ _ _ (.rel _ _ ⟨hN, hv⟩) h3))
          omega
        · rw [h0] at h4; cases h4
    · exact h.2.1
  have hall : Core (G.cosSG q) mu eps r → ∀ v, Linked (G.cosSG q) mu eps r v → cl v = [r] := by
    intro hr
    have hroot : cl r = [r] := by
      rcases B.root hr with h | h
      · exact h
      · cases h
    have : ∀ x y, Linked (G.cosSG q) mu eps x y → Linked (G.cosSG q) mu eps x r → (cl x = [r] ↔ cl y = [r]) := by
      intro x y hl
      induction hl with
      | rel x y h =>
        intro hx
        exact ⟨fun e => hclosed x y e h.1 h.2 hr hx, fun e => hclosed y x e (near_symm hG h.1 h.2) h.1.1 hr (.trans _ _ _ (.symm _ _ (.rel _ _ h)) hx)⟩
      | refl x => exact fun _ => Iff.rfl
      | symm x y h ih => exact fun hy => (ih (.trans _ _ _ h hy)).symm
      | trans x y z h1 h2 ih1 ih2 => exact fun hx => (ih1 hx).trans (ih2 (.trans _ _ _ (.symm _ _ h1) hx))
    exact fun v hv => (this r v hv (.refl _)).1 hroot
  have hmin : Core (G.cosSG q) mu eps r → ∀ w, Core (G.cosSG q) mu eps w → Linked (G.cosSG q) mu eps r w → r ≤ w := by
    intro hr
    rcases I.core r hr with ⟨-, h4⟩ | ⟨d, -, h4, -⟩
    · exact h4
    · rw [h0] at h4; cases h4
  refine ⟨fun v hv => ?_, fun v hv => ?_⟩
  · rcases B.val v with h | h
    · rw [show cl v = cl0 v from h]; exact I.non v hv
    · exact absurd h.2.2.1 hv
  · by_cases hc : Core (G.cosSG q) mu eps r ∧ Linked (G.cosSG q) mu eps r v
    · exact .inr ⟨r, by omega, hall hc.1 v hc.2, hc.1, .symm _ _ hc.2, fun w hw hl => hmin hc.1 w hw (.trans _ _ _ hc.2 hl)⟩
    · have he : cl v = cl0 v := by
        rcases B.val v with h | h
        · exact h
        · exact absurd ⟨h.2.2.2.1, .symm _ _ h.2.2.2.2⟩ hc
      rw [he]
      rcases I.core v hv with ⟨h1, h2⟩ | ⟨c, h1, h2⟩
      · refine .inl ⟨h1, fun w hw hl => ?_⟩
        rcases Nat.eq_or_lt_of_le (h2 w hw hl) with h | h
        · subst h; exact absurd ⟨hw, .symm _ _ hl⟩ hc
        · exact h
      · exact .inr ⟨c, by omega, h2⟩

theorem bfs_spec (hG : G.Ok) (ht : t.Perm (table G q)) {r : Nat} {cl0 cl : Nat → List Nat} {a : (Nat → List Nat) × List Nat}
    (h : Bfs G t mu eps r a cl) (B : BInv (G.cosSG q) mu eps r cl0 a) : BInv (G.cosSG q) mu eps r cl0 (cl, []) := by
  induction h with
  | done => exact B
  | step h _ ih => exact ih (binv_step hG ht h B)

theorem roots_spec (hG : G.Ok) (ht : t.Perm (table G q)) {r : Nat} {cl cl' : Nat → List Nat} (h : Roots G t mu eps r cl cl')
    (I : RInv (G.cosSG q) mu eps r cl) : RInv (G.cosSG q) mu eps G.n cl' := by
  induction h with
  | done => exact I
  | skip hr hc _ ih =>
    rename_i r cl cl' _
    refine ih ⟨I.non, fun v hv => ?_⟩
    rcases I.core v hv with ⟨h1, h2⟩ | ⟨c, h1, h2⟩
    · refine .inl ⟨h1, fun w hw hl => ?_⟩
      rcases Nat.eq_or_lt_of_le (h2 w hw hl) with h | h
      · subst h
        rcases I.core r hw with ⟨h3, -⟩ | ⟨c, h3, -, h4, h5, -⟩
        · exact absurd h3 hc
        · have := h2 c h4 (.trans _ _ _ hl h5)
          omega
      · exact h
    · exact .inr ⟨c, by omega, h2⟩
  | run hr hc hb _ ih => exact ih (binv_end hG hc I (bfs_spec hG ht hb (binv_start hr hc I)))

theorem rinv_start : RInv (G.cosSG q) mu eps 0 fun _ => [] := ⟨fun _ _ => rfl, fun _ _ => .inl ⟨rfl, fun _ _ _ => Nat.zero_le _⟩⟩

/-- After the loop over the roots exactly the cores have a cluster. -/
theorem rinv_end {cl : Nat → List Nat} (I : RInv (G.cosSG q) mu eps G.n cl) {u : Nat} (hu : Core (G.cosSG q) mu eps u) :
    ∃ c, cl u = [c] ∧ Core (G.cosSG q) mu eps c ∧ Linked (G.cosSG q) mu eps u c ∧ ∀ v, Core (G.cosSG q) mu eps v → Linked (G.cosSG q) mu eps u v → c ≤ v := by
  rcases I.core u hu with ⟨-, h⟩ | ⟨c, -, h⟩
  · have := h u hu (.refl _)
    have := hu.1
    simp only [WG.cosSG] at this
    omega
  · exact ⟨c, h⟩

/-! ### Main theorems -/

theorem mapM_total {α β : Type} {f : α → Option β} {l : List α} (h : ∀ x ∈ l, ∃ y, f x = some y) : ∃ r, l.mapM f = some r := by
  induction l with
  | nil => exact ⟨[], rfl⟩
  | cons a l ih =>
    obtain ⟨y, hy⟩ := h a List.mem_cons_self
    obtain ⟨r, hr⟩ := ih fun x hx => h x (List.mem_cons_of_mem _ hx)
    exact ⟨y :: r, by rw [List.mapM_cons, hy, hr]; rfl⟩

theorem mem_mapM {α β : Type} {f : α → Option β} {l : List α} {r : List β} (h : l.mapM f = some r) (y : β) : y ∈ r ↔ ∃ x ∈ l, f x = some y := by
  induction l generalizing r with
  | nil =>
    have : r = [] := by simpa using h.symm
    simp [this]
  | cons a l ih =>
    rw [List.mapM_cons] at h
    cases hy : f a with
    | none => rw [hy] at h; cases h
    | some z =>
      rw [hy] at h
      cases hr : l.mapM f with
      | none => rw [hr] at h; cases h
      | some r' =>
        rw [hr] at h
        have : r = z :: r' := by
          have h : some (z :: r') = some r := h
          injection h with h
          exact h.symm
        subst this
        rw [List.mem_cons, ih hr]
        constructor
        · rintro (rfl | ⟨x, h1, h2⟩)
          · exact ⟨a, List.mem_cons_self, hy⟩
          · exact ⟨x, List.mem_cons_of_mem _ h1, h2⟩
        · rintro ⟨x, h1, h2⟩
          rcases List.mem_cons.1 h1 with rfl | h1
          · rw [hy] at h2; injection h2 with h2; exact .inl h2.symm
          · exact .inr ⟨x, h1, h2⟩

/-- C111: every execution of the simple SCAN gives every core the cluster of the least linked core, and every other vertex the clusters of all similar neighbouring cores. -/
theorem naive_correct (hG : G.Ok) {cl : Nat → List Nat} (h : NaiveCluster G q mu eps cl) : IsNaive (G.cosSG q) mu eps cl := by
  obtain ⟨t, cl0, ht, hr, hv⟩ := h
  have I := roots_spec hG ht hr rinv_start
  have hcore : ∀ u, Core (G.cosSG q) mu eps u → cl u = cl0 u := by
    intro u hu
    obtain ⟨c, hc, -⟩ := rinv_end I hu
    have := hv u
    rw [if_neg (by rw [hc]; simp)] at this
    exact this
  refine ⟨fun u hu => by rw [hcore u hu]; exact rinv_end I hu, fun v hvn hvc => ?_⟩
  have h1 := hv v
  rw [if_pos ⟨hvn, I.non v hvc⟩] at h1
  obtain ⟨l, hl, e⟩ := h1
  rw [e]
  constructor
  · have h2 : (l.dedup.mergeSort fun a b => decide (a ≤ b)).Pairwise (· ≤ ·) :=
      (List.pairwise_mergeSort (fun a b c => by simpa using Nat.le_trans) (fun a b => by simpa using Nat.le_total a b) _).imp (by simp)
    have h3 : (l.dedup.mergeSort fun a b => decide (a ≤ b)).Nodup := (List.mergeSort_perm _ _).nodup_iff.2 (List.nodup_dedup l)
    exact h2.imp₂ (fun a b h1 h2 => Nat.lt_of_le_of_ne h1 h2) h3
  · intro x
    rw [(List.mergeSort_perm _ _).mem_iff, List.mem_dedup, mem_mapM hl]
    simp only [List.mem_filter, Bool.and_eq_true]
    constructor
    · rintro ⟨u, ⟨h2, h3, h4⟩, h5⟩
      have hu := (coreBit_iff hG ht (hG.lt _ _ h2).2).1 h3
      rw [similar_iff hG ht h2, decide_eq_true_iff] at h4
      obtain ⟨c, hc, -⟩ := rinv_end I hu
      refine ⟨u, ⟨hu, (hG.symm _ _ h2).1, ?_⟩, ?_⟩
      · rw [show (G.cosSG q).sim u v = (G.cosSG q).sim v u by simp only [WG.cosSG]; rw [Finset.inter_comm, Nat.min_comm, Nat.max_comm]]
        exact h4
      · rw [hcore u hu, hc]
        rw [hc] at h5
        simpa using h5
    · rintro ⟨u, hN, h5⟩
      have h2 := (hG.symm _ _ hN.2.1).1
      refine ⟨u, ⟨h2, (coreBit_iff hG ht (hG.lt _ _ h2).2).2 hN.1, ?_⟩, by rw [← hcore u hN.1, h5]; rfl⟩
      rw [similar_iff hG ht h2, decide_eq_true_iff]
      rw [show (G.cosSG q).sim v u = (G.cosSG q).sim u v by simp only [WG.cosSG]; rw [Finset.inter_comm, Nat.min_comm, Nat.max_comm]]
      exact hN.2.2

/-- The clusterings of the index (C107) are exactly the choices of one cluster for every vertex from the result of the simple SCAN. -/
theorem isScan_iff {G : SG S} {cl : Nat → List Nat} (h : IsNaive G mu eps cl) (cl' : Nat → Nat) :
    IsScan G mu eps cl' ↔ ∀ v, v < G.n → cl' v ∈ cl v ∨ cl v = [] ∧ cl' v = UF.uMax := by
  have hinj : ∀ u c d, Core G mu eps c → Linked G mu eps u c → (∀ v, Core G mu eps v → Linked G mu eps u v → c ≤ v) →
      Core G mu eps d → Linked G mu eps u d → (∀ v, Core G mu eps v → Linked G mu eps u v → d ≤ v) → c = d :=
    fun u c d h1 h2 h3 h4 h5 h6 => Nat.le_antisymm (h3 d h4 h5) (h6 c h1 h2)
  constructor
  · intro hs v hv
    have hcore : ∀ u, Core G mu eps u → cl u = [cl' u] := by
      intro u hu
      obtain ⟨c, hc, h1, h2, h3⟩ := h.core u hu
      obtain ⟨h4, h5, h6⟩ := hs.core u hu
      rw [hc, hinj u c (cl' u) h1 h2 h3 h4 h5 h6]
    by_cases hc : Core G mu eps v
    · rw [hcore v hc]; exact .inl (List.mem_singleton.2 rfl)
    · by_cases hN : ∃ u, Near G mu eps u v
      · obtain ⟨u, h1, h2⟩ := hs.border v hv hc hN
        exact .inl (((h.other v hv hc).2 _).2 ⟨u, h1, by rw [hcore u h1.1, h2]⟩)
      · refine .inr ⟨List.eq_nil_iff_forall_not_mem.2 fun x hx => ?_, hs.none v hv hc hN⟩
        obtain ⟨u, hu, -⟩ := ((h.other v hv hc).2 x).1 hx
        exact hN ⟨u, hu⟩
  · intro hs
    have hcore : ∀ u, Core G mu eps u → cl u = [cl' u] := by
      intro u hc
      obtain ⟨c, h0, -⟩ := h.core u hc
      rcases hs u hc.1 with h1 | ⟨h1, -⟩
      · rw [h0, List.mem_singleton] at h1; rw [h0, h1]
      · rw [h0] at h1; cases h1
    refine ⟨fun u hc => ?_, fun v hv hc hN => ?_, fun v hv hc hN => ?_⟩
    · obtain ⟨c, h0, h1⟩ := h.core u hc
      rw [hcore u hc] at h0
      injection h0 with h0
      rw [h0]; exact h1
    · rcases hs v hv with h1 | ⟨h1, -⟩
      · obtain ⟨u, h2, h3⟩ := ((h.other v hv hc).2 _).1 h1
        rw [hcore u h2.1] at h3
        injection h3 with h3
        exact ⟨u, h2, h3.symm⟩
      · obtain ⟨u, hN⟩ := hN
        have := ((h.other v hv hc).2 _).2 ⟨u, hN, hcore u hN.1⟩
        rw [h1] at this; cases this
    · rcases hs v hv with h1 | ⟨-, h1⟩
      · obtain ⟨u, h2, -⟩ := ((h.other v hv hc).2 _).1 h1
        exact absurd ⟨u, h2⟩ hN
      · exact h1

/-- Both implementations agree: the clustering returned by `Index::Cluster` picks, for every vertex, a cluster of the simple SCAN. -/
theorem naive_agrees {cl : Nat → List Nat} (hG : G.Ok) (h : NaiveCluster G q mu eps cl) {cl' : Nat → Nat} (h' : IsScan (G.cosSG q) mu eps cl') {v : Nat} (hv : v < G.n) :
    cl' v ∈ cl v ∨ cl v = [] ∧ cl' v = UF.uMax :=
  (isScan_iff (naive_correct hG h) cl').1 h' v hv

/-! ### Termination -/

/-- The vertices without a cluster. -/
def unset (n : Nat) (cl : Nat → List Nat) : Nat := ((List.range n).filter fun v => (cl v).isEmpty).length

theorem unset_lt {n : Nat} {cl cl' : Nat → List Nat} (h : ∀ v, cl v ≠ [] → cl' v ≠ []) {v : Nat} (hv : v < n) (h1 : cl v = []) (h2 : cl' v ≠ []) : unset n cl' < unset n cl := by
  unfold unset
  rw [← List.toFinset_card_of_nodup ((List.nodup_range (n := n)).filter _), ← List.toFinset_card_of_nodup ((List.nodup_range (n := n)).filter _)]
  refine Finset.card_lt_card (Finset.ssubset_iff_subset_ne.2 ⟨fun x hx => ?_, fun he => ?_⟩)
  · simp only [List.mem_toFinset, List.mem_filter, List.mem_range, List.isEmpty_iff] at hx ⊢
    exact ⟨hx.1, by_contra fun hc => h x hc hx.2⟩
  · have : v ∈ ((List.range n).filter fun v => (cl v).isEmpty).toFinset := by simp [hv, h1]
    rw [← he] at this
    simp only [List.mem_toFinset, List.mem_filter, List.isEmpty_iff] at this
    exact h2 this.2

/-- Every search ends. -/
theorem bfs_acc (hG : G.Ok) (ht : t.Perm (table G q)) {r : Nat} (a : (Nat → List Nat) × List Nat) (ha : ∀ v ∈ a.2, v < G.n ∧ a.1 v = []) :
    Acc (fun b a => BfsStep G t mu eps r a b) a := by
  have aux : ∀ N (a : (Nat → List Nat) × List Nat), unset G.n a.1 ≤ N → (∀ v ∈ a.2, v < G.n ∧ a.1 v = []) → Acc (fun b a => BfsStep G t mu eps r a b) a := by
    intro N
    induction N with
    | zero =>
      intro a hN ha
      refine ⟨_, fun b hb => ?_⟩
      obtain ⟨h1, -⟩ := bfsStep_iff hG ht hb fun v hv => (ha v hv).1
      obtain ⟨v, hv⟩ := List.exists_mem_of_ne_nil _ h1
      have : unset G.n a.1 ≠ 0 := by
        unfold unset
        intro h0
        have := List.eq_nil_of_length_eq_zero h0
        have hm : v ∈ (List.range G.n).filter fun v => (a.1 v).isEmpty := by simp [(ha v hv).1, (ha v hv).2]
        rw [this] at hm; cases hm
      omega
    | succ N ih =>
      intro a hN ha
      refine ⟨_, fun b hb => ?_⟩
      obtain ⟨h1, h2, h3⟩ := bfsStep_iff hG ht hb fun v hv => (ha v hv).1
      have hb2 : ∀ v ∈ b.2, v < G.n ∧ b.1 v = [] := fun v hv => by
        obtain ⟨h4, s, -, h5⟩ := (h3 v).1 hv
        exact ⟨(hG.lt _ _ h5.2.1).2, h4⟩
      by_cases hc : ∃ v ∈ a.2, Core (G.cosSG q) mu eps v
      · obtain ⟨v, hv, hvc⟩ := hc
        refine ih b ?_ hb2
        have : unset G.n b.1 < unset G.n a.1 := by
          refine unset_lt (fun w hw => ?_) (ha v hv).1 (ha v hv).2 ?_
          · rcases h2 w with ⟨-, -, e⟩ | ⟨-, e⟩
            · rw [e]; simp
            · rw [e]; exact hw
          · rcases h2 v with ⟨-, -, e⟩ | ⟨h, -⟩
            · rw [e]; simp
            · exact absurd ⟨hv, hvc⟩ h
        omega
      · have hnil : b.2 = [] := List.eq_nil_iff_forall_not_mem.2 fun v hv => by
          obtain ⟨-, s, h4, h5⟩ := (h3 v).1 hv
          exact hc ⟨s, h4, h5.1⟩
        refine ⟨_, fun c hcs => ?_⟩
        exact absurd hnil (bfsStep_iff hG ht hcs fun v hv => (hb2 v hv).1).1
  exact aux _ a (Nat.le_refl _) ha

theorem bfs_exists (hG : G.Ok) (ht : t.Perm (table G q)) {r : Nat} (a : (Nat → List Nat) × List Nat) (ha : ∀ v ∈ a.2, v < G.n ∧ a.1 v = []) :
    ∃ cl, Bfs G t mu eps r a cl := by
  have hacc := bfs_acc (mu := mu) (eps := eps) hG ht (r := r) a ha
  induction hacc with
  | intro a _ ih =>
    by_cases h : a.2 = []
    · exact ⟨a.1, by obtain ⟨x, y⟩ := a; simp only at h; subst h; exact .done x⟩
    · let cf := (a.2.filter fun v => coreBit G t mu eps v).dedup
      let cl1 := cf.foldl (fun c v x => if x = v then [r] else c x) a.1
      obtain ⟨m', o, hE⟩ := pureF_exists (L := Unit) (V := Unit) (gr_ok hG) (fun v => (cl1 v).isEmpty) (fun u v _ => (cl1 v).isEmpty && similar t eps u v)
        (fun v => decide (v ∈ cf)) (fun _ => ())
      have hs : BfsStep G t mu eps r a (cl1, o.map Prod.fst) :=
        .mk cl1 h (List.nodup_dedup _) (fun v => by simp [cf]) rfl hE
      obtain ⟨-, -, h3⟩ := bfsStep_iff hG ht hs fun v hv => (ha v hv).1
      obtain ⟨cl, hcl⟩ := ih _ hs fun v hv => by
        obtain ⟨h4, s, -, h5⟩ := (h3 v).1 hv
        exact ⟨(hG.lt _ _ h5.2.1).2, h4⟩
      exact ⟨cl, .step hs hcl⟩

/-- The last loop never reads an empty sequence, whatever happened before. -/
theorem ngbClusters_some (hG : G.Ok) (ht : t.Perm (table G q)) {cl : Nat → List Nat} (h : Roots G t mu eps 0 (fun _ => []) cl) (v : Nat) :
    ∃ l, ngbClusters G t mu eps cl v = some l := by
  refine mapM_total fun u hu => ?_
  simp only [List.mem_filter, Bool.and_eq_true] at hu
  obtain ⟨c, hc, -⟩ := rinv_end (roots_spec hG ht h rinv_start) ((coreBit_iff hG ht (hG.lt _ _ hu.1).2).1 hu.2.1)
  exact ⟨c, by rw [hc]; rfl⟩

theorem roots_exists (hG : G.Ok) (ht : t.Perm (table G q)) (k r : Nat) (hk : r + k = G.n) (cl : Nat → List Nat) : ∃ cl', Roots G t mu eps r cl cl' := by
  induction k generalizing r cl with
  | zero => subst hk; exact ⟨cl, .done cl⟩
  | succ k ih =>
    by_cases hc : cl r = []
    · obtain ⟨cl1, h1⟩ := bfs_exists (mu := mu) (eps := eps) hG ht (r := r) (cl, [r]) fun v hv => by
        rw [List.mem_singleton] at hv; subst hv; exact ⟨by omega, hc⟩
      obtain ⟨cl', h2⟩ := ih (r + 1) (by omega) cl1
      exact ⟨cl', .run (by omega) hc h1 h2⟩
    · obtain ⟨cl', h2⟩ := ih (r + 1) (by omega) cl
      exact ⟨cl', .skip (by omega) hc h2⟩

theorem naive_exists (hG : G.Ok) (q : Nat → Nat → Nat → S) (mu : Nat) (eps : S) : ∃ cl, NaiveCluster G q mu eps cl := by
  obtain ⟨cl, h⟩ := roots_exists (mu := mu) (eps := eps) hG (.refl (table G q)) G.n 0 (by omega) fun _ => []
  choose l hl using ngbClusters_some hG (.refl (table G q)) h
  exact ⟨fun v => if v < G.n ∧ cl v = [] then (l v).dedup.mergeSort (fun a b => decide (a ≤ b)) else cl v, _, cl, .refl _, h, fun v => by
    by_cases hc : v < G.n ∧ cl v = []
    · simp only [if_pos hc]; exact ⟨l v, hl v, rfl⟩
    · simp only [if_neg hc]⟩

end

/-! ### Example -/

/-- Two triangles with a common edge, and a vertex hanging on; with `mu = 4` and the threshold 300, the middle vertices 1 and 2 are cores. -/
example : exW.Ok ∧ (∃ cl, NaiveCluster exW (fun a b c => 1000 * a * a / (b * c)) 4 300 cl) ∧ Core (exW.cosSG fun a b c => 1000 * a * a / (b * c)) 4 300 1 ∧
    ¬ Core (exW.cosSG fun a b c => 1000 * a * a / (b * c)) 4 300 0 ∧ Near (exW.cosSG fun a b c => 1000 * a * a / (b * c)) 4 300 1 0 := by
  refine ⟨exW_ok, naive_exists exW_ok _ _ _, ?_, ?_, ?_, ?_, ?_⟩
  · unfold Core; decide +kernel
  · unfold Core; decide +kernel
  · unfold Core; decide +kernel
  · decide +kernel
  · decide +kernel

end Gbbs.Scan
