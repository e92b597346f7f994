import Verif.Convert.Reorder
import Verif.Graph.Csr

/-!
# `snap_converter`

`edge_list_to_asymmetric_graph` (`gbbs/graph_io.h:368-418`) and `utils/snap_converter.cc` from the
text of an edge list to the text of an adjacency graph, for graphs without weights.  The symmetric
conversion is the one of C24 (`Verif/Graph/Csr.lean`).
-/

namespace Gbbs.EdgeList

open Gbbs Text Csr

variable {W : Type}

/-! ## Model -/

/-- `edge_list_to_asymmetric_graph`, `gbbs/graph_io.h:368-418`: out- and in-edges.  `sorted` and
`inSorted` are the results of the two sorts, `a0`, `a0'` the uninitialised offsets, `ws`, `ws'` the
orders in which they are written.  `none`: the vertex data is a null pointer for `n` vertices. -/
def edgeListToAsymmetric (es sorted inSorted : List (Edge W)) (a0 a0' : Nat → Nat)
    (ws ws' : List (Nat × Nat)) : Option (Graph W × Graph W) :=
  if es = [] then
    some ({ n := 0, m := 0, off := fun _ => 0, deg := fun _ => 0, nbr := [] },
      { n := 0, m := 0, off := fun _ => 0, deg := fun _ => 0, nbr := [] })
  else
    let edges := dedupeNoLoops sorted
    let n := numVertices edges
    if edges = [] then none
    else
      let off := applyWrites a0 ws
      let off' := applyWrites a0' ws'
      some ({ n := n, m := edges.length, off := off, deg := degree n edges.length off,
              nbr := edges.map fun e => (e.dst, e.wgh) },
        { n := n, m := edges.length, off := off', deg := degree n edges.length off',
          nbr := inSorted.map fun e => (e.dst, e.wgh) })

/-- `Edge{edge.to, edge.from, edge.weight}`, `gbbs/graph_io.h:385-388`. -/
def flip (e : Edge W) : Edge W := ⟨e.dst, e.src, e.wgh⟩

/-- `write_graph_to_file` of a graph without weights: C25. -/
def writeGraph (G : Graph Unit) : List Nat :=
  write ((List.range G.n).map fun v => (G.nbrs v).map Prod.fst)

/-- `emplace_back(from, to)`. -/
def toEdges (ps : List (Nat × Nat)) : List (Edge Unit) := ps.map fun p => ⟨p.1, p.2, ()⟩

/-- `RunSnapConverter` with `-s`, without weights, `utils/snap_converter.cc:36-46`, `103-106`. -/
def snapSymmetric (file : List Nat) (sorted : List (Edge Unit)) (a0 : Nat → Nat)
    (ws : List (Nat × Nat)) : Option (List Nat) :=
  (edgeListToSymmetric (toEdges (readUnweighted file)) sorted a0 ws).map writeGraph

/-- `RunSnapConverter` without `-s`. -/
def snapDirected (file : List Nat) (sorted inSorted : List (Edge Unit)) (a0 a0' : Nat → Nat)
    (ws ws' : List (Nat × Nat)) : Option (List Nat) :=
  (edgeListToAsymmetric (toEdges (readUnweighted file)) sorted inSorted a0 a0' ws ws').map
    fun G => writeGraph G.1

/-! ## The directed graph -/

theorem noLoops_spec {es sorted : List (Edge W)} (hs : IsSort es sorted) :
    (dedupeNoLoops sorted).Pairwise keyLt ∧
    (∀ u v, Occurs (dedupeNoLoops sorted) u v ↔ u ≠ v ∧ Occurs es u v) ∧
    (∀ e ∈ dedupeNoLoops sorted, e ∈ es) := by
  obtain ⟨d1, d2, d3⟩ := dedupe_spec hs
  rw [dedupeNoLoops_eq]
  refine ⟨d1.filter _, fun u v => ?_, fun e he => d3 e (List.mem_filter.1 he).1⟩
  rw [← d2]
  unfold Occurs
  simp only [List.mem_filter]
  constructor
  · rintro ⟨e, ⟨he, h⟩, rfl, rfl⟩; exact ⟨by simpa using h, e, he, rfl, rfl⟩
  · rintro ⟨h, e, he, rfl, rfl⟩; exact ⟨e, ⟨he, by simpa using h⟩, rfl, rfl⟩

theorem occurs_flip {es es' : List (Edge W)} (h : es'.Perm (es.map flip)) (u v : Nat) :
    Occurs es' u v ↔ Occurs es v u := by
  unfold Occurs
  constructor
  · rintro ⟨e, he, rfl, rfl⟩
    rw [h.mem_iff, List.mem_map] at he
    obtain ⟨e, he, rfl⟩ := he
    exact ⟨e, he, rfl, rfl⟩
  · rintro ⟨e, he, rfl, rfl⟩
    exact ⟨flip e, h.mem_iff.2 (List.mem_map.2 ⟨e, he, rfl⟩), rfl, rfl⟩

/-- A sort of edges with different endpoints is strict. -/
theorem flip_sorted {es inSorted : List (Edge W)} (h1 : es.Pairwise keyLt)
    (hs : IsSort (es.map flip) inSorted) : inSorted.Pairwise keyLt := by
  have hnd : (inSorted.map fun e => (e.src, e.dst)).Nodup := by
    rw [(hs.1.map _).nodup_iff, List.map_map]
    refine List.pairwise_map.2 (h1.imp fun {a b} hab heq => ?_)
    simp only [Function.comp, flip, Prod.mk.injEq] at heq
    unfold keyLt at hab
    omega
  have h3 := List.pairwise_map.1 hnd
  refine (hs.2.and h3).imp (fun {a b} h => ?_)
  obtain ⟨ha, hb⟩ := h
  refine keyLt_of_ne ha ?_
  simp only [ne_eq, Prod.mk.injEq, not_and] at hb
  by_cases h : a.src = b.src
  · exact Or.inr (hb h)
  · exact Or.inl h

/-- C131: both directions of the directed graph. -/
theorem C131_directed_partial {es sorted inSorted : List (Edge W)}
    (hne : ∃ e ∈ es, e.src ≠ e.dst) (hs : IsSort es sorted)
    (hin : IsSort ((dedupeNoLoops sorted).map flip) inSorted) (a0 a0' : Nat → Nat)
    (ws ws' : List (Nat × Nat))
    (hp : ws.Perm (allDataWrites (numVertices (dedupeNoLoops sorted))
      (srcAt (dedupeNoLoops sorted)) (dedupeNoLoops sorted).length))
    (hp' : ws'.Perm (allDataWrites (numVertices (dedupeNoLoops sorted)) (srcAt inSorted)
      inSorted.length)) :
    ∃ G H, edgeListToAsymmetric es sorted inSorted a0 a0' ws ws' = some (G, H) ∧
      H.n = G.n ∧ H.m = G.m ∧
      (∀ u, u < G.n → ((G.nbrs u).map Prod.fst).Pairwise (· < ·) ∧
        (∀ v, v ∈ (G.nbrs u).map Prod.fst ↔ u ≠ v ∧ Occurs es u v) ∧
        (∀ p ∈ G.nbrs u, ⟨u, p.1, p.2⟩ ∈ es ∧ p.1 < G.n)) ∧
      (∀ u, u < G.n → ((H.nbrs u).map Prod.fst).Pairwise (· < ·) ∧
        (∀ v, v ∈ (H.nbrs u).map Prod.fst ↔ u ≠ v ∧ Occurs es v u) ∧
        (∀ p ∈ H.nbrs u, (u, p.2) ∈ G.nbrs p.1)) ∧
      (∀ e ∈ es, e.src ≠ e.dst → e.src < G.n ∧ e.dst < G.n) ∧
      ((List.range G.n).map G.deg).sum = G.m ∧ ((List.range G.n).map H.deg).sum = G.m := by
  obtain ⟨h1, h2, h3⟩ := noLoops_spec hs
  obtain ⟨e0, he0, hne0⟩ := hne
  have hes : es ≠ [] := List.ne_nil_of_mem he0
  have hocc := (h2 e0.src e0.dst).2 ⟨hne0, ⟨e0, he0, rfl, rfl⟩⟩
  have hne' : dedupeNoLoops sorted ≠ [] := by
    obtain ⟨x, hx, _⟩ := hocc; exact List.ne_nil_of_mem hx
  have hlt : ∀ e ∈ dedupeNoLoops sorted, e.src < numVertices (dedupeNoLoops sorted) ∧
      e.dst < numVertices (dedupeNoLoops sorted) := by
    intro e he
    have := (le_foldl_max ((dedupeNoLoops sorted).map fun e => max e.src e.dst) 0).2
      (max e.src e.dst) (List.mem_map.2 ⟨e, he, rfl⟩)
    unfold numVertices
    omega
  have hcsr := vertexData_csr (sortedBySrc_of_keyLt h1) (fun e he => (hlt e he).1) hne' a0 ws hp
  have hi1 := flip_sorted h1 hin
  have hil : inSorted.length = (dedupeNoLoops sorted).length := by
    rw [hin.1.length_eq, List.length_map]
  have hine : inSorted ≠ [] := fun e => by
    rw [e] at hil; exact hne' (List.length_eq_zero_iff.1 hil.symm)
  have hisrc : ∀ e ∈ inSorted, e.src < numVertices (dedupeNoLoops sorted) := by
    intro e he
    rw [hin.1.mem_iff, List.mem_map] at he
    obtain ⟨x, hx, rfl⟩ := he
    exact (hlt x hx).2
  have hcsr' := vertexData_csr (sortedBySrc_of_keyLt hi1) hisrc hine a0' ws' hp'
  have hnb := fun w hw => nbrs_of_csr hcsr (dedupeNoLoops sorted).length (v := w) hw
  have hnb' := fun w hw => nbrs_of_csr hcsr' inSorted.length (v := w) hw
  rw [hil] at hcsr' hnb'
  have heq : edgeListToAsymmetric es sorted inSorted a0 a0' ws ws' = some
      (⟨numVertices (dedupeNoLoops sorted), (dedupeNoLoops sorted).length, applyWrites a0 ws,
          degree (numVertices (dedupeNoLoops sorted)) (dedupeNoLoops sorted).length
            (applyWrites a0 ws), (dedupeNoLoops sorted).map fun e => (e.dst, e.wgh)⟩,
        ⟨numVertices (dedupeNoLoops sorted), (dedupeNoLoops sorted).length, applyWrites a0' ws',
          degree (numVertices (dedupeNoLoops sorted)) (dedupeNoLoops sorted).length
            (applyWrites a0' ws'), inSorted.map fun e => (e.dst, e.wgh)⟩) := by
    unfold edgeListToAsymmetric; rw [if_neg hes]; simp only; rw [if_neg hne']
  have hsum := hcsr'.2
  rw [hil] at hsum
  refine ⟨_, _, heq, rfl, rfl, ?_, ?_, ?_, hcsr.2, hsum⟩
  · intro u hu
    rw [hnb u hu]
    refine ⟨nbrs_sorted h1 u, fun v => by rw [mem_nbrs, h2], fun p hp => ?_⟩
    obtain ⟨e, he, rfl⟩ := List.mem_map.1 hp
    obtain ⟨hee, hu'⟩ := List.mem_filter.1 he
    simp only [decide_eq_true_eq] at hu'
    subst hu'
    exact ⟨h3 e hee, (hlt e hee).2⟩
  · intro u hu
    rw [hnb' u hu]
    refine ⟨nbrs_sorted hi1 u, fun v => ?_, fun p hp => ?_⟩
    · rw [mem_nbrs, occurs_flip hin.1, h2]
      exact and_congr_left fun _ => ne_comm
    · obtain ⟨e, he, rfl⟩ := List.mem_map.1 hp
      obtain ⟨hee, hu'⟩ := List.mem_filter.1 he
      simp only [decide_eq_true_eq] at hu'
      subst hu'
      rw [hin.1.mem_iff, List.mem_map] at hee
      obtain ⟨x, hx, rfl⟩ := hee
      show (x.dst, x.wgh) ∈ _
      have : (flip x).dst = x.src := rfl
      rw [show ((flip x).dst, (flip x).wgh).1 = x.src from rfl, hnb x.src (hlt x hx).1]
      exact List.mem_map.2 ⟨x, List.mem_filter.2 ⟨hx, by simp⟩, rfl⟩
  · intro e he hne
    obtain ⟨x, hx, h4, h5⟩ := (h2 _ _).2 ⟨hne, ⟨e, he, rfl, rfl⟩⟩
    rw [← h4, ← h5]; exact hlt x hx

/-- C131: a list with only self loops gets a null pointer for its one vertex. -/
theorem C131_only_loops_refuted (a0 a0' : Nat → Nat) (ws ws' : List (Nat × Nat)) :
    edgeListToAsymmetric [⟨3, 3, ()⟩] [⟨3, 3, ()⟩] [] a0 a0' ws ws' = none ∧
    IsSort [(⟨3, 3, ()⟩ : Edge Unit)] [⟨3, 3, ()⟩] ∧
    numVertices (dedupeNoLoops [(⟨3, 3, ()⟩ : Edge Unit)]) = 1 :=
  ⟨rfl, ⟨List.Perm.refl _, by simp⟩, rfl⟩

/-- Three arcs, one twice, and a loop. -/
example : ∃ es sorted inSorted : List (Edge Nat), (∃ e ∈ es, e.src ≠ e.dst) ∧ IsSort es sorted ∧
    IsSort ((dedupeNoLoops sorted).map flip) inSorted ∧ inSorted.length = 3 := by
  refine ⟨[⟨0, 1, 5⟩, ⟨0, 1, 5⟩, ⟨1, 1, 2⟩, ⟨1, 0, 3⟩, ⟨2, 0, 4⟩],
    [⟨0, 1, 5⟩, ⟨0, 1, 5⟩, ⟨1, 0, 3⟩, ⟨1, 1, 2⟩, ⟨2, 0, 4⟩],
    [⟨0, 1, 3⟩, ⟨0, 2, 4⟩, ⟨1, 0, 5⟩], ⟨⟨0, 1, 5⟩, by simp, by decide⟩, ⟨?_, ?_⟩, ⟨?_, ?_⟩, rfl⟩
  · exact ((List.Perm.swap _ _ _).cons _).cons _
  · simp [keyLt]
  · show [(⟨0, 1, 3⟩ : Edge Nat), ⟨0, 2, 4⟩, ⟨1, 0, 5⟩].Perm [⟨1, 0, 5⟩, ⟨0, 1, 3⟩, ⟨0, 2, 4⟩]
    exact List.perm_append_comm (l₁ := [(⟨0, 1, 3⟩ : Edge Nat), ⟨0, 2, 4⟩]) (l₂ := [⟨1, 0, 5⟩])
  · simp [keyLt]

/-! ## From file to file -/

theorem length_lt_of_sorted {l : List Nat} {u n : Nat} (h : l.Pairwise (· < ·)) (hu : u < n)
    (hul : u ∉ l) (hl : ∀ x ∈ l, x < n) : l.length < n := by
  have hnd : (u :: l).Nodup := List.nodup_cons.2 ⟨hul, h.imp (fun {a b} hab => Nat.ne_of_lt hab)⟩
  have hsub : (u :: l) ⊆ List.range n := by
    intro x hx
    rw [List.mem_range]
    rcases List.mem_cons.1 hx with rfl | hx
    · exact hu
    · exact hl x hx
  have := (List.subperm_of_subset hnd hsub).length_le
  rw [List.length_cons, List.length_range] at this
  omega

theorem sum_le_mul (l : List Nat) (b : Nat) (h : ∀ x ∈ l, x ≤ b) : l.sum ≤ l.length * b := by
  induction l with
  | nil => simp
  | cons a l ih =>
    have := h a (by simp)
    have := ih (fun x hx => h x (by simp [hx]))
    rw [List.sum_cons, List.length_cons, Nat.succ_mul]
    omega

/-- A simple graph with 32-bit vertices survives being written and loaded. -/
theorem writeGraph_read (G : Graph Unit) (hn : G.n ≤ 4294967296)
    (h : ∀ u, u < G.n → ((G.nbrs u).map Prod.fst).Pairwise (· < ·) ∧
      u ∉ (G.nbrs u).map Prod.fst ∧ ∀ v ∈ (G.nbrs u).map Prod.fst, v < G.n) :
    (parse (writeGraph G) none).map adj =
      some ((List.range G.n).map fun v => (G.nbrs v).map Prod.fst) := by
  have hlen : ∀ u, u < G.n → ((G.nbrs u).map Prod.fst).length < G.n := fun u hu =>
    length_lt_of_sorted (h u hu).1 hu (h u hu).2.1 (h u hu).2.2
  refine write_read _ (by simp; omega) ?_ ?_ ?_
  · have := sum_le_mul (((List.range G.n).map fun v => (G.nbrs v).map Prod.fst).map List.length)
      4294967295 (fun x hx => by
        rw [List.map_map] at hx
        obtain ⟨u, hu, rfl⟩ := List.mem_map.1 hx
        have := hlen u (List.mem_range.1 hu)
        simp only [Function.comp]; omega)
    simp only [List.length_map, List.length_range] at this
    omega
  · intro l hl v hv
    obtain ⟨u, hu, rfl⟩ := List.mem_map.1 hl
    have := (h u (List.mem_range.1 hu)).2.2 v hv
    omega
  · intro l hl
    obtain ⟨u, hu, rfl⟩ := List.mem_map.1 hl
    have := hlen u (List.mem_range.1 hu)
    omega

theorem occurs_toEdges (ps : List (Nat × Nat)) (u v : Nat) :
    Occurs (toEdges ps) u v ↔ (u, v) ∈ ps := by
  unfold Occurs toEdges
  constructor
  · rintro ⟨e, he, rfl, rfl⟩
    obtain ⟨p, hp, rfl⟩ := List.mem_map.1 he
    exact hp
  · intro h
    exact ⟨_, List.mem_map.2 ⟨_, h, rfl⟩, rfl, rfl⟩

theorem foldl_max_lt (l : List Nat) (a b : Nat) (ha : a < b) (h : ∀ x ∈ l, x < b) :
    l.foldl max a < b := by
  induction l generalizing a with
  | nil => exact ha
  | cons x l ih =>
    exact ih _ (by have := h x (by simp); omega) (fun y hy => h y (by simp [hy]))

theorem numVertices_le {es : List (Edge W)} (h : ∀ e ∈ es, e.src < 4294967296 ∧ e.dst < 4294967296) :
    numVertices es ≤ 4294967296 := by
  have := foldl_max_lt (es.map fun e => max e.src e.dst) 0 4294967296 (by decide) (fun x hx => by
    obtain ⟨e, he, rfl⟩ := List.mem_map.1 hx
    have := h e he
    omega)
  unfold numVertices
  omega

/-- The vertices of a list of edges. -/
def Mentioned (es : List Entry) (x : Nat) : Prop := ∃ e ∈ es, e.u ≠ e.v ∧ (e.u = x ∨ e.v = x)

/-- C132 with `-s`: the written file is loaded as the graph in which `u` and `v` are adjacent if and
only if they are different and a line of the input says so in either direction. -/
theorem C132_symmetric_partial (cs : List (List Nat)) (hc : ∀ l ∈ cs, Comment l) (es : List Entry)
    (he : ∀ e ∈ es, e.Ok) (hne : ∃ e ∈ es, e.u ≠ e.v) (sorted : List (Edge Unit))
    (hs : IsSort (bothDirs (toEdges (es.map fun e => (e.u, e.v)))) sorted) (a0 : Nat → Nat)
    (ws : List (Nat × Nat))
    (hp : ws.Perm (allDataWrites (numVertices (dedupeNoLoops sorted))
      (srcAt (dedupeNoLoops sorted)) (dedupeNoLoops sorted).length)) :
    ∃ file nb, snapSymmetric (cs.flatMap line ++ es.flatMap Entry.text) sorted a0 ws = some file ∧
      (parse file none).map adj = some nb ∧ (∀ x, Mentioned es x → x < nb.length) ∧
      ∀ u l, nb[u]? = some l → l.Pairwise (· < ·) ∧
        ∀ v, v ∈ l ↔ u ≠ v ∧ ∃ e ∈ es, (e.u = u ∧ e.v = v) ∨ (e.u = v ∧ e.v = u) := by
  obtain ⟨e0, he0, hne0⟩ := hne
  obtain ⟨G, h1, h2, h3, _⟩ := edgeListToSymmetric_partial
    (es := toEdges (es.map fun e => (e.u, e.v)))
    ⟨⟨e0.u, e0.v, ()⟩, List.mem_map.2 ⟨_, List.mem_map.2 ⟨e0, he0, rfl⟩, rfl⟩, hne0⟩ hs a0 ws hp
  have hGn : G.n = numVertices (dedupeNoLoops sorted) := by
    unfold edgeListToSymmetric at h1
    rw [if_neg (by
      intro e
      have : (⟨e0.u, e0.v, ()⟩ : Edge Unit) ∈ toEdges (es.map fun e => (e.u, e.v)) :=
        List.mem_map.2 ⟨_, List.mem_map.2 ⟨e0, he0, rfl⟩, rfl⟩
      rw [e] at this; cases this)] at h1
    simp only at h1
    split at h1
    · cases h1
    · injection h1 with h1; rw [← h1]
  have hsmall : G.n ≤ 4294967296 := by
    rw [hGn]
    refine numVertices_le (fun e hee => ?_)
    have := (noLoops_spec hs).2.2 e hee
    unfold bothDirs toEdges at this
    simp only [List.mem_flatMap, List.mem_map, List.mem_cons, List.not_mem_nil, or_false] at this
    obtain ⟨e', ⟨p, ⟨x, hx, rfl⟩, rfl⟩, rfl | rfl⟩ := this
    · exact ⟨(he x hx).1, (he x hx).2.1⟩
    · exact ⟨(he x hx).2.1, (he x hx).1⟩
  have hocc : ∀ u v, Occurs (toEdges (es.map fun e => (e.u, e.v))) u v ↔ ∃ e ∈ es, e.u = u ∧ e.v = v := by
    intro u v
    rw [occurs_toEdges, List.mem_map]
    simp only [Prod.mk.injEq]
  refine ⟨writeGraph G, _, ?_, writeGraph_read G hsmall (fun u hu => ⟨(h2 u hu).1, fun hm => ?_, fun v hv =>
    ((h2 u hu).2.2 v hv).1⟩), ?_, ?_⟩
  · rw [snapSymmetric, C130_unweighted cs hc es he, h1, Option.map_some]
  · exact (((h2 u hu).2.1 u).1 hm).1 rfl
  · rintro x ⟨e, hee, hne, hx⟩
    have := h3 ⟨e.u, e.v, ()⟩ (List.mem_map.2 ⟨_, List.mem_map.2 ⟨e, hee, rfl⟩, rfl⟩) hne
    rw [List.length_map, List.length_range]
    rcases hx with rfl | rfl
    · exact this.1
    · exact this.2
  · intro u l hl
    have hu : u < G.n := by
      have := (List.getElem?_eq_some_iff.1 hl).1
      simpa using this
    rw [List.getElem?_map, List.getElem?_range hu, Option.map_some, Option.some.injEq] at hl
    subst hl
    refine ⟨(h2 u hu).1, fun v => ?_⟩
    rw [(h2 u hu).2.1 v, hocc, hocc]
    refine and_congr_right fun _ => ⟨?_, ?_⟩
    · rintro (⟨e, a, b⟩ | ⟨e, a, b⟩)
      · exact ⟨e, a, Or.inl b⟩
      · exact ⟨e, a, Or.inr b⟩
    · rintro ⟨e, a, b | b⟩
      · exact Or.inl ⟨e, a, b⟩
      · exact Or.inr ⟨e, a, b⟩

/-- C132 without `-s`. -/
theorem C132_directed_partial (cs : List (List Nat)) (hc : ∀ l ∈ cs, Comment l) (es : List Entry)
    (he : ∀ e ∈ es, e.Ok) (hne : ∃ e ∈ es, e.u ≠ e.v) (sorted inSorted : List (Edge Unit))
    (hs : IsSort (toEdges (es.map fun e => (e.u, e.v))) sorted)
    (hin : IsSort ((dedupeNoLoops sorted).map flip) inSorted) (a0 a0' : Nat → Nat)
    (ws ws' : List (Nat × Nat))
    (hp : ws.Perm (allDataWrites (numVertices (dedupeNoLoops sorted))
      (srcAt (dedupeNoLoops sorted)) (dedupeNoLoops sorted).length))
    (hp' : ws'.Perm (allDataWrites (numVertices (dedupeNoLoops sorted)) (srcAt inSorted)
      inSorted.length)) :
    ∃ file nb, snapDirected (cs.flatMap line ++ es.flatMap Entry.text) sorted inSorted a0 a0' ws ws' =
        some file ∧
      (parse file none).map adj = some nb ∧ (∀ x, Mentioned es x → x < nb.length) ∧
      ∀ u l, nb[u]? = some l → l.Pairwise (· < ·) ∧
        ∀ v, v ∈ l ↔ u ≠ v ∧ ∃ e ∈ es, e.u = u ∧ e.v = v := by
  obtain ⟨e0, he0, hne0⟩ := hne
  obtain ⟨G, H, h1, _, _, h2, _, h3, _⟩ := C131_directed_partial
    (es := toEdges (es.map fun e => (e.u, e.v)))
    ⟨⟨e0.u, e0.v, ()⟩, List.mem_map.2 ⟨_, List.mem_map.2 ⟨e0, he0, rfl⟩, rfl⟩, hne0⟩ hs hin a0 a0'
    ws ws' hp hp'
  have hGn : G.n = numVertices (dedupeNoLoops sorted) := by
    unfold edgeListToAsymmetric at h1
    rw [if_neg (by
      intro e
      have : (⟨e0.u, e0.v, ()⟩ : Edge Unit) ∈ toEdges (es.map fun e => (e.u, e.v)) :=
        List.mem_map.2 ⟨_, List.mem_map.2 ⟨e0, he0, rfl⟩, rfl⟩
      rw [e] at this; cases this)] at h1
    simp only at h1
    split at h1
    · cases h1
    · injection h1 with h1; injection h1 with h1; rw [← h1]
  have hsmall : G.n ≤ 4294967296 := by
    rw [hGn]
    refine numVertices_le (fun e hee => ?_)
    have := (noLoops_spec hs).2.2 e hee
    unfold toEdges at this
    simp only [List.mem_map] at this
    obtain ⟨p, ⟨x, hx, rfl⟩, rfl⟩ := this
    exact ⟨(he x hx).1, (he x hx).2.1⟩
  have hocc : ∀ u v, Occurs (toEdges (es.map fun e => (e.u, e.v))) u v ↔ ∃ e ∈ es, e.u = u ∧ e.v = v := by
    intro u v
    rw [occurs_toEdges, List.mem_map]
    simp only [Prod.mk.injEq]
  refine ⟨writeGraph G, _, ?_, writeGraph_read G hsmall (fun u hu => ⟨(h2 u hu).1, fun hm => ?_, fun v hv => ?_⟩),
    ?_, ?_⟩
  · rw [snapDirected, C130_unweighted cs hc es he, h1, Option.map_some]
  · exact (((h2 u hu).2.1 u).1 hm).1 rfl
  · obtain ⟨p, hp, rfl⟩ := List.mem_map.1 hv
    exact ((h2 u hu).2.2 p hp).2
  · rintro x ⟨e, hee, hne, hx⟩
    have := h3 ⟨e.u, e.v, ()⟩ (List.mem_map.2 ⟨_, List.mem_map.2 ⟨e, hee, rfl⟩, rfl⟩) hne
    rw [List.length_map, List.length_range]
    rcases hx with rfl | rfl
    · exact this.1
    · exact this.2
  · intro u l hl
    have hu : u < G.n := by
      have := (List.getElem?_eq_some_iff.1 hl).1
      simpa using this
    rw [List.getElem?_map, List.getElem?_range hu, Option.map_some, Option.some.injEq] at hl
    subst hl
    refine ⟨(h2 u hu).1, fun v => ?_⟩
    rw [(h2 u hu).2.1 v, hocc]

/-- A file with a comment, the lines "0 1", "1 0", "2 2" and "1 2". -/
example : ∃ (es : List Entry) (sorted : List (Edge Unit)), (∀ e ∈ es, e.Ok) ∧ (∃ e ∈ es, e.u ≠ e.v) ∧
    IsSort (bothDirs (toEdges (es.map fun e => (e.u, e.v)))) sorted ∧
    (dedupeNoLoops sorted).length = 4 := by
  refine ⟨[⟨0, 1, [32], [10]⟩, ⟨2, 2, [32], [10]⟩, ⟨1, 2, [32], [10]⟩],
    [⟨0, 1, ()⟩, ⟨1, 0, ()⟩, ⟨1, 2, ()⟩, ⟨2, 1, ()⟩, ⟨2, 2, ()⟩, ⟨2, 2, ()⟩], ?_, ?_, ⟨?_, ?_⟩, by decide +kernel⟩
  · simp [Entry.Ok, Sep, isWs]
  · simp
  · show [(⟨0, 1, ()⟩ : Edge Unit), ⟨1, 0, ()⟩, ⟨1, 2, ()⟩, ⟨2, 1, ()⟩, ⟨2, 2, ()⟩, ⟨2, 2, ()⟩].Perm
      [⟨0, 1, ()⟩, ⟨1, 0, ()⟩, ⟨2, 2, ()⟩, ⟨2, 2, ()⟩, ⟨1, 2, ()⟩, ⟨2, 1, ()⟩]
    refine ((List.Perm.cons _ (List.Perm.cons _ ?_)))
    exact List.perm_append_comm (l₁ := [(⟨1, 2, ()⟩ : Edge Unit), ⟨2, 1, ()⟩])
      (l₂ := [⟨2, 2, ()⟩, ⟨2, 2, ()⟩])
  · simp [keyLt]

end Gbbs.EdgeList
