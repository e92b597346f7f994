/-
C147: edge lists of graphs (`edges`, `graph.h:113-133`; `to_edge_array`, `edge_array.h:169-190`), graphs of edge lists (`asymmetric_graph::from_edges`,
`graph.h:664-728`; `symmetric_graph::from_edges` is C22), and `reduceEdges`, `graph.h:104-111`.
-/
import Verif.Common
import Verif.Graph.Csr

namespace Gbbs.EdgeL

open Csr

variable {W : Type}

/-! ### Model -/

/-- The sequential inner loop of `edges` for vertex `i`: `edges[k++] = (u, v, wgh)`, as writes. -/
def edgeWrites (i : Nat) : Nat → List (Nat × W) → List (Nat × Edge W)
  | _, [] => []
  | k, e :: l => (k, ⟨i, e.1, e.2⟩) :: edgeWrites i (k + 1) l

/-- All writes; `degs[i]` are the prefix sums in an unsigned type with `M` values: `size_t` in `edges`, `uintT` in `to_edge_array`, which has 32 bits unless
`GBBSLONG` is defined (`macros.h:41-55`). -/
def allWrites (M n : Nat) (adj : Nat → List (Nat × W)) : List (Nat × Edge W) :=
  (List.range n).flatMap fun i => edgeWrites i (exScan (fun i => (adj i).length) i % M) (adj i)

/-- The array that is returned, after the writes `ws`; `none` if a write is out of bounds. `junk` are the contents before. -/
def edges (M n : Nat) (adj : Nat → List (Nat × W)) (ws : List (Nat × Edge W)) (junk : Nat → Edge W) : Option (List (Edge W)) :=
  let size := exScan (fun i => (adj i).length) n % M
  if ∀ w ∈ ws, w.1 < size then some ((List.range size).map (ws.foldl (fun a w => upd a w.1 w.2) junk)) else none

/-- `EdgeUtils::transpose`, `edge_array.h:37-46`. -/
def transpose (es : List (Edge W)) : List (Edge W) := es.map fun e => ⟨e.dst, e.src, e.wgh⟩

/-- `asymmetric_graph::from_edges` with `n` supplied and at least one edge: out-edges and in-edges; `so`, `si` are results of the sorts, `wo`, `wi` the writes of
`compute_offsets`. -/
def asymFromEdges (n : Nat) (so si : List (Edge W)) (wo wi : List (Nat × Nat)) : Graph W × Graph W :=
  let g := fun (es : List (Edge W)) ws =>
    let off := applyWrites (fun _ => 0) ws
    { n := n, m := es.length, off := off, deg := degree n es.length off, nbr := es.map fun e => (e.dst, e.wgh) : Graph W }
  (g so wo, g si wi)

/-- What `parlay::reduce` may return for the operation `op` of a monoid: it is applied to the elements in their order, with any parentheses. -/
inductive Reduces {T : Type} (op : T → T → T) (e : T) : List T → T → Prop
  | nil : Reduces op e [] e
  | one (x : T) : Reduces op e [x] x
  | app {l r : List T} {x y : T} : Reduces op e l x → Reduces op e r y → Reduces op e (l ++ r) (op x y)

/-! ### Specification -/

/-- The edges of a graph: those of vertex 0, then those of vertex 1, and so on. -/
def arcs (adj : Nat → List (Nat × W)) (i : Nat) : List (Edge W) := (adj i).map fun e => ⟨i, e.1, e.2⟩

def allArcs (n : Nat) (adj : Nat → List (Nat × W)) : List (Edge W) := (List.range n).flatMap (arcs adj)

/-! ### Listing edges -/

theorem edgeWrites_mem {i k : Nat} {l : List (Nat × W)} {w : Nat × Edge W} : w ∈ edgeWrites i k l ↔ ∃ j, ∃ h : j < l.length, w = (k + j, ⟨i, l[j].1, l[j].2⟩) := by
  induction l generalizing k with
  | nil => simp [edgeWrites]
  | cons e l ih =>
    rw [edgeWrites, List.mem_cons, ih]
    constructor
    · rintro (rfl | ⟨j, h, rfl⟩)
      · exact ⟨0, by simp, rfl⟩
      · exact ⟨j + 1, by simpa using h, by rw [List.getElem_cons_succ]; congr 1; omega⟩
    · rintro ⟨j, h, rfl⟩
      cases j with
      | zero => exact Or.inl rfl
      | succ j => exact Or.inr ⟨j, by simpa using h, by rw [List.getElem_cons_succ]; congr 1; omega⟩

theorem allArcs_succ (n : Nat) (adj : Nat → List (Nat × W)) : allArcs (n + 1) adj = allArcs n adj ++ arcs adj n := by
  rw [allArcs, List.range_succ, List.flatMap_append]; simp [allArcs]

theorem allArcs_length (n : Nat) (adj : Nat → List (Nat × W)) : (allArcs n adj).length = exScan (fun i => (adj i).length) n := by
  induction n with
  | zero => rfl
  | succ n ih => rw [allArcs_succ, List.length_append, ih, exScan, arcs, List.length_map]

theorem allArcs_get {n i j : Nat} {adj : Nat → List (Nat × W)} (hi : i < n) (hj : j < (adj i).length) :
    (allArcs n adj)[exScan (fun i => (adj i).length) i + j]? = some ⟨i, (adj i)[j].1, (adj i)[j].2⟩ := by
  induction n with
  | zero => omega
  | succ n ih =>
    rw [allArcs_succ]
    by_cases h : i = n
    · subst h
      rw [List.getElem?_append_right (by rw [allArcs_length]; omega), allArcs_length, Nat.add_sub_cancel_left, arcs, List.getElem?_map,
        List.getElem?_eq_getElem hj]
      rfl
    · rw [List.getElem?_append_left, ih (by omega)]
      rw [allArcs_length]
      have := exScan_mono (fun i => (adj i).length) (show i + 1 ≤ n by omega)
      simp only [exScan] at this
      omega

theorem cover {f : Nat → Nat} {n k : Nat} (hk : k < exScan f n) : ∃ i < n, ∃ j < f i, k = exScan f i + j := by
  induction n with
  | zero => simp [exScan] at hk
  | succ n ih =>
    by_cases h : k < exScan f n
    · obtain ⟨i, hi, j, hj, he⟩ := ih h
      exact ⟨i, by omega, j, hj, he⟩
    · rw [exScan] at hk
      exact ⟨n, by omega, k - exScan f n, by omega, by omega⟩

theorem foldl_writes {A : Type} (g : Nat → Option A) {ws : List (Nat × A)} (h : ∀ w ∈ ws, g w.1 = some w.2) (a : Nat → A) {k : Nat} (hk : k ∈ ws.map Prod.fst) :
    g k = some (ws.foldl (fun a w => upd a w.1 w.2) a k) := by
  induction ws generalizing a with
  | nil => cases hk
  | cons w ws ih =>
    rw [List.foldl_cons]
    by_cases h1 : k ∈ ws.map Prod.fst
    · exact ih (fun w hw => h w (List.mem_cons_of_mem _ hw)) _ h1
    · have h2 : k = w.1 := by
        rcases List.mem_cons.1 hk with h2 | h2
        · exact h2
        · exact absurd h2 h1
      have h3 : ∀ (l : List (Nat × A)) (b : Nat → A), k ∉ l.map Prod.fst → l.foldl (fun a w => upd a w.1 w.2) b k = b k := by
        intro l
        induction l with
        | nil => intros; rfl
        | cons x l ihl =>
          intro b hb
          rw [List.foldl_cons, ihl _ fun hm => hb (List.mem_cons_of_mem _ hm)]
          exact upd_of_ne _ _ fun e => hb (e ▸ List.mem_cons_self)
      rw [h3 ws _ h1, h2, upd_same]
      exact h w List.mem_cons_self

/-- **C147: `edges` and `to_edge_array` list every edge once**, grouped by source and in the order of the lists, for every order of the iterations, if the number
of edges can be represented. -/
theorem C147_edges {M n : Nat} {adj : Nat → List (Nat × W)} (hM : exScan (fun i => (adj i).length) n < M) {ws : List (Nat × Edge W)}
    (hw : ws.Perm (allWrites M n adj)) (junk : Nat → Edge W) : edges M n adj ws junk = some (allArcs n adj) := by
  have hmod : ∀ i ≤ n, exScan (fun i => (adj i).length) i % M = exScan (fun i => (adj i).length) i := fun i hi =>
    Nat.mod_eq_of_lt (Nat.lt_of_le_of_lt (exScan_mono _ hi) hM)
  have hmem : ∀ w, w ∈ ws ↔ ∃ i < n, ∃ j, ∃ h : j < (adj i).length, w = (exScan (fun i => (adj i).length) i + j, ⟨i, (adj i)[j].1, (adj i)[j].2⟩) := fun w => by
    rw [hw.mem_iff, allWrites, List.mem_flatMap]
    constructor
    · rintro ⟨i, hi, h⟩
      have hi := List.mem_range.1 hi
      rw [hmod i (by omega), edgeWrites_mem] at h
      exact ⟨i, hi, h⟩
    · rintro ⟨i, hi, h⟩
      exact ⟨i, List.mem_range.2 hi, by rw [hmod i (by omega), edgeWrites_mem]; exact h⟩
  have hb : ∀ w ∈ ws, w.1 < exScan (fun i => (adj i).length) n % M := fun w h => by
    obtain ⟨i, hi, j, hj, rfl⟩ := (hmem w).1 h
    rw [hmod n (Nat.le_refl _)]
    have := exScan_mono (fun i => (adj i).length) (show i + 1 ≤ n by omega)
    simp only [exScan] at this
    show _ + j < _
    omega
  rw [edges]
  rw [if_pos hb, hmod n (Nat.le_refl _)]
  congr 1
  refine List.ext_getElem? fun k => ?_
  by_cases hk : k < exScan (fun i => (adj i).length) n
  · rw [List.getElem?_map, List.getElem?_range hk]
    obtain ⟨i, hi, j, hj, rfl⟩ := cover hk
    refine (foldl_writes (fun k => (allArcs n adj)[k]?) (fun w h => ?_) junk ?_).symm
    · obtain ⟨i, hi, j, hj, rfl⟩ := (hmem w).1 h
      exact allArcs_get hi hj
    · exact List.mem_map.2 ⟨_, (hmem _).2 ⟨i, hi, j, hj, rfl⟩, rfl⟩
  · rw [List.getElem?_eq_none (by rw [List.length_map, List.length_range]; omega), List.getElem?_eq_none (by rw [allArcs_length]; omega)]

/-- **C147, refuted: `to_edge_array` in a build without `GBBSLONG`** (the Bazel build: `.bazelrc:27` defines `LONG`, which is not read). For a graph with
`M = 2^32` edges or more, entries are always written out of bounds. -/
theorem C147_overflow_refuted {M n : Nat} (h0 : 0 < M) {adj : Nat → List (Nat × W)} (hM : M ≤ exScan (fun i => (adj i).length) n) {ws : List (Nat × Edge W)}
    (hw : ws.Perm (allWrites M n adj)) (junk : Nat → Edge W) : edges M n adj ws junk = none := by
  obtain ⟨i, hi, j, hj, he⟩ := cover (k := M - 1) (show M - 1 < exScan (fun i => (adj i).length) n by omega)
  rw [edges]
  rw [if_neg]
  intro hall
  have hmem : (M - 1, (⟨i, (adj i)[j].1, (adj i)[j].2⟩ : Edge W)) ∈ ws := by
    rw [hw.mem_iff, allWrites, List.mem_flatMap]
    refine ⟨i, List.mem_range.2 hi, edgeWrites_mem.2 ⟨j, hj, ?_⟩⟩
    rw [Nat.mod_eq_of_lt (by omega), he]
  have h1 := hall _ hmem
  have h2 := Nat.mod_lt (exScan (fun i => (adj i).length) n) h0
  simp only at h1
  omega

/-! ### Round trip -/

theorem mem_allArcs {n : Nat} {adj : Nat → List (Nat × W)} {e : Edge W} : e ∈ allArcs n adj ↔ e.src < n ∧ (e.dst, e.wgh) ∈ adj e.src := by
  rw [allArcs, List.mem_flatMap]
  constructor
  · rintro ⟨i, hi, h⟩
    obtain ⟨x, hx, rfl⟩ := List.mem_map.1 h
    exact ⟨List.mem_range.1 hi, hx⟩
  · rintro ⟨h1, h2⟩
    exact ⟨e.src, List.mem_range.2 h1, List.mem_map.2 ⟨_, h2, rfl⟩⟩

theorem allArcs_sorted {n : Nat} {adj : Nat → List (Nat × W)} (hs : ∀ i < n, ((adj i).map Prod.fst).Pairwise (· < ·)) : (allArcs n adj).Pairwise keyLt := by
  induction n with
  | zero => exact List.Pairwise.nil
  | succ n ih =>
    rw [allArcs_succ, List.pairwise_append]
    refine ⟨ih fun i hi => hs i (by omega), ?_, fun a ha b hb => ?_⟩
    · have := hs n (by omega)
      rw [List.pairwise_map] at this
      rw [arcs, List.pairwise_map]
      exact this.imp fun h => Or.inr ⟨rfl, h⟩
    · have h1 := (mem_allArcs.1 ha).1
      obtain ⟨x, _, rfl⟩ := List.mem_map.1 hb
      exact Or.inl h1

theorem filter_allArcs {n u : Nat} (hu : u < n) (adj : Nat → List (Nat × W)) : (allArcs n adj).filter (fun e => decide (e.src = u)) = arcs adj u := by
  induction n with
  | zero => omega
  | succ n ih =>
    rw [allArcs_succ, List.filter_append]
    by_cases h : u = n
    · subst h
      rw [List.filter_eq_nil_iff.2, List.nil_append, List.filter_eq_self.2]
      · intro e he
        obtain ⟨x, _, rfl⟩ := List.mem_map.1 he
        simp
      · intro e he
        have := (mem_allArcs.1 he).1
        simp; omega
    · rw [ih (by omega), List.filter_eq_nil_iff.2, List.append_nil]
      intro e he
      obtain ⟨x, _, rfl⟩ := List.mem_map.1 he
      simpa using fun e => h e.symm

theorem keyLt_irrefl (a : Edge W) : ¬ keyLt a a := fun h => by unfold keyLt at h; omega

/-- Strictly sorted lists with the same elements are equal. -/
theorem eq_of_mem {l r : List (Edge W)} (hl : l.Pairwise keyLt) (hr : r.Pairwise keyLt) (h : ∀ e, e ∈ l ↔ e ∈ r) : l = r := by
  have nd : ∀ {l : List (Edge W)}, l.Pairwise keyLt → l.Nodup := fun {l} hl =>
    List.Pairwise.imp (S := fun a b => a ≠ b) (fun {a b} h e => keyLt_irrefl a (by rw [← e] at h; exact h)) hl
  refine List.Perm.eq_of_pairwise (le := keyLt) (fun a b _ _ h1 h2 => ?_) hl hr ((List.perm_ext_iff_of_nodup (nd hl) (nd hr)).2 h)
  unfold keyLt at h1 h2
  omega

/-- **C147: building a graph from its own edges gives the graph back**, for symmetric graphs with sorted lists without parallel edges, the same weight in both
directions and at least one edge, with `n` supplied. -/
theorem C147_roundtrip {n : Nat} {adj : Nat → List (Nat × W)} (hs : ∀ i < n, ((adj i).map Prod.fst).Pairwise (· < ·))
    (hsym : ∀ u < n, ∀ e ∈ adj u, e.1 < n ∧ (u, e.2) ∈ adj e.1) (hne : allArcs n adj ≠ []) {sorted : List (Edge W)}
    (hsort : IsSort (bothDirs (allArcs n adj)) sorted) {ws : List (Nat × Nat)}
    (hp : ws.Perm (allOffsetWrites n (srcAt (dedupe sorted)) (dedupe sorted).length)) :
    let G := fromEdges n sorted ws
    G.m = exScan (fun i => (adj i).length) n ∧ ∀ u < n, G.nbrs u = adj u := by
  obtain ⟨h1, h2, h3⟩ := dedupe_spec hsort
  have hA := allArcs_sorted hs
  have hboth : ∀ e, e ∈ bothDirs (allArcs n adj) → e ∈ allArcs n adj := fun e he => by
    unfold bothDirs at he
    simp only [List.mem_flatMap, List.mem_cons, List.not_mem_nil, or_false] at he
    obtain ⟨e', he', rfl | rfl⟩ := he
    · exact he'
    · obtain ⟨g1, g2⟩ := mem_allArcs.1 he'
      exact mem_allArcs.2 (hsym _ g1 _ g2)
  have huniq : ∀ a b, a ∈ allArcs n adj → b ∈ allArcs n adj → a.src = b.src → a.dst = b.dst → a = b := fun a b ha hb he1 he2 => by
    obtain ⟨i, hi, rfl⟩ := List.getElem_of_mem ha
    obtain ⟨j, hj, rfl⟩ := List.getElem_of_mem hb
    rcases Nat.lt_trichotomy i j with h | h | h
    · have := List.pairwise_iff_getElem.1 hA i j hi hj h
      unfold keyLt at this
      omega
    · simp only [h]
    · have := List.pairwise_iff_getElem.1 hA j i hj hi h
      unfold keyLt at this
      omega
  have hmem : ∀ e, e ∈ dedupe sorted ↔ e ∈ allArcs n adj := fun e => by
    refine ⟨fun he => hboth e (h3 e he), fun he => ?_⟩
    obtain ⟨e', he', g1, g2⟩ := (h2 e.src e.dst).2 ((occurs_bothDirs _ _ _).2 (Or.inl ⟨e, he, rfl, rfl⟩))
    rw [← huniq e' e (hboth e' (h3 e' he')) he g1 g2]
    exact he'
  have heq : dedupe sorted = allArcs n adj := eq_of_mem h1 hA hmem
  rw [heq] at hp
  have hcsr := computeOffsets_csr (sortedBySrc_of_keyLt hA) (fun e he => (mem_allArcs.1 he).1) hne ws hp
  intro G
  have hG : G = ⟨n, (allArcs n adj).length, applyWrites (fun _ => 0) ws, degree n (allArcs n adj).length (applyWrites (fun _ => 0) ws),
      (allArcs n adj).map fun e => (e.dst, e.wgh)⟩ := by
    show fromEdges n sorted ws = _
    rw [fromEdges, heq]
  rw [hG]
  refine ⟨allArcs_length n adj, fun u hu => ?_⟩
  rw [nbrs_of_csr hcsr _ hu, filter_allArcs hu, arcs, List.map_map]
  exact List.map_id'' (fun _ => rfl) _

/-! ### Directed graphs -/

theorem sortedBySrc_of_isSort {l l' : List (Edge W)} (h : IsSort l l') : SortedBySrc l' := h.2.imp fun {a b} hab => by unfold keyLt at hab; omega

/-- One half of `asymmetric_graph::from_edges`. -/
theorem half {n : Nat} {es so : List (Edge W)} (hne : es ≠ []) (hn : ∀ e ∈ es, e.src < n) (hs : IsSort es so) {ws : List (Nat × Nat)}
    (hw : ws.Perm (allOffsetWrites n (srcAt so) so.length)) :
    let off := applyWrites (fun _ => 0) ws
    let G : Graph W := ⟨n, so.length, off, degree n so.length off, so.map fun e => (e.dst, e.wgh)⟩
    G.m = es.length ∧ ((List.range n).map G.deg).sum = es.length ∧
      ∀ u < n, (G.nbrs u).Perm ((es.filter fun e => decide (e.src = u)).map fun e => (e.dst, e.wgh)) ∧ (G.nbrs u).Pairwise fun a b => a.1 ≤ b.1 := by
  have hne' : so ≠ [] := fun h => hne (List.Perm.nil_eq (h ▸ hs.1)).symm
  have hcsr := computeOffsets_csr (sortedBySrc_of_isSort hs) (fun e he => hn e (hs.1.mem_iff.1 he)) hne' ws hw
  intro off G
  refine ⟨hs.1.length_eq, hcsr.2.trans hs.1.length_eq, fun u hu => ?_⟩
  have : G.nbrs u = _ := nbrs_of_csr hcsr so.length hu
  rw [this]
  refine ⟨(hs.1.filter _).map _, ?_⟩
  rw [List.pairwise_map]
  have h1 := hs.2.filter (fun e => decide (e.src = u))
  refine h1.imp_of_mem fun {a b} ha hb hab => ?_
  have ha := List.mem_filter.1 ha
  have hb := List.mem_filter.1 hb
  simp only [decide_eq_true_eq] at ha hb
  unfold keyLt at hab
  omega

/-- **C147: `asymmetric_graph::from_edges`.** The out-list of every vertex consists of its edges, duplicates included, sorted by target; the in-list of the edges
that end in it, sorted by source; the degrees of both kinds add up to the number of edges. -/
theorem C147_asymmetric {n : Nat} {es so si : List (Edge W)} (hne : es ≠ []) (hn : ∀ e ∈ es, e.src < n ∧ e.dst < n) (ho : IsSort es so)
    (hi : IsSort (transpose es) si) {wo wi : List (Nat × Nat)} (hwo : wo.Perm (allOffsetWrites n (srcAt so) so.length))
    (hwi : wi.Perm (allOffsetWrites n (srcAt si) si.length)) :
    let G := asymFromEdges n so si wo wi
    (G.1.m = es.length ∧ ((List.range n).map G.1.deg).sum = es.length ∧
      ∀ u < n, (G.1.nbrs u).Perm ((es.filter fun e => decide (e.src = u)).map fun e => (e.dst, e.wgh)) ∧ (G.1.nbrs u).Pairwise fun a b => a.1 ≤ b.1) ∧
    (G.2.m = es.length ∧ ((List.range n).map G.2.deg).sum = es.length ∧
      ∀ v < n, (G.2.nbrs v).Perm ((es.filter fun e => decide (e.dst = v)).map fun e => (e.src, e.wgh)) ∧ (G.2.nbrs v).Pairwise fun a b => a.1 ≤ b.1) := by
  refine ⟨half hne (fun e he => (hn e he).1) ho hwo, ?_⟩
  have hne' : transpose es ≠ [] := fun h => hne (List.map_eq_nil_iff.1 h)
  have hn' : ∀ e ∈ transpose es, e.src < n := fun e he => by
    obtain ⟨x, hx, rfl⟩ := List.mem_map.1 he
    exact (hn x hx).2
  obtain ⟨h1, h2, h3⟩ := half hne' hn' hi hwi
  have hl : (transpose es).length = es.length := List.length_map _
  refine ⟨h1.trans hl, h2.trans hl, fun v hv => ⟨(h3 v hv).1.trans ?_, (h3 v hv).2⟩⟩
  rw [transpose, List.filter_map, List.map_map]
  exact List.Perm.refl _

/-- **C147: in-lists and out-lists describe the same edges:** `(v, w)` occurs in the out-list of `u` as often as `(u, w)` in the in-list of `v`. -/
theorem C147_in_out [DecidableEq W] {n : Nat} {es so si : List (Edge W)} (hne : es ≠ []) (hn : ∀ e ∈ es, e.src < n ∧ e.dst < n) (ho : IsSort es so)
    (hi : IsSort (transpose es) si) {wo wi : List (Nat × Nat)} (hwo : wo.Perm (allOffsetWrites n (srcAt so) so.length))
    (hwi : wi.Perm (allOffsetWrites n (srcAt si) si.length)) {u v : Nat} (hu : u < n) (hv : v < n) (w : W) :
    let G := asymFromEdges n so si wo wi
    (G.1.nbrs u).count (v, w) = (G.2.nbrs v).count (u, w) := by
  obtain ⟨⟨_, _, h1⟩, ⟨_, _, h2⟩⟩ := C147_asymmetric hne hn ho hi hwo hwi
  intro G
  show (G.1.nbrs u).count (v, w) = (G.2.nbrs v).count (u, w)
  rw [(h1 u hu).1.count_eq, (h2 v hv).1.count_eq]
  simp only [List.count, List.countP_map, List.countP_filter]
  refine List.countP_congr fun e _ => ?_
  simp only [Function.comp, Bool.and_eq_true, beq_iff_eq, Prod.mk.injEq, decide_eq_true_eq]
  constructor
  · rintro ⟨⟨h1, h2⟩, h3⟩; exact ⟨⟨h3, h2⟩, h1⟩
  · rintro ⟨⟨h1, h2⟩, h3⟩; exact ⟨⟨h3, h2⟩, h1⟩

/-! ### Reductions -/

theorem foldr_op {T : Type} {op : T → T → T} {e : T} (ha : ∀ a b c, op (op a b) c = op a (op b c)) (hl : ∀ a, op e a = a) (l : List T) (z : T) :
    op (l.foldr op e) z = l.foldr op z := by
  induction l with
  | nil => exact hl z
  | cons a l ih => rw [List.foldr_cons, List.foldr_cons, ha, ih]

theorem reduces_eq {T : Type} {op : T → T → T} {e : T} (ha : ∀ a b c, op (op a b) c = op a (op b c)) (hl : ∀ a, op e a = a) (hr : ∀ a, op a e = a) {l : List T} {x : T}
    (h : Reduces op e l x) : x = l.foldr op e := by
  induction h with
  | nil => rfl
  | one x => exact (hr x).symm
  | app _ _ ih1 ih2 => rw [List.foldr_append, ih1, ih2, foldr_op ha hl]

/-- **C147: `reduceEdges` combines the images of all edges, in order**, for every monoid (commutative or not) and whatever parentheses the reductions use: `D i`
is the result of `out_neighbors().reduce` of vertex `i`, `r` that of the reduction over the vertices. -/
theorem C147_reduce {T : Type} {op : T → T → T} {e : T} (ha : ∀ a b c, op (op a b) c = op a (op b c)) (hl : ∀ a, op e a = a) (hr : ∀ a, op a e = a)
    {n : Nat} {adj : Nat → List (Nat × W)} (f : Edge W → T) {D : Nat → T} (hD : ∀ i < n, Reduces op e ((arcs adj i).map f) (D i)) {r : T}
    (h : Reduces op e ((List.range n).map D) r) : r = ((allArcs n adj).map f).foldr op e := by
  rw [reduces_eq ha hl hr h]
  clear h
  suffices H : ∀ z, ((List.range n).map D).foldr op z = ((allArcs n adj).map f).foldr op z from H e
  induction n with
  | zero => intro z; rfl
  | succ n ih =>
    intro z
    rw [List.range_succ, List.map_append, List.foldr_append, allArcs_succ, List.map_append, List.foldr_append, ih fun i hi => hD i (by omega)]
    congr 1
    show op (D n) z = _
    rw [reduces_eq ha hl hr (hD n (by omega)), foldr_op ha hl]

/-! ### Examples -/

/-- A path with weights. -/
def exAdj (i : Nat) : List (Nat × Nat) := if i = 0 then [(1, 7)] else if i = 1 then [(0, 7), (2, 9)] else if i = 2 then [(1, 9)] else []

/-- Writes in reverse order, into uninitialised memory. -/
example : edges 4294967296 3 exAdj (allWrites 4294967296 3 exAdj).reverse (fun _ => ⟨99, 99, 99⟩) = some [⟨0, 1, 7⟩, ⟨1, 0, 7⟩, ⟨1, 2, 9⟩, ⟨2, 1, 9⟩] :=
  C147_edges (by decide) (List.reverse_perm _) _

/-- With 2-bit offsets there would be no space for the 4 edges. -/
example : edges 4 3 exAdj (allWrites 4 3 exAdj) (fun _ => ⟨99, 99, 99⟩) = none := C147_overflow_refuted (by decide) (by decide) (List.Perm.refl _) _

/-- The hypotheses of the round trip hold. -/
example : (∀ i < 3, ((exAdj i).map Prod.fst).Pairwise (· < ·)) ∧ (∀ u < 3, ∀ e ∈ exAdj u, e.1 < 3 ∧ (u, e.2) ∈ exAdj e.1) ∧ allArcs 3 exAdj ≠ [] := by
  refine ⟨by decide, by decide, fun h => ?_⟩
  have := congrArg List.length h
  exact absurd this (by decide)

/-- Two parallel edges and one more, directed. -/
example :
    let G := asymFromEdges 3 [⟨0, 1, 5⟩, ⟨0, 1, 4⟩, ⟨2, 1, 3⟩] [⟨1, 0, 4⟩, ⟨1, 0, 5⟩, ⟨1, 2, 3⟩] (allOffsetWrites 3 (srcAt [⟨0, 1, 5⟩, ⟨0, 1, 4⟩, ⟨2, 1, 3⟩]) 3)
      (allOffsetWrites 3 (srcAt [⟨1, 0, 4⟩, ⟨1, 0, 5⟩, ⟨1, 2, 3⟩]) 3)
    (List.range 3).map G.1.nbrs = [[(1, 5), (1, 4)], [], [(1, 3)]] ∧ (List.range 3).map G.2.nbrs = [[], [(0, 4), (0, 5), (2, 3)], []] := by
  decide +kernel

/-- Concatenation of the targets, with other parentheses. -/
example : Reduces (· ++ ·) [] [[1], [0, 2], [1]] [1, 0, 2, 1] := .app (l := [[1]]) (.one _) (.app (l := [[0, 2]]) (.one _) (.one _))

end Gbbs.EdgeL
