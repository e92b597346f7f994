/-
C28: filtering graphs (`gbbs/graph_mutation.h`), uncompressed vertices.
-/
import Verif.Scatter
import Verif.Seq.Filter

namespace Gbbs.Mutate

open Filter (compact compact_spec filterfOut filterfOut_correct numBlocks)

variable {E : Type}

/-! ### Model

The edge array, and offset and degree per vertex (`symmetric_graph`, `graph.h:50-70`).  `E` is a pair
of neighbour and weight. -/

structure Mem (E : Type) where
  edges : Nat → E
  off : Nat → Nat
  deg : Nat → Nat

/-- The neighbour list of `v`, `vertex.h:64-90`. -/
def nbrs (G : Mem E) (v : Nat) : List E := slice G.edges (G.off v) (G.deg v)

/-- `filter_graph` for `symmetric_vertex`, `graph_mutation.h:21-75`: count per vertex, scan, allocate,
filter into the new array (`parlay::filter_out`, trusted) in the order `order`, and set offsets and
degrees.  Result: the graph and the number of edges. `junk` is the uninitialised new array. -/
def filterGraph (n : Nat) (pred : Nat → E → Bool) (order : List Nat) (junk : Nat → E) (G : Mem E) :
    Mem E × Nat :=
  let cnt : Nat → Nat := fun i => if i < n then ((nbrs G i).filter (pred i)).length else 0
  let offs := exScan cnt
  let out := scatter offs (fun i => if 0 < G.deg i then (nbrs G i).filter (pred i) else []) order junk
  (⟨out, offs, fun i => offs (i + 1) - offs i⟩, exScan cnt (n + 1))

/-- `kAllocThreshold`, `vertex.h:121`. -/
def kAlloc : Nat := 10000

/-- Schedules and uninitialised memory of the two loops in `filterf`, per vertex. -/
structure Inner (E : Type) where
  bsize : Nat
  o1 : Nat → List Nat
  o2 : Nat → List Nat
  sums : Nat → Nat → Nat

/-- The schedules run every block once. -/
def Inner.Ok (I : Inner E) (deg : Nat → Nat) : Prop :=
  0 < I.bsize ∧ ∀ v, Sched (numBlocks (deg v) I.bsize) (I.o1 v) ∧
    Sched (numBlocks (deg v) I.bsize) (I.o2 v)

/-- `packNeighbors`, `graph.h:72-77` and `uncompressed_neighbors::pack`, `vertex.h:215-239`: in place
below the threshold, otherwise through a copy in `tmp` and `filterf`. -/
def packNeighbors (I : Inner E) (p : E → Bool) (G : Mem E) (v : Nat) : Mem E × Nat :=
  if G.deg v < kAlloc then
    let r := compact p (G.deg v) (G.off v) (G.off v) G.edges
    (⟨r.1, G.off, upd G.deg v (r.2 - G.off v)⟩, r.2 - G.off v)
  else
    let view : Nat → E := fun i => G.edges (G.off v + i)
    let r := filterfOut I.bsize p (G.deg v) (I.o1 v) (I.o2 v) (I.sums v) view view
    (⟨fun x => if G.off v ≤ x then r.1 (x - G.off v) else G.edges x, G.off, upd G.deg v r.2⟩, r.2)

/-- `packEdges`, `graph_mutation.h:386-438`: the vertices of the subset in the order of the parallel
loop; the output pairs in the same order (their position in `outV` is that of the vertex). -/
def packEdges (I : Inner E) (p : Nat → E → Bool) (order : List Nat) (G : Mem E) :
    Mem E × List (Nat × Nat) :=
  order.foldl (fun st v =>
    let r := packNeighbors I (p v) st.1 v
    (r.1, st.2 ++ [(v, r.2)])) (G, [])

/-- State of `filter_edges`: the graph and the output array. -/
structure FE (E : Type) where
  G : Mem E
  arr : Nat → Nat × E

/-- `filter_edges`, `graph_mutation.h:255-279`: the body for vertex `i`.  `offs2` are the scanned
numbers of edges with value 2, `n1`, `n2` the numbers for this vertex. -/
def filterEdgesBody (I : Inner E) (pred : Nat → E → Nat) (offs2 n1 n2 : Nat → Nat) (noOutput : Bool)
    (st : FE E) (i : Nat) : FE E :=
  let nToPack := n1 i + n2 i
  if 0 < nToPack then
    let arr :=
      if 0 < n2 i ∧ noOutput = false then
        writeAt st.arr (offs2 i) (((nbrs st.G i).filter fun e => pred i e == 2).map fun e => (i, e))
      else st.arr
    if nToPack < st.G.deg i then ⟨(packNeighbors I (fun e => pred i e == 0) st.G i).1, arr⟩
    else ⟨⟨st.G.edges, st.G.off, upd st.G.deg i 0⟩, arr⟩
  else st

/-- `filter_edges`, `graph_mutation.h:187-283`: graph, output array with its size, and `G.m`. -/
def filterEdges (I : Inner E) (n : Nat) (pred : Nat → E → Nat) (noOutput : Bool) (order : List Nat)
    (junk : Nat → Nat × E) (G : Mem E) : FE E × Nat × Nat :=
  let n1 := fun i => ((nbrs G i).filter fun e => pred i e == 1).length
  let n2 := fun i => ((nbrs G i).filter fun e => pred i e == 2).length
  let st := order.foldl (filterEdgesBody I pred (exScan n2) n1 n2 noOutput) ⟨G, junk⟩
  (st, exScan n2 n, exScan st.G.deg n)

/-! ### Specification -/

/-- Adjacency regions of different vertices do not overlap. -/
def Disjoint (n : Nat) (G : Mem E) : Prop :=
  ∀ u v, u < n → v < n → u ≠ v → G.off u + G.deg u ≤ G.off v ∨ G.off v + G.deg v ≤ G.off u ∨
    G.deg u = 0 ∨ G.deg v = 0

/-! ### Filtering into a new graph -/

theorem scatter_part {α : Type} (g : Nat → List α) (n : Nat) (order : List Nat) (hs : Sched n order)
    (a : Nat → α) (v : Nat) (hv : v < n) :
    slice (scatter (exScan fun i => (g i).length) g order a) (exScan (fun i => (g i).length) v)
      (g v).length = g v := by
  have main : ∀ (order : List Nat) (a : Nat → α), order.Nodup → v ∈ order →
      slice (scatter (exScan fun i => (g i).length) g order a) (exScan (fun i => (g i).length) v)
        (g v).length = g v := by
    intro order
    induction order with
    | nil => intro a _ h; cases h
    | cons i order ih =>
      intro a hnd hmem
      have hnd := List.nodup_cons.1 hnd
      show slice (scatter _ g order (writeAt a _ (g i))) _ _ = _
      by_cases hi : v ∈ order
      · exact ih _ hnd.2 hi
      · have : v = i := (List.mem_cons.1 hmem).resolve_right hi
        subst this
        have hout : slice (scatter (exScan fun i => (g i).length) g order
            (writeAt a (exScan (fun i => (g i).length) v) (g v))) (exScan (fun i => (g i).length) v)
            (g v).length = slice (writeAt a (exScan (fun i => (g i).length) v) (g v))
            (exScan (fun i => (g i).length) v) (g v).length := by
          apply slice_congr
          intro x h1 h2
          apply scatter_outside
          intro j hj
          have hne : j ≠ v := fun h => hi (h ▸ hj)
          rcases Nat.lt_or_gt_of_ne hne with h | h
          · have := exScan_mono (fun i => (g i).length) (show j + 1 ≤ v by omega)
            simp only [exScan] at this; omega
          · have := exScan_mono (fun i => (g i).length) (show v + 1 ≤ j by omega)
            simp only [exScan] at this; omega
        rw [hout, slice_writeAt]
  exact main order a hs.1 ((hs.2 v).2 hv)

/-- C28 for `filter_graph`: for every predicate and order, the neighbour list of each vertex is the
filtered list in order, `m` is the number of kept edges and all writes fit the new array. -/
theorem filterGraph_correct (n : Nat) (pred : Nat → E → Bool) (order : List Nat) (hs : Sched n order)
    (junk : Nat → E) (G : Mem E) :
    let r := filterGraph n pred order junk G
    (∀ v, v < n → nbrs r.1 v = (nbrs G v).filter (pred v)) ∧
    r.2 = ((List.range n).map fun v => ((nbrs G v).filter (pred v)).length).sum ∧
    (∀ v, v < n → r.1.off v + r.1.deg v ≤ r.2) ∧ (∀ x, r.2 ≤ x → r.1.edges x = junk x) := by
  intro r
  set cnt : Nat → Nat := fun i => if i < n then ((nbrs G i).filter (pred i)).length else 0 with hcnt
  set g : Nat → List E := fun i => if 0 < G.deg i then (nbrs G i).filter (pred i) else [] with hg
  have hgf : ∀ i, g i = (nbrs G i).filter (pred i) := by
    intro i
    rw [hg]; simp only
    split
    · rfl
    · rename_i h
      have : G.deg i = 0 := by omega
      simp [nbrs, this]
  have hlen : ∀ i, i < n → cnt i = (g i).length := by
    intro i hi; rw [hgf i, hcnt]; simp only; rw [if_pos hi]
  have hoff : ∀ i, i ≤ n → exScan cnt i = exScan (fun i => (g i).length) i := by
    intro i hi; exact exScan_congr fun j hj => hlen j (by omega)
  have hr1 : r.1.edges = scatter (exScan cnt) g order junk := rfl
  have hro : r.1.off = exScan cnt := rfl
  have hrd : ∀ i, r.1.deg i = exScan cnt (i + 1) - exScan cnt i := fun _ => rfl
  have hr2 : r.2 = exScan cnt (n + 1) := rfl
  have hlast : exScan cnt (n + 1) = exScan cnt n := by
    simp only [exScan]
    have : cnt n = 0 := by rw [hcnt]; simp
    omega
  have hsc : scatter (exScan cnt) g order junk = scatter (exScan fun i => (g i).length) g order junk := by
    have : ∀ (order : List Nat) (a : Nat → E), (∀ i ∈ order, i < n) →
        scatter (exScan cnt) g order a = scatter (exScan fun i => (g i).length) g order a := by
      intro order
      induction order with
      | nil => intro a _; rfl
      | cons i order ih =>
        intro a h
        show scatter (exScan cnt) g order (writeAt a (exScan cnt i) (g i)) = _
        rw [hoff i (by have := h i List.mem_cons_self; omega)]
        exact ih _ fun j hj => h j (List.mem_cons_of_mem _ hj)
    exact this order junk fun i hi => (hs.2 i).1 hi
  have hdeg : ∀ v, v < n → r.1.deg v = (g v).length := by
    intro v hv
    rw [hrd]; simp only [exScan]; rw [hlen v hv]; omega
  refine ⟨fun v hv => ?_, ?_, fun v hv => ?_, fun x hx => ?_⟩
  · show slice r.1.edges (r.1.off v) (r.1.deg v) = _
    rw [hdeg v hv, hr1, hro, hsc, hoff v (by omega), scatter_part g n order hs junk v hv, hgf]
  · rw [hr2, hlast]
    have : ∀ k, k ≤ n → exScan cnt k =
        ((List.range k).map fun v => ((nbrs G v).filter (pred v)).length).sum := by
      intro k
      induction k with
      | zero => intro _; rfl
      | succ k ih =>
        intro hk
        rw [List.range_succ, List.map_append, List.sum_append, ← ih (by omega)]
        simp only [exScan, List.map_cons, List.map_nil, List.sum_cons, List.sum_nil]
        rw [hlen k (by omega), hgf]; omega
    exact this n (Nat.le_refl _)
  · rw [hr2, hlast, hro, hrd]
    have h1 := exScan_mono cnt (show v + 1 ≤ n by omega)
    have h2 := exScan_mono cnt (show v ≤ v + 1 by omega)
    omega
  · rw [hr1, hsc]
    apply scatter_outside
    intro i hi
    have hi := (hs.2 i).1 hi
    right
    rw [hr2, hlast, hoff n (Nat.le_refl _)] at hx
    have := exScan_mono (fun i => (g i).length) (show i + 1 ≤ n by omega)
    simp only [exScan] at this
    omega

/-! ### Packing in place -/

/-- `packNeighbors` filters the list of `v` and leaves everything outside its region alone. -/
theorem packNeighbors_spec (I : Inner E) (p : E → Bool) (G : Mem E) (v : Nat) (hI : 0 < I.bsize)
    (h1 : Sched (numBlocks (G.deg v) I.bsize) (I.o1 v))
    (h2 : Sched (numBlocks (G.deg v) I.bsize) (I.o2 v)) :
    let r := packNeighbors I p G v
    nbrs r.1 v = (nbrs G v).filter p ∧ r.2 = ((nbrs G v).filter p).length ∧ r.1.off = G.off ∧
    r.1.deg = upd G.deg v r.2 ∧
    ∀ x, x < G.off v ∨ G.off v + G.deg v ≤ x → r.1.edges x = G.edges x := by
  intro r
  by_cases hd : G.deg v < kAlloc
  · have hr : r = (⟨(compact p (G.deg v) (G.off v) (G.off v) G.edges).1, G.off,
        upd G.deg v ((compact p (G.deg v) (G.off v) (G.off v) G.edges).2 - G.off v)⟩,
        (compact p (G.deg v) (G.off v) (G.off v) G.edges).2 - G.off v) := by
      simp only [r, packNeighbors]; rw [if_pos hd]
    obtain ⟨a1, a2, a3⟩ := compact_spec p (G.deg v) (G.off v) (G.off v) G.edges (Nat.le_refl _)
    have e : (compact p (G.deg v) (G.off v) (G.off v) G.edges).2 - G.off v =
        ((nbrs G v).filter p).length := by rw [a1]; unfold nbrs; omega
    rw [hr]
    refine ⟨?_, e, rfl, rfl, a3⟩
    show slice _ (G.off v) (upd G.deg v _ v) = _
    rw [upd_same, e]
    exact a2
  · set view : Nat → E := fun i => G.edges (G.off v + i) with hview
    set f := filterfOut I.bsize p (G.deg v) (I.o1 v) (I.o2 v) (I.sums v) view view with hf
    have hr : r = (⟨fun x => if G.off v ≤ x then f.1 (x - G.off v) else G.edges x, G.off,
        upd G.deg v f.2⟩, f.2) := by
      simp only [r, packNeighbors]; rw [if_neg hd]
    obtain ⟨a1, a2, a3⟩ := filterfOut_correct I.bsize hI p (G.deg v) (I.o1 v) (I.o2 v) h1 h2
      (I.sums v) view view
    rw [← hf] at a1 a2 a3
    have hsl : slice view 0 (G.deg v) = nbrs G v := by
      unfold nbrs slice
      apply List.ext_getElem
      · simp
      · intro i h1 h2
        simp [hview]
    rw [hsl] at a1 a2
    rw [hr]
    refine ⟨?_, a1, rfl, rfl, fun x hx => ?_⟩
    · show slice _ (G.off v) (upd G.deg v f.2 v) = _
      rw [upd_same, ← a2]
      unfold slice
      apply List.ext_getElem
      · simp
      · intro i h1 h2
        simp
    · show (if G.off v ≤ x then f.1 (x - G.off v) else G.edges x) = _
      split
      · rw [a3 _ (by
          have := List.length_filter_le p (nbrs G v)
          have hl : (nbrs G v).length = G.deg v := by unfold nbrs; simp
          omega)]
        show G.edges (G.off v + (x - G.off v)) = _
        congr 1; omega
      · rfl

/-- The graph after packing the vertices in `done`. -/
structure PackInv (n : Nat) (p : Nat → E → Bool) (G0 : Mem E) (done : List Nat) (G : Mem E) : Prop where
  off : G.off = G0.off
  le : ∀ v, G.deg v ≤ G0.deg v
  fin : ∀ v, v < n → v ∈ done → nbrs G v = (nbrs G0 v).filter (p v)
  todo : ∀ v, v < n → v ∉ done → nbrs G v = nbrs G0 v ∧ G.deg v = G0.deg v

theorem nbrs_length (G : Mem E) (v : Nat) : (nbrs G v).length = G.deg v := by unfold nbrs; simp

theorem packInv_step {n : Nat} {p : Nat → E → Bool} {G0 G : Mem E} {done : List Nat} {I : Inner E}
    (hI : I.Ok G0.deg) (hd : Disjoint n G0) (h : PackInv n p G0 done G) {v : Nat} (hv : v < n)
    (hnew : v ∉ done) :
    PackInv n p G0 (v :: done) (packNeighbors I (p v) G v).1 ∧
      (packNeighbors I (p v) G v).2 = ((nbrs G0 v).filter (p v)).length := by
  have hvd := (h.todo v hv hnew).2
  have hsp := packNeighbors_spec I (p v) G v hI.1 (by rw [hvd]; exact (hI.2 v).1)
    (by rw [hvd]; exact (hI.2 v).2)
  simp only at hsp
  obtain ⟨b1, b2, b3, b4, b5⟩ := hsp
  have hvn := (h.todo v hv hnew).1
  have hother : ∀ u, u < n → u ≠ v → nbrs (packNeighbors I (p v) G v).1 u = nbrs G u := by
    intro u hu hne
    unfold nbrs
    rw [b3, b4, upd_of_ne _ _ hne]
    apply slice_congr
    intro x h1 h2
    apply b5
    rw [h.off] at h1 h2 ⊢
    have hdj := hd u v hu hv hne
    have l1 := h.le u
    have l2 := h.le v
    omega
  refine ⟨⟨by rw [b3, h.off], fun u => ?_, fun u hu hmem => ?_, fun u hu hmem => ?_⟩, ?_⟩
  · rw [b4, upd_apply]
    split
    · rename_i hu
      subst hu
      rw [b2, hvn]
      have := List.length_filter_le (p u) (nbrs G0 u)
      rw [nbrs_length] at this
      exact this
    · exact h.le u
  · by_cases hne : u = v
    · subst hne; rw [b1, hvn]
    · rw [hother u hu hne]
      exact h.fin u hu ((List.mem_cons.1 hmem).resolve_left hne)
  · have hne : u ≠ v := fun he => hmem (he ▸ List.mem_cons_self)
    have hnd : u ∉ done := fun hm => hmem (List.mem_cons_of_mem _ hm)
    rw [hother u hu hne, b4, upd_of_ne _ _ hne]
    exact h.todo u hu hnd
  · rw [b2, hvn]

/-- C28 for `packEdges`: for every subset in every order, the members' lists are filtered in place,
the other vertices' lists are unchanged and the output holds the members with their new degrees. -/
theorem packEdges_correct {n : Nat} (I : Inner E) (p : Nat → E → Bool) (order : List Nat) (G : Mem E)
    (hI : I.Ok G.deg) (hd : Disjoint n G) (hnd : order.Nodup) (hlt : ∀ v ∈ order, v < n) :
    let r := packEdges I p order G
    (∀ v, v < n → nbrs r.1 v = if v ∈ order then (nbrs G v).filter (p v) else nbrs G v) ∧
    r.2 = order.map fun v => (v, ((nbrs G v).filter (p v)).length) := by
  have key : ∀ (order done : List Nat) (G' : Mem E) (out : List (Nat × Nat)), order.Nodup →
      (∀ v ∈ order, v < n ∧ v ∉ done) → PackInv n p G done G' →
      ∃ done', (∀ v, v ∈ done' ↔ v ∈ done ∨ v ∈ order) ∧
        PackInv n p G done' (order.foldl (fun st v =>
          let r := packNeighbors I (p v) st.1 v
          (r.1, st.2 ++ [(v, r.2)])) (G', out)).1 ∧
        (order.foldl (fun st v =>
          let r := packNeighbors I (p v) st.1 v
          (r.1, st.2 ++ [(v, r.2)])) (G', out)).2 =
          out ++ order.map fun v => (v, ((nbrs G v).filter (p v)).length) := by
    intro order
    induction order with
    | nil =>
      intro done G' out _ _ h
      exact ⟨done, fun v => by simp, h, by simp⟩
    | cons v order ih =>
      intro done G' out hnd hlt h
      have hnd := List.nodup_cons.1 hnd
      obtain ⟨hvn, hvd⟩ := hlt v List.mem_cons_self
      obtain ⟨h1, h2⟩ := packInv_step hI hd h hvn hvd
      obtain ⟨done', g1, g2, g3⟩ := ih (v :: done) (packNeighbors I (p v) G' v).1
        (out ++ [(v, (packNeighbors I (p v) G' v).2)]) hnd.2 (by
          intro u hu
          refine ⟨(hlt u (List.mem_cons_of_mem _ hu)).1, fun hm => ?_⟩
          rcases List.mem_cons.1 hm with rfl | hm
          · exact hnd.1 hu
          · exact (hlt u (List.mem_cons_of_mem _ hu)).2 hm) h1
      refine ⟨done', fun u => ?_, g2, ?_⟩
      · rw [g1]; simp only [List.mem_cons]; tauto
      · rw [List.foldl_cons]
        simp only at g3 ⊢
        rw [g3, h2]; simp
  intro r
  obtain ⟨done', g1, g2, g3⟩ := key order [] G [] hnd (fun v hv => ⟨hlt v hv, by simp⟩)
    ⟨rfl, fun _ => Nat.le_refl _, fun v _ h => (by cases h), fun v _ _ => ⟨rfl, rfl⟩⟩
  refine ⟨fun v hv => ?_, by simpa [r, packEdges] using g3⟩
  by_cases hm : v ∈ order
  · rw [if_pos hm]; exact g2.fin v hv ((g1 v).2 (Or.inr hm))
  · rw [if_neg hm]
    exact (g2.todo v hv fun h => hm (((g1 v).1 h).resolve_left (by simp))).1

/-! ### `filter_edges` -/

theorem length_split (l : List E) (f : E → Nat) :
    l.length = (l.filter fun e => f e == 0).length +
      ((l.filter fun e => f e == 1).length + (l.filter fun e => f e == 2).length) +
      (l.filter fun e => decide (2 < f e)).length := by
  induction l with
  | nil => rfl
  | cons e l ih =>
    simp only [List.filter_cons, List.length_cons]
    rcases Nat.lt_or_ge 2 (f e) with h | h
    · have h0 : (f e == 0) = false := by simp; omega
      have h1 : (f e == 1) = false := by simp; omega
      have h2 : (f e == 2) = false := by simp; omega
      simp only [h0, h1, h2, h, decide_true, if_true, Bool.false_eq_true, if_false, List.length_cons]
      omega
    · have h3 : ¬ 2 < f e := by omega
      have : f e = 0 ∨ f e = 1 ∨ f e = 2 := by omega
      rcases this with h | h | h <;> simp [h] <;> omega

/-- C28 for `filter_edges` with a predicate with values 0, 1, 2: afterwards each vertex keeps exactly
its edges with value 0 in order, the output holds exactly the edges with value 2, vertex by vertex in
order, and `G.m` is the number of edges kept. -/
theorem filterEdges_correct {n : Nat} (I : Inner E) (pred : Nat → E → Nat)
    (hpred : ∀ v e, pred v e ≤ 2) (order : List Nat) (hs : Sched n order) (junk : Nat → Nat × E)
    (G : Mem E) (hI : I.Ok G.deg) (hd : Disjoint n G) :
    let r := filterEdges I n pred false order junk G
    (∀ v, v < n → nbrs r.1.G v = (nbrs G v).filter fun e => pred v e == 0) ∧
    slice r.1.arr 0 r.2.1 = (List.range n).flatMap (fun v =>
      ((nbrs G v).filter fun e => pred v e == 2).map fun e => (v, e)) ∧
    r.2.2 = ((List.range n).map fun v => ((nbrs G v).filter fun e => pred v e == 0).length).sum := by
  intro r
  set n1 := fun i => ((nbrs G i).filter fun e => pred i e == 1).length with hn1
  set n2 := fun i => ((nbrs G i).filter fun e => pred i e == 2).length with hn2
  set g : Nat → List (Nat × E) := fun v => ((nbrs G v).filter fun e => pred v e == 2).map fun e => (v, e)
    with hg
  have hsplit : ∀ v, G.deg v = ((nbrs G v).filter fun e => pred v e == 0).length + (n1 v + n2 v) := by
    intro v
    have := length_split (nbrs G v) (pred v)
    rw [nbrs_length] at this
    have h0 : ((nbrs G v).filter fun e => decide (2 < pred v e)) = [] := by
      rw [List.filter_eq_nil_iff]
      intro e _
      have := hpred v e
      simp; omega
    rw [h0] at this
    simpa [hn1, hn2] using this
  -- one iteration
  have step : ∀ (done : List Nat) (st : FE E), PackInv n (fun v e => pred v e == 0) G done st.G →
      ∀ v, v < n → v ∉ done →
      PackInv n (fun v e => pred v e == 0) G (v :: done)
        (filterEdgesBody I pred (exScan n2) n1 n2 false st v).G ∧
      (filterEdgesBody I pred (exScan n2) n1 n2 false st v).arr = writeAt st.arr (exScan n2 v) (g v) := by
    intro done st h v hv hnew
    obtain ⟨hvn, hvd⟩ := h.todo v hv hnew
    unfold filterEdgesBody
    simp only
    have harr : (if 0 < n2 v ∧ True then
        writeAt st.arr (exScan n2 v) (((nbrs st.G v).filter fun e => pred v e == 2).map fun e => (v, e))
        else st.arr) = writeAt st.arr (exScan n2 v) (g v) := by
      rw [hvn]
      by_cases h2 : 0 < n2 v
      · rw [if_pos ⟨h2, trivial⟩]
      · rw [if_neg (fun h => h2 h.1)]
        have : g v = [] := by
          rw [hg]; simp only
          have : ((nbrs G v).filter fun e => pred v e == 2) = [] := List.length_eq_zero_iff.1 (by
            simp only [hn2] at h2; omega)
          rw [this]; rfl
        rw [this]; rfl
    by_cases hpk : 0 < n1 v + n2 v
    · rw [if_pos hpk]
      by_cases hlt : n1 v + n2 v < st.G.deg v
      · rw [if_pos hlt]
        refine ⟨?_, harr⟩
        exact (packInv_step hI hd h hv hnew).1
      · rw [if_neg hlt]
        refine ⟨⟨h.off, fun u => ?_, fun u hu hm => ?_, fun u hu hm => ?_⟩, harr⟩
        · show upd st.G.deg v 0 u ≤ _
          rw [upd_apply]
          split
          · omega
          · exact h.le u
        · by_cases hne : u = v
          · subst hne
            have hz : ((nbrs G u).filter fun e => pred u e == 0) = [] := by
              apply List.length_eq_zero_iff.1
              have := hsplit u
              rw [hvd] at hlt
              omega
            show slice st.G.edges (st.G.off u) (upd st.G.deg u 0 u) = _
            rw [upd_same, hz]; rfl
          · show slice st.G.edges (st.G.off u) (upd st.G.deg v 0 u) = _
            rw [upd_of_ne _ _ hne]
            exact h.fin u hu ((List.mem_cons.1 hm).resolve_left hne)
        · have hne : u ≠ v := fun he => hm (he ▸ List.mem_cons_self)
          have := h.todo u hu fun hm' => hm (List.mem_cons_of_mem _ hm')
          show slice st.G.edges (st.G.off u) (upd st.G.deg v 0 u) = _ ∧ upd st.G.deg v 0 u = _
          rw [upd_of_ne _ _ hne]
          exact this
    · rw [if_neg hpk]
      have hn2z : n2 v = 0 := by omega
      have hall : ((nbrs G v).filter fun e => pred v e == 0) = nbrs G v := by
        apply List.Sublist.eq_of_length List.filter_sublist
        rw [nbrs_length]
        have := hsplit v
        omega
      refine ⟨⟨h.off, h.le, fun u hu hm => ?_, fun u hu hm => ?_⟩, ?_⟩
      · by_cases hne : u = v
        · subst hne; rw [hall, hvn]
        · exact h.fin u hu ((List.mem_cons.1 hm).resolve_left hne)
      · exact h.todo u hu fun hm' => hm (List.mem_cons_of_mem _ hm')
      · rw [if_neg (by omega)] at harr
        exact harr
  have key : ∀ (order done : List Nat) (st : FE E), order.Nodup →
      (∀ v ∈ order, v < n ∧ v ∉ done) → PackInv n (fun v e => pred v e == 0) G done st.G →
      ∃ done', (∀ v, v ∈ done' ↔ v ∈ done ∨ v ∈ order) ∧
        PackInv n (fun v e => pred v e == 0) G done'
          (order.foldl (filterEdgesBody I pred (exScan n2) n1 n2 false) st).G ∧
        (order.foldl (filterEdgesBody I pred (exScan n2) n1 n2 false) st).arr =
          scatter (exScan n2) g order st.arr := by
    intro order
    induction order with
    | nil => intro done st _ _ h; exact ⟨done, fun v => by simp, h, rfl⟩
    | cons v order ih =>
      intro done st hnd hlt h
      have hnd := List.nodup_cons.1 hnd
      obtain ⟨hvn, hvd⟩ := hlt v List.mem_cons_self
      obtain ⟨h1, h2⟩ := step done st h v hvn hvd
      obtain ⟨done', g1, g2, g3⟩ := ih (v :: done) (filterEdgesBody I pred (exScan n2) n1 n2 false st v)
        hnd.2 (by
          intro u hu
          refine ⟨(hlt u (List.mem_cons_of_mem _ hu)).1, fun hm => ?_⟩
          rcases List.mem_cons.1 hm with rfl | hm
          · exact hnd.1 hu
          · exact (hlt u (List.mem_cons_of_mem _ hu)).2 hm) h1
      refine ⟨done', fun u => ?_, g2, ?_⟩
      · rw [g1]; simp only [List.mem_cons]; tauto
      · rw [List.foldl_cons, g3, h2]; rfl
  obtain ⟨done', g1, g2, g3⟩ := key order [] ⟨G, junk⟩ hs.1
    (fun v hv => ⟨(hs.2 v).1 hv, by simp⟩)
    ⟨rfl, fun _ => Nat.le_refl _, fun v _ h => (by cases h), fun v _ _ => ⟨rfl, rfl⟩⟩
  have hdone : ∀ v, v < n → nbrs r.1.G v = (nbrs G v).filter fun e => pred v e == 0 :=
    fun v hv => g2.fin v hv ((g1 v).2 (Or.inr ((hs.2 v).2 hv)))
  have hgl : ∀ i, (g i).length = n2 i := by intro i; simp [hg, hn2]
  refine ⟨hdone, ?_, ?_⟩
  · have h1 : r.1.arr = scatter (exScan n2) g order junk := g3
    have h2 : r.2.1 = exScan n2 n := rfl
    have hfun : (fun i => (g i).length) = n2 := funext hgl
    have := (scatter_spec 0 g (exScan n2) n (by intro i _; rw [hfun]; omega) order hs junk).1
    rw [hfun] at this
    rw [h1, h2]
    exact this
  · have h2 : r.2.2 = exScan r.1.G.deg n := rfl
    rw [h2]
    have : ∀ k, k ≤ n → exScan r.1.G.deg k =
        ((List.range k).map fun v => ((nbrs G v).filter fun e => pred v e == 0).length).sum := by
      intro k
      induction k with
      | zero => intro _; rfl
      | succ k ih =>
        intro hk
        rw [List.range_succ, List.map_append, List.sum_append, ← ih (by omega)]
        simp only [exScan, List.map_cons, List.map_nil, List.sum_cons, List.sum_nil]
        rw [← hdone k (by omega), nbrs_length]; omega
    exact this n (Nat.le_refl _)

/-! ### Examples -/

/-- A triangle stored contiguously. -/
def tri : Mem Nat := ⟨fun i => [1, 2, 0, 2, 0, 1].getD i 9, fun v => 2 * v, fun v => if v < 3 then 2 else 0⟩

example : Disjoint 3 tri := by
  intro u v hu hv hne
  simp only [tri, if_pos hu, if_pos hv]
  omega

/-- Schedules for `tri`. -/
def triSched : Inner Nat :=
  ⟨1, fun v => if v < 3 then [0, 1] else [], fun v => if v < 3 then [1, 0] else [], fun _ _ => 3⟩

example : triSched.Ok tri.deg := by
  refine ⟨by decide, fun v => ?_⟩
  simp only [tri, triSched]
  split
  · exact ⟨⟨by decide, fun i => by simp [numBlocks]; omega⟩, ⟨by decide, fun i => by simp [numBlocks]; omega⟩⟩
  · exact ⟨⟨by decide, fun i => by simp [numBlocks]⟩, ⟨by decide, fun i => by simp [numBlocks]⟩⟩

/-- Orienting the triangle from low to high, iterations in another order. -/
example : let r := filterGraph 3 (fun u v => decide (u < v)) [2, 0, 1] (fun _ => 7) tri
    (List.range 3).map (nbrs r.1) = [[1, 2], [2], []] ∧ r.2 = 3 := by decide +kernel

/-- The same in place, for vertices 1 and 2 only. -/
example : let r := packEdges triSched (fun u v => decide (u < v)) [2, 1] tri
    (List.range 3).map (nbrs r.1) = [[1, 2], [2], []] ∧ r.2 = [(2, 0), (1, 1)] := by decide +kernel

/-- Edges to 0 are returned, edges to 1 dropped, edges to 2 kept. -/
def pick (_ v : Nat) : Nat := if v = 0 then 2 else if v = 1 then 1 else 0

example : let r := filterEdges triSched 3 pick false [1, 2, 0] (fun _ => (9, 9)) tri
    (List.range 3).map (nbrs r.1.G) = [[2], [2], []] ∧ slice r.1.arr 0 r.2.1 = [(1, 0), (2, 0)] ∧
      r.2.2 = 2 := by decide +kernel

end Gbbs.Mutate
