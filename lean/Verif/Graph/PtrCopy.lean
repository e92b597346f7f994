/-
C153: graphs that hold a pointer per vertex: `symmetric_ptr_graph` and `asymmetric_ptr_graph`, their `from_edges` and copy constructors,
`gbbs/graph.h:349-397`, `:450-486`, `:802-862`, `:878-938`.
-/
import Verif.Graph.EdgeLists
import Verif.Scatter

namespace Gbbs.Ptr

open Gbbs.Csr

variable {E W : Type}

/-! ### Model -/

/-- `symmetric_vertex`, `vertex.h:396-411`; the memory of the neighbours is a function from addresses. -/
structure PV where
  id : Nat
  deg : Nat
  ptr : Nat
deriving DecidableEq, Repr

/-- `out_neighbors()`, `vertex.h:420-423`: the list that is seen through a vertex. -/
def PV.nbrs (h : Nat → E) (v : PV) : List E := slice h v.ptr v.deg

/-- One iteration of the copy constructor, `graph.h:463-473`: `map_with_index` copies the list to the new array, then the pointer is changed.
The state is the memory and the new `vertices`. -/
def symBody (deg : Nat → Nat) (base : Nat) (st : (Nat → E) × (Nat → PV)) (i : Nat) : (Nat → E) × (Nat → PV) :=
  let off := exScan deg i
  (writeAt st.1 (base + off) ((st.2 i).nbrs st.1), upd st.2 i { st.2 i with ptr := base + off })

/-- The copy constructor of `symmetric_ptr_graph`, `graph.h:450-486`, with the new array at `base` and the iterations in the order `order`; the vertices are copied
first. Weights of vertices and `deletion_fn` are left out (see C146). -/
def symCopy (n : Nat) (vs : Nat → PV) (base : Nat) (order : List Nat) (h : Nat → E) : (Nat → E) × (Nat → PV) :=
  order.foldl (symBody (fun i => if i < n then (vs i).deg else 0) base) (h, vs)

/-- `asymmetric_vertex`, `vertex.h:442-470`. -/
structure AV where
  id : Nat
  outDeg : Nat
  out : Nat
  inDeg : Nat
  inn : Nat
deriving DecidableEq, Repr

/-- `out_neighbors()`. -/
def AV.outNbrs (h : Nat → E) (v : AV) : List E := slice h v.out v.outDeg

/-- `in_neighbors()`. -/
def AV.inNbrs (h : Nat → E) (v : AV) : List E := slice h v.inn v.inDeg

/-- The first half of an iteration, `graph.h:822-833`; a vertex without out-edges keeps its pointer. -/
def outHalf (deg : Nat → Nat) (base : Nat) (st : (Nat → E) × (Nat → AV)) (i : Nat) : (Nat → E) × (Nat → AV) :=
  let off := exScan deg i
  if exScan deg (i + 1) ≠ off then
    (writeAt st.1 (base + off) ((st.2 i).outNbrs st.1), upd st.2 i { st.2 i with out := base + off })
  else st

/-- The second half, `graph.h:835-845`. -/
def inHalf (deg : Nat → Nat) (base : Nat) (st : (Nat → E) × (Nat → AV)) (i : Nat) : (Nat → E) × (Nat → AV) :=
  let off := exScan deg i
  if exScan deg (i + 1) ≠ off then
    (writeAt st.1 (base + off) ((st.2 i).inNbrs st.1), upd st.2 i { st.2 i with inn := base + off })
  else st

/-- The copy constructor of `asymmetric_ptr_graph`, `graph.h:802-862`, with `outE` at `bo` and `inE` at `bi`. -/
def asymCopy (n : Nat) (vs : Nat → AV) (bo bi : Nat) (order : List Nat) (h : Nat → E) : (Nat → E) × (Nat → AV) :=
  order.foldl (fun st i => inHalf (fun i => if i < n then (vs i).inDeg else 0) bi (outHalf (fun i => if i < n then (vs i).outDeg else 0) bo st i) i) (h, vs)

/-- `symmetric_ptr_graph::from_edges`, `graph.h:380-397`, with `n` supplied and at least one edge: the same offsets, degrees and neighbours as in `symmetric_graph`
(`Csr.fromEdges`), the neighbours at `base`. -/
def ptrFromEdges (n : Nat) (sorted : List (Edge W)) (ws : List (Nat × Nat)) (base : Nat) (h : Nat → Nat × W) : (Nat → Nat × W) × (Nat → PV) :=
  let G := fromEdges n sorted ws
  (writeAt h base G.nbr, fun i => { id := i, deg := G.deg i, ptr := base + G.off i })

/-! ### Copies of lists -/

/-- A list to copy. -/
structure Task where
  src : Nat
  len : Nat
  dst : Nat

/-- Two ranges of addresses without a common element. -/
def Apart (a la b lb : Nat) : Prop := ∀ x, a ≤ x → x < a + la → b ≤ x → x < b + lb → False

def copyOne (h : Nat → E) (t : Task) : Nat → E := writeAt h t.dst (slice h t.src t.len)

theorem copyOne_outside (h : Nat → E) (t : Task) {x : Nat} (hx : ¬ (t.dst ≤ x ∧ x < t.dst + t.len)) : copyOne h t x = h x :=
  writeAt_outside _ _ _ (by rw [slice_length]; omega)

theorem tasks_outside (ts : List Task) (h : Nat → E) {x : Nat} (hx : ∀ t ∈ ts, ¬ (t.dst ≤ x ∧ x < t.dst + t.len)) : ts.foldl copyOne h x = h x := by
  induction ts generalizing h with
  | nil => rfl
  | cons t ts ih =>
    rw [List.foldl_cons, ih _ fun s hs => hx s (List.mem_cons_of_mem _ hs), copyOne_outside h t (hx t List.mem_cons_self)]

theorem tasks_spec (ts : List Task) (h : Nat → E) (hd : ts.Pairwise fun s t => Apart s.dst s.len t.dst t.len)
    (hs : ∀ s ∈ ts, ∀ t ∈ ts, Apart s.src s.len t.dst t.len) : ∀ t ∈ ts, slice (ts.foldl copyOne h) t.dst t.len = slice h t.src t.len := by
  induction ts generalizing h with
  | nil => intro t ht; cases ht
  | cons s ts ih =>
    intro t ht
    rw [List.pairwise_cons] at hd
    rw [List.foldl_cons]
    rcases List.mem_cons.1 ht with rfl | ht
    · have h1 : slice (ts.foldl copyOne (copyOne h t)) t.dst t.len = slice (copyOne h t) t.dst t.len :=
        slice_congr fun x h1 h2 => tasks_outside _ _ fun r hr h3 => hd.1 r hr x h1 h2 h3.1 h3.2
      have h2 := slice_writeAt h t.dst (slice h t.src t.len)
      rw [slice_length] at h2
      rw [h1]; exact h2
    · rw [ih _ hd.2 (fun a ha b hb => hs a (List.mem_cons_of_mem _ ha) b (List.mem_cons_of_mem _ hb)) t ht]
      exact slice_congr fun x h1 h2 => copyOne_outside h s fun h3 => hs t (List.mem_cons_of_mem _ ht) s List.mem_cons_self x h1 h2 h3.1 h3.2

/-! ### Symmetric graphs -/

/-- The copy of the list of vertex `i`. -/
def symTask (n : Nat) (vs : Nat → PV) (base i : Nat) : Task :=
  { src := (vs i).ptr, len := (vs i).deg, dst := base + exScan (fun i => if i < n then (vs i).deg else 0) i }

theorem symFold (n : Nat) (vs : Nat → PV) (base : Nat) (order : List Nat) (hnd : order.Nodup) (h : Nat → E) (ws : Nat → PV)
    (hw : ∀ i ∈ order, ws i = vs i) :
    (order.foldl (symBody (fun i => if i < n then (vs i).deg else 0) base) (h, ws)).1 = (order.map (symTask n vs base)).foldl copyOne h ∧
    ∀ i, (order.foldl (symBody (fun i => if i < n then (vs i).deg else 0) base) (h, ws)).2 i =
      if i ∈ order then { vs i with ptr := (symTask n vs base i).dst } else ws i := by
  induction order generalizing h ws with
  | nil => exact ⟨rfl, fun i => by simp⟩
  | cons j order ih =>
    rw [List.nodup_cons] at hnd
    have hj := hw j List.mem_cons_self
    have hstep : symBody (fun i => if i < n then (vs i).deg else 0) base (h, ws) j =
        (copyOne h (symTask n vs base j), upd ws j { vs j with ptr := (symTask n vs base j).dst }) := by
      simp only [symBody, hj]; rfl
    rw [List.foldl_cons, hstep, List.map_cons, List.foldl_cons]
    obtain ⟨h1, h2⟩ := ih hnd.2 (copyOne h (symTask n vs base j)) (upd ws j { vs j with ptr := (symTask n vs base j).dst }) fun i hi => by
      rw [upd_of_ne _ _ (fun he => hnd.1 (by rwa [he] at hi)), hw i (List.mem_cons_of_mem _ hi)]
    refine ⟨h1, fun i => ?_⟩
    rw [h2]
    by_cases hi : i ∈ order
    · rw [if_pos hi, if_pos (List.mem_cons_of_mem _ hi)]
    · rw [if_neg hi]
      by_cases hij : i = j
      · subst hij; rw [upd_same, if_pos List.mem_cons_self]
      · rw [upd_of_ne _ _ hij, if_neg (by simp [hi, hij])]

theorem exScan_apart (f : Nat → Nat) (base : Nat) {i j : Nat} (h : i ≠ j) : Apart (base + exScan f i) (f i) (base + exScan f j) (f j) := by
  intro x h1 h2 h3 h4
  exact exScan_disjoint f (a := x - (base + exScan f i)) (b := x - (base + exScan f j)) h (by omega) (by omega) (by omega)

theorem exScan_end (f : Nat → Nat) {i n : Nat} (h : i < n) : exScan f i + f i ≤ exScan f n := by
  have := exScan_mono f (show i + 1 ≤ n from h)
  simpa only [exScan] using this

/-- C153: for every order of the iterations and every new array that does not overlap the lists of the original — wherever these are, so also after packing —
the copy has the lists of the original, they fill the new array, and nothing else is written. -/
theorem C153_sym (n : Nat) (vs : Nat → PV) (base : Nat) (order : List Nat) (ho : Sched n order) (h : Nat → E)
    (hf : ∀ i, i < n → Apart (vs i).ptr (vs i).deg base (exScan (fun i => if i < n then (vs i).deg else 0) n)) :
    let r := symCopy n vs base order h
    (∀ i, i < n → (r.2 i).nbrs r.1 = (vs i).nbrs h ∧ (r.2 i).id = (vs i).id ∧ (r.2 i).deg = (vs i).deg ∧
      base ≤ (r.2 i).ptr ∧ (r.2 i).ptr + (r.2 i).deg ≤ base + exScan (fun i => if i < n then (vs i).deg else 0) n) ∧
    (∀ x, ¬ (base ≤ x ∧ x < base + exScan (fun i => if i < n then (vs i).deg else 0) n) → r.1 x = h x) := by
  intro r
  obtain ⟨h1, h2⟩ := symFold n vs base order ho.1 h vs fun _ _ => rfl
  have hdeg : ∀ i, i < n → (if i < n then (vs i).deg else 0) = (vs i).deg := fun i hi => if_pos hi
  have hin : ∀ i, i < n → exScan (fun i => if i < n then (vs i).deg else 0) i + (vs i).deg ≤ exScan (fun i => if i < n then (vs i).deg else 0) n := fun i hi => by
    have := exScan_end (fun i => if i < n then (vs i).deg else 0) hi
    simp only [hdeg i hi] at this
    exact this
  refine ⟨fun i hi => ?_, fun x hx => ?_⟩
  · have hv : r.2 i = { vs i with ptr := (symTask n vs base i).dst } := by
      show (order.foldl _ (h, vs)).2 i = _
      rw [h2, if_pos ((ho.2 i).2 hi)]
    have hl := tasks_spec (order.map (symTask n vs base)) h
      (by
        rw [List.pairwise_map]
        refine (List.Pairwise.imp_of_mem ?_ ho.1)
        intro a b ha hb hab
        have := exScan_apart (fun i => if i < n then (vs i).deg else 0) base hab
        simp only [hdeg a ((ho.2 a).1 ha), hdeg b ((ho.2 b).1 hb)] at this
        exact this)
      (by
        intro s hs t ht x h3 h4 h5 h6
        obtain ⟨a, ha, rfl⟩ := List.mem_map.1 hs
        obtain ⟨b, hb, rfl⟩ := List.mem_map.1 ht
        have hb' := hin b ((ho.2 b).1 hb)
        simp only [symTask] at h3 h4 h5 h6
        exact hf a ((ho.2 a).1 ha) x h3 h4 (by omega) (by omega))
      (symTask n vs base i) (List.mem_map.2 ⟨i, (ho.2 i).2 hi, rfl⟩)
    rw [hv]
    refine ⟨?_, rfl, rfl, Nat.le_add_right _ _, ?_⟩
    · show slice r.1 (symTask n vs base i).dst (symTask n vs base i).len = slice h (vs i).ptr (vs i).deg
      have : r.1 = (order.map (symTask n vs base)).foldl copyOne h := h1
      rw [this]; exact hl
    · have := hin i hi
      show base + exScan (fun i => if i < n then (vs i).deg else 0) i + (vs i).deg ≤ _
      omega
  · have : r.1 = (order.map (symTask n vs base)).foldl copyOne h := h1
    rw [this]
    apply tasks_outside
    intro t ht h3
    obtain ⟨a, ha, rfl⟩ := List.mem_map.1 ht
    have ha' := hin a ((ho.2 a).1 ha)
    simp only [symTask] at h3
    exact hx ⟨by omega, by omega⟩

/-- C153: the copy and the original are independent. Whatever is later written to the lists of the original, the lists of the copy do not change, and conversely. -/
theorem C153_independent (n : Nat) (vs : Nat → PV) (base : Nat) (order : List Nat) (ho : Sched n order) (h h' : Nat → E)
    (hf : ∀ i, i < n → Apart (vs i).ptr (vs i).deg base (exScan (fun i => if i < n then (vs i).deg else 0) n)) :
    let r := symCopy n vs base order h
    ((∀ x, (∀ j, j < n → ¬ ((vs j).ptr ≤ x ∧ x < (vs j).ptr + (vs j).deg)) → h' x = r.1 x) → ∀ i, i < n → (r.2 i).nbrs h' = (vs i).nbrs h) ∧
    ((∀ x, (∀ j, j < n → ¬ ((r.2 j).ptr ≤ x ∧ x < (r.2 j).ptr + (r.2 j).deg)) → h' x = r.1 x) → ∀ i, i < n → (vs i).nbrs h' = (vs i).nbrs h) := by
  intro r
  obtain ⟨h1, h2⟩ := C153_sym n vs base order ho h hf
  refine ⟨fun hw i hi => ?_, fun hw i hi => ?_⟩
  · obtain ⟨h3, _, _, h4, h5⟩ := h1 i hi
    rw [← h3]
    exact slice_congr fun x hx hx2 => hw x fun j hj hc => hf j hj x hc.1 hc.2 (Nat.le_trans h4 hx) (Nat.lt_of_lt_of_le hx2 h5)
  · refine slice_congr fun x hx hx2 => ?_
    rw [hw x fun j hj hc => ?_, h2 x fun hc => hf i hi x hx hx2 hc.1 hc.2]
    obtain ⟨_, _, _, h4, h5⟩ := h1 j hj
    exact hf i hi x hx hx2 (Nat.le_trans h4 hc.1) (Nat.lt_of_lt_of_le hc.2 h5)

/-- Two vertices whose lists are not adjacent in memory, copied to address 20 in the order 1, 0. -/
example : let vs : Nat → PV := fun i => if i = 0 then ⟨0, 2, 10⟩ else ⟨1, 1, 5⟩
    let h : Nat → Nat := fun x => 100 + x
    let r := symCopy 2 vs 20 [1, 0] h
    (r.2 0).nbrs r.1 = [110, 111] ∧ (r.2 1).nbrs r.1 = [105] ∧ (r.2 1).ptr = 22 := by decide

example : ∀ i, i < 2 → Apart ((if i = 0 then ⟨0, 2, 10⟩ else ⟨1, 1, 5⟩ : PV)).ptr ((if i = 0 then ⟨0, 2, 10⟩ else ⟨1, 1, 5⟩ : PV)).deg 20 3 := by
  intro i hi x h1 h2 h3 h4
  have : i = 0 ∨ i = 1 := by omega
  rcases this with rfl | rfl <;> simp at h1 h2 <;> omega

/-! ### Asymmetric graphs -/

def outTask (n : Nat) (vs : Nat → AV) (bo i : Nat) : Task :=
  { src := (vs i).out, len := (vs i).outDeg, dst := bo + exScan (fun i => if i < n then (vs i).outDeg else 0) i }

def inTask (n : Nat) (vs : Nat → AV) (bi i : Nat) : Task :=
  { src := (vs i).inn, len := (vs i).inDeg, dst := bi + exScan (fun i => if i < n then (vs i).inDeg else 0) i }

/-- The vertex of the copy. -/
def newAV (n : Nat) (vs : Nat → AV) (bo bi i : Nat) : AV :=
  { vs i with
    out := if (vs i).outDeg = 0 then (vs i).out else (outTask n vs bo i).dst
    inn := if (vs i).inDeg = 0 then (vs i).inn else (inTask n vs bi i).dst }

theorem copyOne_zero (h : Nat → E) (t : Task) (ht : t.len = 0) : copyOne h t = h := by
  unfold copyOne; rw [ht, slice_zero]; rfl

theorem asymStep (n : Nat) (vs : Nat → AV) (bo bi : Nat) (h : Nat → E) (ws : Nat → AV) {j : Nat} (hj : j < n) (hw : ws j = vs j) :
    inHalf (fun i => if i < n then (vs i).inDeg else 0) bi (outHalf (fun i => if i < n then (vs i).outDeg else 0) bo (h, ws) j) j =
      (copyOne (copyOne h (outTask n vs bo j)) (inTask n vs bi j), upd ws j (newAV n vs bo bi j)) := by
  have hself : upd ws j (vs j) = ws := by
    funext x; rw [upd_apply]; split
    · next hx => rw [hx, hw]
    · rfl
  have huu : ∀ a b : AV, upd (upd ws j a) j b = upd ws j b := fun a b => by
    funext x; simp only [upd_apply]; split <;> rfl
  by_cases ho : (vs j).outDeg = 0
  · have h1 : outHalf (fun i => if i < n then (vs i).outDeg else 0) bo (h, ws) j = (h, ws) := by
      simp only [outHalf, exScan, if_pos hj, ho]
      rw [if_neg (by simp)]
    rw [h1, copyOne_zero h _ (show (outTask n vs bo j).len = 0 from ho)]
    by_cases hi : (vs j).inDeg = 0
    · rw [copyOne_zero h _ (show (inTask n vs bi j).len = 0 from hi)]
      have h2 : newAV n vs bo bi j = vs j := by unfold newAV; rw [if_pos ho, if_pos hi]
      rw [h2, hself]
      simp only [inHalf, exScan, if_pos hj, hi]
      rw [if_neg (by simp)]
    · simp only [inHalf, exScan, if_pos hj, hw]
      rw [if_pos (by omega)]
      simp only [newAV, ho, hi, if_true, if_false]
      rfl
  · have h1 : outHalf (fun i => if i < n then (vs i).outDeg else 0) bo (h, ws) j =
        (copyOne h (outTask n vs bo j), upd ws j { vs j with out := (outTask n vs bo j).dst }) := by
      simp only [outHalf, exScan, if_pos hj, hw]
      rw [if_pos (by omega)]
      rfl
    rw [h1]
    by_cases hi : (vs j).inDeg = 0
    · rw [copyOne_zero _ _ (show (inTask n vs bi j).len = 0 from hi)]
      simp only [inHalf, exScan, if_pos hj, hi]
      rw [if_neg (by simp)]
      simp only [newAV, ho, hi, if_true, if_false]
    · simp only [inHalf, exScan, if_pos hj, upd_same]
      rw [if_pos (by omega), huu]
      simp only [newAV, ho, hi, if_false]
      rfl

theorem asymFold (n : Nat) (vs : Nat → AV) (bo bi : Nat) (order : List Nat) (hnd : order.Nodup) (hlt : ∀ i ∈ order, i < n) (h : Nat → E) (ws : Nat → AV)
    (hw : ∀ i ∈ order, ws i = vs i) :
    let r := order.foldl (fun st i => inHalf (fun i => if i < n then (vs i).inDeg else 0) bi
      (outHalf (fun i => if i < n then (vs i).outDeg else 0) bo st i) i) (h, ws)
    r.1 = (order.flatMap fun i => [outTask n vs bo i, inTask n vs bi i]).foldl copyOne h ∧
    ∀ i, r.2 i = if i ∈ order then newAV n vs bo bi i else ws i := by
  induction order generalizing h ws with
  | nil => exact ⟨rfl, fun i => by simp⟩
  | cons j order ih =>
    rw [List.nodup_cons] at hnd
    simp only [List.foldl_cons, asymStep n vs bo bi h ws (hlt j List.mem_cons_self) (hw j List.mem_cons_self), List.flatMap_cons, List.foldl_append, List.foldl_nil]
    obtain ⟨h1, h2⟩ := ih hnd.2 (fun i hi => hlt i (List.mem_cons_of_mem _ hi)) (copyOne (copyOne h (outTask n vs bo j)) (inTask n vs bi j))
      (upd ws j (newAV n vs bo bi j)) fun i hi => by
      rw [upd_of_ne _ _ (fun he => hnd.1 (by rwa [he] at hi)), hw i (List.mem_cons_of_mem _ hi)]
    refine ⟨h1, fun i => ?_⟩
    rw [h2]
    by_cases hi : i ∈ order
    · rw [if_pos hi, if_pos (List.mem_cons_of_mem _ hi)]
    · rw [if_neg hi]
      by_cases hij : i = j
      · subst hij; rw [upd_same, if_pos List.mem_cons_self]
      · rw [upd_of_ne _ _ hij, if_neg (by simp [hi, hij])]

/-- C153: the copy of an asymmetric graph has the out-lists and the in-lists of the original, and every list that is not empty is in one of the two new arrays. -/
theorem C153_asym (n : Nat) (vs : Nat → AV) (bo bi : Nat) (order : List Nat) (ho : Sched n order) (h : Nat → E)
    (hf : ∀ i, i < n →
      Apart (vs i).out (vs i).outDeg bo (exScan (fun i => if i < n then (vs i).outDeg else 0) n) ∧
      Apart (vs i).out (vs i).outDeg bi (exScan (fun i => if i < n then (vs i).inDeg else 0) n) ∧
      Apart (vs i).inn (vs i).inDeg bo (exScan (fun i => if i < n then (vs i).outDeg else 0) n) ∧
      Apart (vs i).inn (vs i).inDeg bi (exScan (fun i => if i < n then (vs i).inDeg else 0) n))
    (hb : Apart bo (exScan (fun i => if i < n then (vs i).outDeg else 0) n) bi (exScan (fun i => if i < n then (vs i).inDeg else 0) n)) :
    let r := asymCopy n vs bo bi order h
    (∀ i, i < n → (r.2 i).outNbrs r.1 = (vs i).outNbrs h ∧ (r.2 i).inNbrs r.1 = (vs i).inNbrs h ∧ (r.2 i).id = (vs i).id ∧
      (0 < (vs i).outDeg → bo ≤ (r.2 i).out ∧ (r.2 i).out + (r.2 i).outDeg ≤ bo + exScan (fun i => if i < n then (vs i).outDeg else 0) n) ∧
      (0 < (vs i).inDeg → bi ≤ (r.2 i).inn ∧ (r.2 i).inn + (r.2 i).inDeg ≤ bi + exScan (fun i => if i < n then (vs i).inDeg else 0) n)) ∧
    (∀ x, ¬ (bo ≤ x ∧ x < bo + exScan (fun i => if i < n then (vs i).outDeg else 0) n) →
      ¬ (bi ≤ x ∧ x < bi + exScan (fun i => if i < n then (vs i).inDeg else 0) n) → r.1 x = h x) := by
  intro r
  obtain ⟨h1, h2⟩ := asymFold n vs bo bi order ho.1 (fun i hi => (ho.2 i).1 hi) h vs fun _ _ => rfl
  have h1 : r.1 = (order.flatMap fun i => [outTask n vs bo i, inTask n vs bi i]).foldl copyOne h := h1
  have hino : ∀ i, i < n → exScan (fun i => if i < n then (vs i).outDeg else 0) i + (vs i).outDeg ≤ exScan (fun i => if i < n then (vs i).outDeg else 0) n :=
    fun i hi => by
      have := exScan_end (fun i => if i < n then (vs i).outDeg else 0) hi
      simp only [if_pos hi] at this
      exact this
  have hini : ∀ i, i < n → exScan (fun i => if i < n then (vs i).inDeg else 0) i + (vs i).inDeg ≤ exScan (fun i => if i < n then (vs i).inDeg else 0) n :=
    fun i hi => by
      have := exScan_end (fun i => if i < n then (vs i).inDeg else 0) hi
      simp only [if_pos hi] at this
      exact this
  have hmem : ∀ t ∈ order.flatMap (fun i => [outTask n vs bo i, inTask n vs bi i]), ∃ i, i < n ∧ (t = outTask n vs bo i ∨ t = inTask n vs bi i) := fun t ht => by
    obtain ⟨i, hi, hm⟩ := List.mem_flatMap.1 ht
    exact ⟨i, (ho.2 i).1 hi, by simpa using hm⟩
  have hoi : ∀ a b, a < n → b < n → Apart (outTask n vs bo a).dst (outTask n vs bo a).len (inTask n vs bi b).dst (inTask n vs bi b).len := by
    intro a b ha hb' x h3 h4 h5 h6
    have h7 := hino a ha
    have h8 := hini b hb'
    simp only [outTask, inTask] at h3 h4 h5 h6
    exact hb x (by omega) (by omega) (by omega) (by omega)
  have hio : ∀ a b, a < n → b < n → Apart (inTask n vs bi a).dst (inTask n vs bi a).len (outTask n vs bo b).dst (outTask n vs bo b).len :=
    fun a b ha hb' x h3 h4 h5 h6 => hoi b a hb' ha x h5 h6 h3 h4
  have hpw : (order.flatMap fun i => [outTask n vs bo i, inTask n vs bi i]).Pairwise fun s t => Apart s.dst s.len t.dst t.len := by
    have : ∀ (l : List Nat), l.Nodup → (∀ i ∈ l, i < n) →
        (l.flatMap fun i => [outTask n vs bo i, inTask n vs bi i]).Pairwise fun s t => Apart s.dst s.len t.dst t.len := by
      intro l
      induction l with
      | nil => intro _ _; exact List.Pairwise.nil
      | cons a l ih =>
        intro hnd hlt
        rw [List.nodup_cons] at hnd
        rw [List.flatMap_cons, List.pairwise_append]
        have ha := hlt a List.mem_cons_self
        refine ⟨?_, ih hnd.2 fun i hi => hlt i (List.mem_cons_of_mem _ hi), ?_⟩
        · simp only [List.pairwise_cons, List.mem_singleton, forall_eq, List.not_mem_nil, false_imp_iff, implies_true, List.Pairwise.nil, and_true]
          exact hoi a a ha ha
        · intro s hs t ht
          obtain ⟨b, hb', hm⟩ := List.mem_flatMap.1 ht
          have hbn := hlt b (List.mem_cons_of_mem _ hb')
          have hne : a ≠ b := fun he => hnd.1 (he ▸ hb')
          have e1 := exScan_apart (fun i => if i < n then (vs i).outDeg else 0) bo hne
          have e2 := exScan_apart (fun i => if i < n then (vs i).inDeg else 0) bi hne
          simp only [if_pos ha, if_pos hbn] at e1 e2
          simp only [List.mem_cons, List.not_mem_nil, or_false] at hs hm
          rcases hs with rfl | rfl <;> rcases hm with rfl | rfl
          · exact e1
          · exact hoi a b ha hbn
          · exact hio a b ha hbn
          · exact e2
    exact this order ho.1 fun i hi => (ho.2 i).1 hi
  have hsd : ∀ s ∈ order.flatMap (fun i => [outTask n vs bo i, inTask n vs bi i]), ∀ t ∈ order.flatMap (fun i => [outTask n vs bo i, inTask n vs bi i]),
      Apart s.src s.len t.dst t.len := by
    intro s hs t ht x h3 h4 h5 h6
    obtain ⟨a, ha, hs⟩ := hmem s hs
    obtain ⟨b, hb', ht⟩ := hmem t ht
    obtain ⟨f1, f2, f3, f4⟩ := hf a ha
    have h7 := hino b hb'
    have h8 := hini b hb'
    rcases hs with rfl | rfl <;> rcases ht with rfl | rfl <;> simp only [outTask, inTask] at h3 h4 h5 h6
    · exact f1 x h3 h4 (by omega) (by omega)
    · exact f2 x h3 h4 (by omega) (by omega)
    · exact f3 x h3 h4 (by omega) (by omega)
    · exact f4 x h3 h4 (by omega) (by omega)
  have hspec := tasks_spec _ h hpw hsd
  refine ⟨fun i hi => ?_, fun x hx hx2 => ?_⟩
  · have hv : r.2 i = newAV n vs bo bi i := by
      have := h2 i
      rw [if_pos ((ho.2 i).2 hi)] at this
      exact this
    have ht1 := hspec (outTask n vs bo i) (List.mem_flatMap.2 ⟨i, (ho.2 i).2 hi, by simp⟩)
    have ht2 := hspec (inTask n vs bi i) (List.mem_flatMap.2 ⟨i, (ho.2 i).2 hi, by simp⟩)
    rw [← h1] at ht1 ht2
    rw [hv]
    refine ⟨?_, ?_, rfl, fun hp => ?_, fun hp => ?_⟩
    · by_cases hz : (vs i).outDeg = 0
      · simp only [AV.outNbrs, newAV, hz, slice_zero]
      · have : (newAV n vs bo bi i).outNbrs r.1 = slice r.1 (outTask n vs bo i).dst (outTask n vs bo i).len := by
          simp only [AV.outNbrs, newAV, if_neg hz]; rfl
        rw [this, ht1]; rfl
    · by_cases hz : (vs i).inDeg = 0
      · simp only [AV.inNbrs, newAV, hz, slice_zero]
      · have : (newAV n vs bo bi i).inNbrs r.1 = slice r.1 (inTask n vs bi i).dst (inTask n vs bi i).len := by
          simp only [AV.inNbrs, newAV, if_neg hz]; rfl
        rw [this, ht2]; rfl
    · have := hino i hi
      simp only [newAV, if_neg (show ¬ (vs i).outDeg = 0 by omega), outTask]
      omega
    · have := hini i hi
      simp only [newAV, if_neg (show ¬ (vs i).inDeg = 0 by omega), inTask]
      omega
  · rw [h1]
    apply tasks_outside
    intro t ht h3
    obtain ⟨a, ha, rfl | rfl⟩ := hmem t ht
    · have := hino a ha
      simp only [outTask] at h3
      exact hx ⟨by omega, by omega⟩
    · have := hini a ha
      simp only [inTask] at h3
      exact hx2 ⟨by omega, by omega⟩

/-- Vertex 0 with two out-edges and vertex 1 with two in-edges. -/
example : let vs : Nat → AV := fun i => if i = 0 then ⟨0, 2, 10, 0, 50⟩ else ⟨1, 0, 12, 2, 5⟩
    let h : Nat → Nat := fun x => 100 + x
    let r := asymCopy 2 vs 20 30 [1, 0] h
    (r.2 0).outNbrs r.1 = [110, 111] ∧ (r.2 1).inNbrs r.1 = [105, 106] ∧ r.2 1 = ⟨1, 0, 12, 2, 30⟩ := by decide

/-! ### `from_edges` -/

/-- C153: `from_edges` with a vertex count above all end points: every vertex has a strictly increasing list, and `v` is in the list of `u` iff `{u, v}` was given. -/
theorem C153_from_edges {n : Nat} {es sorted : List (Edge W)} (hne : es ≠ []) (hn : ∀ e ∈ es, e.src < n ∧ e.dst < n)
    (hs : IsSort (bothDirs es) sorted) (ws : List (Nat × Nat))
    (hp : ws.Perm (allOffsetWrites n (srcAt (dedupe sorted)) (dedupe sorted).length)) (base : Nat) (h : Nat → Nat × W) :
    let r := ptrFromEdges n sorted ws base h
    ∀ u, u < n → (r.2 u).id = u ∧ (((r.2 u).nbrs r.1).map Prod.fst).Pairwise (· < ·) ∧
      ∀ v, v ∈ ((r.2 u).nbrs r.1).map Prod.fst ↔ Occurs es u v ∨ Occurs es v u := by
  intro r u hu
  obtain ⟨hk, _⟩ := fromEdges_spec hne hn hs ws hp
  obtain ⟨d1, d2, d3⟩ := dedupe_spec hs
  have hsrc : ∀ e ∈ dedupe sorted, e.src < n := by
    intro e he
    have := d3 e he
    unfold bothDirs at this
    simp only [List.mem_flatMap, List.mem_cons, List.not_mem_nil, or_false] at this
    obtain ⟨e', he', rfl | rfl⟩ := this
    · exact (hn _ he').1
    · exact (hn _ he').2
  have hne' : dedupe sorted ≠ [] := by
    intro hc
    obtain ⟨e, he⟩ := List.exists_mem_of_ne_nil es hne
    have := (d2 e.src e.dst).2 ((occurs_bothDirs es _ _).2 (Or.inl ⟨e, he, rfl, rfl⟩))
    rw [hc] at this
    obtain ⟨x, hx, _⟩ := this
    cases hx
  have hcsr := computeOffsets_csr (sortedBySrc_of_keyLt d1) hsrc hne' ws hp
  have hle := (hcsr.1 u hu).1
  have hlen : (fromEdges n sorted ws).nbr.length = (dedupe sorted).length := by simp [fromEdges]
  have hnb : (r.2 u).nbrs r.1 = (fromEdges n sorted ws).nbrs u := by
    show slice (writeAt h base (fromEdges n sorted ws).nbr) (base + (fromEdges n sorted ws).off u) ((fromEdges n sorted ws).deg u) =
      ((fromEdges n sorted ws).nbr.drop ((fromEdges n sorted ws).off u)).take ((fromEdges n sorted ws).deg u)
    have hle' : (fromEdges n sorted ws).off u + (fromEdges n sorted ws).deg u ≤ (fromEdges n sorted ws).nbr.length := by
      rw [hlen]; exact hle
    generalize fromEdges n sorted ws = G at hle'
    apply List.ext_getElem?
    intro i
    by_cases hi : i < G.deg u
    · rw [slice_getElem? _ _ _ _ hi, writeAt_apply, if_pos (by omega), List.getElem?_take_of_lt hi, List.getElem?_drop,
        show base + G.off u + i - base = G.off u + i by omega, List.getElem?_eq_getElem (by omega)]
      rfl
    · rw [List.getElem?_eq_none (by simpa using hi), List.getElem?_eq_none (by rw [List.length_take]; omega)]
  rw [hnb]
  exact ⟨rfl, hk u hu⟩

end Gbbs.Ptr
