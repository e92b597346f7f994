/-
C151: `sample_edges` and `edgeMapFilter` (`srcCount`, `srcPack`), `gbbs/graph_mutation.h:328-381`, `:440-470`, uncompressed vertices.
-/
import Verif.Graph.Mutate

namespace Gbbs.Mutate

variable {E : Type}

/-! ### Model -/

/-- The sum formed by `count` and by `reduce` with `plus`, `vertex.h:124-146`, in `size_t`; stored in a `uintE` (`graph_mutation.h:343`, `:459`). -/
def count32 (pred : Nat → E → Nat) (G : Mem E) (v : Nat) : Nat := ((nbrs G v).map (pred v)).sum % 2 ^ 32

/-- The first components of `vtx_offs` before the scan, `graph_mutation.h:342-351`. -/
def sCnt (n : Nat) (pred : Nat → E → Nat) (G : Mem E) (i : Nat) : Nat := if i < n then count32 pred G i else 0

/-- The second components: `calculateTemporarySpace`, `vertex.h:246-248`, for the vertices with an edge to return. -/
def sTmp (n : Nat) (pred : Nat → E → Nat) (G : Mem E) (i : Nat) : Nat :=
  if i < n ∧ 0 < count32 pred G i then (if G.deg i < kAlloc then 0 else G.deg i) else 0

/-- The selected edges, in the order of the list; `pred` is converted to `bool`, `vertex.h:196-212`. -/
def picked (pred : Nat → E → Nat) (G : Mem E) (i : Nat) : List E := (nbrs G i).filter fun e => pred i e != 0

/-- The body for vertex `i`, `graph_mutation.h:369-380`, with `filter`, `vertex.h:191-212`: the selected edges are written directly, or first to `tmp`
(`parlay::filter_out`, trusted). The state is `tmp` and `output_arr`. -/
def sampleBody (n : Nat) (pred : Nat → E → Nat) (G : Mem E) (st : (Nat → E) × (Nat → Nat × E)) (i : Nat) : (Nat → E) × (Nat → Nat × E) :=
  let off := exScan (sCnt n pred G) i
  if 0 < exScan (sCnt n pred G) (i + 1) - off then
    if G.deg i < kAlloc then (st.1, writeAt st.2 off ((picked pred G i).map fun e => (i, e)))
    else
      let t := exScan (sTmp n pred G) i
      let tmp := writeAt st.1 t (picked pred G i)
      (tmp, writeAt st.2 off ((slice tmp t (picked pred G i).length).map fun e => (i, e)))
  else st

/-- `sample_edges`: the output array and its size. `zero` is a value-initialized edge, `tmp` uninitialized. -/
def sampleEdges (n : Nat) (pred : Nat → E → Nat) (order : List Nat) (zero : Nat × E) (tmp : Nat → E) (G : Mem E) : List (Nat × E) :=
  slice (order.foldl (sampleBody n pred G) (tmp, fun _ => zero)).2 0 (exScan (sCnt n pred G) n)

/-- `edgeMapFilter` without `pack_edges`, `graph_mutation.h:440-470`, on the vertices `vs` of the sparse subset: `outV`, or nothing with `no_output`. -/
def edgeMapFilter (pred : Nat → E → Nat) (vs order : List Nat) (noOutput : Bool) (junk : Nat → Nat × Nat) (G : Mem E) : List (Nat × Nat) :=
  if vs.length = 0 then []
  else if noOutput then []
  else slice (order.foldl (fun a i => upd a i (vs.getD i 0, count32 pred G (vs.getD i 0))) junk) 0 vs.length

/-! ### Proof -/

theorem sum_le_one (l : List E) (f : E → Nat) (h : ∀ e ∈ l, f e ≤ 1) : (l.map f).sum = (l.filter fun e => f e != 0).length := by
  induction l with
  | nil => rfl
  | cons e l ih =>
    rw [List.map_cons, List.sum_cons, ih fun x hx => h x (List.mem_cons_of_mem _ hx), List.filter_cons]
    have := h e List.mem_cons_self
    rcases Nat.lt_or_ge 0 (f e) with h0 | h0
    · have h1 : f e = 1 := by omega
      rw [h1, if_pos (by decide), List.length_cons, Nat.add_comm]
    · have h1 : f e = 0 := by omega
      rw [h1, if_neg (by decide), Nat.zero_add]

theorem count32_eq {pred : Nat → E → Nat} (hp : ∀ v e, pred v e ≤ 1) {G : Mem E} {v : Nat} (hd : G.deg v < 2 ^ 32) :
    count32 pred G v = (picked pred G v).length := by
  rw [count32, sum_le_one _ _ fun e _ => hp v e]
  refine Nat.mod_eq_of_lt (Nat.lt_of_le_of_lt (List.length_filter_le _ _) ?_)
  rw [nbrs_length]
  exact hd

theorem exScan_congr {f g : Nat → Nat} {k : Nat} (h : ∀ i, i < k → f i = g i) : exScan f k = exScan g k := by
  induction k with
  | zero => rfl
  | succ k ih => rw [exScan, exScan, ih fun i hi => h i (by omega), h k (by omega)]

/-- One iteration writes the selected edges of its vertex. -/
theorem sampleBody_spec {n : Nat} {pred : Nat → E → Nat} (hp : ∀ v e, pred v e ≤ 1) {G : Mem E} (hd : ∀ v, v < n → G.deg v < 2 ^ 32)
    (st : (Nat → E) × (Nat → Nat × E)) {i : Nat} (hi : i < n) :
    (sampleBody n pred G st i).2 = writeAt st.2 (exScan (sCnt n pred G) i) ((picked pred G i).map fun e => (i, e)) := by
  have hc : sCnt n pred G i = (picked pred G i).length := by rw [sCnt, if_pos hi, count32_eq hp (hd i hi)]
  have hs : exScan (sCnt n pred G) (i + 1) - exScan (sCnt n pred G) i = (picked pred G i).length := by rw [exScan, hc]; omega
  rw [sampleBody]
  dsimp only
  rw [hs]
  split
  · split
    · rfl
    · rw [slice_writeAt]
  · rename_i h
    have : picked pred G i = [] := List.length_eq_zero_iff.1 (by omega)
    rw [this]
    rfl

/-- **C151, `sample_edges`.** For a predicate with values 0 and 1, the result is exactly the edges with value 1, vertex by vertex and in the order of the lists,
whatever the order of the parallel loop. -/
theorem C151_sample {n : Nat} {pred : Nat → E → Nat} (hp : ∀ v e, pred v e ≤ 1) {G : Mem E} (hd : ∀ v, v < n → G.deg v < 2 ^ 32)
    {order : List Nat} (hs : Sched n order) (zero : Nat × E) (tmp : Nat → E) :
    sampleEdges n pred order zero tmp G = (List.range n).flatMap fun v => ((nbrs G v).filter fun e => pred v e == 1).map fun e => (v, e) := by
  have hfold : ∀ (order : List Nat) (st : (Nat → E) × (Nat → Nat × E)), (∀ i ∈ order, i < n) →
      (order.foldl (sampleBody n pred G) st).2 = scatter (exScan (sCnt n pred G)) (fun i => (picked pred G i).map fun e => (i, e)) order st.2 := by
    intro order
    induction order with
    | nil => intro st _; rfl
    | cons i order ih =>
      intro st h
      rw [List.foldl_cons, ih _ fun j hj => h j (List.mem_cons_of_mem _ hj), sampleBody_spec hp hd st (h i List.mem_cons_self)]
      rfl
  have hsc : ∀ k, k ≤ n → exScan (sCnt n pred G) k = exScan (fun i => ((picked pred G i).map fun e => (i, e)).length) k := fun k hk =>
    exScan_congr fun i hi => by rw [sCnt, if_pos (by omega), count32_eq hp (hd i (by omega)), List.length_map]
  rw [sampleEdges, hfold order _ fun i hi => (hs.2 i).1 hi, hsc n (Nat.le_refl _)]
  rw [(scatter_spec 0 (fun i => (picked pred G i).map fun e => (i, e)) _ n (fun i hi => by rw [hsc i (by omega), Nat.zero_add]) order hs _).1]
  congr 1
  funext v
  rw [picked]
  congr 1
  refine List.filter_congr fun e _ => ?_
  have := hp v e
  rcases Nat.lt_or_ge 0 (pred v e) with h0 | h0
  · rw [show pred v e = 1 by omega]; rfl
  · rw [show pred v e = 0 by omega]; rfl

/-- The parts of `tmp` used by two vertices do not overlap and lie inside of it, and the part of a vertex has room for all its neighbours. -/
theorem C151_tmp {n : Nat} {pred : Nat → E → Nat} {G : Mem E} {i j x y : Nat} (hi : i < n) (hij : i ≠ j)
    (hci : 0 < count32 pred G i) (hai : kAlloc ≤ G.deg i) (hj : j < n) (hcj : 0 < count32 pred G j) (haj : kAlloc ≤ G.deg j)
    (hx : x < G.deg i) (hy : y < G.deg j) :
    exScan (sTmp n pred G) i + x ≠ exScan (sTmp n pred G) j + y ∧ exScan (sTmp n pred G) i + x < exScan (sTmp n pred G) n := by
  have e : ∀ {k}, k < n → 0 < count32 pred G k → kAlloc ≤ G.deg k → sTmp n pred G k = G.deg k := fun {k} h1 h2 h3 => by
    rw [sTmp, if_pos ⟨h1, h2⟩, if_neg (by omega)]
  refine ⟨exScan_disjoint _ hij (by rw [e hi hci hai]; exact hx) (by rw [e hj hcj haj]; exact hy), ?_⟩
  have := exScan_mono (sTmp n pred G) (show i + 1 ≤ n from hi)
  rw [exScan, e hi hci hai] at this
  omega

theorem foldl_upd {α : Type} (f : Nat → α) (order : List Nat) (a : Nat → α) (x : Nat) :
    (order.foldl (fun a i => upd a i (f i)) a) x = if x ∈ order then f x else a x := by
  induction order generalizing a with
  | nil => simp
  | cons i order ih =>
    rw [List.foldl_cons, ih]
    by_cases hx : x ∈ order
    · rw [if_pos hx, if_pos (List.mem_cons_of_mem _ hx)]
    · rw [if_neg hx, upd_apply]
      by_cases h : x = i
      · subst h; rw [if_pos rfl, if_pos List.mem_cons_self]
      · rw [if_neg h, if_neg (by simp [h, hx])]

/-- **C151, `srcCount`.** Each vertex of the subset is returned once, in its place, with the number of its out-neighbours that satisfy the predicate. -/
theorem C151_count {pred : Nat → E → Nat} (hp : ∀ v e, pred v e ≤ 1) {G : Mem E} {vs : List Nat} (hd : ∀ v ∈ vs, G.deg v < 2 ^ 32)
    {order : List Nat} (hs : Sched vs.length order) (junk : Nat → Nat × Nat) :
    edgeMapFilter pred vs order false junk G = vs.map fun v => (v, ((nbrs G v).filter fun e => pred v e == 1).length) := by
  have hpk : ∀ v, picked pred G v = (nbrs G v).filter fun e => pred v e == 1 := fun v => by
    rw [picked]
    refine List.filter_congr fun e _ => ?_
    have := hp v e
    rcases Nat.lt_or_ge 0 (pred v e) with h0 | h0
    · rw [show pred v e = 1 by omega]; rfl
    · rw [show pred v e = 0 by omega]; rfl
  rw [edgeMapFilter]
  split
  · rename_i h
    rw [List.length_eq_zero_iff.1 h]
    rfl
  · rw [if_neg Bool.false_ne_true]
    apply List.ext_getElem?
    intro k
    by_cases hk : k < vs.length
    · rw [slice_getElem? _ _ _ _ hk, Nat.zero_add, foldl_upd (fun i => (vs.getD i 0, count32 pred G (vs.getD i 0))), if_pos ((hs.2 k).2 hk), List.getElem?_map,
        List.getElem?_eq_getElem hk, Option.map_some, List.getD_eq_getElem?_getD, List.getElem?_eq_getElem hk, Option.getD_some,
        count32_eq hp (hd _ (List.getElem_mem hk)), hpk]
    · rw [List.getElem?_eq_none (by simpa using hk), List.getElem?_eq_none (by simpa using hk)]

/-- **C151, `srcCount` and `srcPack`.** Packing returns the vertices with the same numbers as counting does before it, and these are the degrees after it. -/
theorem C151_pack {n : Nat} (I : Inner E) (p : Nat → E → Bool) {G : Mem E} (hI : I.Ok G.deg) (hD : Disjoint n G) {vs order porder : List Nat} (hnd : vs.Nodup)
    (hlt : ∀ v ∈ vs, v < n) (hd : ∀ v ∈ vs, G.deg v < 2 ^ 32) (hs : Sched vs.length order) (hpm : porder.Perm vs) (junk : Nat → Nat × Nat) :
    (packEdges I p porder G).2.Perm (edgeMapFilter (fun v e => (p v e).toNat) vs order false junk G) ∧
    ∀ v k, (v, k) ∈ edgeMapFilter (fun v e => (p v e).toNat) vs order false junk G → (nbrs (packEdges I p porder G).1 v).length = k := by
  obtain ⟨h1, h2⟩ := packEdges_correct I p porder G hI hD (hpm.nodup_iff.2 hnd) (fun v hv => hlt v (hpm.mem_iff.1 hv))
  have hf : ∀ v, ((nbrs G v).filter fun e => (p v e).toNat == 1) = (nbrs G v).filter (p v) := fun v =>
    List.filter_congr fun e _ => by cases p v e <;> rfl
  rw [C151_count (fun v e => Bool.toNat_le _) hd hs junk]
  constructor
  · rw [h2]
    simp only [hf]
    exact hpm.map _
  · intro v k hm
    obtain ⟨w, hw, he⟩ := List.mem_map.1 hm
    cases he
    rw [h1 v (hlt v hw), if_pos (hpm.mem_iff.2 hw), hf]

/-! ### Examples and limits -/

/-- The hypotheses are met on the triangle, and the results are these. -/
example : (∀ v, v < 3 → tri.deg v < 2 ^ 32) ∧ sampleEdges 3 (fun u v => (decide (u < v)).toNat) [2, 0, 1] (0, 0) (fun _ => 9) tri = [(0, 1), (0, 2), (1, 2)] ∧
    edgeMapFilter (fun u v => (decide (u < v)).toNat) [2, 0] [1, 0] false (fun _ => (7, 7)) tri = [(2, 0), (0, 2)] := by
  refine ⟨fun v hv => ?_, by decide +kernel, by decide +kernel⟩
  show (if v < 3 then 2 else 0) < _
  rw [if_pos hv]; decide

/-- **C151, refuted for the predicates of `filter_edges`.** The comment calls `sample_edges` similar to `filter_edges`, where 2 selects an edge. With this value
the sizes are twice too large, and the gaps are returned as edges from 0 to 0, which are not in the graph. -/
theorem C151_two_refuted : sampleEdges 3 pick [0, 1, 2] (0, 0) (fun _ => 9) ⟨tri.edges, tri.off, tri.deg⟩ =
    [(0, 1), (1, 0), (0, 0), (2, 0), (2, 1), (0, 0)] ∧ 0 ∉ nbrs tri 0 := by decide +kernel

/-- `srcCount` then adds up the values. -/
theorem C151_count_two_refuted : edgeMapFilter pick [1] [0] false (fun _ => (7, 7)) tri = [(1, 2)] ∧ ((nbrs tri 1).filter fun e => pick 1 e != 0).length = 1 := by
  decide +kernel

end Gbbs.Mutate
