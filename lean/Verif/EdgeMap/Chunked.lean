/-
C18: the chunked sparse edge traversal of `gbbs/edge_map_blocked.h` (`edgeMapChunked`).
-/
import Verif.Scatter
import Verif.Seq.Filter

namespace Gbbs.Chunked

open Gbbs.Filter (numBlocks numBlocks_bounds)

/-! ### Model

`nv` frontier positions, `deg i` the degree of the `i`-th frontier vertex, `B` the internal block
size of a vertex (`vertex.h:35`, 1024). -/

/-- `vertex.h:96-100` (`block_degree`). -/
def blockDegree (B deg j : Nat) : Nat := min (j * B + B) deg - j * B

/-- `edge_map_blocked.h:340-345`: `vertex_offs` after the scan. -/
def vertexOffs (B : Nat) (deg : Nat → Nat) : Nat → Nat := exScan fun i => numBlocks (deg i) B

/-- `edge_map_blocked.h:351-364`: the arrays `blocks` and `degrees` (before the scan), written at the
same indices, as one array of `((position, block number), block degree)`; the loop over positions
runs in the given order, `a0` is the initial content. -/
def fillBlocks (B : Nat) (deg : Nat → Nat) (order : List Nat) (a0 : Nat → (Nat × Nat) × Nat) :
    Nat → (Nat × Nat) × Nat :=
  scatter (vertexOffs B deg)
    (fun i => (List.range (numBlocks (deg i) B)).map fun j => ((i, j), blockDegree B (deg i) j))
    order a0

/-- `edge_map_blocked.h:365` (inclusive scan of `degrees`). -/
def inclusive (a : Nat → (Nat × Nat) × Nat) (w : Nat) : Nat := exScan (fun w => (a w).2) (w + 1)

/-- `parlay::binary_search(degrees, v, <)` on the non-decreasing array of length `k`: the first
index whose entry is not below `v`, or `k`. -/
def binarySearch (incl : Nat → Nat) (k v : Nat) : Nat :=
  ((List.range k).takeWhile fun w => decide (incl w < v)).length

/-- `edge_map_blocked.h:387-399`: the range of blocks of a group. -/
def groupStart (incl : Nat → Nat) (nbk ebs g : Nat) : Nat := binarySearch incl nbk (g * ebs)

def groupEnd (incl : Nat → Nat) (nbk ebs ng g : Nat) : Nat :=
  if g + 1 < ng then binarySearch incl nbk ((g + 1) * ebs) else nbk

/-- `edge_map_blocked.h:402-403`: the work ids a group processes. -/
def groupWork (incl : Nat → Nat) (nbk ebs ng g : Nat) : List Nat :=
  let s := groupStart incl nbk ebs g
  let e := groupEnd incl nbk ebs ng g
  if s ≠ e ∧ s ≠ nbk then List.range' s (e - s) else []

/-- `edge_map_blocked.h:291-312` (`get_block_and_offset_for_group`): the output blocks of a group
(each the list of entries written so far, the current one last). -/
def getBlock {S : Type} (wbs maxb : Nat) (vec : List (List S)) : List (List S) :=
  match vec.getLast? with
  | none => [[]]
  | some b => if b.length + wbs > maxb then vec ++ [[]] else vec

/-- `edge_map_blocked.h:404-427` for one work block that emits the entries `e`: they are written at
the end of the current output block; `none` is a write beyond its `maxb` entries. -/
def emitBlock {S : Type} (wbs maxb : Nat) (vec : List (List S)) (e : List S) :
    Option (List (List S)) :=
  let vec := getBlock wbs maxb vec
  let cur := vec.getLastD []
  if cur.length + e.length ≤ maxb then some (vec.dropLast ++ [cur ++ e]) else none

/-- The output blocks of one group, `edge_map_blocked.h:384-430`. -/
def runGroup {S : Type} (wbs maxb : Nat) (emit : Nat → List S) (work : List Nat) :
    Option (List (List S)) :=
  work.foldlM (fun vec w => emitBlock wbs maxb vec (emit w)) []

/-- `edge_map_blocked.h:371-376` with `workers = num_workers()`, `kEMBlockSize = 4000`. -/
def edgeBlockSize (workers total : Nat) : Nat := max 4000 (numBlocks total (workers * 8))

/-- `edgeMapChunked`, `edge_map_blocked.h:319-456`, for a frontier with `nv` positions of degrees
`deg` and internal block size `B` (also the `work_block_size`).  `emit w` is the list of entries
that `decode_block` emits for work block `w`, an arbitrary function here since it depends on the
client function and on the interleaving of the groups.  The output array is the concatenation of all
groups' blocks (`get_all_blocks` and the final scan and copy).  `none` is an access outside an
array, including `degrees[num_blocks - 1]` when there are no blocks. -/
def chunked {S : Type} (B maxb workers nv : Nat) (deg : Nat → Nat) (order : List Nat)
    (a0 : Nat → (Nat × Nat) × Nat) (emit : Nat → List S) : Option (List S) :=
  let a := fillBlocks B deg order a0
  let nbk := vertexOffs B deg nv
  if nbk = 0 then none
  else
    let incl := inclusive a
    let total := incl (nbk - 1)
    let ebs := edgeBlockSize workers total
    let ng := numBlocks total ebs
    match (List.range ng).mapM fun g => runGroup B maxb emit (groupWork incl nbk ebs ng g) with
    | none => none
    | some vecs => some (vecs.flatten.flatten)

/-! ### The arrays -/

/-- The list of `(frontier position, block)` pairs, in order. -/
def allBlocks (B nv : Nat) (deg : Nat → Nat) : List (Nat × Nat) :=
  (List.range nv).flatMap fun i => (List.range (numBlocks (deg i) B)).map fun j => (i, j)

theorem fillBlocks_spec (B nv : Nat) (deg : Nat → Nat) (order : List Nat) (hs : Sched nv order)
    (a0 : Nat → (Nat × Nat) × Nat) :
    slice (fillBlocks B deg order a0) 0 (vertexOffs B deg nv) =
      (allBlocks B nv deg).map fun ij => (ij, blockDegree B (deg ij.1) ij.2) := by
  have h := (scatter_spec 0
    (fun i => (List.range (numBlocks (deg i) B)).map fun j => ((i, j), blockDegree B (deg i) j))
    (vertexOffs B deg) nv (by
      intro i _
      rw [Nat.zero_add]
      unfold vertexOffs
      exact exScan_congr fun j _ => by simp) order hs a0).1
  have hlen : exScan (fun i => ((List.range (numBlocks (deg i) B)).map
      fun j => ((i, j), blockDegree B (deg i) j)).length) nv = vertexOffs B deg nv :=
    exScan_congr fun j _ => by simp
  rw [hlen] at h
  refine Eq.trans h ?_
  unfold allBlocks
  rw [List.map_flatMap]
  congr 1
  funext i
  rw [List.map_map]
  rfl

theorem allBlocks_length (B nv : Nat) (deg : Nat → Nat) :
    (allBlocks B nv deg).length = vertexOffs B deg nv := by
  unfold allBlocks vertexOffs
  rw [flatMap_length_exScan]
  exact exScan_congr fun i _ => by simp

theorem fill_at {B nv : Nat} {deg : Nat → Nat} {order : List Nat} (hs : Sched nv order)
    (a0 : Nat → (Nat × Nat) × Nat) {w : Nat} (hw : w < vertexOffs B deg nv) :
    ∃ ij, (allBlocks B nv deg)[w]? = some ij ∧
      fillBlocks B deg order a0 w = (ij, blockDegree B (deg ij.1) ij.2) := by
  have h := fillBlocks_spec B nv deg order hs a0
  have hl := allBlocks_length B nv deg
  have hw' : w < (allBlocks B nv deg).length := by omega
  refine ⟨_, List.getElem?_eq_getElem hw', ?_⟩
  have h1 := congrArg (fun l => l[w]?) h
  simp only [slice_getElem? _ _ _ _ hw, Nat.zero_add, List.getElem?_map,
    List.getElem?_eq_getElem hw', Option.map_some, Option.some.injEq] at h1
  exact h1

/-! ### The groups partition the blocks -/

theorem takeWhile_range (p : Nat → Bool) (k : Nat) :
    ((List.range k).takeWhile p).length ≤ k ∧
    (∀ w, w < ((List.range k).takeWhile p).length → p w = true) ∧
    (((List.range k).takeWhile p).length < k → p ((List.range k).takeWhile p).length = false) := by
  have hle : ((List.range k).takeWhile p).length ≤ k := by
    simpa using (List.takeWhile_sublist p (l := List.range k)).length_le
  refine ⟨hle, ?_, ?_⟩
  · intro w hw
    have h1 := List.all_takeWhile (p := p) (l := List.range k)
    rw [List.all_eq_true] at h1
    have h2 := List.getElem_mem hw
    have h3 := h1 _ h2
    have h4 : ((List.range k).takeWhile p)[w] = w := by
      have hpre := List.takeWhile_prefix p (l := List.range k)
      rw [hpre.getElem hw]; simp
    rw [h4] at h3; exact h3
  · intro hlt
    have hne : (List.range k).dropWhile p ≠ [] := by
      intro h
      have := congrArg List.length (List.takeWhile_append_dropWhile (p := p) (l := List.range k))
      rw [h, List.append_nil, List.length_range] at this
      omega
    have h1 := List.head_dropWhile_not p hne
    have h2 : ((List.range k).dropWhile p).head hne = ((List.range k).takeWhile p).length := by
      have h3 : (List.range k)[((List.range k).takeWhile p).length]? =
          some (((List.range k).dropWhile p).head hne) := by
        conv_lhs => rw [← List.takeWhile_append_dropWhile (p := p) (l := List.range k)]
        rw [List.getElem?_append_right (by simp)]
        have : (List.takeWhile p (List.takeWhile p (List.range k) ++ List.dropWhile p (List.range k)))
          = List.takeWhile p (List.range k) := by rw [List.takeWhile_append_dropWhile]
        rw [this]
        rw [Nat.sub_self, ← List.head?_eq_getElem?, List.head?_eq_some_head hne]
      rw [List.getElem?_eq_getElem (by simpa using hlt)] at h3
      simpa using h3.symm
    rw [h2] at h1
    exact h1

theorem binarySearch_le (incl : Nat → Nat) (k v : Nat) : binarySearch incl k v ≤ k :=
  (takeWhile_range _ k).1

theorem binarySearch_mono (incl : Nat → Nat) (k : Nat) {u v : Nat} (h : u ≤ v) :
    binarySearch incl k u ≤ binarySearch incl k v := by
  by_contra hcon
  have h1 := takeWhile_range (fun w => decide (incl w < u)) k
  have h2 := takeWhile_range (fun w => decide (incl w < v)) k
  have h3 := h1.2.1 (binarySearch incl k v) (by unfold binarySearch at hcon ⊢; omega)
  have h4 := h2.2.2 (by unfold binarySearch at hcon; omega)
  simp only [decide_eq_true_eq, decide_eq_false_iff_not] at h3 h4
  unfold binarySearch at h3
  omega

theorem binarySearch_zero (incl : Nat → Nat) (k : Nat) : binarySearch incl k 0 = 0 := by
  unfold binarySearch
  cases k with
  | zero => rfl
  | succ k => rw [List.range_succ_eq_map]; simp

theorem groupWork_eq (incl : Nat → Nat) (nbk ebs ng g : Nat) :
    groupWork incl nbk ebs ng g =
      List.range' (groupStart incl nbk ebs g)
        (groupEnd incl nbk ebs ng g - groupStart incl nbk ebs g) := by
  unfold groupWork
  simp only
  split
  · rfl
  · rename_i h
    have h1 := binarySearch_le incl nbk (g * ebs)
    have h2 : groupEnd incl nbk ebs ng g ≤ nbk := by
      unfold groupEnd
      split
      · exact binarySearch_le _ _ _
      · exact Nat.le_refl _
    have : groupEnd incl nbk ebs ng g - groupStart incl nbk ebs g = 0 := by
      unfold groupStart at h ⊢
      by_cases h3 : binarySearch incl nbk (g * ebs) = nbk
      · omega
      · have : binarySearch incl nbk (g * ebs) = groupEnd incl nbk ebs ng g := by
          by_contra h4; exact h ⟨h4, h3⟩
        omega
    rw [this]; rfl

theorem range_split {a b : Nat} (h : a ≤ b) :
    List.range a ++ List.range' a (b - a) = List.range b := by
  rw [List.range_eq_range', List.range_eq_range']
  have := List.range'_append_1 (s := 0) (m := a) (n := b - a)
  rw [Nat.zero_add] at this
  rw [this]
  congr 1
  omega

/-- Every block is processed by exactly one group, in order. -/
theorem groups_partition (incl : Nat → Nat) (nbk ebs ng : Nat) (hng : 0 < ng) :
    (List.range ng).flatMap (groupWork incl nbk ebs ng) = List.range nbk := by
  have key : ∀ k, k < ng → (List.range k).flatMap (groupWork incl nbk ebs ng) =
      List.range (groupStart incl nbk ebs k) := by
    intro k
    induction k with
    | zero => intro _; simp [groupStart, binarySearch_zero]
    | succ k ih =>
      intro hk
      rw [List.range_succ, List.flatMap_append, ih (by omega), List.flatMap_cons, List.flatMap_nil,
        List.append_nil, groupWork_eq]
      have he : groupEnd incl nbk ebs ng k = groupStart incl nbk ebs (k + 1) := by
        unfold groupEnd groupStart; rw [if_pos hk]
      have hm : groupStart incl nbk ebs k ≤ groupStart incl nbk ebs (k + 1) :=
        binarySearch_mono _ _ (Nat.mul_le_mul_right _ (by omega))
      rw [he, range_split hm]
  obtain ⟨k, rfl⟩ : ∃ k, ng = k + 1 := ⟨ng - 1, by omega⟩
  rw [List.range_succ, List.flatMap_append, key k (by omega), List.flatMap_cons, List.flatMap_nil,
    List.append_nil, groupWork_eq]
  have he : groupEnd incl nbk ebs (k + 1) k = nbk := by
    unfold groupEnd; rw [if_neg (by omega)]
  have hm : groupStart incl nbk ebs k ≤ nbk := binarySearch_le _ _ _
  rw [he, range_split hm]

/-! ### The edges of the blocks -/

/-- The edges `(frontier position, edge index)` decoded by a block, `vertex.h:376-392`. -/
def blockEdges (B : Nat) (deg : Nat → Nat) (ij : Nat × Nat) : List (Nat × Nat) :=
  (List.range' (ij.2 * B) (blockDegree B (deg ij.1) ij.2)).map fun k => (ij.1, k)

/-- All edges of the frontier. -/
def allEdges (nv : Nat) (deg : Nat → Nat) : List (Nat × Nat) :=
  (List.range nv).flatMap fun i => (List.range (deg i)).map fun k => (i, k)

theorem blocks_cover (B d : Nat) (hB : 0 < B) :
    (List.range (numBlocks d B)).flatMap (fun j => List.range' (j * B) (blockDegree B d j)) =
      List.range d := by
  have h := Gbbs.Filter.kept_flatMap (fun _ => true) B d id hB
  have e1 : (slice id 0 d).filter (fun _ => true) = List.range d := by
    rw [List.filter_eq_self.2 (by simp), slice, List.map_id, List.range_eq_range']
  rw [e1] at h
  rw [← h]
  congr 1
  funext j
  unfold Gbbs.Filter.keptBlock
  rw [List.filter_eq_self.2 (by simp), slice, List.map_id]
  rfl

theorem allBlocks_edges (B nv : Nat) (deg : Nat → Nat) (hB : 0 < B) :
    (allBlocks B nv deg).flatMap (blockEdges B deg) = allEdges nv deg := by
  unfold allBlocks allEdges
  rw [List.flatMap_assoc]
  congr 1
  funext i
  rw [List.flatMap_map, ← blocks_cover B (deg i) hB, List.map_flatMap]
  rfl

theorem exScan_pos_of {f : Nat → Nat} {k i : Nat} (hi : i < k) (h : 0 < f i) : 0 < exScan f k := by
  have h1 := exScan_mono f (show i + 1 ≤ k from hi)
  simp only [exScan] at h1
  omega

theorem numBlocks_pos {d B : Nat} (hB : 0 < B) (hd : 0 < d) : 0 < numBlocks d B :=
  (numBlocks_bounds hB hd).2.2

/-- Every block that exists is non-empty. -/
theorem blockDegree_pos {B d j : Nat} (hB : 0 < B) (hj : j < numBlocks d B) :
    0 < blockDegree B d j ∧ blockDegree B d j ≤ B := by
  have hd : 0 < d := by
    rcases Nat.eq_zero_or_pos d with h | h
    · subst h; simp [numBlocks] at hj
    · exact h
  obtain ⟨h1, _, h3⟩ := numBlocks_bounds hB hd
  have h2 := Nat.mul_le_mul_right B (show j ≤ numBlocks d B - 1 by omega)
  unfold blockDegree
  omega

/-! ### The output -/

theorem emitBlock_spec {S : Type} (wbs maxb : Nat) (hw : wbs ≤ maxb) (vec : List (List S))
    (e : List S) (he : e.length ≤ wbs) :
    ∃ vec', emitBlock wbs maxb vec e = some vec' ∧ vec'.flatten = vec.flatten ++ e := by
  unfold emitBlock getBlock
  cases hl : vec.getLast? with
  | none =>
    have : vec = [] := by simpa using hl
    subst this
    refine ⟨[e], ?_, by simp⟩
    simp; omega
  | some b =>
    simp only
    obtain ⟨v0, rfl⟩ : ∃ v0, vec = v0 ++ [b] := by
      rw [List.getLast?_eq_some_iff] at hl
      exact hl
    by_cases hc : b.length + wbs > maxb
    · rw [if_pos hc]
      refine ⟨v0 ++ [b] ++ [e], ?_, by simp⟩
      simp only [List.getLastD_concat, List.length_nil, Nat.zero_add, List.dropLast_concat,
        List.nil_append]
      rw [if_pos (by omega)]
    · rw [if_neg hc]
      refine ⟨v0 ++ [b ++ e], ?_, by simp⟩
      simp only [List.getLastD_concat, List.dropLast_concat]
      rw [if_pos (by omega)]

theorem runGroup_spec {S : Type} (wbs maxb : Nat) (hw : wbs ≤ maxb) (emit : Nat → List S)
    (work : List Nat) (he : ∀ w ∈ work, (emit w).length ≤ wbs) :
    ∃ vecs, runGroup wbs maxb emit work = some vecs ∧ vecs.flatten = work.flatMap emit := by
  have key : ∀ (work : List Nat) (vec : List (List S)), (∀ w ∈ work, (emit w).length ≤ wbs) →
      ∃ vecs, work.foldlM (fun vec w => emitBlock wbs maxb vec (emit w)) vec = some vecs ∧
        vecs.flatten = vec.flatten ++ work.flatMap emit := by
    intro work
    induction work with
    | nil => intro vec _; exact ⟨vec, rfl, by simp⟩
    | cons w work ih =>
      intro vec hl
      obtain ⟨vec1, h1, h2⟩ := emitBlock_spec wbs maxb hw vec (emit w) (hl w List.mem_cons_self)
      obtain ⟨vec2, h3, h4⟩ := ih vec1 (fun w' hw' => hl w' (List.mem_cons_of_mem _ hw'))
      refine ⟨vec2, ?_, ?_⟩
      · rw [List.foldlM_cons, h1]; exact h3
      · rw [h4, h2, List.flatMap_cons, List.append_assoc]
  obtain ⟨vecs, h1, h2⟩ := key work [] he
  exact ⟨vecs, h1, by simpa using h2⟩

theorem mapM_runGroup {S : Type} (wbs maxb : Nat) (hw : wbs ≤ maxb) (emit : Nat → List S)
    (work : Nat → List Nat) (gs : List Nat)
    (he : ∀ g ∈ gs, ∀ w ∈ work g, (emit w).length ≤ wbs) :
    ∃ vecs, gs.mapM (fun g => runGroup wbs maxb emit (work g)) = some vecs ∧
      vecs.flatten.flatten = (gs.flatMap work).flatMap emit := by
  induction gs with
  | nil => exact ⟨[], rfl, rfl⟩
  | cons g gs ih =>
    obtain ⟨v1, h1, h2⟩ := runGroup_spec wbs maxb hw emit (work g) (he g List.mem_cons_self)
    obtain ⟨v2, h3, h4⟩ := ih (fun g' hg' => he g' (List.mem_cons_of_mem _ hg'))
    refine ⟨v1 :: v2, ?_, ?_⟩
    · rw [List.mapM_cons, h1, h3]; rfl
    · rw [List.flatten_cons, List.flatten_append, h2, h4, List.flatMap_cons, List.flatMap_append]

/-- C18.  For a frontier with at least one edge, whatever the degrees, number of workers, schedule
and initial array contents, and whatever each work block emits (at most one entry per edge of the
block): the traversal never accesses memory outside its arrays or output blocks; the concatenation,
over the groups, of the edges of the blocks they process is the list of all edges of the frontier,
each exactly once; and the output consists of exactly the emitted entries. -/
theorem chunked_correct_partial {S : Type} (B maxb workers nv : Nat) (hB : 0 < B) (hmax : B ≤ maxb)
    (deg : Nat → Nat) (hdeg : ∃ i, i < nv ∧ 0 < deg i) (order : List Nat) (hs : Sched nv order)
    (a0 : Nat → (Nat × Nat) × Nat) (emit : Nat → List S)
    (hemit : ∀ w ij, (allBlocks B nv deg)[w]? = some ij →
      (emit w).length ≤ (blockEdges B deg ij).length) :
    let a := fillBlocks B deg order a0
    let nbk := vertexOffs B deg nv
    let total := inclusive a (nbk - 1)
    let ebs := edgeBlockSize workers total
    let ng := numBlocks total ebs
    ((List.range ng).flatMap (groupWork (inclusive a) nbk ebs ng)).flatMap
        (fun w => blockEdges B deg (a w).1) = allEdges nv deg ∧
    chunked B maxb workers nv deg order a0 emit =
      some ((List.range (allBlocks B nv deg).length).flatMap emit) := by
  intro a nbk total ebs ng
  obtain ⟨i0, hi0, hd0⟩ := hdeg
  have hnbk : 0 < nbk := exScan_pos_of hi0 (numBlocks_pos hB hd0)
  have hlast : 0 < (a (nbk - 1)).2 := by
    obtain ⟨ij, h1, h2⟩ := fill_at hs a0 (B := B) (deg := deg) (w := nbk - 1) (by
      show nbk - 1 < nbk; omega)
    show 0 < (fillBlocks B deg order a0 (nbk - 1)).2
    rw [h2]
    have hmem := List.mem_of_getElem? h1
    unfold allBlocks at hmem
    simp only [List.mem_flatMap, List.mem_map, List.mem_range] at hmem
    obtain ⟨i, _, j, hj, rfl⟩ := hmem
    exact (blockDegree_pos hB hj).1
  have htot : 0 < total := by
    show 0 < exScan (fun w => (a w).2) (nbk - 1 + 1)
    exact exScan_pos_of (Nat.lt_succ_self _) hlast
  have hebs : 0 < ebs := by show 0 < max 4000 _; omega
  have hng : 0 < ng := numBlocks_pos hebs htot
  have hpart := groups_partition (inclusive a) nbk ebs ng hng
  have hlen : (allBlocks B nv deg).length = nbk := allBlocks_length B nv deg
  constructor
  · rw [hpart, ← allBlocks_edges B nv deg hB, ← hlen]
    have : ∀ w ∈ List.range (allBlocks B nv deg).length, blockEdges B deg (a w).1 =
        blockEdges B deg ((allBlocks B nv deg)[w]?.getD (0, 0)) := by
      intro w hw
      rw [List.mem_range, hlen] at hw
      obtain ⟨ij, h1, h2⟩ := fill_at hs a0 (B := B) (deg := deg) hw
      show blockEdges B deg (fillBlocks B deg order a0 w).1 = _
      rw [h2, h1]; rfl
    rw [List.flatMap_congr this]
    conv_rhs => rw [show allBlocks B nv deg = (List.range (allBlocks B nv deg).length).map
      (fun w => (allBlocks B nv deg)[w]?.getD (0, 0)) from by
        apply List.ext_getElem
        · simp
        · intro i h1 h2
          simp [h1]]
    rw [List.flatMap_map]
  · obtain ⟨vecs, h1, h2⟩ := mapM_runGroup B maxb hmax emit (groupWork (inclusive a) nbk ebs ng)
      (List.range ng) (by
        intro g hg w hw
        have hmem : w ∈ List.range nbk := by
          rw [← hpart]; exact List.mem_flatMap.2 ⟨g, hg, hw⟩
        rw [List.mem_range] at hmem
        obtain ⟨ij, h1, _⟩ := fill_at hs a0 (B := B) (deg := deg) hmem
        have h3 := hemit w ij h1
        have hmem := List.mem_of_getElem? h1
        unfold allBlocks at hmem
        simp only [List.mem_flatMap, List.mem_map, List.mem_range] at hmem
        obtain ⟨i, _, j, hj, rfl⟩ := hmem
        have := (blockDegree_pos hB hj).2
        simp only [blockEdges, List.length_map, List.length_range'] at h3
        omega)
    unfold chunked
    simp only
    rw [if_neg (show ¬ vertexOffs B deg nv = 0 by show ¬ nbk = 0; omega)]
    have h1' : List.mapM (fun g => runGroup B maxb emit (groupWork (inclusive (fillBlocks B deg order a0))
      (vertexOffs B deg nv) (edgeBlockSize workers (inclusive (fillBlocks B deg order a0)
        (vertexOffs B deg nv - 1))) (numBlocks (inclusive (fillBlocks B deg order a0)
        (vertexOffs B deg nv - 1)) (edgeBlockSize workers (inclusive (fillBlocks B deg order a0)
        (vertexOffs B deg nv - 1)))) g)) (List.range (numBlocks (inclusive (fillBlocks B deg order a0)
        (vertexOffs B deg nv - 1)) (edgeBlockSize workers (inclusive (fillBlocks B deg order a0)
        (vertexOffs B deg nv - 1))))) = some vecs := h1
    rw [h1']
    simp only
    rw [h2, hpart, hlen]

/-- `max_block_size` of `edge_map_blocked.h:232-233` for entries of `sz` bytes. -/
def maxBlock (sz : Nat) : Nat := 16384 / sz

/-- The hypothesis `B ≤ maxb` of `chunked_correct_partial` holds for entries of at most 16 bytes. -/
theorem entries_fit {sz : Nat} (h0 : 0 < sz) (h : sz ≤ 16) : 1024 ≤ maxBlock sz := by
  unfold maxBlock
  rw [Nat.le_div_iff_mul_le h0]; omega

/-- For larger entries (e.g. 24 bytes: 16 bytes of data per vertex) a vertex of degree 1024 whose
edges are all emitted makes `decode_block` write beyond the output block. -/
theorem large_entries_overflow :
    chunked 1024 (maxBlock 24) 1 1 (fun _ => 1024) [0] (fun _ => ((0, 0), 0))
      (fun _ => List.replicate 1024 ()) = none := by
  have h : maxBlock 24 = 682 := by decide
  rw [h]
  decide +kernel

/-- A frontier without edges must not reach this function (`degrees[num_blocks - 1]`). -/
theorem chunked_no_edges {S : Type} (B maxb workers nv : Nat) (deg : Nat → Nat)
    (hdeg : ∀ i, i < nv → deg i = 0) (order : List Nat) (a0 : Nat → (Nat × Nat) × Nat)
    (emit : Nat → List S) : chunked B maxb workers nv deg order a0 emit = none := by
  unfold chunked
  have : vertexOffs B deg nv = 0 := by
    unfold vertexOffs
    rw [exScan_congr (g := fun _ => 0) (fun i hi => by rw [hdeg i hi]; rfl)]
    induction nv with
    | zero => rfl
    | succ nv ih => simp [exScan, ih (fun i hi => hdeg i (by omega))]
  simp only [this, if_true]

/-- A frontier of three vertices of degrees 5, 0 and 3 with blocks of 2 edges. -/
example : Sched 3 [2, 0, 1] ∧ (∃ i, i < 3 ∧ 0 < [5, 0, 3].getD i 0) ∧
    allBlocks 2 3 (fun i => [5, 0, 3].getD i 0) = [(0, 0), (0, 1), (0, 2), (2, 0), (2, 1)] ∧
    chunked 2 3 1 3 (fun i => [5, 0, 3].getD i 0) [2, 0, 1] (fun _ => ((0, 0), 0)) (fun w => [w]) =
      some [0, 1, 2, 3, 4] := by
  refine ⟨⟨by decide, fun i => ?_⟩, ⟨0, by decide, by decide⟩, by decide +kernel, by decide +kernel⟩
  simp; omega

end Gbbs.Chunked
