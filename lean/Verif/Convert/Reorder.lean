import Verif.Convert.EdgeList

/-!
# `to_edge_list` and `random_reorder`

`utils/to_edge_list.cc` (modelled in `EdgeList.lean`) and `utils/random_reorder.cc`.
-/

namespace Gbbs.EdgeList

open Gbbs Text ToChars

/-! ## `to_edge_list` -/

/-- What `print_edge_list` writes, for every graph whose `m` is at least the number of listed arcs:
the header, the listed arcs, and a line `0 0` for every remaining element of the array. -/
theorem printEdgeList_eq (direct header : Bool) (n m : Nat) (out : Nat → List Nat)
    (hn : n ≤ 4294967296) (hv : ∀ i, i < n → ∀ v ∈ out i, v < 4294967296) (hm0 : 0 < m)
    (hm : offs (listed direct out) n ≤ m) (ws : List (Nat × (Nat × Nat)))
    (hw : ws.Perm (writesOf (listed direct out) (offs (listed direct out)) n))
    (order : List Nat) (ho : AM.Schedule (m - 1) order) :
    printEdgeList direct header n m out ws order =
      some ((if header then headerLine n (offs (listed direct out) n) else []) ++
        (((List.range n).flatMap (listed direct out)).flatMap edgeLine ++
          (List.replicate (m - offs (listed direct out) n) (0, 0)).flatMap edgeLine)) := by
  have h2 := (writesOf_eq (listed direct out) n).2
  rw [printEdgeList, if_pos hm, filled _ _ n m ws hw hm]
  have hlen : ((List.range n).flatMap (listed direct out) ++
      List.replicate (m - offs (listed direct out) n) (0, 0)).length = m := by
    rw [List.length_append, List.length_replicate, h2]; omega
  rw [seqToString_eq edgeP_good _ _ _ order (by rw [hlen]; exact ho), Option.map_some]
  · simp only [edgeLine_def, List.append_assoc, List.flatMap_append]
  · intro x hx
    rcases List.mem_append.1 hx with hx | hx
    · obtain ⟨i, hi, hx⟩ := List.mem_flatMap.1 hx
      obtain ⟨v, hv', rfl⟩ := List.mem_map.1 hx
      have := List.mem_range.1 hi
      exact ⟨by dsimp only; omega, hv i this v (List.mem_filter.1 hv').1⟩
    · rw [List.eq_of_mem_replicate hx]; exact ⟨by decide, by decide⟩
  · intro e; rw [e] at hlen; simp at hlen; omega

theorem listed_all (out : Nat → List Nat) : listed false out = fun i => (out i).map fun v => (i, v) := by
  funext i; simp [listed]

/-- C128 without `-direct_sym`: one line per arc, after the header if it is asked for. -/
theorem C128_edge_list_partial (header : Bool) (n m : Nat) (out : Nat → List Nat)
    (hn : n ≤ 4294967296) (hv : ∀ i, i < n → ∀ v ∈ out i, v < 4294967296) (hm0 : 0 < m)
    (hm : (arcs n out).length = m) (ws : List (Nat × (Nat × Nat)))
    (hw : ws.Perm (writesOf (listed false out) (offs (listed false out)) n))
    (order : List Nat) (ho : AM.Schedule (m - 1) order) :
    printEdgeList false header n m out ws order =
      some ((if header then headerLine n m else []) ++ (arcs n out).flatMap edgeLine) := by
  have h2 := (writesOf_eq (listed false out) n).2
  have ha : (List.range n).flatMap (listed false out) = arcs n out := by rw [listed_all, arcs]
  rw [ha] at h2
  rw [printEdgeList_eq false header n m out hn hv hm0 (by omega) ws hw order ho, ha, ← h2, hm,
    Nat.sub_self, List.replicate_zero, List.flatMap_nil, List.append_nil]

/-- C128: the file is read back as the arcs of the graph. -/
theorem C128_read_partial (n m : Nat) (out : Nat → List Nat)
    (hn : n ≤ 4294967296) (hv : ∀ i, i < n → ∀ v ∈ out i, v < 4294967296) (hm0 : 0 < m)
    (hm : (arcs n out).length = m) (ws : List (Nat × (Nat × Nat)))
    (hw : ws.Perm (writesOf (listed false out) (offs (listed false out)) n))
    (order : List Nat) (ho : AM.Schedule (m - 1) order) :
    (printEdgeList false false n m out ws order).map readUnweighted = some (arcs n out) := by
  rw [C128_edge_list_partial false n m out hn hv hm0 hm ws hw order ho, Option.map_some,
    if_neg (by decide), List.nil_append, C127_read]
  intro e he
  obtain ⟨i, hi, he⟩ := List.mem_flatMap.1 he
  obtain ⟨v, hv', rfl⟩ := List.mem_map.1 he
  have := List.mem_range.1 hi
  exact ⟨by dsimp only; omega, hv i this v hv'⟩

/-- The edges of an undirected graph, each once, the smaller vertex first. -/
def edgesOnce (n : Nat) (out : Nat → List Nat) : List (Nat × Nat) :=
  (arcs n out).filter fun e => decide (e.1 < e.2)

theorem listed_direct (n : Nat) (out : Nat → List Nat) :
    (List.range n).flatMap (listed true out) = edgesOnce n out := by
  rw [edgesOnce, arcs, List.filter_flatMap]
  congr 1
  funext i
  rw [List.filter_map]
  simp only [listed, Bool.not_true, Bool.false_or]
  rfl

/-- C128 with `-direct_sym`, whatever the graph and the order: after the edges come as many lines
`0 0` as there are arcs to smaller vertices. -/
theorem C128_direct (header : Bool) (n m : Nat) (out : Nat → List Nat)
    (hn : n ≤ 4294967296) (hv : ∀ i, i < n → ∀ v ∈ out i, v < 4294967296) (hm0 : 0 < m)
    (hm : (arcs n out).length = m) (ws : List (Nat × (Nat × Nat)))
    (hw : ws.Perm (writesOf (listed true out) (offs (listed true out)) n))
    (order : List Nat) (ho : AM.Schedule (m - 1) order) :
    printEdgeList true header n m out ws order =
      some ((if header then headerLine n (edgesOnce n out).length else []) ++
        ((edgesOnce n out).flatMap edgeLine ++
          (List.replicate (m - (edgesOnce n out).length) (0, 0)).flatMap edgeLine)) := by
  have h2 := (writesOf_eq (listed true out) n).2
  rw [listed_direct] at h2
  have hle : (edgesOnce n out).length ≤ m := by rw [← hm]; exact List.length_filter_le _ _
  rw [printEdgeList_eq true header n m out hn hv hm0 (by omega) ws hw order ho, listed_direct, ← h2]

/-- Hence what is written for an undirected graph with an edge is not the list of its edges: read
back, there is at least one pair too many. -/
theorem C128_direct_refuted (n m : Nat) (out : Nat → List Nat)
    (hn : n ≤ 4294967296) (hv : ∀ i, i < n → ∀ v ∈ out i, v < n ∧ i ∈ out v) (hm0 : 0 < m)
    (hm : (arcs n out).length = m) (ws : List (Nat × (Nat × Nat)))
    (hw : ws.Perm (writesOf (listed true out) (offs (listed true out)) n))
    (order : List Nat) (ho : AM.Schedule (m - 1) order) :
    ∃ k, 0 < k ∧ (printEdgeList true false n m out ws order).map readUnweighted =
      some (edgesOnce n out ++ List.replicate k (0, 0)) := by
  have hv' : ∀ i, i < n → ∀ v ∈ out i, v < 4294967296 := fun i hi v h => by
    have := (hv i hi v h).1; omega
  have hmem : ∀ e ∈ arcs n out, e.1 < n ∧ e.2 ∈ out e.1 := by
    intro e he
    obtain ⟨i, hi, he⟩ := List.mem_flatMap.1 he
    obtain ⟨v, hv', rfl⟩ := List.mem_map.1 he
    exact ⟨List.mem_range.1 hi, hv'⟩
  refine ⟨m - (edgesOnce n out).length, ?_, ?_⟩
  · have hlt : (edgesOnce n out).length < (arcs n out).length := by
      rw [edgesOnce]
      refine Nat.lt_of_le_of_ne (List.length_filter_le _ _) (fun he => ?_)
      rw [List.length_filter_eq_length_iff] at he
      obtain ⟨e, he1⟩ := List.length_pos_iff_exists_mem.1 (by omega : 0 < (arcs n out).length)
      obtain ⟨h1, h2⟩ := hmem e he1
      obtain ⟨h3, h4⟩ := hv _ h1 _ h2
      have hr : (e.2, e.1) ∈ arcs n out :=
        List.mem_flatMap.2 ⟨e.2, List.mem_range.2 h3, List.mem_map.2 ⟨e.1, h4, rfl⟩⟩
      have a1 := he e he1
      have a2 := he _ hr
      simp only [decide_eq_true_eq] at a1 a2
      omega
    omega
  · rw [C128_direct false n m out hn hv' hm0 hm ws hw order ho, Option.map_some, if_neg (by decide),
      List.nil_append, ← List.flatMap_append, C127_read]
    intro e he
    rcases List.mem_append.1 he with he | he
    · obtain ⟨h1, h2⟩ := hmem e (List.mem_filter.1 he).1
      exact ⟨by omega, hv' _ h1 _ h2⟩
    · rw [List.eq_of_mem_replicate he]; exact ⟨by decide, by decide⟩

/-- C128 with `-matrixmarket_format`, for the path 0 - 1 - 2: the lines lack the announced ` 1`, and
two lines `0 0` follow. -/
theorem C128_matrixmarket_refuted (ws : List (Nat × (Nat × Nat)))
    (hw : ws.Perm (writesOf (listed true path3) (offs (listed true path3)) 3))
    (order : List Nat) (ho : AM.Schedule 3 order) :
    printMatrixMarket 3 4 path3 ws order =
      some (headerLine 3 2 ++ ([(0, 1), (1, 2), (0, 0), (0, 0)] : List (Nat × Nat)).flatMap edgeLine) ∧
    printMatrixMarket 3 4 path3 ws order ≠
      some (headerLine 3 2 ++ ([(0, 1, 1), (1, 2, 1)] : List (Nat × Nat × Int)).flatMap weightLine) := by
  have h : printMatrixMarket 3 4 path3 ws order =
      some (headerLine 3 2 ++ ([(0, 1), (1, 2), (0, 0), (0, 0)] : List (Nat × Nat)).flatMap edgeLine) := by
    rw [printMatrixMarket, C128_direct true 3 4 path3 (by decide) (by decide) (by decide) (by decide)
      ws hw order ho]
    decide +kernel
  refine ⟨h, ?_⟩
  rw [h]
  decide +kernel

/-- C128: a graph without edges has no defined output. -/
theorem C128_empty_refuted (direct header : Bool) (n : Nat) (out : Nat → List Nat)
    (ws : List (Nat × (Nat × Nat))) (order : List Nat) :
    printEdgeList direct header n 0 out ws order = none := by
  rw [printEdgeList]
  split
  · simp [seqToString]
  · rfl

theorem schedule_exists (n : Nat) : AM.Schedule n (List.range n) := ⟨List.nodup_range, by simp⟩

example : (∀ i, i < 3 → ∀ v ∈ path3 i, v < 3 ∧ i ∈ path3 v) ∧ (arcs 3 path3).length = 4 ∧
    AM.Schedule 3 (List.range 3) := ⟨by decide, by decide, schedule_exists 3⟩

/-! ## `random_reorder` -/

/-- `std::sort` of the elements `lo .. hi-1` of an array. -/
def sortRange (E : Nat → Nat) (lo hi : Nat) : Nat → Nat := fun k =>
  if lo ≤ k ∧ k < hi then (((List.range' lo (hi - lo)).map E).mergeSort).getD (k - lo) 0 else E k

/-- One iteration, `utils/random_reorder.cc:23-33`; `off` is captured by reference and advanced by
`map_f`.  `none`: the range to sort is invalid. -/
def reorderIter (perm offs : Nat → Nat) (n m : Nat) (out : Nat → List Nat) (E : Nat → Nat) (i : Nat) :
    Option (Nat → Nat) :=
  let off := offs (perm i)
  let nextOff := if perm i = n - 1 then m else offs (perm i + 1)
  let r := (out i).foldl (fun s v => (upd s.1 s.2 (perm v), s.2 + 1)) (E, off)
  if r.2 ≤ nextOff then some (sortRange r.1 r.2 nextOff) else none

/-- `randomReorder`, `utils/random_reorder.cc:9-50`: `perm` is the random permutation, `order1`,
`order2` the orders of the two loops (an iteration of the second one is atomic: iterations access
different elements), `order3`, `order4` those of the two calls of `sequence_to_string`.  `uintT` is
64 bits wide (`GBBSLONG`). -/
def randomReorder (n m : Nat) (out : Nat → List Nat) (perm : Nat → Nat)
    (order1 order2 order3 order4 : List Nat) : Option (List Nat) := do
  let degs := fill 0 (order1.map fun i => (perm i, (out i).length))
  let offs := AM.scan degs
  let E ← order2.foldlM (reorderIter perm offs n m out) (fun _ => 0)
  let offChars ← seqToString ulongP ((List.range n).map offs) order3
  let edgeChars ← seqToString uintP ((List.range m).map E) order4
  some (line header ++ (line (dec n) ++ (line (dec m) ++ (offChars ++ edgeChars))))

/-- `perm` is a permutation of `[0, n)` with inverse `q`. -/
structure IsPerm (n : Nat) (perm q : Nat → Nat) : Prop where
  lt : ∀ i, i < n → perm i < n
  qlt : ∀ j, j < n → q j < n
  left : ∀ i, i < n → q (perm i) = i
  right : ∀ j, j < n → perm (q j) = j

theorem foldl_put (perm : Nat → Nat) (l : List Nat) (E : Nat → Nat) (off : Nat) :
    l.foldl (fun s v => (upd s.1 s.2 (perm v), s.2 + 1)) (E, off) =
      (((l.map perm).zipIdx.map fun e => (off + e.2, e.1)).foldl (fun a w => upd a w.1 w.2) E,
        off + l.length) := by
  induction l generalizing E off with
  | nil => rfl
  | cons v l ih =>
    rw [List.foldl_cons, ih, List.map_cons, List.zipIdx_cons, List.map_cons, List.foldl_cons]
    refine Prod.ext ?_ (by simp; omega)
    dsimp only
    congr 1
    rw [Nat.zero_add, List.zipIdx_eq_map_add (i := 1), List.map_map]
    refine List.map_congr_left (fun e _ => ?_)
    simp; omega

theorem sortRange_empty (E : Nat → Nat) (lo : Nat) : sortRange E lo lo = E := by
  funext k; rw [sortRange, if_neg (by omega)]

theorem scan_congr {f g : Nat → Nat} {n : Nat} (h : ∀ i, i < n → f i = g i) :
    ∀ k, k ≤ n → AM.scan f k = AM.scan g k := by
  intro k hk
  induction k with
  | zero => rfl
  | succ k ih => rw [AM.scan, AM.scan, ih (by omega), h k (by omega)]

theorem exclusive_scan (f : Nat → Nat) (n : Nat) :
    ∀ a, exclusive a ((List.range n).map f) = (List.range n).map fun i => a + AM.scan f i := by
  intro a
  refine List.ext_getElem? (fun i => ?_)
  by_cases hi : i < n
  · rw [exclusive_getElem? a _ i (by simpa using hi)]
    simp only [List.getElem?_map, List.getElem?_range hi, Option.map_some, Option.some.injEq]
    congr 1
    have : ∀ k, k ≤ n → (((List.range n).map f).take k).sum = AM.scan f k := by
      intro k hk
      rw [← List.map_take, List.take_range, Nat.min_eq_left hk]
      clear hk
      induction k with
      | zero => rfl
      | succ k ih => rw [List.range_succ, List.map_append, List.sum_append, ih, AM.scan]; simp
    exact this i (by omega)
  · rw [List.getElem?_eq_none (by rw [exclusive_length]; simp; omega),
      List.getElem?_eq_none (by simp; omega)]

/-- The lists of the reordered graph as they are written: vertex `j` is the old vertex `q j`. -/
def reordered (n : Nat) (out : Nat → List Nat) (perm q : Nat → Nat) : List (List Nat) :=
  (List.range n).map fun j => (out (q j)).map perm

/-- The file, for every graph with a vertex and an arc, permutation and order of execution: nothing
is sorted. -/
theorem randomReorder_eq (n m : Nat) (out : Nat → List Nat) (perm q : Nat → Nat)
    (hn : n ≤ 4294967296) (hm : (arcs n out).length = m) (hm0 : 0 < m) (hm64 : m < 18446744073709551616)
    (hv : ∀ i, i < n → ∀ v ∈ out i, v < n) (hp : IsPerm n perm q)
    (order1 order2 order3 order4 : List Nat) (h1 : AM.Schedule n order1) (h2 : AM.Schedule n order2)
    (h3 : AM.Schedule (n - 1) order3) (h4 : AM.Schedule (m - 1) order4) :
    randomReorder n m out perm order1 order2 order3 order4 =
      some (write (reordered n out perm q)) := by
  have hn0 : n ≠ 0 := by
    rintro rfl; simp [arcs] at hm; omega
  -- the degrees
  have hperm1 : (order1.map fun i => (perm i, (out i).length)).Perm
      (((List.range n).map fun j => (out (q j)).length).zipIdx.map fun e => (e.2, e.1)) := by
    have e : (((List.range n).map fun j => (out (q j)).length).zipIdx.map fun e => (e.2, e.1)) =
        ((List.range n).map q).map fun i => (perm i, (out i).length) := by
      refine List.ext_getElem (by simp) (fun k hk1 hk2 => ?_)
      simp only [List.length_map, List.length_zipIdx, List.length_range] at hk1
      simp [hp.right k hk1]
    rw [e]
    refine List.Perm.map _ ?_
    refine (List.perm_ext_iff_of_nodup h1.1 ?_).2 (fun i => ?_)
    · rw [List.nodup_map_iff_inj_on List.nodup_range]
      intro x hx y hy hxy
      rw [List.mem_range] at hx hy
      rw [← hp.right x hx, ← hp.right y hy, hxy]
    · rw [h1.2, List.mem_map]
      constructor
      · intro hi; exact ⟨perm i, List.mem_range.2 (hp.lt i hi), hp.left i hi⟩
      · rintro ⟨j, hj, rfl⟩; exact hp.qlt j (List.mem_range.1 hj)
  have hdeg := fill_eq 0 _ _ hperm1 n (by simp)
  have hdeg' : ∀ j, j < n → fill 0 (order1.map fun i => (perm i, (out i).length)) j =
      (out (q j)).length := by
    intro j hj
    have := congrArg (fun l => l[j]?) hdeg
    simpa [List.getElem?_append, hj] using this
  have hoff : ∀ k, k ≤ n → AM.scan (fill 0 (order1.map fun i => (perm i, (out i).length))) k =
      offs (fun j => (out (q j)).map perm) k := by
    intro k hk
    rw [offs]
    exact scan_congr (fun j hj => by rw [hdeg' j hj, List.length_map]) k hk
  -- the number of arcs
  have hperm : ((List.range n).map q).Perm (List.range n) := by
    refine (List.perm_ext_iff_of_nodup ?_ List.nodup_range).2 (fun i => ?_)
    · rw [List.nodup_map_iff_inj_on List.nodup_range]
      intro x hx y hy hxy
      rw [List.mem_range] at hx hy
      rw [← hp.right x hx, ← hp.right y hy, hxy]
    · rw [List.mem_range, List.mem_map]
      constructor
      · rintro ⟨j, hj, rfl⟩; exact hp.qlt j (List.mem_range.1 hj)
      · intro hi; exact ⟨perm i, List.mem_range.2 (hp.lt i hi), hp.left i hi⟩
  have htot : offs (fun j => (out (q j)).map perm) n = m := by
    rw [← (writesOf_eq (fun j => (out (q j)).map perm) n).2, ← hm, arcs, List.length_flatMap,
      List.length_flatMap]
    have : (List.range n).map (fun a => ((out (q a)).map perm).length) =
        ((List.range n).map q).map fun i => ((out i).map fun v => (i, v)).length := by
      rw [List.map_map]; exact List.map_congr_left (fun _ _ => by simp)
    rw [this]
    exact (hperm.map _).sum_nat
  -- the loop
  have hiter : ∀ E i, i < n → reorderIter perm
      (AM.scan (fill 0 (order1.map fun i => (perm i, (out i).length)))) n m out E i =
      some ((((out i).map perm).zipIdx.map fun e =>
        (offs (fun j => (out (q j)).map perm) (perm i) + e.2, e.1)).foldl
          (fun a w => upd a w.1 w.2) E) := by
    intro E i hi
    have hpi := hp.lt i hi
    rw [reorderIter]
    rw [foldl_put, hoff _ (by omega)]
    have hnext : (if perm i = n - 1 then m else
        AM.scan (fill 0 (order1.map fun i => (perm i, (out i).length))) (perm i + 1)) =
        offs (fun j => (out (q j)).map perm) (perm i) + (out i).length := by
      have hs : offs (fun j => (out (q j)).map perm) (perm i + 1) =
          offs (fun j => (out (q j)).map perm) (perm i) + (out i).length := by
        show AM.scan _ _ = _
        rw [AM.scan]
        dsimp only
        rw [hp.left i hi, List.length_map]; rfl
      by_cases hlast : perm i = n - 1
      · rw [if_pos hlast, ← hs, show perm i + 1 = n by omega, htot]
      · rw [if_neg hlast, hoff _ (by omega), hs]
    rw [hnext]
    dsimp only
    rw [if_pos (Nat.le_refl _), sortRange_empty]
  have hloop : ∀ (l : List Nat) E, (∀ i ∈ l, i < n) → l.foldlM (reorderIter perm
      (AM.scan (fill 0 (order1.map fun i => (perm i, (out i).length)))) n m out) E =
      some ((l.flatMap fun i => ((out i).map perm).zipIdx.map fun e =>
        (offs (fun j => (out (q j)).map perm) (perm i) + e.2, e.1)).foldl
          (fun a w => upd a w.1 w.2) E) := by
    intro l
    induction l with
    | nil => intro E _; rfl
    | cons i l ih =>
      intro E hl
      rw [List.foldlM_cons, hiter E i (hl i (by simp))]
      show l.foldlM _ _ = _
      rw [ih _ (fun x hx => hl x (by simp [hx])), List.flatMap_cons, List.foldl_append]
  have hws : (order2.flatMap fun i => ((out i).map perm).zipIdx.map fun e =>
      (offs (fun j => (out (q j)).map perm) (perm i) + e.2, e.1)).Perm
      (writesOf (fun j => (out (q j)).map perm) (offs fun j => (out (q j)).map perm) n) := by
    have e : writesOf (fun j => (out (q j)).map perm) (offs fun j => (out (q j)).map perm) n =
        ((List.range n).map q).flatMap fun i => ((out i).map perm).zipIdx.map fun e =>
          (offs (fun j => (out (q j)).map perm) (perm i) + e.2, e.1) := by
      rw [writesOf, List.flatMap_map]
      simp only [List.flatMap]
      congr 1
      refine List.map_congr_left (fun j hj => ?_)
      rw [hp.right j (List.mem_range.1 hj)]
    rw [e]
    refine List.Perm.flatMap_right _ ?_
    refine List.Perm.trans ?_ hperm.symm
    exact (List.perm_ext_iff_of_nodup h2.1 List.nodup_range).2 (fun i => by
      rw [h2.2, List.mem_range])
  have hE := filled 0 (fun j => (out (q j)).map perm) n m _ hws (by omega)
  rw [htot, Nat.sub_self, List.replicate_zero, List.append_nil] at hE
  have hoffs : (List.range n).map (AM.scan (fill 0 (order1.map fun i => (perm i, (out i).length)))) =
      exclusive 0 ((reordered n out perm q).map List.length) := by
    rw [reordered, List.map_map, exclusive_scan]
    refine List.map_congr_left (fun j hj => ?_)
    rw [hoff j (by have := List.mem_range.1 hj; omega), Nat.zero_add]
    rfl
  rw [randomReorder, hloop order2 _ (fun i hi => (h2.2 i).1 hi)]
  simp only [Option.bind_eq_bind, Option.bind_some]
  rw [seqToString_eq ulongP_fits.good _ _ _ order3 (by simpa using h3), Option.bind_some]
  rotate_left
  · intro x hx
    obtain ⟨j, hj, rfl⟩ := List.mem_map.1 hx
    have hj := List.mem_range.1 hj
    rw [hoff j (by omega)]
    have : offs (fun j => (out (q j)).map perm) j ≤ offs (fun j => (out (q j)).map perm) n :=
      AM.scan_mono _ (by omega)
    omega
  · intro e; have := congrArg List.length e; simp at this; omega
  have hfl : (List.range m).map ((order2.flatMap fun i => ((out i).map perm).zipIdx.map fun e =>
      (offs (fun j => (out (q j)).map perm) (perm i) + e.2, e.1)).foldl
        (fun a w => upd a w.1 w.2) fun _ => 0) = (List.range n).flatMap fun j => (out (q j)).map perm := hE
  rw [hfl]
  have hlen := (writesOf_eq (fun j => (out (q j)).map perm) n).2
  rw [seqToString_eq uintP_fits.good _ _ _ order4 (by rw [hlen, htot]; exact h4), Option.bind_some]
  · rw [write, hoffs]
    have e1 : (reordered n out perm q).length = n := by simp [reordered]
    have e2 : ((reordered n out perm q).map List.length).sum = m := by
      rw [← htot, ← hlen, List.length_flatMap, reordered, List.map_map]; rfl
    rw [e1, e2]
    simp only [List.append_assoc, Option.some.injEq]
    congr 4
    simp only [reordered, List.flatMap_map, List.flatMap_assoc, line]
  · intro x hx
    obtain ⟨j, hj, hx⟩ := List.mem_flatMap.1 hx
    obtain ⟨v, hv', rfl⟩ := List.mem_map.1 hx
    have := hp.lt v (hv _ (hp.qlt j (List.mem_range.1 hj)) v hv')
    omega
  · intro e
    rw [e] at hlen
    simp at hlen; omega

/-- C129: the file is loaded as the graph in which vertex `i` is renamed to `perm i`; the lists are
in the order of the input. -/
theorem C129_partial (n m : Nat) (out : Nat → List Nat) (perm q : Nat → Nat)
    (hn : n ≤ 4294967296) (hm : (arcs n out).length = m) (hm0 : 0 < m) (hm64 : m < 18446744073709551616)
    (hv : ∀ i, i < n → ∀ v ∈ out i, v < n) (hd : ∀ i, i < n → (out i).length < 4294967296)
    (hp : IsPerm n perm q)
    (order1 order2 order3 order4 : List Nat) (h1 : AM.Schedule n order1) (h2 : AM.Schedule n order2)
    (h3 : AM.Schedule (n - 1) order3) (h4 : AM.Schedule (m - 1) order4) :
    ∃ file nb, randomReorder n m out perm order1 order2 order3 order4 = some file ∧
      (parse file none).map adj = some nb ∧ nb.length = n ∧
      ∀ i, i < n → nb[perm i]? = some ((out i).map perm) := by
  refine ⟨_, reordered n out perm q,
    randomReorder_eq n m out perm q hn hm hm0 hm64 hv hp order1 order2 order3 order4 h1 h2 h3 h4,
    ?_, by simp [reordered], fun i hi => ?_⟩
  · have e2 : ((reordered n out perm q).map List.length).sum = m := by
      have hperm : ((List.range n).map q).Perm (List.range n) := by
        refine (List.perm_ext_iff_of_nodup ?_ List.nodup_range).2 (fun i => ?_)
        · rw [List.nodup_map_iff_inj_on List.nodup_range]
          intro x hx y hy hxy
          rw [List.mem_range] at hx hy
          rw [← hp.right x hx, ← hp.right y hy, hxy]
        · rw [List.mem_range, List.mem_map]
          constructor
          · rintro ⟨j, hj, rfl⟩; exact hp.qlt j (List.mem_range.1 hj)
          · intro hi; exact ⟨perm i, List.mem_range.2 (hp.lt i hi), hp.left i hi⟩
      rw [← hm, arcs, List.length_flatMap, reordered, List.map_map]
      have : (List.range n).map (List.length ∘ fun j => (out (q j)).map perm) =
          ((List.range n).map q).map fun i => ((out i).map fun v => (i, v)).length := by
        rw [List.map_map]; exact List.map_congr_left (fun _ _ => by simp)
      rw [this]
      exact (hperm.map _).sum_nat
    refine write_read _ (by simp [reordered]; omega) (by omega) ?_ ?_
    · intro l hl v hv'
      obtain ⟨j, hj, rfl⟩ := List.mem_map.1 hl
      obtain ⟨w, hw, rfl⟩ := List.mem_map.1 hv'
      have := hp.lt w (hv _ (hp.qlt j (List.mem_range.1 hj)) w hw)
      omega
    · intro l hl
      obtain ⟨j, hj, rfl⟩ := List.mem_map.1 hl
      rw [List.length_map]
      exact hd _ (hp.qlt j (List.mem_range.1 hj))
  · rw [reordered, List.getElem?_map, List.getElem?_range (hp.lt i hi), Option.map_some, hp.left i hi]

/-- C129: whenever the permutation reverses two neighbours of a vertex, the list of that vertex in
the file is not sorted. -/
theorem C129_refuted (n m : Nat) (out : Nat → List Nat) (perm q : Nat → Nat)
    (hn : n ≤ 4294967296) (hm : (arcs n out).length = m) (hm0 : 0 < m) (hm64 : m < 18446744073709551616)
    (hv : ∀ i, i < n → ∀ v ∈ out i, v < n) (hd : ∀ i, i < n → (out i).length < 4294967296)
    (hp : IsPerm n perm q) (i a b : Nat) (hi : i < n) (hab : [a, b].Sublist (out i))
    (hrev : perm b < perm a)
    (order1 order2 order3 order4 : List Nat) (h1 : AM.Schedule n order1) (h2 : AM.Schedule n order2)
    (h3 : AM.Schedule (n - 1) order3) (h4 : AM.Schedule (m - 1) order4) :
    ∃ file nb l, randomReorder n m out perm order1 order2 order3 order4 = some file ∧
      (parse file none).map adj = some nb ∧ nb[perm i]? = some l ∧ ¬ l.Pairwise (· ≤ ·) := by
  obtain ⟨file, nb, e1, e2, _, e3⟩ := C129_partial n m out perm q hn hm hm0 hm64 hv hd hp
    order1 order2 order3 order4 h1 h2 h3 h4
  refine ⟨file, nb, _, e1, e2, e3 i hi, fun hs => ?_⟩
  have := List.Pairwise.sublist (hab.map perm) hs
  simp at this
  omega

/-- C129: without an arc the output is undefined. -/
theorem C129_empty_refuted (n : Nat) (out : Nat → List Nat) (perm : Nat → Nat)
    (order1 order2 order3 order4 : List Nat) :
    randomReorder n 0 out perm order1 order2 order3 order4 = none := by
  rw [randomReorder]
  have : ∀ E order, seqToString uintP ((List.range 0).map E) order = none := fun _ _ => rfl
  simp only [this, Option.bind_eq_bind, Option.bind_none]
  rw [Option.bind_eq_none_iff]
  intro E _
  rw [Option.bind_eq_none_iff]
  intro s _
  rfl

/-- Vertices 0 and 2 of the path exchanged. -/
def swap02 : Nat → Nat := fun i => if i = 0 then 2 else if i = 2 then 0 else i

example : IsPerm 3 swap02 swap02 ∧ (∀ i, i < 3 → ∀ v ∈ path3 i, v < 3) ∧
    (∀ i, i < 3 → (path3 i).length < 4294967296) ∧ (arcs 3 path3).length = 4 ∧
    [0, 2].Sublist (path3 1) ∧ swap02 2 < swap02 0 :=
  ⟨⟨by decide, by decide, by decide, by decide⟩, by decide, by decide, by decide, by decide, by decide⟩

end Gbbs.EdgeList
