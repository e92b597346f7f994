/-
C145: `relabel_graph`, `benchmarks/CliqueCounting/relabel.h:30-213`, and two of the orderings it is called with, `benchmarks/CliqueCounting/Clique.h:51-88`.
-/
import Verif.Graph.Mutate
import Verif.Graph.MutateByte
import Verif.Clique.Graph
import Mathlib.Data.List.Sort

namespace Gbbs.RelabelG

open Gbbs Gbbs.Byte EncSpec

variable {W : Type}

/-! ### Model -/

/-- `parlay::stable_sort_inplace` with the comparison of the first components, `relabel.h:61-64`, `:113-116` and `:190-194` (trusted; the result of a stable
sort is unique). -/
def stableSort (l : List (Nat × W)) : List (Nat × W) := l.insertionSort fun a b => a.1 ≤ b.1

/-- The edges of `i` that satisfy the predicate, in order: `f` in `relabel.h:51-58`, `filter_out` in `:179-185`. -/
def kept (pred : Nat → Nat → W → Bool) (adj : Nat → List (Nat × W)) (i : Nat) : List (Nat × W) := (adj i).filter fun e => pred i e.1 e.2

/-- `std::make_tuple(rank[v], w)`, `relabel.h:53` and `:187-188`. -/
def ren (rank : Nat → Nat) (e : Nat × W) : Nat × W := (rank e.1, e.2)

/-- The body of the second loop of the uncompressed version for vertex `i`, `relabel.h:170-196`: filter into the new array at `out_offset`, rename the
`true_deg` entries there, sort them there. -/
def relBody (rank : Nat → Nat) (pred : Nat → Nat → W → Bool) (adj : Nat → List (Nat × W)) (offs : Nat → Nat) (out : Nat → Nat × W) (i : Nat) : Nat → Nat × W :=
  let off := offs (rank i)
  let trueDeg := offs (rank i + 1) - off
  if 0 < (adj i).length then
    let a := writeAt out off (kept pred adj i)
    let b := fun x => if off ≤ x ∧ x < off + trueDeg then ren rank (a x) else a x
    writeAt b off (stableSort (slice b off trueDeg))
  else out

/-- The uncompressed version, `relabel.h:141-213`: the counts are stored at `rank[i]` (in the order `o1`, `junkO` is the uninitialised array), scanned (`uintT`
is 64 bits wide and taken as unbounded), the lists are written (in the order `o2`, `junk` is the new array). Result: the graph and the number of edges. -/
def relabel (n : Nat) (rank : Nat → Nat) (pred : Nat → Nat → W → Bool) (o1 o2 : List Nat) (junkO : Nat → Nat) (junk : Nat → Nat × W)
    (adj : Nat → List (Nat × W)) : Mutate.Mem (Nat × W) × Nat :=
  let cnt := upd (o1.foldl (fun a i => upd a (rank i) (if 0 < (adj i).length then (kept pred adj i).length else 0)) junkO) n 0
  let offs := exScan cnt
  (⟨o2.foldl (relBody rank pred adj offs) junk, offs, fun i => offs (i + 1) - offs i⟩, exScan cnt (n + 1))

/-- `tmp_edges` after the sort, `relabel.h:47-64` and `:101-116`. -/
def tmpEdges (rank : Nat → Nat) (pred : Nat → Nat → W → Bool) (adj : Nat → List (Nat × W)) (i : Nat) : List (Nat × W) :=
  stableSort ((kept pred adj i).map (ren rank))

/-- One round of the loop that sums up the bytes, `relabel.h:68-81`; `tmp` is the scratch buffer. -/
def byteStep (c : WCodec W) (tmp : Mem) (src : Nat) (s : MutateByte.Sz) (e : Nat × W) : MutateByte.Sz :=
  let p := if s.deg = 0 then compressFirstEdge tmp 0 src e.1 else compressEdge tmp 0 ((e.1 + (uintEMod - s.last)) % uintEMod)
  ⟨s.total + (c.compress p.1 p.2 e.2).2, e.1, s.deg + 1⟩

/-- `total_bytes`, `relabel.h:68-81`. -/
def totalBytes (c : WCodec W) (tmp : Mem) (src : Nat) (l : List (Nat × W)) : Nat := (l.foldl (byteStep c tmp src) ⟨0, 0, 0⟩).total

/-- The compressed version, `relabel.h:30-138`; `o1`, `o2`, `o3` are the orders of the three loops, `junkB`, `junk`, `junkD` the uninitialised arrays. The input
is given by its lists (`map(f, false)` visits the edges in order). The second component of the result is `last_offset`. -/
def relabelByte (c : WCodec W) (n : Nat) (rank : Nat → Nat) (pred : Nat → Nat → W → Bool) (tmp : Mem) (o1 o2 o3 : List Nat) (junkB : Nat → Nat) (junk : Mem)
    (junkD : Nat → Nat) (adj : Nat → List (Nat × W)) : MutateByte.BGraph × Nat :=
  let degrees := fun i => (tmpEdges rank pred adj i).length
  let bytes := upd (o1.foldl (fun a i => upd a (rank i) (totalBytes c tmp (rank i) (tmpEdges rank pred adj i))) junkB) n 0
  let offs := exScan bytes
  let edges := o2.foldl (fun m i => if degrees i > 0 then (sequentialCompressEdgeSet c m (offs (rank i)) (rank i) (tmpEdges rank pred adj i)).1 else m) junk
  (⟨edges, offs, o3.foldl (fun a i => upd a (rank i) (degrees i)) junkD, exScan degrees n⟩, exScan bytes (n + 1))

/-- `get_ordering` for `order_type` 2, `Clique.h:77-82`: the vertices sorted by core number (`integer_sort_inplace` is stable), returned as `rank`. -/
def coreOrdering (n : Nat) (core : Nat → Nat) : List Nat := (List.range n).insertionSort fun a b => core a ≤ core b

/-- `degreeOrderNodes`, `Clique.h:51-67` (`order_type` 3): the vertices sorted by degree, then `r[o[i]] = i` in the order `s`. -/
def degreeOrdering (n : Nat) (deg : Nat → Nat) (s : List Nat) (junk : Nat → Nat) : Nat → Nat :=
  let o := (List.range n).insertionSort fun a b => deg a ≤ deg b
  s.foldl (fun r i => upd r (o.getD i 0) i) junk

/-! ### Specification -/

/-- `out` are the lists of the graph that arises from `adj` by keeping the edges that satisfy `pred` and renaming every vertex `v` to `rank v`; the lists are
sorted, and parallel edges are in the old order. -/
structure Relabelled (n : Nat) (rank : Nat → Nat) (pred : Nat → Nat → W → Bool) (adj out : Nat → List (Nat × W)) : Prop where
  edges : ∀ i < n, (out (rank i)).Perm (((adj i).filter fun e => pred i e.1 e.2).map fun e => (rank e.1, e.2))
  sorted : ∀ i < n, (out (rank i)).Pairwise fun a b => a.1 ≤ b.1
  stable : ∀ i < n, ∀ x, (out (rank i)).filter (fun e => e.1 == x) = (((adj i).filter fun e => pred i e.1 e.2).map fun e => (rank e.1, e.2)).filter fun e => e.1 == x

/-- `rank` is a permutation of `0..n-1`. -/
def IsPerm (n : Nat) (rank : Nat → Nat) : Prop := (∀ i < n, rank i < n) ∧ ∀ i < n, ∀ j < n, rank i = rank j → i = j

/-! ### Sorting -/

instance : Std.Total (α := Nat × W) fun a b => a.1 ≤ b.1 := ⟨fun a b => Nat.le_total a.1 b.1⟩
instance : IsTrans (Nat × W) fun a b => a.1 ≤ b.1 := ⟨fun _ _ _ h k => Nat.le_trans h k⟩

theorem perm_sort (l : List (Nat × W)) : (stableSort l).Perm l := List.perm_insertionSort _ l

theorem pairwise_sort (l : List (Nat × W)) : (stableSort l).Pairwise fun a b => a.1 ≤ b.1 := List.pairwise_insertionSort _ l

theorem filter_insert (e : Nat × W) (x : Nat) (l : List (Nat × W)) :
    (l.orderedInsert (fun a b => a.1 ≤ b.1) e).filter (fun e => e.1 == x) = (e :: l).filter fun e => e.1 == x := by
  induction l with
  | nil => rfl
  | cons d l ih =>
    rw [List.orderedInsert]
    split
    · rfl
    · rename_i h
      rw [List.filter_cons, ih]
      by_cases hd : d.1 = x
      · have he : ¬ e.1 = x := fun he => h (by omega)
        simp [hd, he]
      · simp [List.filter_cons, hd]

theorem stable_sort (x : Nat) (l : List (Nat × W)) : (stableSort l).filter (fun e => e.1 == x) = l.filter fun e => e.1 == x := by
  induction l with
  | nil => rfl
  | cons e l ih =>
    show ((stableSort l).orderedInsert _ e).filter _ = _
    rw [filter_insert, List.filter_cons, List.filter_cons, ih]

/-! ### Renaming -/

/-- The list that vertex `x` of the result gets. -/
def newAdj (n : Nat) (rank : Nat → Nat) (pred : Nat → Nat → W → Bool) (adj : Nat → List (Nat × W)) (x : Nat) : List (Nat × W) :=
  match (List.range n).find? fun i => decide (rank i = x) with
  | some i => tmpEdges rank pred adj i
  | none => []

theorem newAdj_rank {n : Nat} {rank : Nat → Nat} (hr : IsPerm n rank) (pred : Nat → Nat → W → Bool) (adj : Nat → List (Nat × W)) {i : Nat} (hi : i < n) :
    newAdj n rank pred adj (rank i) = tmpEdges rank pred adj i := by
  rw [newAdj]
  split
  · rename_i j hj
    have h1 : rank j = rank i := by simpa using List.find?_some hj
    have h2 := List.mem_range.1 (List.mem_of_find?_eq_some hj)
    rw [hr.2 j h2 i hi h1]
  · rename_i hj
    exact absurd (List.find?_eq_none.1 hj i (List.mem_range.2 hi)) (by simp)

theorem relabelled_of {n : Nat} {rank : Nat → Nat} {pred : Nat → Nat → W → Bool} {adj out : Nat → List (Nat × W)}
    (h : ∀ i < n, out (rank i) = tmpEdges rank pred adj i) : Relabelled n rank pred adj out :=
  ⟨fun i hi => by rw [h i hi]; exact perm_sort _, fun i hi => by rw [h i hi]; exact pairwise_sort _, fun i hi x => by rw [h i hi]; exact stable_sort x _⟩

/-- A permutation is onto. -/
theorem IsPerm.sched {n : Nat} {rank : Nat → Nat} (hr : IsPerm n rank) {o : List Nat} (ho : Sched n o) : Sched n (o.map rank) := by
  have hnd : (o.map rank).Nodup := (List.nodup_map_iff_inj_on ho.1).2 fun i hi j hj he => hr.2 i ((ho.2 i).1 hi) j ((ho.2 j).1 hj) he
  refine ⟨hnd, fun x => ⟨fun hx => ?_, fun hx => ?_⟩⟩
  · obtain ⟨i, hi, rfl⟩ := List.mem_map.1 hx
    exact hr.1 i ((ho.2 i).1 hi)
  · have hsub : o.map rank ⊆ List.range n := fun y hy => by
      obtain ⟨i, hi, rfl⟩ := List.mem_map.1 hy
      exact List.mem_range.2 (hr.1 i ((ho.2 i).1 hi))
    have hlen : (List.range n).length ≤ (o.map rank).length := by
      rw [List.length_map, ho.perm.length_eq]
    exact ((List.subperm_of_subset hnd hsub).perm_of_length_le hlen).mem_iff.2 (List.mem_range.2 hx)

theorem IsPerm.onto {n : Nat} {rank : Nat → Nat} (hr : IsPerm n rank) {x : Nat} (hx : x < n) : ∃ i < n, rank i = x := by
  obtain ⟨i, hi, rfl⟩ := List.mem_map.1 (((hr.sched (sched_range n)).2 x).2 hx)
  exact ⟨i, List.mem_range.1 hi, rfl⟩

theorem isPerm_of_perm {n : Nat} {rank : Nat → Nat} (h : ((List.range n).map rank).Perm (List.range n)) : IsPerm n rank :=
  ⟨fun i hi => List.mem_range.1 (h.mem_iff.1 (List.mem_map.2 ⟨i, List.mem_range.2 hi, rfl⟩)),
    fun _ hi _ hj he => List.inj_on_of_nodup_map (h.nodup_iff.2 List.nodup_range) (List.mem_range.2 hi) (List.mem_range.2 hj) he⟩

/-- Storing at renamed positions. -/
theorem foldl_upd {α : Type} {rank : Nat → Nat} {g : Nat → α} {o : List Nat} (hinj : ∀ i ∈ o, ∀ j ∈ o, rank i = rank j → i = j) (a : Nat → α) {i : Nat}
    (hi : i ∈ o) : o.foldl (fun a i => upd a (rank i) (g i)) a (rank i) = g i := by
  induction o using List.reverseRecOn generalizing i with
  | nil => cases hi
  | append_singleton o j ih =>
    rw [List.foldl_append, List.foldl_cons, List.foldl_nil]
    by_cases hr : rank i = rank j
    · rw [hr, upd_same, hinj i hi j (by simp) hr]
    · rw [upd_of_ne _ _ hr]
      refine ih (fun a ha b hb => hinj a (by simp [ha]) b (by simp [hb])) ?_
      rcases List.mem_append.1 hi with h | h
      · exact h
      · rw [List.mem_singleton.1 h] at hr; exact absurd rfl hr

theorem stored {α : Type} {n : Nat} {rank : Nat → Nat} (hr : IsPerm n rank) {o : List Nat} (ho : Sched n o) {g : Nat → α} (a : Nat → α) {i : Nat} (hi : i < n) :
    o.foldl (fun a i => upd a (rank i) (g i)) a (rank i) = g i :=
  foldl_upd (fun _ hi _ hj => hr.2 _ ((ho.2 _).1 hi) _ ((ho.2 _).1 hj)) a ((ho.2 i).2 hi)

theorem foldl_congr' {α β : Type} {f g : β → α → β} {l : List α} (b : β) (h : ∀ b, ∀ a ∈ l, f b a = g b a) : l.foldl f b = l.foldl g b := by
  induction l generalizing b with
  | nil => rfl
  | cons a l ih => rw [List.foldl_cons, List.foldl_cons, h b a List.mem_cons_self]; exact ih _ fun b c hc => h b c (List.mem_cons_of_mem _ hc)

/-- Sums over renamed positions. -/
theorem exScan_rank {n : Nat} {rank : Nat → Nat} (hr : IsPerm n rank) {f g : Nat → Nat} (h : ∀ i < n, f (rank i) = g i) : exScan f n = exScan g n := by
  have key : ∀ (k : Nat) (f : Nat → Nat), exScan f k = ((List.range k).map f).sum := by
    intro k f
    induction k with
    | zero => rfl
    | succ k ih => rw [exScan, ih, List.range_succ, List.map_append, List.sum_append]; simp
  have hp : ((List.range n).map rank).Perm (List.range n) := (hr.sched (sched_range n)).perm
  rw [key, key, ← (hp.map f).sum_eq, List.map_map]
  congr 1
  exact List.map_congr_left fun i hi => h i (List.mem_range.1 hi)

/-! ### Uncompressed -/

theorem length_tmp (rank : Nat → Nat) (pred : Nat → Nat → W → Bool) (adj : Nat → List (Nat × W)) (i : Nat) :
    (tmpEdges rank pred adj i).length = (kept pred adj i).length := by
  rw [tmpEdges, (perm_sort _).length_eq, List.length_map]

/-- Filtering, renaming and sorting in place writes the sorted list. -/
theorem body_eq {rank : Nat → Nat} {pred : Nat → Nat → W → Bool} {adj : Nat → List (Nat × W)} {offs : Nat → Nat} {i : Nat}
    (h : offs (rank i + 1) - offs (rank i) = (kept pred adj i).length) (out : Nat → Nat × W) :
    relBody rank pred adj offs out i = writeAt out (offs (rank i)) (tmpEdges rank pred adj i) := by
  rw [relBody]
  simp only [h]
  by_cases h0 : 0 < (adj i).length
  · rw [if_pos h0]
    set off := offs (rank i)
    set K := kept pred adj i with hK
    set b : Nat → Nat × W := fun x => if off ≤ x ∧ x < off + K.length then ren rank (writeAt out off K x) else writeAt out off K x with hb
    have hs : slice b off K.length = K.map (ren rank) := by
      have h1 : slice b off K.length = (slice (writeAt out off K) off K.length).map (ren rank) := by
        rw [slice, slice, List.map_map]
        refine List.map_congr_left fun x hx => ?_
        rw [List.mem_range'_1] at hx
        simp only [hb, Function.comp]
        rw [if_pos ⟨hx.1, hx.2⟩]
      rw [h1, slice_writeAt]
    rw [hs]
    show writeAt b off (tmpEdges rank pred adj i) = _
    funext x
    by_cases hx : x < off ∨ off + (tmpEdges rank pred adj i).length ≤ x
    · rw [writeAt_outside _ _ _ hx, writeAt_outside _ _ _ hx]
      rw [length_tmp, ← hK] at hx
      simp only [hb]
      rw [if_neg (by omega), writeAt_outside _ _ _ hx]
    · have h2 : x - off < (tmpEdges rank pred adj i).length := by omega
      rw [writeAt_apply, writeAt_apply, if_pos (by omega), if_pos (by omega), List.getElem?_eq_getElem h2]
      rfl
  · rw [if_neg h0]
    have : adj i = [] := List.length_eq_zero_iff.1 (by omega)
    simp [tmpEdges, kept, this, stableSort, writeAt]

theorem cnt_rank {n : Nat} {rank : Nat → Nat} (hr : IsPerm n rank) {o1 : List Nat} (h1 : Sched n o1) (pred : Nat → Nat → W → Bool)
    (adj : Nat → List (Nat × W)) (junkO : Nat → Nat) {x : Nat} (hx : x < n) :
    upd (o1.foldl (fun a i => upd a (rank i) (if 0 < (adj i).length then (kept pred adj i).length else 0)) junkO) n 0 x = (newAdj n rank pred adj x).length := by
  obtain ⟨i, hi, rfl⟩ := hr.onto hx
  rw [upd_of_ne _ _ (by omega), stored hr h1 _ hi, newAdj_rank hr _ _ hi, length_tmp]
  split
  · rfl
  · have : adj i = [] := List.length_eq_zero_iff.1 (by omega)
    simp [kept, this]

/-- **C145, uncompressed graphs.** If `rank` is a permutation, `relabel_graph(GA, rank, pred)` is, for all schedules and contents of the new arrays, the graph
with the edges that satisfy the predicate and every vertex `v` renamed to `rank[v]`, all lists sorted; its number of edges is the number of those edges; and
nothing is written outside the new array. -/
theorem C145_uncompressed {n : Nat} {rank : Nat → Nat} (hr : IsPerm n rank) (pred : Nat → Nat → W → Bool) {o1 o2 : List Nat} (h1 : Sched n o1)
    (h2 : Sched n o2) (junkO : Nat → Nat) (junk : Nat → Nat × W) (adj : Nat → List (Nat × W)) :
    let r := relabel n rank pred o1 o2 junkO junk adj
    Relabelled n rank pred adj (Mutate.nbrs r.1) ∧ r.2 = exScan (fun i => ((adj i).filter fun e => pred i e.1 e.2).length) n ∧
      ∀ x, r.2 ≤ x → r.1.edges x = junk x := by
  intro r
  set cnt := upd (o1.foldl (fun a i => upd a (rank i) (if 0 < (adj i).length then (kept pred adj i).length else 0)) junkO) n 0 with hcnt
  have hc : ∀ x < n, cnt x = (newAdj n rank pred adj x).length := fun x hx => cnt_rank hr h1 pred adj junkO hx
  set g : Nat → List (Nat × W) := newAdj n rank pred adj with hg
  have hoff : ∀ x ≤ n, exScan cnt x = exScan (fun x => (g x).length) x := fun x hx => exScan_congr fun i hi => hc i (by omega)
  have hdeg : ∀ i < n, exScan cnt (rank i + 1) - exScan cnt (rank i) = (kept pred adj i).length := fun i hi => by
    rw [exScan, hc _ (hr.1 i hi), hg, newAdj_rank hr _ _ hi, length_tmp]; omega
  have hedges : r.1.edges = scatter (exScan fun x => (g x).length) g (o2.map rank) junk := by
    show o2.foldl (relBody rank pred adj (exScan cnt)) junk = _
    rw [scatter, List.foldl_map]
    refine foldl_congr' _ fun b i hi => ?_
    have hi := (h2.2 i).1 hi
    rw [body_eq (hdeg i hi), hoff _ (Nat.le_of_lt (hr.1 i hi)), hg, newAdj_rank hr _ _ hi]
  have htot : r.2 = exScan (fun x => (g x).length) n := by
    show exScan cnt (n + 1) = _
    rw [exScan, hcnt, upd_same, ← hcnt, hoff n (Nat.le_refl _)]; omega
  refine ⟨relabelled_of fun i hi => ?_, ?_, fun x hx => ?_⟩
  · have hlt := hr.1 i hi
    show slice r.1.edges (exScan cnt (rank i)) (exScan cnt (rank i + 1) - exScan cnt (rank i)) = _
    have hl : (kept pred adj i).length = (g (rank i)).length := by rw [hg, newAdj_rank hr _ _ hi, length_tmp]
    rw [hdeg i hi, hedges, hoff _ (Nat.le_of_lt hlt), hl, Mutate.scatter_part g n _ (hr.sched h2) junk _ hlt, hg, newAdj_rank hr _ _ hi]
  · rw [htot]
    exact exScan_rank hr fun i hi => by rw [hg, newAdj_rank hr _ _ hi, length_tmp]; rfl
  · rw [hedges]
    refine scatter_outside _ _ _ _ fun y hy => Or.inr ?_
    have hy := ((hr.sched h2).2 y).1 hy
    have := exScan_mono (fun x => (g x).length) (show y + 1 ≤ n by omega)
    simp only [exScan] at this
    omega

/-! ### Compressed -/

variable {c : WCodec W} {ok : W → Prop}

theorem byteStep_eq (c : WCodec W) (tmp : Mem) (src : Nat) (s : MutateByte.Sz) (e : Nat × W) :
    byteStep c tmp src s e = MutateByte.sizeStep c (fun _ _ _ => true) tmp src s e := by
  rw [MutateByte.sizeStep, if_pos rfl]; rfl

theorem totalBytes_eq (c : WCodec W) (tmp : Mem) (f : Nat → List (Nat × W)) (x : Nat) :
    totalBytes c tmp x (f x) = (MutateByte.sizePass c (fun _ _ _ => true) tmp f x).total := by
  rw [totalBytes, MutateByte.sizePass, show byteStep c tmp x = MutateByte.sizeStep c (fun _ _ _ => true) tmp x from
    funext fun s => funext fun e => byteStep_eq c tmp x s e]

theorem valid_tmp {n : Nat} (hn : n ≤ uintEMod) {rank : Nat → Nat} (hr : IsPerm n rank) (pred : Nat → Nat → W → Bool) {adj : Nat → List (Nat × W)} {i : Nat}
    (hb : ∀ e ∈ adj i, e.1 < n) (hnd : ((adj i).map Prod.fst).Nodup) : ValidList (tmpEdges rank pred adj i) := by
  have hp := perm_sort ((kept pred adj i).map (ren rank))
  have hsub : (kept pred adj i).Sublist (adj i) := List.filter_sublist
  have hk : ∀ e ∈ kept pred adj i, e.1 < n := fun e he => hb e (hsub.subset he)
  have hnd2 : ((tmpEdges rank pred adj i).map Prod.fst).Nodup := by
    have h1 : ((kept pred adj i).map Prod.fst).Nodup := hnd.sublist (hsub.map _)
    rw [tmpEdges, (hp.map Prod.fst).nodup_iff, List.map_map]
    have : (Prod.fst ∘ ren (W := W) rank) = rank ∘ Prod.fst := rfl
    rw [this, ← List.map_map, List.nodup_map_iff_inj_on h1]
    intro a ha b hb' he
    obtain ⟨e, he1, rfl⟩ := List.mem_map.1 ha
    obtain ⟨d, hd1, rfl⟩ := List.mem_map.1 hb'
    exact hr.2 _ (hk e he1) _ (hk d hd1) he
  refine ⟨?_, fun e he => ?_⟩
  · have hs : ((tmpEdges rank pred adj i).map Prod.fst).Pairwise (· ≤ ·) := List.pairwise_map.2 (pairwise_sort _)
    exact hs.imp₂ (fun a b h1 h2 => Nat.lt_of_le_of_ne h1 h2) hnd2
  · obtain ⟨d, hd, rfl⟩ := List.mem_map.1 (hp.mem_iff.1 he)
    have := hr.1 _ (hk d hd)
    simp only [uintEMod] at hn
    show rank d.1 < 4294967296
    omega

/-- **C145, compressed graphs.** If `rank` is a permutation and the graph has no parallel edges, decoding vertex `rank[i]` of the result visits, for all
schedules and contents of the new arrays, the list of the relabelled graph, and the degree is its length; the number of edges is the number of edges kept; and
nothing is written outside the `last_offset` bytes of the new array. -/
theorem C145_compressed (L : Lawful c ok) {n : Nat} (hn : n < uintEMod) {rank : Nat → Nat} (hr : IsPerm n rank) (pred : Nat → Nat → W → Bool) (tmp : Mem)
    {o1 o2 o3 : List Nat} (h1 : Sched n o1) (h2 : Sched n o2) (h3 : Sched n o3) (junkB : Nat → Nat) (junk : Mem) (junkD : Nat → Nat)
    (adj : Nat → List (Nat × W)) (hb : ∀ i < n, ∀ e ∈ adj i, e.1 < n) (hnd : ∀ i < n, ((adj i).map Prod.fst).Nodup) (hok : ∀ i < n, ∀ e ∈ adj i, ok e.2) :
    let r := relabelByte c n rank pred tmp o1 o2 o3 junkB junk junkD adj
    (∃ out, Relabelled n rank pred adj out ∧ ∀ x < n, r.1.deg x = (out x).length ∧
      ∀ (σ : Type) (t : σ → Nat → Nat → W → Nat → σ × Bool) (s : σ), decode c t r.1.edges (r.1.off x) x (r.1.deg x) s = some (visit t x 0 (out x) s)) ∧
    r.1.m = exScan (fun i => ((adj i).filter fun e => pred i e.1 e.2).length) n ∧ ∀ x, r.2 ≤ x → r.1.edges x = junk x := by
  intro r
  set g : Nat → List (Nat × W) := newAdj n rank pred adj with hg
  have hgr : ∀ i < n, g (rank i) = tmpEdges rank pred adj i := fun i hi => newAdj_rank hr _ _ hi
  set sz : Nat → Nat := fun x => (MutateByte.sizePass c (fun _ _ _ => true) tmp g x).total with hsz
  set bytes := upd (o1.foldl (fun a i => upd a (rank i) (totalBytes c tmp (rank i) (tmpEdges rank pred adj i))) junkB) n 0 with hbytes
  have hbx : ∀ x < n, bytes x = sz x := fun x hx => by
    obtain ⟨i, hi, rfl⟩ := hr.onto hx
    rw [hbytes, upd_of_ne _ _ (by omega), stored hr h1 _ hi, ← hgr i hi, totalBytes_eq]
  have hoff : ∀ x ≤ n, exScan bytes x = exScan sz x := fun x hx => exScan_congr fun i hi => hbx i (by omega)
  have hv : ∀ x < n, ValidList (g x) := fun x hx => by
    obtain ⟨i, hi, rfl⟩ := hr.onto hx
    rw [hgr i hi]
    exact valid_tmp (Nat.le_of_lt hn) hr pred (hb i hi) (hnd i hi)
  have hokg : ∀ x < n, ∀ e ∈ g x, ok e.2 := fun x hx e he => by
    obtain ⟨i, hi, rfl⟩ := hr.onto hx
    rw [hgr i hi] at he
    obtain ⟨d, hd, rfl⟩ := List.mem_map.1 ((perm_sort _).mem_iff.1 he)
    exact hok i hi d (List.mem_filter.1 hd).1
  have hspec := fun x (hx : x < n) => MutateByte.sizePass_spec L (fun _ _ _ => true) tmp g x (by omega) (hv x hx) (hokg x hx)
  have hself : ∀ x, ((g x).filter fun _ => true) = g x := fun x => List.filter_true _
  simp only [hself] at hspec
  set F := MutateByte.filterGraphByte c n (fun _ _ _ => true) tmp junk (o2.map rank) g with hF
  have hedges : r.1.edges = F.edges := by
    show o2.foldl _ junk = (o2.map rank).foldl _ junk
    rw [List.foldl_map]
    refine foldl_congr' _ fun m i hi => ?_
    have hi := (h2.2 i).1 hi
    beta_reduce
    rw [(hspec _ (hr.1 i hi)).2, hself, hgr i hi]
    show (if _ then (sequentialCompressEdgeSet c m (exScan bytes (rank i)) (rank i) _).1 else m) = _
    rw [hoff _ (Nat.le_of_lt (hr.1 i hi))]
  have hdeg : ∀ x < n, r.1.deg x = (g x).length := fun x hx => by
    obtain ⟨i, hi, rfl⟩ := hr.onto hx
    show o3.foldl _ junkD (rank i) = _
    rw [stored hr h3 (g := fun i => (tmpEdges rank pred adj i).length) _ hi, hgr i hi]
  refine ⟨⟨g, relabelled_of hgr, fun x hx => ⟨hdeg x hx, fun σ t s => ?_⟩⟩, ?_, fun x hx => ?_⟩
  · obtain ⟨h4, h5⟩ := MutateByte.filterGraphByte_lists_partial L n hn (fun _ _ _ => true) tmp junk (o2.map rank) (hr.sched h2) g hv hokg x hx
    rw [← hF] at h4 h5
    simp only [hself] at h4 h5
    rw [hdeg x hx, hedges, ← h4]
    show decode c t F.edges (exScan bytes x) x (F.deg x) s = _
    rw [hoff x (Nat.le_of_lt hx)]
    exact h5 σ t s
  · show exScan (fun i => (tmpEdges rank pred adj i).length) n = _
    exact exScan_congr fun i _ => length_tmp rank pred adj i
  · have htot : r.2 = exScan sz n := by
      show exScan bytes (n + 1) = _
      rw [exScan, hbytes, upd_same, ← hbytes, hoff n (Nat.le_refl _)]; omega
    rw [htot] at hx
    show o2.foldl _ junk x = _
    have key : ∀ (o : List Nat) (m : Mem), (∀ i ∈ o, i < n) → (o.foldl (fun m i => if (tmpEdges rank pred adj i).length > 0 then
        (sequentialCompressEdgeSet c m (exScan bytes (rank i)) (rank i) (tmpEdges rank pred adj i)).1 else m) m) x = m x := by
      intro o
      induction o with
      | nil => intro m _; rfl
      | cons i o ih =>
        intro m ho
        rw [List.foldl_cons, ih _ fun j hj => ho j (List.mem_cons_of_mem _ hj)]
        have hi := ho i List.mem_cons_self
        have hlt := hr.1 i hi
        split
        · rw [← hgr i hi, sequentialCompressEdgeSet_eq L _ _ _ _ (by omega) (hv _ hlt) (hokg _ hlt)]
          refine Mem.write_outside _ _ _ _ ?_
          rw [hoff _ (Nat.le_of_lt hlt), ← (hspec _ hlt).1]
          have := exScan_mono sz (show rank i + 1 ≤ n by omega)
          simp only [exScan] at this
          exact Or.inr (Nat.le_trans this hx)
        · rfl
    exact key o2 junk fun i hi => (h2.2 i).1 hi

/-! ### Clique counting -/

/-- **C145: the graph that `Clique` counts in** (`Clique.h:172-178`, without `-f`). The neighbours of the relabelled graph are those of the abstract
description that C104 and C140 use. -/
theorem C145_clique {G : UG} {k : Nat} {rank : Nat → Nat} (hr : IsPerm G.n rank) {o1 o2 : List Nat} (h1 : Sched G.n o1)
    (h2 : Sched G.n o2) (junkO : Nat → Nat) (junk : Nat → Nat × Unit) {x : Nat} (hx : x < G.n) :
    (Mutate.nbrs (relabel G.n rank (fun u v _ => decide (rank u < rank v ∧ k - 1 ≤ (G.nb u).length ∧ k - 1 ≤ (G.nb v).length)) o1 o2 junkO junk
      fun u => (G.nb u).map fun v => (v, ())).1 x).map Prod.fst = Clique.relabelN G k rank x := by
  obtain ⟨i, hi, rfl⟩ := hr.onto hx
  have h := (C145_uncompressed hr (fun u v (_ : Unit) => decide (rank u < rank v ∧ k - 1 ≤ (G.nb u).length ∧ k - 1 ≤ (G.nb v).length)) h1 h2 junkO junk
    fun u => (G.nb u).map fun v => (v, ())).1
  have hp := (h.edges i hi).map Prod.fst
  have hs : (List.map Prod.fst _).Pairwise (· ≤ ·) := List.pairwise_map.2 (h.sorted i hi)
  have hN : Clique.relabelN G k rank (rank i) = ((Clique.filterN G k rank i).map rank).mergeSort fun a b => decide (a ≤ b) := by
    rw [Clique.relabelN]
    split
    · rename_i j hj
      rw [hr.2 j (List.mem_range.1 (List.mem_of_find?_eq_some hj)) i hi (by simpa using List.find?_some hj)]
    · rename_i hj
      exact absurd (List.find?_eq_none.1 hj i (List.mem_range.2 hi)) (by simp)
  have he : (List.map (fun e : Nat × Unit => (rank e.1, e.2)) (List.filter (fun e : Nat × Unit =>
      decide (rank i < rank e.1 ∧ k - 1 ≤ (G.nb i).length ∧ k - 1 ≤ (G.nb e.1).length)) ((G.nb i).map fun v => (v, ())))).map Prod.fst =
      (Clique.filterN G k rank i).map rank := by
    rw [Clique.filterN, List.filter_map, List.map_map, List.map_map]
    rfl
  rw [hN]
  rw [he] at hp
  refine List.Perm.eq_of_pairwise (le := (· ≤ ·)) (fun a b _ _ h1 h2 => Nat.le_antisymm h1 h2) hs ?_ (hp.trans (List.mergeSort_perm _ _).symm)
  exact (List.pairwise_mergeSort (fun a b c => by simpa using Nat.le_trans) (fun a b => by simpa using Nat.le_total a b) _).imp fun h => of_decide_eq_true h

/-! ### Orderings -/

/-- Order type 2 returns a permutation, so that the counts are right. -/
theorem C145_core_perm (n : Nat) (core : Nat → Nat) : IsPerm n fun v => (coreOrdering n core).getD v 0 := by
  have hp : (coreOrdering n core).Perm (List.range n) := List.perm_insertionSort _ _
  have hl : (coreOrdering n core).length = n := by rw [hp.length_eq, List.length_range]
  have hnd := hp.nodup_iff.2 List.nodup_range
  have hget : ∀ i (hi : i < n), (coreOrdering n core).getD i 0 = (coreOrdering n core)[i]'(by omega) := fun i hi => by
    rw [List.getD_eq_getElem _ _ (by omega)]
  refine ⟨fun i hi => ?_, fun i hi j hj he => ?_⟩
  · show (coreOrdering n core).getD i 0 < n
    rw [hget i hi]
    exact List.mem_range.1 (hp.mem_iff.1 (List.getElem_mem _))
  · have he : (coreOrdering n core).getD i 0 = (coreOrdering n core).getD j 0 := he
    rw [hget i hi, hget j hj] at he
    exact (List.Nodup.getElem_inj_iff hnd).1 he

/-- What order type 2 returns is the inverse of a ranking by core numbers: its values, read in order, are vertices of ascending core number. -/
theorem C145_core_inverse {n : Nat} {core : Nat → Nat} {i j : Nat} (hij : i < j) (hj : j < n) :
    core ((coreOrdering n core).getD i 0) ≤ core ((coreOrdering n core).getD j 0) := by
  have hp : (coreOrdering n core).Perm (List.range n) := List.perm_insertionSort _ _
  have hl : (coreOrdering n core).length = n := by rw [hp.length_eq, List.length_range]
  have : Std.Total (α := Nat) fun a b => core a ≤ core b := ⟨fun a b => Nat.le_total _ _⟩
  have : IsTrans Nat fun a b => core a ≤ core b := ⟨fun _ _ _ h k => Nat.le_trans h k⟩
  have hsort : (coreOrdering n core).Pairwise fun a b => core a ≤ core b := List.pairwise_insertionSort _ _
  rw [List.getD_eq_getElem _ _ (by omega), List.getD_eq_getElem _ _ (by omega)]
  exact List.pairwise_iff_getElem.1 hsort i j (by omega) (by omega) hij

/-- **C145, refuted: order type 2 is not an order by core numbers.** The sorted vertices are returned in place of their ranks: with core numbers 2, 2, 2, 1
(a triangle with an edge attached, say) vertex 1 comes before vertex 3, although its core number is greater. -/
theorem C145_core_refuted : let core := fun v => if v = 3 then 1 else 2
    let rank := fun v => (coreOrdering 4 core).getD v 0
    core 3 < core 1 ∧ rank 1 < rank 3 := by decide +kernel

/-- Order type 3 is an order by degrees. -/
theorem C145_degree {n : Nat} {deg : Nat → Nat} {s : List Nat} (hs : Sched n s) (junk : Nat → Nat) :
    IsPerm n (degreeOrdering n deg s junk) ∧ ∀ u < n, ∀ v < n, deg u < deg v → degreeOrdering n deg s junk u < degreeOrdering n deg s junk v := by
  set o := (List.range n).insertionSort fun a b => deg a ≤ deg b with ho
  have hp : o.Perm (List.range n) := List.perm_insertionSort _ _
  have hl : o.length = n := by rw [hp.length_eq, List.length_range]
  have hnd := hp.nodup_iff.2 List.nodup_range
  have : Std.Total (α := Nat) fun a b => deg a ≤ deg b := ⟨fun a b => Nat.le_total _ _⟩
  have : IsTrans Nat fun a b => deg a ≤ deg b := ⟨fun _ _ _ h k => Nat.le_trans h k⟩
  have hsort : o.Pairwise fun a b => deg a ≤ deg b := List.pairwise_insertionSort _ _
  have hget : ∀ i (hi : i < n), o.getD i 0 = o[i]'(by omega) := fun i hi => by rw [List.getD_eq_getElem _ _ (by omega)]
  have hpos : ∀ i < n, degreeOrdering n deg s junk (o.getD i 0) = i := fun i hi => by
    refine foldl_upd (rank := fun i => o.getD i 0) (g := fun i => i) (fun a ha b hb he => ?_) junk ((hs.2 i).2 hi)
    have he : o.getD a 0 = o.getD b 0 := he
    rw [hget a ((hs.2 a).1 ha), hget b ((hs.2 b).1 hb)] at he
    exact (List.Nodup.getElem_inj_iff hnd).1 he
  have hex : ∀ v < n, ∃ i < n, o.getD i 0 = v := fun v hv => by
    obtain ⟨i, hi, he⟩ := List.getElem_of_mem (hp.mem_iff.2 (List.mem_range.2 hv))
    exact ⟨i, by omega, by rw [hget i (by omega), he]⟩
  refine ⟨⟨fun v hv => ?_, fun u hu v hv he => ?_⟩, fun u hu v hv hd => ?_⟩
  · obtain ⟨i, hi, rfl⟩ := hex v hv
    rw [hpos i hi]; exact hi
  · obtain ⟨i, hi, rfl⟩ := hex u hu
    obtain ⟨j, hj, rfl⟩ := hex v hv
    rw [hpos i hi, hpos j hj] at he
    rw [he]
  · obtain ⟨i, hi, rfl⟩ := hex u hu
    obtain ⟨j, hj, rfl⟩ := hex v hv
    rw [hpos i hi, hpos j hj]
    rcases Nat.lt_trichotomy i j with h | h | h
    · exact h
    · rw [h] at hd; exact absurd hd (Nat.lt_irrefl _)
    · have := List.pairwise_iff_getElem.1 hsort j i (by omega) (by omega) h
      rw [hget i hi, hget j hj] at hd
      omega

/-- **C145, refuted: ranks with ties.** If two vertices have one rank, an offset is never written: the result depends on what was in the new array. -/
theorem C145_ties : ∃ (rank : Nat → Nat), (∀ i < 2, rank i < 2) ∧ ∃ j j' : Nat → Nat,
    (relabel 2 rank (fun _ _ (_ : Unit) => true) [0, 1] [0, 1] j (fun _ => (0, ())) fun v => if v = 0 then [(1, ())] else [(0, ())]).2 ≠
    (relabel 2 rank (fun _ _ (_ : Unit) => true) [0, 1] [0, 1] j' (fun _ => (0, ())) fun v => if v = 0 then [(1, ())] else [(0, ())]).2 :=
  ⟨fun _ => 0, fun _ _ => Nat.zero_lt_two, fun _ => 0, fun _ => 1, by decide +kernel⟩

/-! ### Examples -/

/-- A graph on 4 vertices, every vertex renamed. -/
def exAdj (v : Nat) : List (Nat × Unit) := (([[1, 2, 3], [0, 2], [0, 1], [0]].getD v []).map fun x => (x, ()))

def exRank (v : Nat) : Nat := [2, 3, 0, 1].getD v 0

example : IsPerm 4 exRank := ⟨by decide, by decide⟩

example : let r := relabel 4 exRank (fun u v _ => decide (exRank u < exRank v)) [3, 1, 0, 2] [2, 0, 3, 1] (fun _ => 9) (fun _ => (7, ())) exAdj
    (List.range 4).map (fun x => (Mutate.nbrs r.1 x).map Prod.fst) = [[2, 3], [2], [3], []] ∧ r.2 = 4 := by decide +kernel

example :
    let r := relabelByte emptyCodec 4 exRank (fun u v _ => decide (exRank u < exRank v)) (fun _ => 0) [3, 1, 0, 2] [2, 0, 3, 1] [0, 1, 2, 3] (fun _ => 9)
        (fun _ => 7) (fun _ => 5) exAdj
    (List.range 4).map (fun x => decode emptyCodec (fun s _ v _ _ => (s ++ [v], true)) r.1.edges (r.1.off x) x (r.1.deg x) []) =
      [some [2, 3], some [2], some [3], some []] ∧ r.1.m = 4 := by decide +kernel

example : (∀ i < 4, ∀ e ∈ exAdj i, e.1 < 4) ∧ ∀ i < 4, ((exAdj i).map Prod.fst).Nodup := by decide +kernel

example : Sched 4 [3, 1, 0, 2] := ⟨by decide, fun i => by simp; omega⟩

end Gbbs.RelabelG
