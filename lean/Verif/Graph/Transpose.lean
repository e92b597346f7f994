/-
C27: the in-neighbours computed when a directed graph is read from text
(`gbbs/graph_io.cc:128-197`, `gbbs/graph_io.h:140-217`).
-/
import Verif.Graph.Csr
import Mathlib.Data.List.Count

namespace Gbbs.Transpose

open Csr

variable {W : Type}

/-! ### Model -/

/-- The array `temp`, `graph_io.cc:151-157`, `graph_io.h:167-176`: for every vertex `i` and
out-neighbour `v`, the pair `(v, i)` with its weight.  (The position `offset + j` of an entry is its
position in the concatenation.) -/
def temp (nb : List (List (Nat × W))) : List (Edge W) :=
  nb.zipIdx.flatMap fun x => x.1.map fun v => ⟨v.1, x.2, v.2⟩

/-- Writes to `tOffsets`, `graph_io.cc:163-171`, `graph_io.h:182-192`. -/
def tWrites (src : Nat → Nat) (m : Nat) : List (Nat × Nat) :=
  (src 0, 0) :: (List.range' 1 (m - 1)).flatMap fun i =>
    if src i ≠ src (i - 1) then [(src i, i)] else []

/-- `parlay::scan_inclusive_inplace` on the reversed `tOffsets` with minimum and identity `m`,
`graph_io.cc:177-181`, `graph_io.h:198-201`: entry `i` becomes the minimum of `m` and the entries
`i..n`. -/
def minScan (n m : Nat) (a : Nat → Nat) (i : Nat) : Nat :=
  ((List.range' i (n + 1 - i)).map a).foldl min m

/-- The in-neighbours: offsets, degrees and the array `inEdges`. -/
structure InData (W : Type) where
  off : Nat → Nat
  deg : Nat → Nat
  inEdges : List (Nat × W)

/-- `LONG_MAX`, `macros.h:47`. -/
def intTMax : Nat := 2 ^ 63 - 1

/-- The computation of the in-neighbours from the sorted `temp`.  `last` is the value of
`tOffsets[n]` before the scan: `INT_T_MAX` in `graph_io.cc:149` (loop up to `n + 1`), uninitialised in
`graph_io.h:165` (loop up to `n`).  `ws` is the order of the writes.  `none`: `temp[0]` is read although
there are no edges. -/
def inData (n last : Nat) (sorted : List (Edge W)) (ws : List (Nat × Nat)) : Option (InData W) :=
  if sorted = [] then none
  else
    let init : Nat → Nat := fun k => if k = n then last else intTMax
    let off := minScan n sorted.length (applyWrites init ws)
    some { off := off, deg := fun i => off (i + 1) - off i,
           inEdges := sorted.map fun e => (e.dst, e.wgh) }

/-- The in-neighbours of `v`. -/
def InData.nbrs (D : InData W) (v : Nat) : List (Nat × W) :=
  (D.inEdges.drop (D.off v)).take (D.deg v)

/-- What `integer_sort` returns (trusted): a permutation sorted by the first component. -/
def IsIntSort (l l' : List (Edge W)) : Prop := l'.Perm l ∧ SortedBySrc l'

/-! ### Proofs -/

theorem foldl_min_le (l : List Nat) (a : Nat) :
    l.foldl min a ≤ a ∧ ∀ x ∈ l, l.foldl min a ≤ x := by
  induction l generalizing a with
  | nil => exact ⟨Nat.le_refl _, fun x h => (by cases h)⟩
  | cons y l ih =>
    obtain ⟨h1, h2⟩ := ih (min a y)
    simp only [List.foldl_cons]
    refine ⟨by omega, fun x hx => ?_⟩
    rcases List.mem_cons.1 hx with rfl | hx
    · omega
    · exact h2 x hx

theorem le_foldl_min (l : List Nat) (a b : Nat) (ha : b ≤ a) (hl : ∀ x ∈ l, b ≤ x) :
    b ≤ l.foldl min a := by
  induction l generalizing a with
  | nil => exact ha
  | cons y l ih =>
    simp only [List.foldl_cons]
    have := hl y List.mem_cons_self
    exact ih _ (by omega) fun x hx => hl x (List.mem_cons_of_mem _ hx)

theorem tWrites_agree {es : List (Edge W)} (hs : SortedBySrc es) (hne : es ≠ []) {w : Nat × Nat}
    (hw : w ∈ tWrites (srcAt es) es.length) :
    w.2 = countLt es w.1 ∧ w.2 < es.length ∧ srcAt es w.2 = w.1 := by
  have hpos : 0 < es.length := List.length_pos_iff.2 hne
  unfold tWrites at hw
  rcases List.mem_cons.1 hw with rfl | hw
  · refine ⟨(countLt_eq hs (by omega) (fun h => absurd h (Nat.lt_irrefl _))
      (fun _ => Nat.le_refl _)).symm, hpos, rfl⟩
  · obtain ⟨i, hi, hw⟩ := List.mem_flatMap.1 hw
    rw [List.mem_range'_1] at hi
    split at hw
    · rename_i h
      rw [List.mem_singleton] at hw
      subst hw
      have hm := srcAt_mono hs (show i - 1 ≤ i by omega) (show i < es.length by omega)
      refine ⟨(countLt_eq hs (by omega) (fun _ => ?_) (fun _ => Nat.le_refl _)).symm, by show i < _; omega, rfl⟩
      show srcAt es (i - 1) < srcAt es i
      omega
    · cases hw

theorem tWrites_cover {es : List (Edge W)} (hs : SortedBySrc es) {i : Nat} (hi : i < es.length)
    (hfirst : countLt es (srcAt es i) = i) :
    srcAt es i ∈ (tWrites (srcAt es) es.length).map Prod.fst := by
  unfold tWrites
  rw [List.map_cons]
  rcases Nat.eq_zero_or_pos i with rfl | h
  · exact List.mem_cons_self
  · refine List.mem_cons_of_mem _ (List.mem_map.2 ⟨(srcAt es i, i), ?_, rfl⟩)
    refine List.mem_flatMap.2 ⟨i, List.mem_range'_1.2 ⟨by omega, by omega⟩, ?_⟩
    rw [if_pos]
    · exact List.mem_singleton.2 rfl
    · have := (src_lt_iff hs (k := srcAt es i) (i := i - 1) (by omega)).2 (by omega)
      omega

/-- The offsets after the scan count the edges with a smaller target. -/
theorem minScan_spec {n last : Nat} {es : List (Edge W)} (hs : SortedBySrc es)
    (hn : ∀ e ∈ es, e.src < n) (hne : es ≠ []) (hm : es.length ≤ intTMax) (hlast : es.length ≤ last)
    (ws : List (Nat × Nat)) (hp : ws.Perm (tWrites (srcAt es) es.length)) (i : Nat) (hi : i ≤ n) :
    minScan n es.length (applyWrites (fun k => if k = n then last else intTMax) ws) i =
      countLt es i := by
  have hag : ∀ w ∈ ws, w.2 = countLt es w.1 := fun w hw =>
    (tWrites_agree hs hne (hp.mem_iff.1 hw)).1
  have hval := fun k => applyWrites_agree (countLt es) ws (fun k => if k = n then last else intTMax) hag k
  unfold minScan
  have hl := countLt_le es i
  apply Nat.le_antisymm
  · by_cases h : countLt es i < es.length
    · have hsrc : ¬ srcAt es (countLt es i) < i := mt (src_lt_iff hs h).1 (Nat.lt_irrefl _)
      have hfirst : countLt es (srcAt es (countLt es i)) = countLt es i := by
        refine countLt_eq hs (by omega) (fun h0 => ?_) (fun _ => Nat.le_refl _)
        have := (src_lt_iff hs (k := i) (i := countLt es i - 1) (by omega)).2 (by omega)
        omega
      have hlt : srcAt es (countLt es i) < n := by
        rw [srcAt_eq h]; exact hn _ (List.getElem_mem h)
      have hmem : srcAt es (countLt es i) ∈ ws.map Prod.fst :=
        (hp.map Prod.fst).mem_iff.2 (tWrites_cover hs h hfirst)
      refine (foldl_min_le _ _).2 _ (List.mem_map.2 ⟨srcAt es (countLt es i),
        List.mem_range'_1.2 ⟨by omega, by omega⟩, ?_⟩)
      rw [hval, if_pos hmem, hfirst]
    · have := (foldl_min_le ((List.range' i (n + 1 - i)).map
        (applyWrites (fun k => if k = n then last else intTMax) ws)) es.length).1
      omega
  · refine le_foldl_min _ _ _ hl ?_
    intro x hx
    obtain ⟨k, hk, rfl⟩ := List.mem_map.1 hx
    rw [List.mem_range'_1] at hk
    rw [hval]
    split
    · exact countLt_mono es (by omega)
    · split <;> omega

theorem count_temp [DecidableEq W] (nb : List (List (Nat × W))) (u v : Nat) (w : W) :
    (((temp nb).filter fun e => decide (e.src = v)).map fun e => (e.dst, e.wgh)).count (u, w) =
      (nb.getD u []).count (v, w) := by
  unfold temp
  have key : ∀ (nb : List (List (Nat × W))) (k : Nat),
      ((((nb.zipIdx k).flatMap fun x => x.1.map fun v => (⟨v.1, x.2, v.2⟩ : Edge W)).filter
        fun e => decide (e.src = v)).map fun e => (e.dst, e.wgh)).count (u, w) =
      if k ≤ u then (nb.getD (u - k) []).count (v, w) else 0 := by
    intro nb
    induction nb with
    | nil => intro k; simp
    | cons l nb ih =>
      intro k
      rw [List.zipIdx_cons, List.flatMap_cons, List.filter_append, List.map_append, List.count_append,
        ih (k + 1)]
      have h1 : (((l.map fun v => (⟨v.1, k, v.2⟩ : Edge W)).filter fun e => decide (e.src = v)).map
          fun e => (e.dst, e.wgh)).count (u, w) = if k = u then l.count (v, w) else 0 := by
        clear ih
        induction l with
        | nil => simp
        | cons x l ih =>
          obtain ⟨x1, x2⟩ := x
          rw [List.map_cons, List.filter_cons, List.count_cons]
          by_cases hx : x1 = v
          · subst hx
            simp only [decide_true, if_true, List.map_cons, List.count_cons, ih]
            by_cases hk : k = u
            · subst hk; simp
            · simp [hk]
          · simp only [hx, decide_false, Bool.false_eq_true, if_false, ih]
            simp [hx]
      rw [h1]
      rcases Nat.lt_trichotomy k u with h | h | h
      · rw [if_neg (by omega), if_pos (by omega), if_pos (by omega)]
        have : u - k = u - (k + 1) + 1 := by omega
        rw [this, List.getD_cons_succ, Nat.zero_add]
      · subst h
        rw [if_pos rfl, if_neg (by omega), if_pos (Nat.le_refl _)]
        simp
      · rw [if_neg (by omega), if_neg (by omega), if_neg (by omega)]
  have := key nb 0
  simpa using this

theorem length_temp_filter (nb : List (List (Nat × W))) (v : Nat) :
    ((temp nb).filter fun e => decide (e.src = v)).length =
      (nb.map fun l => (l.map Prod.fst).count v).sum := by
  unfold temp
  have key : ∀ (nb : List (List (Nat × W))) (k : Nat),
      (((nb.zipIdx k).flatMap fun x => x.1.map fun v => (⟨v.1, x.2, v.2⟩ : Edge W)).filter
        fun e => decide (e.src = v)).length = (nb.map fun l => (l.map Prod.fst).count v).sum := by
    intro nb
    induction nb with
    | nil => intro k; rfl
    | cons l nb ih =>
      intro k
      rw [List.zipIdx_cons, List.flatMap_cons, List.filter_append, List.length_append, ih (k + 1),
        List.map_cons, List.sum_cons]
      congr 1
      clear ih
      induction l with
      | nil => simp
      | cons x l ih =>
        rw [List.map_cons, List.filter_cons, List.map_cons, List.count_cons, ← ih]
        by_cases hx : x.1 = v
        · simp [hx]
        · simp [hx]
  exact key nb 0

/-- The common statement: with `tOffsets[n]` at least `m` before the scan, and at least one edge, the
pair `(u, w)` occurs in the in-neighbour list of `v` as often as `(v, w)` in the out-neighbour list of
`u`, and the in-degree of `v` is the number of occurrences of `v` in all out-neighbour lists. -/
theorem inData_spec [DecidableEq W] {nb : List (List (Nat × W))} {sorted : List (Edge W)}
    (hs : IsIntSort (temp nb) sorted) (hn : ∀ l ∈ nb, ∀ v ∈ l, v.1 < nb.length)
    (hne : ∃ l ∈ nb, l ≠ []) (hm : sorted.length ≤ intTMax) (last : Nat)
    (hlast : sorted.length ≤ last) (ws : List (Nat × Nat))
    (hp : ws.Perm (tWrites (srcAt sorted) sorted.length)) :
    ∃ D, inData nb.length last sorted ws = some D ∧ ∀ v, v < nb.length →
      D.deg v = (nb.map fun l => (l.map Prod.fst).count v).sum ∧ (D.nbrs v).length = D.deg v ∧
      ∀ u w, (D.nbrs v).count (u, w) = (nb.getD u []).count (v, w) := by
  have hmem : ∀ e ∈ sorted, e.src < nb.length := by
    intro e he
    have := hs.1.mem_iff.1 he
    unfold temp at this
    obtain ⟨x, hx, he⟩ := List.mem_flatMap.1 this
    obtain ⟨v, hv, rfl⟩ := List.mem_map.1 he
    have hx1 := List.fst_mem_of_mem_zipIdx hx
    exact hn _ hx1 _ hv
  have hne' : sorted ≠ [] := by
    obtain ⟨l, hl, hl2⟩ := hne
    obtain ⟨v, hv⟩ := List.exists_mem_of_ne_nil l hl2
    intro h
    have hlen := hs.1.length_eq
    rw [h] at hlen
    have hnil : temp nb = [] := List.length_eq_zero_iff.1 hlen.symm
    obtain ⟨i, hi, rfl⟩ := List.mem_iff_getElem.1 hl
    have : (⟨v.1, i, v.2⟩ : Edge W) ∈ temp nb :=
      List.mem_flatMap.2 ⟨(nb[i], i), List.mk_mem_zipIdx_iff_getElem?.2
        (List.getElem?_eq_getElem hi), List.mem_map.2 ⟨v, hv, rfl⟩⟩
    rw [hnil] at this
    cases this
  refine ⟨_, by unfold inData; rw [if_neg hne'], fun v hv => ?_⟩
  have hoff := fun i hi => minScan_spec (n := nb.length) hs.2 hmem hne' hm hlast ws hp i hi
  have hdeg : ∀ i, i < nb.length → (minScan nb.length sorted.length
      (applyWrites (fun k => if k = nb.length then last else intTMax) ws) (i + 1) -
      minScan nb.length sorted.length
      (applyWrites (fun k => if k = nb.length then last else intTMax) ws) i) =
      countLt sorted (i + 1) - countLt sorted i := by
    intro i hi; rw [hoff i (by omega), hoff (i + 1) (by omega)]
  have hnb : ((sorted.map fun e => (e.dst, e.wgh)).drop (countLt sorted v)).take
      (countLt sorted (v + 1) - countLt sorted v) =
      (sorted.filter fun e => decide (e.src = v)).map fun e => (e.dst, e.wgh) := by
    rw [← List.map_drop, ← List.map_take, run_eq hs.2 v]
  have hperm : ((sorted.filter fun e => decide (e.src = v)).map fun e => (e.dst, e.wgh)).Perm
      (((temp nb).filter fun e => decide (e.src = v)).map fun e => (e.dst, e.wgh)) :=
    (hs.1.filter _).map _
  simp only [InData.nbrs]
  rw [hdeg v hv, hoff v (by omega), hnb]
  have hlen : ((sorted.filter fun e => decide (e.src = v)).map fun e => (e.dst, e.wgh)).length =
      countLt sorted (v + 1) - countLt sorted v := by
    rw [← hnb, List.length_take, List.length_drop, List.length_map]
    have := countLt_le sorted (v + 1)
    omega
  refine ⟨?_, hlen, fun u w => ?_⟩
  · rw [← hlen, hperm.length_eq, List.length_map, length_temp_filter]
  · rw [hperm.count_eq, count_temp]

/-- C27 for unweighted graphs (`tOffsets[n]` initialised) with at least one edge. -/
theorem transpose_unweighted_partial {nb : List (List (Nat × Unit))} {sorted : List (Edge Unit)}
    (hs : IsIntSort (temp nb) sorted) (hn : ∀ l ∈ nb, ∀ v ∈ l, v.1 < nb.length)
    (hne : ∃ l ∈ nb, l ≠ []) (hm : sorted.length ≤ intTMax) (ws : List (Nat × Nat))
    (hp : ws.Perm (tWrites (srcAt sorted) sorted.length)) :
    ∃ D, inData nb.length intTMax sorted ws = some D ∧ ∀ v, v < nb.length →
      D.deg v = (nb.map fun l => (l.map Prod.fst).count v).sum ∧ (D.nbrs v).length = D.deg v ∧
      ∀ u w, (D.nbrs v).count (u, w) = (nb.getD u []).count (v, w) :=
  inData_spec hs hn hne hm _ hm ws hp

/-- C27, weighted: right when the uninitialised `tOffsets[n]` happens to be at least `m`. -/
theorem transpose_weighted_partial [DecidableEq W] {nb : List (List (Nat × W))}
    {sorted : List (Edge W)}
    (hs : IsIntSort (temp nb) sorted) (hn : ∀ l ∈ nb, ∀ v ∈ l, v.1 < nb.length)
    (hne : ∃ l ∈ nb, l ≠ []) (hm : sorted.length ≤ intTMax) (garbage : Nat)
    (hg : sorted.length ≤ garbage) (ws : List (Nat × Nat))
    (hp : ws.Perm (tWrites (srcAt sorted) sorted.length)) :
    ∃ D, inData nb.length garbage sorted ws = some D ∧ ∀ v, v < nb.length →
      D.deg v = (nb.map fun l => (l.map Prod.fst).count v).sum ∧ (D.nbrs v).length = D.deg v ∧
      ∀ u w, (D.nbrs v).count (u, w) = (nb.getD u []).count (v, w) :=
  inData_spec hs hn hne hm _ hg ws hp

/-- C27, negative: with `tOffsets[n] = 0` in memory the edge `0 -> 1` is missing among the
in-neighbours of 1. -/
theorem transpose_weighted_wrong :
    ∃ D, inData 2 0 [(⟨1, 0, 7⟩ : Edge Nat)] (tWrites (srcAt [(⟨1, 0, 7⟩ : Edge Nat)]) 1) = some D ∧
      IsIntSort (temp [[(1, 7)], []]) [(⟨1, 0, 7⟩ : Edge Nat)] ∧ D.deg 1 = 0 ∧ D.nbrs 1 = [] := by
  refine ⟨_, rfl, ⟨List.Perm.refl _, List.pairwise_singleton _ _⟩, by decide +kernel, by decide +kernel⟩

/-- C27, negative: a graph without edges makes the code read `temp[0]` of an empty array. -/
theorem transpose_no_edges (n last : Nat) (ws : List (Nat × Nat)) :
    inData n last ([] : List (Edge W)) ws = none ∧ temp (List.replicate n ([] : List (Nat × W))) = [] := by
  refine ⟨rfl, ?_⟩
  unfold temp
  rw [List.flatMap_eq_nil_iff]
  intro x hx
  have := List.fst_mem_of_mem_zipIdx hx
  rw [List.eq_of_mem_replicate this]; rfl

/-! ### Example -/

/-- `0 -> 2`, `1 -> 2`, `3 -> 0`: the offsets of vertices 1 and 3 come from the scan. -/
example :
    let nb : List (List (Nat × Unit)) := [[(2, ())], [(2, ())], [], [(0, ())]]
    let sorted : List (Edge Unit) := [⟨0, 3, ()⟩, ⟨2, 0, ()⟩, ⟨2, 1, ()⟩]
    SortedBySrc sorted ∧ (temp nb).length = 3 ∧ tWrites (srcAt sorted) 3 = [(0, 0), (2, 1)] ∧
    (inData 4 intTMax sorted [(2, 1), (0, 0)]).map (fun D => (List.range 4).map D.nbrs) =
      some [[(3, ())], [], [(0, ()), (1, ())], []] := by
  refine ⟨by simp [SortedBySrc], by decide +kernel, by decide +kernel, by decide +kernel⟩

end Gbbs.Transpose
