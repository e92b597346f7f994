/-
C140: clique counting with space type 6, `benchmarks/CliqueCounting/induced_split.h:12-69`.
-/
import Verif.Clique.Bugs

namespace Gbbs.Clique

/-! ### Model -/

/-- `parallel_work[i]` before the scan, `induced_split.h:20-26`: the out-degrees of the out-neighbours. -/
def work (N : Nat → List Nat) (i : Nat) : Nat := ((N i).map fun v => (N v).length).sum

/-- `parallel_work[i]` after `scan_inplace` (line 28), and `total_work` for `i = n`. `size_t` is not bounded here. -/
def before (N : Nat → List Nat) (i : Nat) : Nat := ((List.range i).map (work N)).sum

/-- `parlay::binary_search(parallel_work, x, std::less)`, `:46-47`: the first position whose entry is not less than `x`, or `n` (trusted). -/
def lowerBound (P : Nat → Nat) (n x : Nat) : Nat := (List.range n).findIdx fun i => decide (¬ P i < x)

/-- `work_per_block`, `:30-32`. -/
def perBlock (total : Nat) : Nat := total / (total / 50000 + 1)

/-- The vertices of block `j`, `:43-49`. -/
def block (P : Nat → Nat) (n w j : Nat) : List Nat :=
  List.range' (lowerBound P n (j * w)) (lowerBound P n ((j + 1) * w) - lowerBound P n (j * w))

/-- `induced_split::CountCliques(DG, K, base_f, use_base, label, recursive_level)`, `:12-69`. Every vertex gets a space of its own (lines 51-54, 59-61); an
iteration is that of `induced_hybrid`. `none` is a division by zero (line 33) or an access out of bounds. -/
def splitV (N : Nat → List Nat) (n K lev : Nat) (label : Bool) (c2 : Nat → Nat → Caps) : Option (Nat × Incs) :=
  if perBlock (before N n) = 0 then none
  else (loop (fun j (_ : Unit) =>
      (workers (iterV N K lev label c2) ((block (before N) n (perBlock (before N n)) j).map fun i => (alloc none (N i).length K n, [i]))).map fun r => (r.1, r.2, ()))
    (List.range (before N n / perBlock (before N n) + 1)) ()).map fun r => (r.1, r.2.1)

/-! ### The blocks -/

theorem le_sum {l : List Nat} {x : Nat} (h : x ∈ l) : x ≤ l.sum := by
  induction l with
  | nil => cases h
  | cons a l ih =>
    rw [List.sum_cons]
    rcases List.mem_cons.1 h with rfl | h
    · omega
    · have := ih h; omega

theorem sum_zero {l : List Nat} (h : ∀ x ∈ l, x = 0) : l.sum = 0 := by
  induction l with
  | nil => rfl
  | cons a l ih => rw [List.sum_cons, h a List.mem_cons_self, ih fun x hx => h x (List.mem_cons_of_mem _ hx)]

theorem before_mono (N : Nat → List Nat) {i j : Nat} (h : i ≤ j) : before N i ≤ before N j := by
  obtain ⟨d, rfl⟩ := Nat.exists_eq_add_of_le h
  induction d with
  | zero => exact Nat.le_refl _
  | succ d ih =>
    refine Nat.le_trans (ih (by omega)) ?_
    rw [← Nat.add_assoc, before, before, List.range_succ, List.map_append, List.sum_append]
    omega

theorem lowerBound_le (P : Nat → Nat) (n x : Nat) : lowerBound P n x ≤ n := by
  have := List.findIdx_le_length (p := fun i => decide (¬ P i < x)) (xs := List.range n)
  rwa [List.length_range] at this

theorem lowerBound_lt {P : Nat → Nat} {n x i : Nat} (h : i < lowerBound P n x) : P i < x := by
  have hi : i < (List.range n).length := by rw [List.length_range]; exact Nat.lt_of_lt_of_le h (lowerBound_le P n x)
  have := List.not_of_lt_findIdx h
  simpa using this

theorem lowerBound_mono {P : Nat → Nat} {n x y : Nat} (h : x ≤ y) : lowerBound P n x ≤ lowerBound P n y := by
  by_contra hc
  have hlt : lowerBound P n y < lowerBound P n x := by omega
  have h1 := lowerBound_lt hlt
  have h2 : lowerBound P n y < (List.range n).length := by
    rw [List.length_range]; exact Nat.lt_of_lt_of_le hlt (lowerBound_le P n x)
  have h3 : ¬ P ((List.range n)[lowerBound P n y]'h2) < y :=
    of_decide_eq_true (List.findIdx_getElem (p := fun i => decide (¬ P i < y)) (xs := List.range n) (w := h2))
  rw [List.getElem_range] at h3
  exact h3 (Nat.lt_of_lt_of_le h1 h)

theorem lowerBound_zero (P : Nat → Nat) (n : Nat) : lowerBound P n 0 = 0 := by
  by_contra hc
  exact absurd (lowerBound_lt (Nat.pos_of_ne_zero hc)) (Nat.not_lt_zero _)

theorem lowerBound_top {P : Nat → Nat} {n x : Nat} (h : ∀ i < n, P i < x) : lowerBound P n x = n := by
  have : (List.range n).findIdx (fun i => decide (¬ P i < x)) = (List.range n).length := by
    rw [List.findIdx_eq_length]
    intro i hi
    simpa using h i (List.mem_range.1 hi)
  rwa [List.length_range] at this

/-- The blocks up to `m`, one after the other, are the vertices up to a bound. -/
theorem blocks_prefix (P : Nat → Nat) (n w m : Nat) : (List.range m).flatMap (block P n w) = List.range (lowerBound P n (m * w)) := by
  induction m with
  | zero => rw [Nat.zero_mul, lowerBound_zero]; rfl
  | succ m ih =>
    have h1 : lowerBound P n (m * w) ≤ lowerBound P n ((m + 1) * w) := lowerBound_mono (Nat.mul_le_mul_right _ (Nat.le_succ m))
    rw [List.range_succ, List.flatMap_append, ih, List.flatMap_singleton, block, List.range_eq_range', List.range_eq_range']
    have := List.range'_append (s := 0) (m := lowerBound P n (m * w)) (n := lowerBound P n ((m + 1) * w) - lowerBound P n (m * w)) (step := 1)
    rw [Nat.one_mul, Nat.zero_add] at this
    rw [this]
    congr 1
    omega

theorem perBlock_pos {t : Nat} (h : 0 < t) : 0 < perBlock t :=
  Nat.div_pos (by have := Nat.div_le_self t 50000; have : t / 50000 < t := Nat.div_lt_self h (by omega); omega) (Nat.succ_pos _)

/-- **Every vertex is in exactly one block**, and the blocks go over the vertices in order. -/
theorem blocks_all (N : Nat → List Nat) (n : Nat) (h : 0 < before N n) :
    (List.range (before N n / perBlock (before N n) + 1)).flatMap (block (before N) n (perBlock (before N n))) = List.range n := by
  rw [blocks_prefix, lowerBound_top]
  intro i hi
  refine Nat.lt_of_le_of_lt (before_mono N (Nat.le_of_lt hi)) ?_
  have := Nat.div_add_mod (before N n) (perBlock (before N n))
  have h2 := Nat.mod_lt (before N n) (perBlock_pos h)
  rw [Nat.add_mul, Nat.one_mul, Nat.mul_comm]
  omega

/-! ### Counting -/

/-- An iteration with arrays that are large enough for its vertex. -/
theorem iterV_item {N : Nat → List Nat} {n : Nat} {rk : Nat → Nat} (hrk : ∀ v, ∀ w ∈ N v, rk v < rk w) (hnd : ∀ v, (N v).Nodup)
    (hb : ∀ x, ∀ w ∈ N x, x < n ∧ w < n) {K lev : Nat} {label : Bool} (hs : label = false → ∀ v, (N v).Pairwise (· < ·)) (hK : 2 ≤ K) (hK2 : K ≤ 128)
    {c2 : Nat → Nat → Caps} (h2 : lev = 0 ∨ ∀ i v, Fits (c2 i v) (N i).length K) (i : Nat) {c : Caps} (hc : FitsAll c (N i).length K n) :
    ∃ b, iterV N K lev label c2 c i (fun _ => 0, fun _ => 0) = some ((seqs N K (N i)).length, b, (fun _ => 0, fun _ => 0)) ∧
      ∀ x, incTot b x = occ id ((seqs N K (N i)).map (i :: ·)) x := by
  rw [iterV]
  by_cases hnil : N i = []
  · rw [if_pos hnil, hnil]
    obtain ⟨m, rfl⟩ : ∃ m, K = m + 1 := ⟨K - 1, by omega⟩
    exact ⟨[], rfl, fun _ => rfl⟩
  obtain ⟨k1, k2⟩ := setup_spec (label := label) hnd hs i
  rw [if_neg hnil, if_neg (not_bad hc (by omega) hnd hb (Nat.le_refl _) k1 (fun w hw => (hb i w hw).2) label)]
  obtain ⟨l, hl1, hl2⟩ := go_local hrk hnd (hnd i) k1 (j := K - 2) (lev := lev) (by omega)
    (c := c) (by rw [show K - 2 + 2 = K by omega]; exact hc.base) (c2 := c2 i)
    (h2.imp id fun h v => by rw [show K - 2 + 2 = K by omega]; exact h i v)
  rw [show K - 2 + 2 = K by omega] at hl1 hl2
  show ∃ b, Option.map _ (go (setup N label (fun _ => 0) i).1 (N i).length (fun j => (N i).getD j 0) (c2 i) (K - 2) 1 lev c
    (List.range (N i).length) (fun _ => 0)) = _ ∧ _
  rw [hl1]
  refine ⟨l ++ [(i, (seqs N K (N i)).length)], ?_, fun x => ?_⟩
  · rw [Option.map_some, k2]
  · rw [incTot_append, incTot_single, occ_cons, hl2]
    rfl

theorem splitV_spec {N : Nat → List Nat} {n : Nat} {rk : Nat → Nat} (hrk : ∀ v, ∀ w ∈ N v, rk v < rk w) (hnd : ∀ v, (N v).Nodup)
    (hb : ∀ x, ∀ w ∈ N x, x < n ∧ w < n) {K lev : Nat} {label : Bool} (hs : label = false → ∀ v, (N v).Pairwise (· < ·)) (hK : 2 ≤ K) (hK2 : K ≤ 128)
    {c2 : Nat → Nat → Caps} (h2 : lev = 0 ∨ ∀ i v, Fits (c2 i v) (N i).length K) (h0 : 0 < before N n) :
    ∃ l, splitV N n K lev label c2 = some ((seqs N (K + 1) (List.range n)).length, l) ∧ ∀ x, incTot l x = occ id (seqs N (K + 1) (List.range n)) x := by
  have hf : ∀ v, (N v).filter (fun w => decide (w ∈ List.range n)) = N v := fun v =>
    List.filter_eq_self.2 fun w hw => decide_eq_true (List.mem_range.2 (hb v w hw).2)
  obtain ⟨b, h1, h3⟩ := loop_incs (st := ()) (l := List.range (before N n / perBlock (before N n) + 1))
    (f := fun j (_ : Unit) => (workers (iterV N K lev label c2)
      ((block (before N) n (perBlock (before N n)) j).map fun i => (alloc none (N i).length K n, [i]))).map fun r => (r.1, r.2, ()))
    (a := fun j => ((block (before N) n (perBlock (before N n)) j).map fun i => (seqs N K (N i)).length).sum)
    (g := fun j x => ((block (before N) n (perBlock (before N n)) j).map fun i => occ id ((seqs N K (N i)).map (i :: ·)) x).sum) (fun j _ => by
      obtain ⟨b, h1, h3⟩ := workers_incs (f := iterV N K lev label c2) (a := fun i => (seqs N K (N i)).length)
        (g := fun i x => occ id ((seqs N K (N i)).map (i :: ·)) x)
        (ws := (block (before N) n (perBlock (before N n)) j).map fun i => (alloc none (N i).length K n, [i]))
        (items := block (before N) n (perBlock (before N n)) j) (by
          rw [List.flatMap_map, List.flatMap_singleton']) (fun w hw i hi => by
            obtain ⟨i', _, rfl⟩ := List.mem_map.1 hw
            rw [List.mem_singleton.1 hi]
            exact iterV_item hrk hnd hb hs hK hK2 h2 i' (alloc_fits _ _ _))
      exact ⟨b, by rw [h1]; rfl, h3⟩)
  have hsum : ∀ q : Nat → Nat, ((List.range (before N n / perBlock (before N n) + 1)).map fun j =>
      ((block (before N) n (perBlock (before N n)) j).map q).sum).sum = ((List.range n).map q).sum := fun q => by
    rw [← blocks_all N n h0, List.map_flatMap, List.flatMap_def, List.sum_flatten, List.map_map]
    rfl
  refine ⟨b, ?_, fun x => ?_⟩
  · rw [splitV, if_neg (Nat.ne_of_gt (perBlock_pos h0)), h1, length_seqs, hsum]; simp only [hf, Option.map_some]
  · rw [h3 x, seqs, occ_flatMap, hsum]; simp only [hf]

section thms
variable {G : UG} {k : Nat} {rank : Nat → Nat} {filter label : Bool}

/-- **C140, space type 6.** If the directed graph has a path of two arcs, `Clique` counts the sets of `k` pairwise adjacent vertices (`4 ≤ k ≤ 129`), and
for every vertex those that contain it. -/
theorem C140_split_partial (hG : G.Sym) (hnd : ∀ u, (G.nb u).Nodup) (hr : ((List.range G.n).map rank).Perm (List.range G.n))
    (hs : label = false → filter = true → ∀ u, (G.nb u).Pairwise (· < ·)) (hk : 4 ≤ k) (hk2 : k ≤ 129) {lev : Nat}
    {c2 : Nat → Nat → Caps} (h2 : lev = 0 ∨ ∀ i v, Fits (c2 i v) (directed G k rank filter i).length (k - 1))
    (h0 : ∃ u v w, v ∈ directed G k rank filter u ∧ w ∈ directed G k rank filter v) :
    ∃ l, splitV (directed G k rank filter) G.n (k - 1) lev label c2 = some ((cliques G k).card, l) ∧
      ∀ u < G.n, incTot l (name rank filter u) = ((cliques G k).filter fun S => u ∈ S).card := by
  have hsym : ∀ u v, v ∈ G.nb u → u ∈ G.nb v := fun u v h => by
    rw [← List.count_pos_iff] at h ⊢; rw [hG.sym]; exact h
  have hinj : ∀ u < G.n, ∀ v < G.n, rank u = rank v → u = v := fun u hu v hv he =>
    List.inj_on_of_nodup_map (hr.nodup_iff.2 List.nodup_range) (List.mem_range.2 hu) (List.mem_range.2 hv) he
  have hD := dir_directed (k := k) (filter := filter) hG.bound hnd hr
  have hpos : 0 < before (directed G k rank filter) G.n := by
    obtain ⟨u, v, w, hv, hw⟩ := h0
    have h3 : 0 < (directed G k rank filter v).length := List.length_pos_of_mem hw
    have h4 : (directed G k rank filter v).length ≤ work (directed G k rank filter) u :=
      le_sum (List.mem_map.2 ⟨v, hv, rfl⟩)
    have h5 : work (directed G k rank filter) u ≤ before (directed G k rank filter) G.n :=
      le_sum (List.mem_map.2 ⟨u, List.mem_range.2 (hD.bound u v hv).1, rfl⟩)
    omega
  obtain ⟨l, h3, h4⟩ := splitV_spec hD.up hD.nodup hD.bound (K := k - 1) (lev := lev) (label := label)
    (fun hl => sortedN hnd hinj hG.bound (hs hl)) (by omega) (by omega) h2 hpos
  obtain ⟨h5, h6⟩ := seqs_counts hsym hinj hD
  rw [show k - 1 + 1 = k by omega] at h3 h4
  exact ⟨l, by rw [h3, h5], fun u hu => by rw [h4, h6 u hu]⟩

/-- **C140, refuted: space type 6 without two arcs in a row.** The program divides by zero. -/
theorem C140_split_divides_by_zero {lev : Nat} {c2 : Nat → Nat → Caps}
    (h0 : ¬ ∃ u v w, v ∈ directed G k rank filter u ∧ w ∈ directed G k rank filter v) :
    splitV (directed G k rank filter) G.n (k - 1) lev label c2 = none := by
  have hw : ∀ u, work (directed G k rank filter) u = 0 := fun u => by
    refine sum_zero ?_
    intro x hx
    obtain ⟨v, hv, rfl⟩ := List.mem_map.1 hx
    rw [List.length_eq_zero_iff, List.eq_nil_iff_forall_not_mem]
    exact fun w hw => h0 ⟨u, v, w, hv, hw⟩
  have ht : before (directed G k rank filter) G.n = 0 := by
    refine sum_zero ?_
    intro x hx
    obtain ⟨u, _, rfl⟩ := List.mem_map.1 hx
    exact hw u
  rw [splitV, if_pos]
  rw [ht]; rfl

/-- In particular for every graph of maximum degree below `k - 1`, for instance a path: the correct answer is 0. -/
theorem C140_split_low_degrees {lev : Nat} {c2 : Nat → Nat → Caps} (hd : ∀ u, (G.nb u).length < k - 1) :
    splitV (directed G k rank filter) G.n (k - 1) lev label c2 = none := by
  have hf : ∀ u, filterN G k rank u = [] := fun u => List.filter_eq_nil_iff.2 fun v _ => by
    have := hd u
    simp only [decide_eq_true_eq]
    omega
  have hn : ∀ u, directed G k rank filter u = [] := fun u => by
    rw [directed]
    split
    · exact hf u
    · rw [relabelN]
      split
      · rename_i i _; rw [hf i, List.map_nil, List.mergeSort_nil]
      · rfl
  refine C140_split_divides_by_zero ?_
  rintro ⟨u, v, w, hv, _⟩
  rw [hn u] at hv
  cases hv

end thms

/-! ### Examples -/

/-- The five cliques of `exD`, with their vertices; the blocks of a graph with one unit of work per block. -/
example : (splitV exD 8 3 0 true (fun _ _ => alloc none 0 0 0)).map (fun r => (r.1, (List.range 8).map (incTot r.2))) = some (5, [0, 0, 0, 4, 4, 4, 4, 4]) := by
  decide +kernel

example : block (fun i => [0, 0, 3, 3, 7].getD i 0) 5 3 0 = [0, 1] ∧ block (fun i => [0, 0, 3, 3, 7].getD i 0) 5 3 1 = [2, 3] ∧
    block (fun i => [0, 0, 3, 3, 7].getD i 0) 5 3 2 = [4] := by decide +kernel

/-- `exK` has two arcs in a row, and a path of four vertices has not. -/
example : (2 ∈ directed exK 4 exRank true 1 ∧ 1 ∈ directed exK 4 exRank true 0) ∧
    (∀ u, ((UG.ofLists [[1], [0, 2], [1, 3], [2]]).nb u).length < 4 - 1) := by
  refine ⟨by decide +kernel, fun u => ?_⟩
  by_cases hu : u < 4
  · have : ∀ u < 4, ((UG.ofLists [[1], [0, 2], [1, 3], [2]]).nb u).length < 4 - 1 := by decide
    exact this u hu
  · simp only [UG.ofLists]
    rw [List.getD_eq_getElem?_getD, List.getElem?_eq_none (by simp; omega)]
    decide

end Gbbs.Clique
