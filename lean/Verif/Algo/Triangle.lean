/-
C45: triangle counting, `benchmarks/TriangleCounting/ShunTangwongsan15/Triangle.h`.
-/
import Verif.Common
import Verif.Seq.Intersect
import Mathlib.Data.List.TakeWhile
import Mathlib.Data.Finset.Powerset
import Mathlib.Data.Finset.Card
import Mathlib.Algebra.BigOperators.Group.List.Basic

namespace Gbbs.Tri

open Isect

/-! ### Model -/

/-- An unweighted graph: number of vertices and neighbour lists. -/
structure Gr where
  n : Nat
  nbr : Nat → List Nat

/-- `filterGraph(G, rank[u] < rank[v])`, `Triangle.h:186-189` and `:219-223` (C28: the lists are filtered in order). -/
def Gr.dir (G : Gr) (rank : Nat → Nat) (u : Nat) : List Nat := (G.nbr u).filter fun v => decide (rank u < rank v)

/-- `parallel_work[i]`, lines 105-114. -/
def work (D : Nat → List Nat) (i : Nat) : Nat := ((D i).map fun v => (D v).length).sum

/-- `n_blocks`, line 118. -/
def nBlocks (total : Nat) : Nat := total / 50000 + 1

/-- `work_per_block`, line 119. -/
def perBlock (total : Nat) : Nat := (total + nBlocks total - 1) / nBlocks total

/-- `parallel_work` after the scan of line 115. -/
def scanned (n : Nat) (D : Nat → List Nat) : List Nat := (List.range n).map (exScan (work D))

/-- The vertices of block `b`, lines 138-143. -/
def blockVs (n : Nat) (D : Nat → List Nat) (b : Nat) : List Nat :=
  let w := perBlock (exScan (work D) n)
  let s := binarySearch (scanned n D) (b * w)
  let e := binarySearch (scanned n D) ((b + 1) * w)
  List.range' s (e - s)

/-- The calls of `f` for vertex `i`, and `total_ct`, lines 125-134. -/
def calls (D : Nat → List Nat) (i : Nat) : List (Nat × Nat × Nat) := (D i).flatMap fun v => (intersectFPar i v (D i) (D v)).2

def total (D : Nat → List Nat) (i : Nat) : Nat := ((D i).map fun v => (intersectFPar i v (D i) (D v)).1).sum

/-- `CountDirectedBalanced`, lines 98-150: the result and the calls of `f`. The blocks run in the given order; each writes
`counts[i]` for its own vertices only. `counts` is 0 at the start (line 173, 213). -/
def countBalanced (n : Nat) (D : Nat → List Nat) (order : List Nat) : Nat × List (Nat × Nat × Nat) :=
  let vs := order.flatMap (blockVs n D)
  let counts := vs.foldl (fun c i => upd c i (total D i)) fun _ => 0
  (((List.range n).map counts).sum, vs.flatMap (calls D))

/-- `rank[o[i]] = i` of `rankNodes`, line 67, for the sorted permutation `o`. -/
def rankOf (o : List Nat) (v : Nat) : Nat := o.idxOf v

/-! ### Specification -/

/-- A simple symmetric graph with sorted neighbour lists. -/
structure Gr.Simple (G : Gr) : Prop where
  bound : ∀ u v, v ∈ G.nbr u → u < G.n ∧ v < G.n
  sorted : ∀ u, SSorted (G.nbr u)
  sym : ∀ u v, v ∈ G.nbr u → u ∈ G.nbr v
  loop : ∀ u, u ∉ G.nbr u

/-- The triangles: sets of three pairwise adjacent vertices. -/
def Gr.triangles (G : Gr) : Finset (Finset Nat) :=
  (Finset.powersetCard 3 (Finset.range G.n)).filter fun s => ∀ a ∈ s, ∀ b ∈ s, a ≠ b → b ∈ G.nbr a

/-- The vertices of a call. -/
def verts (t : Nat × Nat × Nat) : Finset Nat := {t.1, t.2.1, t.2.2}

/-! ### Proof -/

section balance
variable {n : Nat} {D : Nat → List Nat}

theorem binarySearch_map (f : Nat → Nat) (hf : ∀ i j, i ≤ j → f i ≤ f j) (a : Nat) : ∀ n, ∀ i, i < n →
    (i < binarySearch ((List.range n).map f) a ↔ f i < a) := by
  intro n i hi
  rw [binarySearch]
  constructor
  · intro h
    have hm : ((List.range n).map f)[i]? = some (f i) := by rw [List.getElem?_map, List.getElem?_range hi]; rfl
    have hp : List.takeWhile (fun x => decide (x < a)) ((List.range n).map f) <+: (List.range n).map f := List.takeWhile_prefix _
    have h2 := hp.getElem h
    have h3 := List.mem_takeWhile_imp (List.getElem_mem h)
    rw [h2, List.getElem_map, List.getElem_range, decide_eq_true_eq] at h3
    exact h3
  · intro h
    by_contra hc
    have key : ∀ (l : List Nat), (∀ x ∈ l, f x < a) → List.takeWhile (fun x => decide (x < a)) (l.map f) = l.map f := by
      intro l hl
      rw [List.takeWhile_eq_self_iff]
      intro x hx
      obtain ⟨y, hy, rfl⟩ := List.mem_map.1 hx
      exact decide_eq_true (hl y hy)
    have hs : List.range n = List.range (i + 1) ++ (List.range n).drop (i + 1) := by
      have h1 := List.take_append_drop (i + 1) (List.range n)
      rw [List.take_range, Nat.min_eq_left (by omega)] at h1
      exact h1.symm
    rw [hs, List.map_append, List.takeWhile_append_of_pos, List.length_append, List.length_map, List.length_range] at hc
    · omega
    · intro x hx
      obtain ⟨y, hy, rfl⟩ := List.mem_map.1 hx
      rw [List.mem_range] at hy
      have := hf y i (by omega)
      exact decide_eq_true (by omega)

theorem binarySearch_le (l : List Nat) (a : Nat) : binarySearch l a ≤ l.length := by
  rw [binarySearch]
  exact (List.takeWhile_prefix _).length_le

theorem mem_blockVs {b i : Nat} : i ∈ blockVs n D b ↔ i < n ∧ b * perBlock (exScan (work D) n) ≤ exScan (work D) i ∧
    exScan (work D) i < (b + 1) * perBlock (exScan (work D) n) := by
  rw [blockVs]
  simp only [List.mem_range'_1]
  have hl := binarySearch_le (scanned n D) ((b + 1) * perBlock (exScan (work D) n))
  rw [scanned, List.length_map, List.length_range] at hl
  have hkey := binarySearch_map (exScan (work D)) (fun i j h => exScan_mono _ h)
  constructor
  · rintro ⟨h1, h2⟩
    have hi : i < n := by rw [scanned] at h1 h2; omega
    have e1 := hkey (b * perBlock (exScan (work D) n)) n i hi
    have e2 := hkey ((b + 1) * perBlock (exScan (work D) n)) n i hi
    rw [scanned] at h1 h2
    exact ⟨hi, by rw [← Nat.not_lt, ← e1]; omega, by rw [← e2]; omega⟩
  · rintro ⟨hi, h1, h2⟩
    have e1 := hkey (b * perBlock (exScan (work D) n)) n i hi
    have e2 := hkey ((b + 1) * perBlock (exScan (work D) n)) n i hi
    rw [← e2] at h2
    rw [← Nat.not_lt, ← e1] at h1
    rw [scanned]
    omega

theorem perBlock_cover (t : Nat) : t ≤ nBlocks t * perBlock t := by
  have h := Nat.div_add_mod (t + nBlocks t - 1) (nBlocks t)
  have h0 : 0 < nBlocks t := Nat.succ_pos _
  have h1 := Nat.mod_lt (t + nBlocks t - 1) h0
  rw [perBlock]
  omega

theorem blocks_disjoint {b b' i : Nat} (h : i ∈ blockVs n D b) (h' : i ∈ blockVs n D b') : b = b' := by
  rw [mem_blockVs] at h h'
  obtain ⟨_, a1, a2⟩ := h
  obtain ⟨_, c1, c2⟩ := h'
  generalize perBlock (exScan (work D) n) = w at *
  rcases Nat.lt_trichotomy b b' with hl | hl | hl
  · have := Nat.mul_le_mul_right w (show b + 1 ≤ b' by omega); omega
  · exact hl
  · have := Nat.mul_le_mul_right w (show b' + 1 ≤ b by omega); omega

theorem block_exists {i : Nat} (hi : i < n) (hw : 0 < work D i) : ∃ b, b < nBlocks (exScan (work D) n) ∧ i ∈ blockVs n D b := by
  have h1 : exScan (work D) i + work D i ≤ exScan (work D) n := exScan_mono _ (Nat.succ_le_of_lt hi)
  have h2 := perBlock_cover (exScan (work D) n)
  have hw0 : 0 < perBlock (exScan (work D) n) := by
    rcases Nat.eq_zero_or_pos (perBlock (exScan (work D) n)) with h | h
    · rw [h, Nat.mul_zero] at h2; omega
    · exact h
  refine ⟨exScan (work D) i / perBlock (exScan (work D) n), ?_, mem_blockVs.2 ⟨hi, Nat.div_mul_le_self _ _, ?_⟩⟩
  · rw [Nat.div_lt_iff_lt_mul hw0]; omega
  · rw [Nat.mul_comm]; exact Nat.lt_mul_div_succ _ hw0

theorem vs_nodup {order : List Nat} (hs : Sched (nBlocks (exScan (work D) n)) order) : (order.flatMap (blockVs n D)).Nodup := by
  rw [List.nodup_flatMap]
  refine ⟨fun b _ => List.nodup_range', hs.1.imp_of_mem fun {a b} _ _ hab i hi hj => hab (blocks_disjoint hi hj)⟩

end balance

theorem foldl_upd_mem {f : Nat → Nat} (l : List Nat) (c : Nat → Nat) (i : Nat) :
    (l.foldl (fun c i => upd c i (f i)) c) i = if i ∈ l then f i else c i := by
  induction l generalizing c with
  | nil => simp
  | cons a l ih =>
    rw [List.foldl_cons, ih]
    by_cases h : i ∈ l
    · rw [if_pos h, if_pos (List.mem_cons_of_mem _ h)]
    · rw [if_neg h]
      by_cases ha : i = a
      · subst ha; rw [upd_same, if_pos List.mem_cons_self]
      · rw [upd_of_ne _ _ ha, if_neg (by simp [ha, h])]

theorem mem_le_sum {l : List Nat} {a : Nat} (h : a ∈ l) : a ≤ l.sum := by
  induction l with
  | nil => cases h
  | cons b l ih =>
    rw [List.sum_cons]
    rcases List.mem_cons.1 h with rfl | h
    · omega
    · have := ih h; omega

section count
variable {n : Nat} {D : Nat → List Nat}

theorem total_eq (hD : ∀ u, SSorted (D u)) (i : Nat) : total D i = (calls D i).length := by
  rw [total, calls, List.length_flatMap]
  congr 1
  apply List.map_congr_left
  intro v _
  obtain ⟨h1, h2⟩ := intersectFPar_correct i v (D i) (D v) (hD i) (hD v)
  rw [h1, h2, List.length_map]

theorem mem_calls (hD : ∀ u, SSorted (D u)) {i : Nat} {t : Nat × Nat × Nat} :
    t ∈ calls D i ↔ t.1 = i ∧ t.2.1 ∈ D i ∧ t.2.2 ∈ D i ∧ t.2.2 ∈ D t.2.1 := by
  rw [calls, List.mem_flatMap]
  constructor
  · rintro ⟨v, hv, ht⟩
    rw [(intersectFPar_correct i v (D i) (D v) (hD i) (hD v)).2] at ht
    obtain ⟨w, hw, rfl⟩ := List.mem_map.1 ht
    rw [common, List.mem_filter, decide_eq_true_eq] at hw
    exact ⟨rfl, hv, hw.1, hw.2⟩
  · rintro ⟨rfl, h1, h2, h3⟩
    refine ⟨t.2.1, h1, ?_⟩
    rw [(intersectFPar_correct t.1 t.2.1 (D t.1) (D t.2.1) (hD _) (hD _)).2]
    exact List.mem_map.2 ⟨t.2.2, List.mem_filter.2 ⟨h2, decide_eq_true h3⟩, rfl⟩

theorem calls_nodup (hD : ∀ u, SSorted (D u)) (i : Nat) : (calls D i).Nodup := by
  rw [calls, List.nodup_flatMap]
  have nd : ∀ u, (D u).Nodup := fun u => (hD u).imp Nat.ne_of_lt
  refine ⟨fun v _ => ?_, (nd i).imp_of_mem fun {a b} _ _ hab t ha hb => hab ?_⟩
  · rw [(intersectFPar_correct i v (D i) (D v) (hD i) (hD v)).2]
    refine List.Nodup.map (fun a b h => ?_) ((nd i).filter _)
    simpa using h
  · simp only [] at ha hb
    rw [(intersectFPar_correct i a (D i) (D a) (hD i) (hD a)).2] at ha
    rw [(intersectFPar_correct i b (D i) (D b) (hD i) (hD b)).2] at hb
    obtain ⟨w, _, rfl⟩ := List.mem_map.1 ha
    obtain ⟨w', _, h⟩ := List.mem_map.1 hb
    simp only [Prod.mk.injEq] at h
    exact h.2.1.symm

theorem calls_work (hD : ∀ u, SSorted (D u)) {i : Nat} (h : work D i = 0) : calls D i = [] := by
  rw [List.eq_nil_iff_forall_not_mem]
  intro t ht
  obtain ⟨_, h1, _, h3⟩ := (mem_calls hD).1 ht
  have h4 := mem_le_sum (List.mem_map_of_mem (f := fun v => (D v).length) h1)
  rw [work] at h
  have : D t.2.1 = [] := List.length_eq_zero_iff.1 (by omega)
  rw [this] at h3
  cases h3

/-- The result is the number of calls; the calls are the oriented triangles, each once. -/
theorem countBalanced_spec (hD : ∀ u, SSorted (D u)) (hb : ∀ u v, v ∈ D u → u < n) {order : List Nat}
    (hs : Sched (nBlocks (exScan (work D) n)) order) :
    (countBalanced n D order).1 = (countBalanced n D order).2.length ∧ (countBalanced n D order).2.Nodup ∧
    ∀ t, t ∈ (countBalanced n D order).2 ↔ t.2.1 ∈ D t.1 ∧ t.2.2 ∈ D t.1 ∧ t.2.2 ∈ D t.2.1 := by
  have hn := vs_nodup (n := n) (D := D) hs
  rw [countBalanced]
  simp only []
  generalize hV : order.flatMap (blockVs n D) = V at *
  have hVn : ∀ i ∈ V, i < n := by
    intro i hi
    rw [← hV, List.mem_flatMap] at hi
    obtain ⟨b, _, hi⟩ := hi
    exact (mem_blockVs.1 hi).1
  have hVw : ∀ i, i < n → 0 < work D i → i ∈ V := by
    intro i hi hw
    obtain ⟨b, hb, hm⟩ := block_exists hi hw
    rw [← hV, List.mem_flatMap]
    exact ⟨b, (hs.2 b).2 hb, hm⟩
  refine ⟨?_, ?_, fun t => ?_⟩
  · have hp : V.Perm ((List.range n).filter fun i => decide (i ∈ V)) := by
      rw [List.perm_ext_iff_of_nodup hn (List.nodup_range.filter _)]
      intro i
      rw [List.mem_filter, List.mem_range, decide_eq_true_eq]
      exact ⟨fun h => ⟨hVn i h, h⟩, fun h => h.2⟩
    have key : ∀ l : List Nat, (l.map (V.foldl (fun c i => upd c i (total D i)) fun _ => 0)).sum =
        ((l.filter fun i => decide (i ∈ V)).map fun i => (calls D i).length).sum := by
      intro l
      induction l with
      | nil => rfl
      | cons a l ih =>
        rw [List.map_cons, List.sum_cons, ih, foldl_upd_mem]
        by_cases ha : a ∈ V
        · rw [if_pos ha, List.filter_cons_of_pos (by simpa using ha), List.map_cons, List.sum_cons, total_eq hD]
        · rw [if_neg ha, List.filter_cons_of_neg (by simpa using ha), Nat.zero_add]
    rw [key, List.length_flatMap]
    exact ((hp.map _).sum_eq).symm
  · rw [List.nodup_flatMap]
    refine ⟨fun i _ => calls_nodup hD i, hn.imp_of_mem fun {a b} _ _ hab t ha hb => hab ?_⟩
    exact ((mem_calls hD).1 ha).1.symm.trans ((mem_calls hD).1 hb).1
  · rw [List.mem_flatMap]
    constructor
    · rintro ⟨i, _, hi⟩
      obtain ⟨rfl, h⟩ := (mem_calls hD).1 hi
      exact h
    · intro h
      have hm : t ∈ calls D t.1 := (mem_calls hD).2 ⟨rfl, h⟩
      refine ⟨t.1, hVw t.1 (hb _ _ h.1) ?_, hm⟩
      by_contra hw
      rw [calls_work hD (by omega)] at hm
      cases hm

end count

/-! ### Theorems -/

/-- C45: for every injective ranking and every schedule of the blocks, `f` is called exactly once for every triangle, and the result is
the number of triangles. -/
theorem triangle_exact {G : Gr} (hG : G.Simple) {rank : Nat → Nat} (hr : ∀ u v, u < G.n → v < G.n → rank u = rank v → u = v)
    {order : List Nat} (hs : Sched (nBlocks (exScan (work (G.dir rank)) G.n)) order) :
    (countBalanced G.n (G.dir rank) order).1 = G.triangles.card ∧
    ((countBalanced G.n (G.dir rank) order).2.map verts).Nodup ∧
    ∀ s, s ∈ (countBalanced G.n (G.dir rank) order).2.map verts ↔ s ∈ G.triangles := by
  have hD : ∀ u, SSorted (G.dir rank u) := fun u => (hG.sorted u).filter _
  have hm : ∀ u v, v ∈ G.dir rank u ↔ v ∈ G.nbr u ∧ rank u < rank v := fun u v => by
    rw [Gr.dir, List.mem_filter, decide_eq_true_eq]
  obtain ⟨h1, h2, h3⟩ := countBalanced_spec hD (fun u v h => (hG.bound u v ((hm u v).1 h).1).1) hs
  generalize countBalanced G.n (G.dir rank) order = r at *
  obtain ⟨cnt, cs⟩ := r
  simp only [] at h1 h2 h3 ⊢
  have h3' : ∀ a b c, (a, b, c) ∈ cs ↔ (b ∈ G.nbr a ∧ rank a < rank b) ∧ (c ∈ G.nbr a ∧ rank a < rank c) ∧ (c ∈ G.nbr b ∧ rank b < rank c) :=
    fun a b c => by rw [h3]; simp only [hm]
  have hmem : ∀ s, s ∈ cs.map verts ↔ s ∈ G.triangles := by
    intro s
    rw [List.mem_map, Gr.triangles, Finset.mem_filter, Finset.mem_powersetCard]
    constructor
    · rintro ⟨⟨a, b, c⟩, ht, rfl⟩
      obtain ⟨⟨e1, l1⟩, ⟨e2, l2⟩, ⟨e3, l3⟩⟩ := (h3' a b c).1 ht
      have hab : a ≠ b := fun h => by rw [h] at l1; omega
      have hac : a ≠ c := fun h => by rw [h] at l2; omega
      have hbc : b ≠ c := fun h => by rw [h] at l3; omega
      refine ⟨⟨?_, ?_⟩, ?_⟩
      · intro x hx
        simp only [verts, Finset.mem_insert, Finset.mem_singleton] at hx
        rw [Finset.mem_range]
        rcases hx with rfl | rfl | rfl
        · exact (hG.bound _ _ e1).1
        · exact (hG.bound _ _ e1).2
        · exact (hG.bound _ _ e2).2
      · exact Finset.card_eq_three.2 ⟨a, b, c, hab, hac, hbc, rfl⟩
      · intro x hx y hy hxy
        simp only [verts, Finset.mem_insert, Finset.mem_singleton] at hx hy
        rcases hx with rfl | rfl | rfl <;> rcases hy with rfl | rfl | rfl <;>
          first | exact absurd rfl hxy | assumption | (apply hG.sym; assumption)
    · rintro ⟨⟨hsub, hcard⟩, hadj⟩
      obtain ⟨x, y, z, hxy, hxz, hyz, rfl⟩ := Finset.card_eq_three.1 hcard
      have hx : x < G.n := Finset.mem_range.1 (hsub (by simp))
      have hy : y < G.n := Finset.mem_range.1 (hsub (by simp))
      have hz : z < G.n := Finset.mem_range.1 (hsub (by simp))
      have rxy : rank x ≠ rank y := fun h => hxy (hr _ _ hx hy h)
      have rxz : rank x ≠ rank z := fun h => hxz (hr _ _ hx hz h)
      have ryz : rank y ≠ rank z := fun h => hyz (hr _ _ hy hz h)
      have a1 : y ∈ G.nbr x := hadj x (by simp) y (by simp) hxy
      have a2 : z ∈ G.nbr x := hadj x (by simp) z (by simp) hxz
      have a3 : z ∈ G.nbr y := hadj y (by simp) z (by simp) hyz
      have b1 := hG.sym _ _ a1
      have b2 := hG.sym _ _ a2
      have b3 := hG.sym _ _ a3
      have perm : ∀ a b c, b ∈ G.nbr a → c ∈ G.nbr a → c ∈ G.nbr b → rank a < rank b → rank b < rank c →
          ({a, b, c} : Finset Nat) = {x, y, z} → ∃ t ∈ cs, verts t = {x, y, z} := by
        intro a b c f1 f2 f3 g1 g2 he
        exact ⟨(a, b, c), (h3' a b c).2 ⟨⟨f1, g1⟩, ⟨f2, by omega⟩, ⟨f3, g2⟩⟩, he⟩
      rcases Nat.lt_or_gt_of_ne rxy with l1 | l1 <;> rcases Nat.lt_or_gt_of_ne rxz with l2 | l2 <;>
        rcases Nat.lt_or_gt_of_ne ryz with l3 | l3
      · exact perm x y z a1 a2 a3 l1 l3 rfl
      · exact perm x z y a2 a1 b3 l2 l3 (by ext w; simp; tauto)
      · omega
      · exact perm z x y b2 b3 a1 l2 l1 (by ext w; simp; tauto)
      · exact perm y x z b1 a3 a2 l1 l2 (by ext w; simp; tauto)
      · omega
      · exact perm y z x a3 b1 b2 l3 l2 (by ext w; simp; tauto)
      · exact perm z y x b3 b2 b1 l3 l1 (by ext w; simp; tauto)
  have hnd : (cs.map verts).Nodup := by
    refine List.Nodup.map_on ?_ h2
    rintro ⟨a, b, c⟩ ht ⟨a', b', c'⟩ ht' he
    obtain ⟨⟨_, l1⟩, ⟨_, l2⟩, ⟨_, l3⟩⟩ := (h3' a b c).1 ht
    obtain ⟨⟨_, k1⟩, ⟨_, k2⟩, ⟨_, k3⟩⟩ := (h3' a' b' c').1 ht'
    have hmem : ∀ x, (x = a ∨ x = b ∨ x = c) ↔ (x = a' ∨ x = b' ∨ x = c') := fun x => by
      have := Finset.ext_iff.1 he x
      simpa only [verts, Finset.mem_insert, Finset.mem_singleton] using this
    have ha := (hmem a).1 (Or.inl rfl)
    have hb := (hmem b).1 (Or.inr (Or.inl rfl))
    have hc := (hmem c).1 (Or.inr (Or.inr rfl))
    have ha' := (hmem a').2 (Or.inl rfl)
    have hc' := (hmem c').2 (Or.inr (Or.inr rfl))
    have ea : a = a' := by
      rcases ha with h | h | h
      · exact h
      · rcases ha' with g | g | g
        · exact g.symm
        · rw [h] at l1; rw [g] at k1; omega
        · rw [h] at l2; rw [g] at k1; omega
      · rcases ha' with g | g | g
        · exact g.symm
        · rw [h] at l1; rw [g] at k2; omega
        · rw [h] at l2; rw [g] at k2; omega
    have ec : c = c' := by
      rcases hc with h | h | h
      · rw [h, ← ea] at l2; omega
      · rcases hc' with g | g | g
        · rw [g, ea] at k2; omega
        · rw [h] at l3; rw [g] at k3; omega
        · exact g.symm
      · exact h
    subst ea; subst ec
    have eb : b = b' := by
      rcases hb with h | h | h
      · rw [h] at l1; omega
      · exact h
      · rw [h] at l3; omega
    rw [eb]
  refine ⟨?_, hnd, hmem⟩
  rw [h1, ← List.length_map (f := verts), ← List.toFinset_card_of_nodup hnd]
  congr 1
  ext s
  rw [List.mem_toFinset]
  exact hmem s

/-- C45: every vertex that has work is processed by exactly one block. -/
theorem balance_exact {n : Nat} {D : Nat → List Nat} {i : Nat} (hi : i < n) (hw : 0 < work D i) :
    ∃ b, b < nBlocks (exScan (work D) n) ∧ i ∈ blockVs n D b ∧ ∀ b', i ∈ blockVs n D b' → b' = b := by
  obtain ⟨b, h1, h2⟩ := block_exists hi hw
  exact ⟨b, h1, h2, fun b' h => blocks_disjoint h h2⟩

/-- The ranks computed by `rankNodes` from any permutation are injective. -/
theorem rankOf_inj {n : Nat} {o : List Nat} (ho : Sched n o) (u v : Nat) (hu : u < n) (_ : v < n) (h : rankOf o u = rankOf o v) : u = v :=
  List.idxOf_inj ((ho.2 u).2 hu) |>.1 h

/-! ### Example -/

/-- Four vertices, two triangles. -/
def exG : Gr := ⟨4, fun v => if v = 0 then [1, 2] else if v = 1 then [0, 2, 3] else if v = 2 then [0, 1, 3] else if v = 3 then [1, 2] else []⟩

theorem exG_simple : exG.Simple := by
  have h2 : ∀ v, 4 ≤ v → exG.nbr v = [] := fun v hv => by
    show (if v = 0 then _ else if v = 1 then _ else if v = 2 then _ else if v = 3 then _ else _) = _
    rw [if_neg (by omega), if_neg (by omega), if_neg (by omega), if_neg (by omega)]
  have hu : ∀ u v, v ∈ exG.nbr u → u < 4 := fun u v h => by
    by_contra hc
    rw [h2 u (by omega)] at h; cases h
  have hv : ∀ u < 4, ∀ v ∈ exG.nbr u, v < 4 ∧ u ∈ exG.nbr v := by decide
  refine ⟨fun u v h => ⟨hu u v h, (hv u (hu u v h) v h).1⟩, fun u => ?_, fun u v h => (hv u (hu u v h) v h).2, fun u h => ?_⟩
  · by_cases h : u < 4
    · exact (by decide : ∀ u < 4, SSorted (exG.nbr u)) u h
    · rw [h2 u (by omega)]; exact List.Pairwise.nil
  · exact (by decide : ∀ u < 4, u ∉ exG.nbr u) u (hu u u h) h

example : exG.triangles.card = 2 := by decide

/-- The ranking from the degree-sorted order 3, 0, 2, 1. -/
example : (countBalanced exG.n (exG.dir (rankOf [3, 0, 2, 1])) [0]).1 = 2 :=
  (triangle_exact exG_simple (rankOf_inj ⟨by decide, by intro i; simp [exG]; omega⟩) ⟨by decide, by
    intro i
    have : nBlocks (exScan (work (exG.dir (rankOf [3, 0, 2, 1]))) exG.n) = 1 := by decide
    rw [this]; simp⟩).1.trans (by decide)

end Gbbs.Tri
