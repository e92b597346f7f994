/-
C158: `Triangle(G, f, ordering, P)` with each of its orderings,
`benchmarks/TriangleCounting/ShunTangwongsan15/Triangle.h:206-269`.
-/
import Verif.Algo.Triangle
import Verif.Algo.Degeneracy
import Verif.Algo.Orders

namespace Gbbs.Tri

open Buckets KCore

/-! ### Model -/

/-- The same graph for the models of the orders. -/
def Gr.ug (G : Gr) : UG := ⟨G.n, G.nbr⟩

/-- The ranks with which `Triangle` orients the edges, `Triangle.h:241-269`, by the string `ordering`; any other string ends the program
(`:265-268`).  The degree order is some permutation (`rankNodes`, `:67`).  Goodrich-Pszona and Barenboim-Elkin return ranks.
With `kcore` the array returned by `DegeneracyOrder`, which lists the vertices in their order, is itself used as the ranks:
`ordering[u] = D[u]` (`:252-258`). -/
inductive Ranks (G : Gr) : String → (Nat → Nat) → Prop
  | degree {o} (ho : Sched G.n o) : Ranks G "degree" (rankOf o)
  | goodrich {ε ret} (h : Orders.IntSort ε G.ug ret) : Ranks G "goodrich" ret
  | kcore {ord} (h : Degen.Order 15 G.ug ord) : Ranks G "kcore" fun u => ord.getD u 0
  | barenboim {c l s} (h : Orders.BEOrder c G.ug (some l)) (hs : Sched G.n s) : Ranks G "barenboimelkin" (Densest.positions l s)

/-! ### Proof -/

theorem ug_sym {G : Gr} (hG : G.Simple) : G.ug.Sym := by
  refine ⟨fun u v => ?_, hG.bound⟩
  show (G.nbr u).count v = (G.nbr v).count u
  have hn : ∀ u, (G.nbr u).Nodup := fun u => (hG.sorted u).imp fun h => Nat.ne_of_lt h
  by_cases h : v ∈ G.nbr u
  · rw [List.count_eq_one_of_mem (hn u) h, List.count_eq_one_of_mem (hn v) (hG.sym u v h)]
  · rw [List.count_eq_zero_of_not_mem h, List.count_eq_zero_of_not_mem fun h' => h (hG.sym v u h')]

theorem getD_inj {n : Nat} {ord : List Nat} (hp : ord.Perm (List.range n)) {u v : Nat} (hu : u < n) (hv : v < n)
    (h : ord.getD u 0 = ord.getD v 0) : u = v := by
  have hlen : ord.length = n := by rw [hp.length_eq, List.length_range]
  have hnd : ord.Nodup := hp.nodup_iff.2 List.nodup_range
  rw [List.getD_eq_getElem?_getD, List.getD_eq_getElem?_getD, List.getElem?_eq_getElem (by omega), List.getElem?_eq_getElem (by omega)] at h
  exact (hnd.getElem_inj_iff).1 h

theorem ranks_inj {G : Gr} (hG : G.Simple) (hdeg : ∀ v, (G.nbr v).length < null) {name : String} {rank : Nat → Nat}
    (h : Ranks G name rank) : ∀ u v, u < G.n → v < G.n → rank u = rank v → u = v := by
  intro u v hu hv he
  cases h with
  | degree ho => exact rankOf_inj ho u v hu hv he
  | goodrich h =>
    refine (Orders.intsort_partial (ug_sym hG) (d := null) (fun S _ => ?_) h).2.1 u v hu hv he
    refine Nat.le_trans (Finset.sum_le_card_nsmul S _ null fun x _ =>
      Nat.le_trans List.countP_le_length (Nat.le_of_lt (hdeg x))) ?_
    rw [smul_eq_mul, Nat.mul_comm]
    exact Nat.mul_le_mul_right _ (by omega)
  | kcore h =>
    exact getD_inj (Degen.degeneracy_order (ug_sym hG) (by decide) (by decide) hdeg h).1 hu hv he
  | barenboim h hs =>
    have hp := Orders.be_partial h
    rw [Densest.positions_eq (G := G.ug) hp hs hu, Densest.positions_eq (G := G.ug) hp hs hv] at he
    exact Densest.idx_inj (G := G.ug) hp (Finset.mem_coe.2 (Finset.mem_range.2 hu)) (Finset.mem_coe.2 (Finset.mem_range.2 hv)) he

/-! ### Theorems -/

/-- C158: with every ordering that `Triangle` accepts, whenever the ranks are computed, and for every schedule of the blocks, `f` is called
exactly once for every triangle, and the result is the number of triangles. -/
theorem C158_triangle_any {G : Gr} (hG : G.Simple) (hdeg : ∀ v, (G.nbr v).length < null) {name : String} {rank : Nat → Nat}
    (h : Ranks G name rank) {order : List Nat} (hs : Sched (nBlocks (exScan (work (G.dir rank)) G.n)) order) :
    (countBalanced G.n (G.dir rank) order).1 = G.triangles.card ∧
    ((countBalanced G.n (G.dir rank) order).2.map verts).Nodup ∧
    ∀ s, s ∈ (countBalanced G.n (G.dir rank) order).2.map verts ↔ s ∈ G.triangles :=
  triangle_exact hG (ranks_inj hG hdeg h) hs

/-- C158: so two calls with different orderings agree. -/
theorem C158_same_count {G : Gr} (hG : G.Simple) (hdeg : ∀ v, (G.nbr v).length < null) {name name' : String} {rank rank' : Nat → Nat}
    (h : Ranks G name rank) (h' : Ranks G name' rank') {order order' : List Nat}
    (hs : Sched (nBlocks (exScan (work (G.dir rank)) G.n)) order) (hs' : Sched (nBlocks (exScan (work (G.dir rank')) G.n)) order') :
    (countBalanced G.n (G.dir rank) order).1 = (countBalanced G.n (G.dir rank') order').1 := by
  rw [(C158_triangle_any hG hdeg h hs).1, (C158_triangle_any hG hdeg h' hs').1]

/-- C158: if the edges were oriented by the positions in the order of `DegeneracyOrder`, no vertex would have more outgoing edges than its
coreness. -/
theorem C158_positions_bound {G : Gr} (hG : G.Simple) (hdeg : ∀ v, (G.nbr v).length < null) {ord : List Nat}
    (h : Degen.Order 15 G.ug ord) {v : Nat} (hv : v < G.n) :
    ∃ k, IsCoreness G.ug v k ∧ (G.dir (fun u => ord.idxOf u) v).length ≤ k := by
  obtain ⟨hp, core, h1, _, h3⟩ := Degen.degeneracy_order (ug_sym hG) (by decide) (by decide) hdeg h
  refine ⟨core v, h1 v hv, ?_⟩
  obtain ⟨pre, post, he⟩ := List.append_of_mem (hp.mem_iff.2 (List.mem_range.2 hv))
  have hnd : ord.Nodup := hp.nodup_iff.2 List.nodup_range
  refine Nat.le_trans ?_ (h3 pre v post he)
  rw [Gr.dir, ← List.countP_eq_length_filter]
  refine List.countP_mono_left fun u _ hlt => ?_
  simp only [decide_eq_true_eq] at hlt ⊢
  intro hu
  have hvp : v ∉ pre := by
    rw [he, List.nodup_append] at hnd
    exact fun hc => hnd.2.2 v hc v List.mem_cons_self rfl
  rw [he, List.idxOf_append_of_mem hu, List.idxOf_append_of_notMem hvp, List.idxOf_cons_self] at hlt
  have := List.idxOf_lt_length_iff.2 hu
  omega

/-- A star with centre 0 and six leaves. -/
def star : Gr := ⟨7, fun v => if v = 0 then [1, 2, 3, 4, 5, 6] else if v < 7 then [0] else []⟩

theorem star_simple : star.Simple := by
  have h2 : ∀ v, 7 ≤ v → star.nbr v = [] := fun v hv => by
    show (if v = 0 then _ else if v < 7 then _ else _) = _
    rw [if_neg (by omega), if_neg (by omega)]
  have hu : ∀ u v, v ∈ star.nbr u → u < 7 := fun u v h => by
    by_contra hc
    rw [h2 u (by omega)] at h; cases h
  have hv : ∀ u < 7, ∀ v ∈ star.nbr u, v < 7 ∧ u ∈ star.nbr v := by decide
  refine ⟨fun u v h => ⟨hu u v h, (hv u (hu u v h) v h).1⟩, fun u => ?_, fun u v h => (hv u (hu u v h) v h).2, fun u h => ?_⟩
  · by_cases h : u < 7
    · exact (by decide : ∀ u < 7, Isect.SSorted (star.nbr u)) u h
    · rw [h2 u (by omega)]; exact List.Pairwise.nil
  · exact (by decide : ∀ u < 7, u ∉ star.nbr u) u (hu u u h) h

theorem star_order : Degen.Order 15 star.ug [1, 2, 3, 4, 5, 6, 0] := Degen.execAll_sound (by decide +kernel)

/-- C158, refuted: with `kcore` the edges are not oriented along the degeneracy order.  On the star, all of whose vertices have coreness at
most 1 and where the positions in the order leave at most one outgoing edge at each vertex, the centre gets five. -/
theorem C158_kcore_orientation_refuted : ∃ (G : Gr) (ord : List Nat), G.Simple ∧ Degen.Order 15 G.ug ord ∧
    Ranks G "kcore" (fun u => ord.getD u 0) ∧ (∀ v, v < G.n → (G.dir (fun u => ord.idxOf u) v).length ≤ 1) ∧
    ∃ v, v < G.n ∧ (G.dir (fun u => ord.getD u 0) v).length = 5 :=
  ⟨star, _, star_simple, star_order, .kcore star_order, by decide, 0, by decide, by decide⟩

/-! ### Examples -/

/-- The order of `DegeneracyOrder` on the graph of C45. -/
theorem exG_kcore : ∃ rank, Ranks exG "kcore" rank :=
  ⟨_, .kcore (ord := [0, 3, 1, 2]) (Degen.execAll_sound (by decide +kernel))⟩

example : ∃ rank, Ranks exG "kcore" rank ∧ ∀ order, Sched (nBlocks (exScan (work (exG.dir rank)) exG.n)) order →
    (countBalanced exG.n (exG.dir rank) order).1 = 2 := by
  obtain ⟨rank, h⟩ := exG_kcore
  refine ⟨rank, h, fun order hs => (C158_triangle_any exG_simple (fun v => ?_) h hs).1.trans (by decide)⟩
  have : (exG.nbr v).length ≤ 3 := by
    show (if v = 0 then _ else if v = 1 then _ else if v = 2 then _ else if v = 3 then _ else _ : List Nat).length ≤ 3
    split_ifs <;> decide
  exact Nat.lt_of_le_of_lt this (by decide)

end Gbbs.Tri
