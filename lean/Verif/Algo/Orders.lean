/-
C65, C66, C67: the approximate degeneracy orders, `benchmarks/DegeneracyOrder/GoodrichPszona11/DegeneracyOrder.h` and
`benchmarks/DegeneracyOrder/BarenboimElkin08/DegeneracyOrder.h`.
-/
import Verif.Algo.Charikar
import Mathlib.Algebra.Order.Floor.Semiring
import Mathlib.Data.Rat.Floor

namespace Gbbs.Orders

open Buckets KCore Densest

/-! ### Model -/

/-- `apply_f`: `D[v] -= edgesRemoved` in 32 bits for every entry of the histogram, `GoodrichPszona11 :58-63` and `:94-102`, `BarenboimElkin08 :46-51`. -/
def remD (D : Nat → Nat) (h : List (Nat × Nat)) : Nat → Nat := h.foldl (fun D p => upd D p.1 (sub32 (D p.1) p.2)) D

/-- `ns`, `GoodrichPszona11 :15-16` and `:77-78`; exact arithmetic. -/
def nsOf (n : Nat) (ε : ℚ) : Nat := max ⌈(n * ε) / (2 + ε)⌉₊ 1

/-- Iterations of the loop of `DegeneracyOrder_intsort`, `:86-110`: `sortD`, `D` and `start`. `integer_sort_inplace` gives some sorted
permutation. -/
inductive IRun (ns : Nat) (G : UG) : List Nat → (Nat → Nat) → Nat → Prop
  | init : IRun ns G (List.range G.n) (fun v => (G.nb v).length) 0
  | step {o D st l h} (hr : IRun ns G o D st) (hs : st < G.n) (hp : l.Perm (o.drop st)) (hsort : l.Pairwise fun a b => D a ≤ D b)
      (hh : IsHist ((l.take ns).flatMap G.nb) h) : IRun ns G (o.take st ++ l) (remD D h) (st + ns)

/-- `DegeneracyOrder_intsort(GA, epsilon)`, `:73-114`: the returned ranks. -/
def IntSort (ε : ℚ) (G : UG) (ret : Nat → Nat) : Prop :=
  ∃ o D st s, IRun (nsOf G.n ε) G o D st ∧ G.n ≤ st ∧ Sched G.n s ∧ ret = positions o s

/-- `approximate_kth_smallest(S, k, less, r)`, `gbbs/bridge.h:551-562`, on a sequence that is not empty: `√n` samples; `none` when the index is
past the end. -/
def ApproxKth (S : List Nat) (k : Nat) (o : Option Nat) : Prop :=
  ∃ smp : List Nat, smp.length = Nat.sqrt S.length ∧ (∀ x ∈ smp, x ∈ S) ∧ (smp.Pairwise fun a b => a ≤ b) ∧ o = smp[k * Nat.sqrt S.length / S.length]?

/-- The loop of `DegeneracyOrder`, `GoodrichPszona11 :31-66`; the outcome `none` is a read past the end. -/
inductive KRun (ns : Nat) (G : UG) : List Nat → (Nat → Nat) → List Nat → Option (List Nat) → Prop
  | done {D ret} : KRun ns G [] D ret (some ret)
  | oob {act D ret} (ha : act ≠ []) (hk : ApproxKth (act.map D) ns none) : KRun ns G act D ret none
  | next {act D ret t h o} (ha : act ≠ []) (hk : ApproxKth (act.map D) ns (some t))
      (hh : IsHist ((act.filter fun v => decide (D v ≤ t)).flatMap G.nb) h)
      (hr : KRun ns G (act.filter fun v => decide (t < D v)) (remD D h) (ret ++ act.filter fun v => decide (D v ≤ t)) o) : KRun ns G act D ret o

/-- `DegeneracyOrder(GA, epsilon)`, `GoodrichPszona11 :12-69`. -/
def KthOrder (ε : ℚ) (G : UG) (o : Option (List Nat)) : Prop := KRun (nsOf G.n ε) G (List.range G.n) (fun v => (G.nb v).length) [] o

/-- `end`, `BarenboimElkin08 :32-36`: the greatest index with a degree below the cutoff, 0 if there is none; one more if it is `start`. -/
def endOf (c : Nat) (D : Nat → Nat) (o : List Nat) (st : Nat) : Nat :=
  let e := ((List.range (o.length - st)).map fun i => if D (o.getD (i + st) 0) < c then i + st else 0).foldl max 0
  if e = st then e + 1 else e

/-- The loop of `DegeneracyOrder`, `BarenboimElkin08 :28-55`, with the cutoff `c`; the outcome `none` is a negative number of vertices to
remove (`:38`). -/
inductive BRun (c : Nat) (G : UG) : List Nat → (Nat → Nat) → Nat → Option (List Nat) → Prop
  | done {o D st} (hs : G.n ≤ st) : BRun c G o D st (some o)
  | bad {o D st l} (hs : st < G.n) (hp : l.Perm (o.drop st)) (hsort : l.Pairwise fun a b => (if D a < c then 1 else 0) ≤ if D b < c then 1 else 0)
      (he : endOf c D (o.take st ++ l) st < st) : BRun c G o D st none
  | next {o D st l h r} (hs : st < G.n) (hp : l.Perm (o.drop st))
      (hsort : l.Pairwise fun a b => (if D a < c then 1 else 0) ≤ if D b < c then 1 else 0)
      (he : st ≤ endOf c D (o.take st ++ l) st) (hh : IsHist ((l.take (endOf c D (o.take st ++ l) st - st)).flatMap G.nb) h)
      (hr : BRun c G (o.take st ++ l) (remD D h) (endOf c D (o.take st ++ l) st) r) : BRun c G o D st r

/-- `DegeneracyOrder(GA, epsilon)`, `BarenboimElkin08 :13-59`: the order of which the ranks are returned; `c` is
`max(ceil(alpha * epsilon), 1)` (`:19-20`). -/
def BEOrder (c : Nat) (G : UG) (r : Option (List Nat)) : Prop := BRun c G (List.range G.n) (fun v => (G.nb v).length) 0 r

/-! ### Proof -/

theorem remD_apply {keys : List Nat} {h : List (Nat × Nat)} (hh : IsHist keys h) (D : Nat → Nat) (v : Nat) : remD D h v = sub32 (D v) (keys.count v) := by
  have aux : ∀ (h : List (Nat × Nat)) (D : Nat → Nat), (h.map Prod.fst).Nodup →
      (∀ c, (v, c) ∈ h → remD D h v = sub32 (D v) c) ∧ (v ∉ h.map Prod.fst → remD D h v = D v) := by
    intro h
    induction h with
    | nil => intro D _; exact ⟨fun c hc => (by cases hc), fun _ => rfl⟩
    | cons p h ih =>
      intro D hnd
      rw [List.map_cons, List.nodup_cons] at hnd
      obtain ⟨h1, h2⟩ := ih (upd D p.1 (sub32 (D p.1) p.2)) hnd.2
      refine ⟨fun c hc => ?_, fun hv => ?_⟩
      · show remD (upd D p.1 (sub32 (D p.1) p.2)) h v = _
        rcases List.mem_cons.1 hc with rfl | hc
        · rw [h2 hnd.1, upd_same]
        · have hne : v ≠ p.1 := fun he => hnd.1 (he ▸ List.mem_map.2 ⟨_, hc, rfl⟩)
          rw [h1 c hc, upd_of_ne _ _ hne]
      · show remD (upd D p.1 (sub32 (D p.1) p.2)) h v = _
        rw [List.map_cons, List.mem_cons, not_or] at hv
        rw [h2 hv.2, upd_of_ne _ _ hv.1]
  obtain ⟨h1, h2⟩ := aux h D hh.1
  by_cases hv : v ∈ keys
  · exact h1 _ ((hh.2 v _).2 ⟨hv, rfl⟩)
  · rw [h2 (fun hc => ?_), List.count_eq_zero.2 hv, sub32, if_pos (Nat.zero_le _), Nat.sub_zero]
    obtain ⟨⟨a, c⟩, hm, rfl⟩ := List.mem_map.1 hc
    exact hv ((hh.2 _ _).1 hm).1

/-- `D` counts the neighbours that are not removed. -/
def Cnt (G : UG) (D : Nat → Nat) (gone : List Nat) : Prop := ∀ v, D v = (G.nb v).countP fun u => decide (u ∉ gone)

theorem cnt_init (G : UG) : Cnt G (fun v => (G.nb v).length) [] := fun v => by
  rw [eq_comm, List.countP_eq_length]; exact fun _ _ => by simp

theorem Cnt.step {G : UG} (hG : G.Sym) {D : Nat → Nat} {gone b : List Nat} {h : List (Nat × Nat)} (hD : Cnt G D gone) (hnd : (gone ++ b).Nodup)
    (hh : IsHist (b.flatMap G.nb) h) : Cnt G (remD D h) (gone ++ b) := by
  intro v
  rw [List.nodup_append] at hnd
  rw [remD_apply hh, count_flatMap G hG hnd.2.1, hD v]
  have h1 : (G.nb v).countP (fun u => decide (u ∉ gone)) = (G.nb v).countP (fun u => decide (u ∉ gone ++ b)) + (G.nb v).countP (fun u => decide (u ∈ b)) := by
    refine countP_split (fun u => ?_) (fun u => ?_)
    · by_cases hg : u ∈ gone
      · have : u ∉ b := fun hb => hnd.2.2 u hg u hb rfl
        simp [hg, this]
      · by_cases hb : u ∈ b <;> simp [hg, hb]
    · simp only [decide_eq_true_eq, List.mem_append, not_or, not_and, not_not]
      exact fun h1 h2 => h1.2 h2
  rw [sub32, if_pos (by omega)]
  omega

/-! ### `DegeneracyOrder_intsort` -/

theorem pairwise_sum {D : Nat → Nat} (l : List Nat) (hs : l.Pairwise fun a b => D a ≤ D b) (q : Nat) (hq : q < l.length) :
    D l[q] * (l.length - q) ≤ (l.map D).sum := by
  induction l generalizing q with
  | nil => exact absurd hq (Nat.not_lt_zero _)
  | cons a l ih =>
    rw [List.pairwise_cons] at hs
    rw [List.map_cons, List.sum_cons]
    cases q with
    | zero =>
      rw [List.getElem_cons_zero, Nat.sub_zero, List.length_cons, Nat.mul_succ]
      have : D a * l.length ≤ (l.map D).sum := by
        clear ih hq
        obtain ⟨h1, -⟩ := hs
        induction l with
        | nil => simp
        | cons b l ih =>
          have h2 := ih fun b hb => h1 b (List.mem_cons_of_mem _ hb)
          have h3 := h1 b List.mem_cons_self
          rw [List.map_cons, List.sum_cons, List.length_cons, Nat.mul_succ]
          omega
      omega
    | succ q =>
      rw [List.length_cons] at hq
      have := ih hs.2 q (by omega)
      rw [List.getElem_cons_succ, List.length_cons, Nat.add_sub_add_right]
      omega

theorem sum_toFinset {l : List Nat} (hnd : l.Nodup) (f : Nat → Nat) : (l.map f).sum = ∑ v ∈ l.toFinset, f v := by
  rw [List.sum_toFinset _ hnd]

/-- The invariant of `DegeneracyOrder_intsort`. -/
structure IInv (ns : Nat) (G : UG) (d : Nat) (o : List Nat) (D : Nat → Nat) (st : Nat) : Prop where
  perm : o.Perm (List.range G.n)
  cnt : Cnt G D (o.take st)
  mul : ∃ q, st = q * ns
  low : ∀ j v, j < st → o[j]? = some v → (G.nb v).countP (fun u => decide (u ∉ o.take j)) * (G.n - j) ≤ 2 * d * (G.n - j / ns * ns)

theorem irun_ok {ns : Nat} {G : UG} (hG : G.Sym) (hns : 0 < ns) {d : Nat} (hd : ∀ S, S ⊆ Finset.range G.n → arcs G S ≤ 2 * d * S.card)
    {o : List Nat} {D : Nat → Nat} {st : Nat} (h : IRun ns G o D st) : IInv ns G d o D st := by
  induction h with
  | init => exact ⟨List.Perm.refl _, by rw [List.take_zero]; exact cnt_init G, ⟨0, by simp⟩, fun j _ hj => absurd hj (Nat.not_lt_zero _)⟩
  | @step o D st l h hr hs hp hsort hh ih =>
    have hlen : o.length = G.n := by rw [ih.perm.length_eq, List.length_range]
    have hl1 : (o.take st).length = st := by rw [List.length_take]; omega
    have hll : l.length = G.n - st := by rw [hp.length_eq, List.length_drop, hlen]
    have hperm : (o.take st ++ l).Perm (List.range G.n) := by
      refine ((List.Perm.append_left _ hp).trans ?_).trans ih.perm
      rw [List.take_append_drop]
    have hnd : (o.take st ++ l).Nodup := hperm.nodup_iff.2 List.nodup_range
    have htk : ∀ k, (o.take st ++ l).take (st + k) = o.take st ++ l.take k := fun k => by
      rw [List.take_append, hl1, Nat.add_sub_cancel_left, List.take_of_length_le (by omega)]
    obtain ⟨q, hq⟩ := ih.mul
    refine ⟨hperm, ?_, ⟨q + 1, by rw [hq, Nat.succ_mul]⟩, fun j v hj hv => ?_⟩
    · rw [htk]
      refine ih.cnt.step hG ?_ hh
      rw [← htk]
      exact hnd.sublist (List.take_sublist _ _)
    · rcases Nat.lt_or_ge j st with hlt | hge
      · have e1 : (o.take st ++ l)[j]? = o[j]? := by
          rw [List.getElem?_append_left (by omega), List.getElem?_take, if_pos hlt]
        have e2 : (o.take st ++ l).take j = o.take j := by
          rw [List.take_append_of_le_length (by omega), List.take_take, Nat.min_eq_left (by omega)]
        rw [e1] at hv
        rw [e2]
        exact ih.low j v hlt hv
      · obtain ⟨k, rfl⟩ := Nat.exists_eq_add_of_le hge
        rw [List.getElem?_append_right (by omega), hl1, Nat.add_sub_cancel_left] at hv
        obtain ⟨hk, hvk⟩ := List.getElem?_eq_some_iff.1 hv
        have hdiv : (st + k) / ns * ns = st := by
          rw [hq, Nat.mul_comm q ns, Nat.mul_add_div hns, Nat.div_eq_of_lt (by omega), Nat.add_zero, Nat.mul_comm]
        rw [hdiv, htk]
        have hD : (G.nb v).countP (fun u => decide (u ∉ o.take st ++ l.take k)) ≤ D v := by
          rw [ih.cnt v]
          refine List.countP_mono_left fun u _ hu => ?_
          simp only [decide_eq_true_eq, List.mem_append, not_or] at hu ⊢
          exact hu.1
        have hsum := pairwise_sum l hsort k hk
        rw [hvk, hll] at hsum
        rw [List.nodup_append] at hnd
        have harc : (l.map D).sum = arcs G l.toFinset := by
          rw [sum_toFinset hnd.2.1, arcs]
          refine Finset.sum_congr rfl fun w hw => ?_
          rw [ih.cnt w]
          refine List.countP_congr fun u hu => ?_
          simp only [decide_eq_true_eq, List.mem_toFinset]
          have hu' : u ∈ o.take st ++ l := hperm.mem_iff.2 (List.mem_range.2 (hG.bound _ _ hu).2)
          rw [List.mem_append] at hu'
          constructor
          · exact fun h => hu'.resolve_left h
          · exact fun h hc => hnd.2.2 u hc u h rfl
        have hsub : l.toFinset ⊆ Finset.range G.n := fun w hw => by
          rw [List.mem_toFinset] at hw
          exact Finset.mem_range.2 (List.mem_range.1 (hperm.mem_iff.1 (List.mem_append_right _ hw)))
        have h3 := hd _ hsub
        rw [List.toFinset_card_of_nodup hnd.2.1, hll, ← harc] at h3
        have e3 : G.n - (st + k) = G.n - st - k := by omega
        rw [e3]
        exact Nat.le_trans (Nat.mul_le_mul_right _ hD) (Nat.le_trans hsum h3)

theorem nsOf_pos (n : Nat) (ε : ℚ) : 0 < nsOf n ε := Nat.lt_of_lt_of_le Nat.zero_lt_one (Nat.le_max_right _ _)

/-- C65, what does hold: the ranks are a bijection, and if every subgraph has at most `d` edges per vertex, a vertex of rank `j` that was removed
when `n - s` were left has at most `2 d (n - s) / (n - j)` neighbours after it. -/
theorem intsort_partial {ε : ℚ} {G : UG} (hG : G.Sym) {d : Nat} (hd : ∀ S, S ⊆ Finset.range G.n → arcs G S ≤ 2 * d * S.card) {ret : Nat → Nat}
    (h : IntSort ε G ret) :
    (∀ v, v < G.n → ret v < G.n) ∧ (∀ u v, u < G.n → v < G.n → ret u = ret v → u = v) ∧
      ∀ v, v < G.n → (G.nb v).countP (fun u => decide (ret v < ret u)) * (G.n - ret v) ≤ 2 * d * (G.n - ret v / nsOf G.n ε * nsOf G.n ε) := by
  obtain ⟨o, D, st, s, hr, hst, hs, rfl⟩ := h
  have hi := irun_ok hG (nsOf_pos _ _) hd hr
  have hlen : o.length = G.n := by rw [hi.perm.length_eq, List.length_range]
  have hlt : ∀ v, v < G.n → o.idxOf v < G.n := fun v hv => hlen ▸ List.idxOf_lt_length_iff.2 (hi.perm.mem_iff.2 (List.mem_range.2 hv))
  refine ⟨fun v hv => ?_, fun u v hu hv h => ?_, fun v hv => ?_⟩
  · rw [positions_eq hi.perm hs hv]; exact hlt v hv
  · rw [positions_eq hi.perm hs hu, positions_eq hi.perm hs hv] at h
    exact idx_inj hi.perm (by simpa using hu) (by simpa using hv) h
  · rw [positions_eq hi.perm hs hv]
    have hv' := hlt v hv
    have := hi.low (o.idxOf v) v (by omega) (by
      rw [List.getElem?_eq_getElem (by omega), List.getElem_idxOf])
    refine Nat.le_trans (Nat.mul_le_mul_right _ (List.countP_mono_left fun u hu h => ?_)) this
    simp only [decide_eq_true_eq] at h ⊢
    rw [positions_eq hi.perm hs (hG.bound _ _ hu).2] at h
    intro hc
    rw [List.mem_take_iff_getElem] at hc
    obtain ⟨i, hi', rfl⟩ := hc
    rw [(hi.perm.nodup_iff.2 List.nodup_range).idxOf_getElem] at h
    omega

/-- C65, what does hold: the claimed bound for the first `ns` vertices. -/
theorem intsort_first_partial {ε : ℚ} (hε : 0 < ε) {G : UG} (hG : G.Sym) {d : Nat} (hd : ∀ S, S ⊆ Finset.range G.n → arcs G S ≤ 2 * d * S.card)
    {ret : Nat → Nat} (h : IntSort ε G ret) {v : Nat} (hv : v < G.n) (hr : ret v < nsOf G.n ε) :
    ((G.nb v).countP (fun u => decide (ret v < ret u)) : ℚ) ≤ (2 + ε) * d := by
  obtain ⟨h1, _, h3⟩ := intsort_partial hG hd h
  have h4 := h3 v hv
  have hvn := h1 v hv
  rw [Nat.div_eq_of_lt hr, Nat.zero_mul, Nat.sub_zero] at h4
  generalize (G.nb v).countP (fun u => decide (ret v < ret u)) = c at *
  generalize ret v = j at *
  have h5 : (c : ℚ) * ((G.n : ℚ) - j) ≤ 2 * d * G.n := by
    have : ((c * (G.n - j) : Nat) : ℚ) ≤ ((2 * d * G.n : Nat) : ℚ) := by exact_mod_cast h4
    rw [Nat.cast_mul, Nat.cast_sub (by omega)] at this
    exact_mod_cast this
  have hn0 : (0 : ℚ) < G.n := by exact_mod_cast (show 0 < G.n by omega)
  have h6 : (j : ℚ) ≤ (G.n * ε) / (2 + ε) := by
    rcases Nat.eq_zero_or_pos j with rfl | hj
    · rw [Nat.cast_zero]; positivity
    · rw [nsOf] at hr
      have : j < ⌈(G.n * ε) / (2 + ε)⌉₊ := by omega
      exact le_of_lt (Nat.lt_ceil.1 this)
  have h7 : (j : ℚ) * (2 + ε) ≤ G.n * ε := by rwa [le_div_iff₀ (by linarith)] at h6
  have hc0 : (0 : ℚ) ≤ c := by positivity
  have hd0 : (0 : ℚ) ≤ d := by positivity
  -- `c (n - j) ≤ 2 d n` and `n - j ≥ 2 n / (2 + ε)`
  have h8 : c * (2 * (G.n : ℚ)) ≤ (2 + ε) * d * (2 * G.n) := by
    have h9 : 2 * (G.n : ℚ) ≤ (G.n - j) * (2 + ε) := by linarith
    have h10 : c * (2 * (G.n : ℚ)) ≤ c * ((G.n - j) * (2 + ε)) := mul_le_mul_of_nonneg_left h9 hc0
    have h11 : c * (((G.n : ℚ) - j)) * (2 + ε) ≤ 2 * d * G.n * (2 + ε) := mul_le_mul_of_nonneg_right h5 (by linarith)
    linarith
  exact le_of_mul_le_mul_right h8 (by linarith)

/-- 26 isolated vertices, 20 leaves in groups of four below 46, …, 50, which are below 51. -/
def forest : UG := .ofLists
  (List.replicate 26 [] ++ (List.range 20).map (fun i => [46 + i / 4]) ++ (List.range 5).map (fun i => [26 + 4 * i, 27 + 4 * i, 28 + 4 * i, 29 + 4 * i, 51]) ++
    [[46, 47, 48, 49, 50]])

theorem forest_sym : forest.Sym := UG.ofLists_sym (by decide +kernel)

theorem forest_sparse {S : Finset Nat} (hS : S ⊆ Finset.range forest.n) : arcs forest S ≤ 2 * 1 * S.card := by
  have hl : Loopless forest := loopless_of forest_sym (by decide +kernel)
  have h1 : ∀ u < forest.n, (forest.nb u).countP (fun v => decide (u < v)) ≤ 1 := by decide +kernel
  rw [← up_half forest_sym hl hS (p := fun v => v) (fun a _ b _ h => h), Nat.mul_one, Finset.card_eq_sum_ones]
  refine Nat.mul_le_mul_left 2 (Finset.sum_le_sum fun u hu => ?_)
  refine Nat.le_trans ?_ (h1 u (Finset.mem_range.1 (hS hu)))
  rw [countP_sum (fun v hv => (forest_sym.bound u v hv).2)]
  simp only [decide_eq_true_eq]
  rw [← Finset.sum_filter]
  exact Finset.sum_le_sum_of_subset (Finset.filter_subset_filter _ hS)

/-- The second sorted list of the run. -/
def forestRest : List Nat := List.range' 26 20 ++ [51] ++ List.range' 46 5

/-- C65, refuted: on a forest (at most one edge per vertex in every subgraph) with `ε = 2` some run leaves five neighbours after a vertex, more than
`(2 + ε) * 1`. -/
theorem intsort_refuted : forest.Sym ∧ (∀ S, S ⊆ Finset.range forest.n → arcs forest S ≤ 2 * 1 * S.card) ∧
    ∃ ret, IntSort 2 forest ret ∧ (2 + 2) * 1 < (forest.nb 51).countP (fun u => decide (ret 51 < ret u)) := by
  refine ⟨forest_sym, fun S hS => forest_sparse hS, ?_⟩
  have hn : forest.n = 52 := by decide +kernel
  have hns : nsOf forest.n 2 = 26 := by
    rw [nsOf, hn]
    have : ((52 : Nat) * (2 : ℚ)) / (2 + 2) = (26 : Nat) := by norm_num
    rw [this, Nat.ceil_natCast]
    rfl
  have r1 : IRun 26 forest ((List.range 52).take 0 ++ List.range 52) (remD (fun v => (forest.nb v).length) []) (0 + 26) :=
    .step (by have := IRun.init (ns := 26) (G := forest); rwa [hn] at this) (by rw [hn]; decide) (List.Perm.refl _)
      (by decide +kernel) (by
        refine ⟨List.nodup_nil, fun v c => ⟨fun h => (by cases h), fun h => ?_⟩⟩
        have h0 : ((List.range 52).take 26).flatMap forest.nb = [] := by decide +kernel
        rw [h0] at h
        exact absurd h.1 List.not_mem_nil)
  have r2 := IRun.step (l := forestRest) r1 (by rw [hn]; decide) (by decide +kernel) (by decide +kernel) (canon_isHist _)
  refine ⟨_, ⟨_, _, _, List.range forest.n, by rw [hns]; exact r2, by rw [hn], sched_range _, rfl⟩, ?_⟩
  decide +kernel

/-! ### `DegeneracyOrder` with `approximate_kth_smallest` -/

theorem krun_ok {ns : Nat} {G : UG} {act : List Nat} {D : Nat → Nat} {ret : List Nat} {o : Option (List Nat)} (h : KRun ns G act D ret o) :
    ∀ l, o = some l → l.Perm (ret ++ act) := by
  induction h with
  | done => intro l h; cases h; rw [List.append_nil]
  | oob => intro l h; cases h
  | @next act D ret t h o ha hk hh hr ih =>
    intro l hl
    refine (ih l hl).trans ?_
    rw [List.append_assoc]
    refine List.Perm.append_left _ ?_
    have := List.filter_append_perm (fun v => decide (D v ≤ t)) act
    refine List.Perm.trans (List.Perm.append_left _ (List.Perm.of_eq (List.filter_congr fun v _ => ?_))) this
    rw [← decide_not]
    exact decide_eq_decide.2 Nat.not_le.symm

/-- C66, what does hold: an order that is returned has every vertex once. -/
theorem kth_partial {ε : ℚ} {G : UG} {l : List Nat} (h : KthOrder ε G (some l)) : l.Perm (List.range G.n) := krun_ok h l rfl

theorem kth_oob {S : List Nat} {k : Nat} (hS : S ≠ []) (hk : S.length ≤ k) {o : Option Nat} (h : ApproxKth S k o) : o = none := by
  obtain ⟨smp, h1, _, _, rfl⟩ := h
  have hpos : 0 < S.length := List.length_pos_iff.2 hS
  rw [List.getElem?_eq_none]
  rw [h1, Nat.le_div_iff_mul_le hpos, Nat.mul_comm]
  exact Nat.mul_le_mul_right _ hk

/-- C66, refuted: with no more than `ns` vertices left the threshold is read past the end of the samples; on a single vertex every run does this. -/
theorem kth_refuted {ε : ℚ} {G : UG} (hn : G.n = 1) {o : Option (List Nat)} (h : KthOrder ε G o) : o = none := by
  rw [KthOrder, hn] at h
  cases h with
  | oob => rfl
  | next ha hk _ _ =>
    have := kth_oob (by simp) (Nat.le_trans (by simp) (nsOf_pos 1 ε)) hk
    cases this

/-- C66: in a run that returns every round starts with more than `ns` vertices, so the last one removes more than `ns` at once. -/
theorem krun_last {ns : Nat} {G : UG} {act : List Nat} {D : Nat → Nat} {ret : List Nat} {o : Option (List Nat)} (h : KRun ns G act D ret o) :
    ∀ l, o = some l → act ≠ [] → ns < act.length := by
  intro l hl ha
  cases h with
  | done => exact absurd rfl ha
  | oob => cases hl
  | next _ hk _ _ =>
    by_contra hc
    have := kth_oob (S := act.map D) (by simpa using ha) (by simpa using hc) hk
    cases this

/-! ### Barenboim-Elkin -/

theorem brun_ok {c : Nat} {G : UG} {o : List Nat} {D : Nat → Nat} {st : Nat} {r : Option (List Nat)} (h : BRun c G o D st r) :
    ∀ l, r = some l → l.Perm o := by
  induction h with
  | done => intro l h; cases h; exact List.Perm.refl _
  | bad => intro l h; cases h
  | @next o D st l h r hs hp hsort he hh hr ih =>
    intro l' hl
    refine (ih l' hl).trans ((List.Perm.append_left _ hp).trans ?_)
    rw [List.take_append_drop]

/-- C67, what does hold: if ranks are returned, they are those of an order with every vertex once. -/
theorem be_partial {c : Nat} {G : UG} {l : List Nat} (h : BEOrder c G (some l)) : l.Perm (List.range G.n) := brun_ok h l rfl

theorem endOf_hi {c : Nat} {D : Nat → Nat} {o : List Nat} (h : ∀ i, c ≤ D (o.getD i 0)) (st : Nat) : endOf c D o st = if 0 = st then 1 else 0 := by
  have h1 : ∀ k, ((List.range k).map fun i => if D (o.getD (i + st) 0) < c then i + st else 0) = (List.range k).map fun _ => 0 := fun k =>
    List.map_congr_left fun i _ => if_neg (Nat.not_lt.2 (h _))
  have h2 : ∀ l : List Nat, (l.map fun _ => 0).foldl max 0 = 0 := by
    intro l
    induction l with
    | nil => rfl
    | cons a l ih => rw [List.map_cons, List.foldl_cons, Nat.max_self, ih]
  rw [endOf, h1, h2]

theorem getD_lt {n : Nat} (hn : 0 < n) {o : List Nat} (hp : o.Perm (List.range n)) (i : Nat) : o.getD i 0 < n := by
  rw [List.getD_eq_getElem?_getD]
  rcases hi : o[i]? with _ | v
  · exact hn
  · exact List.mem_range.1 (hp.mem_iff.1 (List.mem_of_getElem? hi))

/-- C67, refuted: if every vertex has more than `c` neighbours, all distinct, then no run returns: in the second round the number of vertices to remove
is negative. -/
theorem be_refuted {c : Nat} {G : UG} (hG : G.Sym) (hnd : ∀ v, (G.nb v).Nodup) (hn : 2 ≤ G.n) (hdeg : ∀ v, v < G.n → c < (G.nb v).length)
    {r : Option (List Nat)} (h : BEOrder c G r) : r = none := by
  cases h with
  | done hs => omega
  | bad => rfl
  | @next _ _ _ l h r hs hp hsort he hh hr =>
    rw [List.drop_zero] at hp
    rw [List.take_zero, List.nil_append] at hr hh
    have hend : endOf c (fun v => (G.nb v).length) l 0 = 1 := by
      rw [endOf_hi fun i => Nat.le_of_lt (hdeg _ (getD_lt (by omega) hp i))]; rfl
    rw [hend] at hr hh
    have hlow : ∀ v, v < G.n → c ≤ remD (fun v => (G.nb v).length) h v := by
      intro v hv
      have hl1 : (l.take 1).Nodup := (hp.nodup_iff.2 List.nodup_range).sublist (List.take_sublist _ _)
      rw [remD_apply hh, count_flatMap G hG hl1]
      have h1 : (G.nb v).countP (fun u => decide (u ∈ l.take 1)) ≤ 1 := by
        cases l with
        | nil => simp
        | cons a l =>
          rw [List.take_succ_cons, List.take_zero]
          have := List.nodup_iff_count_le_one.1 (hnd v) a
          rw [List.count] at this
          refine Nat.le_trans (List.countP_mono_left fun u _ hu => ?_) this
          simpa using hu
      have := hdeg v hv
      rw [sub32, if_pos (by omega)]
      omega
    cases hr with
    | done hs => omega
    | bad => rfl
    | @next _ _ _ l2 h2 r hs2 hp2 hsort2 he2 hh2 hr2 =>
      exfalso
      have hpp : (l.take 1 ++ l2).Perm (List.range G.n) := by
        refine ((List.Perm.append_left _ hp2).trans ?_).trans hp
        rw [List.take_append_drop]
      rw [endOf_hi fun i => hlow _ (getD_lt (by omega) hpp i)] at he2
      simp at he2

theorem brun_head {c : Nat} {G : UG} {o : List Nat} {D : Nat → Nat} {st : Nat} {r : Option (List Nat)} (h : BRun c G o D st r) (hst : 0 < st) :
    ∀ l, r = some l → l.head? = o.head? := by
  induction h with
  | done => intro l h; cases h; rfl
  | bad => intro l h; cases h
  | @next o D st l h r hs hp hsort he hh hr ih =>
    intro l' hl
    rw [ih (Nat.lt_of_lt_of_le hst he) l' hl]
    cases o with
    | nil =>
      rw [List.drop_nil, List.perm_nil] at hp
      rw [hp, List.take_nil]; rfl
    | cons a o =>
      obtain ⟨k, rfl⟩ := Nat.exists_eq_succ_of_ne_zero (Nat.pos_iff_ne_zero.1 hst)
      rfl

theorem endOf_pos (c : Nat) (D : Nat → Nat) (o : List Nat) : 0 < endOf c D o 0 := by
  rw [endOf]
  generalize ((List.range (o.length - 0)).map fun i => if D (o.getD (i + 0) 0) < c then i + 0 else 0).foldl max 0 = e
  show 0 < if e = 0 then e + 1 else e
  split <;> omega

/-- C67, refuted: if `hub` is the only vertex of degree at least `c`, every order that is returned begins with it, so all its neighbours come after it. -/
theorem be_hub_refuted {c : Nat} {G : UG} {hub : Nat} (hh : hub < G.n) (hhi : c ≤ (G.nb hub).length)
    (hlo : ∀ v, v < G.n → v ≠ hub → (G.nb v).length < c) {l : List Nat} (h : BEOrder c G (some l)) : l.head? = some hub := by
  cases h with
  | done hs => omega
  | @next _ _ _ l1 h r hs hp hsort he hist hr =>
    rw [List.drop_zero] at hp
    rw [List.take_zero, List.nil_append] at hr
    rw [brun_head hr (endOf_pos _ _ _) l rfl]
    cases l1 with
    | nil => have := hp.length_eq; rw [List.length_range, List.length_nil] at this; omega
    | cons a l1 =>
      rw [List.pairwise_cons] at hsort
      by_contra hc
      have hne : a ≠ hub := fun h => hc (by rw [h]; rfl)
      have hmem : hub ∈ a :: l1 := hp.mem_iff.2 (List.mem_range.2 hh)
      have hm : hub ∈ l1 := (List.mem_cons.1 hmem).resolve_left fun h => hne h.symm
      have h2 := hsort.1 hub hm
      have ha : a < G.n := List.mem_range.1 (hp.mem_iff.1 List.mem_cons_self)
      rw [if_pos (hlo a ha hne), if_neg (Nat.not_lt.2 hhi)] at h2
      omega

/-! ### Examples -/

example : K3.Sym ∧ (∀ v, v < K3.n → 1 < (K3.nb v).length) := ⟨K3_sym, by decide⟩

theorem hist_nil (G : UG) {l : List Nat} (h : l.flatMap G.nb = []) : IsHist (l.flatMap G.nb) [] := by
  rw [h]
  exact ⟨List.nodup_nil, fun v c => ⟨fun h => (by cases h), fun h => absurd h.1 List.not_mem_nil⟩⟩

/-- A triangle with cutoff 1 does reach the error. -/
example : BEOrder 1 K3 none :=
  .next (l := [0, 1, 2]) (by decide) (by decide) (by decide) (by decide) (canon_isHist _) (.bad (l := [1, 2]) (by decide) (by decide) (by decide) (by decide))

/-- The star with centre 0 and cutoff 2 returns, and the centre comes first. -/
def star : UG := .ofLists [[1, 2, 3], [0], [0], [0]]

example : BEOrder 2 star (some [0, 1, 2, 3]) :=
  .next (l := [0, 1, 2, 3]) (by decide) (by decide) (by decide) (by decide) (canon_isHist _)
    (.next (l := [3]) (by decide) (by decide) (by decide) (by decide) (canon_isHist _) (.done (by decide)))

/-- Two isolated vertices are returned in the first round. -/
example : KthOrder 1 (.ofLists [[], []]) (some [0, 1]) := by
  have hns : nsOf (UG.ofLists [[], []]).n 1 = 1 := by
    have : (((UG.ofLists [[], []]).n : Nat) * (1 : ℚ)) / (2 + 1) ≤ (1 : Nat) := by
      have : (UG.ofLists [[], []]).n = 2 := rfl
      rw [this]; norm_num
    rw [nsOf, Nat.max_eq_right (Nat.ceil_le.2 this)]
  rw [KthOrder, hns]
  exact .next (t := 0) (by decide) ⟨[0], by decide +kernel, by decide, by decide, by decide +kernel⟩ (hist_nil _ (by decide)) .done

end Gbbs.Orders
