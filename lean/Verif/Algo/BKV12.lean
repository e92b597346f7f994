/-
C99: `WorkEfficientDensestSubgraph`, `benchmarks/ApproximateDensestSubgraph/ApproxPeelingBKV12/DensestSubgraph.h:26-163`.
-/
import Verif.Algo.Orders

namespace Gbbs.BKV

open KCore Densest Orders Finset

/-! ### Model -/

/-- `nghCount(G, vs, alive, D[v] -= count, em, no_output)`: `edgeMapCount`, `edge_map_reduce.h:181-209`. The dense form (`:125-178`) runs when
`vs.size()` and the degrees of the vertices `0 .. vs.size() - 1` (`:192-196` looks up `i`, not `vs.vtx(i)`) exceed `m / 20`. The sparse form
(`:98-123`) makes a histogram of the neighbours, those that are not alive replaced by the empty key (`:57-75`); a sequential table drops the empty
key, and so does a heavy bucket (C117). The outcome `none`: the histogram does not return, which is excluded (C119) for up to 2^24 keys. -/
inductive NghCount (G : UG) (al : Nat → Bool) (ids : List Nat) (D : Nat → Nat) : Option (Nat → Nat) → Prop
  | dense (hd : m G / 20 < ids.length + ((List.range ids.length).map fun i => (G.nb i).length).sum) :
      NghCount G al ids D (some fun v => if v < G.n ∧ al v = true then sub32 (D v) ((G.nb v).countP fun u => decide (u ∈ ids)) else D v)
  | sparse {h} (hd : ids.length + ((List.range ids.length).map fun i => (G.nb i).length).sum ≤ m G / 20)
      (hh : IsHist ((ids.flatMap G.nb).filter al) h) : NghCount G al ids D (some (remD D h))
  | stuck (hd : ids.length + ((List.range ids.length).map fun i => (G.nb i).length).sum ≤ m G / 20)
      (hl : 2 ^ 24 < (ids.flatMap G.nb).length) : NghCount G al ids D none

/-- `target_density`, `:58-59` and `:116-117`; `double` as exact. -/
def target (ε : ℚ) (e k : Nat) : ℚ := (1 + ε) * e / k

/-- The first block of the output of `split_two`, `:72-73` and `:133-134`. -/
def gone (D : Nat → Nat) (t : ℚ) (rem : List Nat) : List Nat := rem.filter fun v => decide ((D v : ℚ) ≤ t)

/-- The second block. -/
def kept (D : Nat → Nat) (t : ℚ) (rem : List Nat) : List Nat := rem.filter fun v => !decide ((D v : ℚ) ≤ t)

/-- `if (current_density > max_density)`, `:65-67` and `:124-126`. -/
def bump (x : ℚ) (e k : Nat) : ℚ := if x < (e : ℚ) / k then (e : ℚ) / k else x

/-- `alive[v] = false` for the removed vertices, `:79-83` and `:139-143`. -/
def die (al : Nat → Bool) (ids : List Nat) : Nat → Bool := fun v => al v && !decide (v ∈ ids)

/-- The loop, `:102-158`, from the remaining vertices, `alive`, `D` and `max_density`; the outcome `none` is a call of `nghCount` that does not return. -/
inductive Loop (ε : ℚ) (G : UG) : List Nat → (Nat → Bool) → (Nat → Nat) → ℚ → Option ℚ → Prop
  | done {al D x} : Loop ε G [] al D x (some x)
  | last {rem al D x} (hne : rem ≠ []) (hk : kept D (target ε (rem.map D).sum rem.length) rem = []) :
      Loop ε G rem al D x (some (bump x (rem.map D).sum rem.length))
  | next {rem al D x D' o} (hne : rem ≠ []) (hk : kept D (target ε (rem.map D).sum rem.length) rem ≠ [])
      (hc : NghCount G (die al (gone D (target ε (rem.map D).sum rem.length) rem)) (gone D (target ε (rem.map D).sum rem.length) rem) D (some D'))
      (hr : Loop ε G (kept D (target ε (rem.map D).sum rem.length) rem) (die al (gone D (target ε (rem.map D).sum rem.length) rem)) D'
        (bump x (rem.map D).sum rem.length) o) : Loop ε G rem al D x o
  | oob {rem al D x} (hne : rem ≠ []) (hk : kept D (target ε (rem.map D).sum rem.length) rem ≠ [])
      (hc : NghCount G (die al (gone D (target ε (rem.map D).sum rem.length) rem)) (gone D (target ε (rem.map D).sum rem.length) rem) D none) :
      Loop ε G rem al D x none

/-- `D` at first, `:37-38`. -/
def deg (G : UG) (v : Nat) : Nat := (G.nb v).length

/-- `WorkEfficientDensestSubgraph(G, epsilon)`, `:26-163`; the first round (`:53-100`) takes `G.m` arcs and calls `nghCount` in any case. Without
vertices the quotients are NaN and all comparisons false. -/
inductive Densest (ε : ℚ) (G : UG) : Option ℚ → Prop
  | zero (hn : G.n = 0) : Densest ε G (some 0)
  | run {D' o} (hn : 0 < G.n)
      (hc : NghCount G (die (fun _ => true) (gone (deg G) (target ε (m G) G.n) (List.range G.n))) (gone (deg G) (target ε (m G) G.n) (List.range G.n)) (deg G) (some D'))
      (hr : Loop ε G (kept (deg G) (target ε (m G) G.n) (List.range G.n)) (die (fun _ => true) (gone (deg G) (target ε (m G) G.n) (List.range G.n))) D'
        (bump 0 (m G) G.n) o) : Densest ε G o
  | oob (hn : 0 < G.n)
      (hc : NghCount G (die (fun _ => true) (gone (deg G) (target ε (m G) G.n) (List.range G.n))) (gone (deg G) (target ε (m G) G.n) (List.range G.n)) (deg G) none) :
      Densest ε G none

/-! ### Proof -/

variable {G : UG} {ε : ℚ}

theorem hist_exists (keys : List Nat) : ∃ h, IsHist keys h := ⟨_, canon_isHist keys⟩

/-- What holds between rounds. -/
structure St (G : UG) (rem : List Nat) (al : Nat → Bool) (D : Nat → Nat) : Prop where
  nodup : rem.Nodup
  bound : ∀ v ∈ rem, v < G.n
  alive : ∀ v, v < G.n → (al v = true ↔ v ∈ rem)
  count : ∀ v ∈ rem, D v = (G.nb v).countP fun u => decide (u ∈ rem)

theorem sum_arcs {rem : List Nat} {al : Nat → Bool} {D : Nat → Nat} (h : St G rem al D) : (rem.map D).sum = arcs G rem.toFinset := by
  rw [sum_toFinset h.nodup, arcs]
  refine sum_congr rfl fun v hv => ?_
  rw [h.count v (List.mem_toFinset.1 hv)]
  simp

theorem mem_gone {D : Nat → Nat} {t : ℚ} {rem : List Nat} {v : Nat} : v ∈ gone D t rem ↔ v ∈ rem ∧ (D v : ℚ) ≤ t := by
  rw [gone, List.mem_filter]; simp

theorem mem_kept {D : Nat → Nat} {t : ℚ} {rem : List Nat} {v : Nat} : v ∈ kept D t rem ↔ v ∈ rem ∧ ¬ (D v : ℚ) ≤ t := by
  rw [kept, List.mem_filter]; simp

/-- The counts after a round. -/
theorem step_st (hG : G.Sym) {rem : List Nat} {al : Nat → Bool} {D D' : Nat → Nat} (h : St G rem al D) {t : ℚ}
    (hc : NghCount G (die al (gone D t rem)) (gone D t rem) D (some D')) : St G (kept D t rem) (die al (gone D t rem)) D' := by
  have hal : ∀ v, v < G.n → (die al (gone D t rem) v = true ↔ v ∈ kept D t rem) := by
    intro v hv
    rw [die, Bool.and_eq_true, h.alive v hv, Bool.not_eq_true', decide_eq_false_iff_not, mem_gone, mem_kept]
    tauto
  have hsp : ∀ v, (G.nb v).countP (fun u => decide (u ∈ rem)) = (G.nb v).countP (fun u => decide (u ∈ kept D t rem)) +
      (G.nb v).countP (fun u => decide (u ∈ gone D t rem)) := by
    intro v
    refine countP_split (fun u => ?_) (fun u => ?_)
    · rw [← Bool.decide_or]
      congr 1
      rw [mem_kept, mem_gone, eq_iff_iff]; tauto
    · rw [decide_eq_true_eq, decide_eq_true_eq, mem_kept, mem_gone]; tauto
  refine ⟨h.nodup.filter _, fun v hv => h.bound v (mem_kept.1 hv).1, hal, fun v hv => ?_⟩
  have hvn := h.bound v (mem_kept.1 hv).1
  have hval : D' v = sub32 (D v) ((G.nb v).countP fun u => decide (u ∈ gone D t rem)) := by
    cases hc with
    | dense hd => exact if_pos ⟨hvn, (hal v hvn).2 hv⟩
    | sparse hd hh =>
      rw [remD_apply hh, List.count_filter ((hal v hvn).2 hv), count_flatMap G hG (ids := gone D t rem) (h.nodup.filter _)]
  rw [hval, h.count v (mem_kept.1 hv).1, hsp v, sub32, if_pos (Nat.le_add_left _ _), Nat.add_sub_cancel]

/-- Splitting a set of vertices: arcs that touch the first part are counted by its vertices, at most twice. -/
theorem arcs_split (hG : G.Sym) {A B : Finset Nat} (hA : A ⊆ range G.n) (hB : B ⊆ range G.n) (hd : Disjoint A B) :
    arcs G (A ∪ B) ≤ arcs G B + 2 * ∑ u ∈ A, (G.nb u).countP fun v => decide (v ∈ A ∪ B) := by
  have hc : ∀ u, (G.nb u).countP (fun v => decide (v ∈ A ∪ B)) = ∑ v ∈ A, (G.nb u).count v + ∑ v ∈ B, (G.nb u).count v := by
    intro u
    rw [countP_sum (fun v hv => (hG.bound u v hv).2)]
    simp only [decide_eq_true_eq]
    rw [← sum_filter, filter_mem_eq_inter, inter_eq_right.2 (union_subset hA hB), sum_union hd]
  rw [arcs_sum hG (union_subset hA hB), arcs_sum hG hB, sum_union hd]
  simp only [sum_union hd, hc, sum_add_distrib]
  have hsw : ∑ u ∈ B, ∑ v ∈ A, (G.nb u).count v = ∑ u ∈ A, ∑ v ∈ B, (G.nb u).count v := by
    rw [sum_comm]
    exact sum_congr rfl fun u _ => sum_congr rfl fun v _ => hG.sym v u
  omega

theorem bump_ge (x : ℚ) (e k : Nat) : x ≤ bump x e k ∧ (e : ℚ) / k ≤ bump x e k := by
  unfold bump; split
  · exact ⟨le_of_lt ‹_›, le_refl _⟩
  · exact ⟨le_refl _, not_lt.1 ‹_›⟩

/-- What the rounds from `rem` on give. -/
structure Good (ε : ℚ) (G : UG) (rem : List Nat) (x r : ℚ) : Prop where
  ge : x ≤ r
  from_ : r = x ∨ ∃ S : Finset Nat, S.Nonempty ∧ S ⊆ range G.n ∧ r = (arcs G S : ℚ) / S.card
  bound : ∀ S : Finset Nat, (∀ v ∈ S, v ∈ rem) → (arcs G S : ℚ) ≤ 2 * ((1 + ε) * r) * S.card

theorem sub_range {rem : List Nat} {al : Nat → Bool} {D : Nat → Nat} (h : St G rem al D) {S : Finset Nat} (hS : ∀ v ∈ S, v ∈ rem) : S ⊆ range G.n :=
  fun v hv => mem_range.2 (h.bound v (hS v hv))

/-- A round. -/
theorem good_step (hG : G.Sym) (hε : 0 ≤ ε) {rem : List Nat} {al : Nat → Bool} {D : Nat → Nat} (h : St G rem al D) (hne : rem ≠ []) {x r : ℚ}
    (hg : Good ε G (kept D (target ε (arcs G rem.toFinset) rem.length) rem) (bump x (arcs G rem.toFinset) rem.length) r) : Good ε G rem x r := by
  obtain ⟨b1, b2⟩ := bump_ge x (arcs G rem.toFinset) rem.length
  have hcard : (rem.toFinset.card : ℚ) = rem.length := by rw [List.toFinset_card_of_nodup h.nodup]
  have hS0 : rem.toFinset.Nonempty := by
    rw [List.toFinset_nonempty_iff]; exact hne
  refine ⟨le_trans b1 hg.ge, ?_, fun S hS => ?_⟩
  · rcases hg.from_ with hx | hx
    · unfold bump at hx
      split at hx
      · exact Or.inr ⟨rem.toFinset, hS0, sub_range h fun v hv => List.mem_toFinset.1 hv, by rw [hx, hcard]⟩
      · exact Or.inl hx
    · exact Or.inr hx
  · set t := target ε (arcs G rem.toFinset) rem.length with ht
    have htr : t ≤ (1 + ε) * r := by
      have : t = (1 + ε) * ((arcs G rem.toFinset : ℚ) / rem.length) := by rw [ht, target, mul_div_assoc]
      rw [this]
      exact mul_le_mul_of_nonneg_left (le_trans b2 hg.ge) (by linarith)
    have hSr := sub_range h hS
    have hun : S = S.filter (fun v => v ∈ gone D t rem) ∪ S.filter (fun v => v ∈ kept D t rem) := by
      ext v
      rw [mem_union, mem_filter, mem_filter, mem_gone, mem_kept]
      constructor
      · intro hv; have := hS v hv; tauto
      · tauto
    have hdj : Disjoint (S.filter (fun v => v ∈ gone D t rem)) (S.filter (fun v => v ∈ kept D t rem)) := by
      rw [disjoint_left]
      intro v h1 h2
      rw [mem_filter, mem_gone] at h1
      rw [mem_filter, mem_kept] at h2
      exact h2.2.2 h1.2.2
    have h1 := arcs_split hG (A := S.filter (fun v => v ∈ gone D t rem)) (B := S.filter (fun v => v ∈ kept D t rem))
      ((filter_subset _ _).trans hSr) ((filter_subset _ _).trans hSr) hdj
    rw [← hun] at h1
    have h2 := hg.bound (S.filter (fun v => v ∈ kept D t rem)) fun v hv => (mem_filter.1 hv).2
    have h3 : ((∑ u ∈ S.filter (fun v => v ∈ gone D t rem), (G.nb u).countP (fun v => decide (v ∈ S)) : Nat) : ℚ) ≤
        ((S.filter (fun v => v ∈ gone D t rem)).card : ℚ) * ((1 + ε) * r) := by
      rw [Nat.cast_sum, ← nsmul_eq_mul]
      refine sum_le_card_nsmul _ _ _ fun u hu => ?_
      rw [mem_filter, mem_gone] at hu
      refine le_trans ?_ (le_trans hu.2.2 htr)
      rw [h.count u hu.2.1]
      refine Nat.cast_le.2 (List.countP_mono_left fun v _ hv => ?_)
      simp only [decide_eq_true_eq] at hv ⊢
      exact hS v hv
    have h4 : (S.card : ℚ) = (S.filter (fun v => v ∈ gone D t rem)).card + (S.filter (fun v => v ∈ kept D t rem)).card := by
      conv_lhs => rw [hun]
      rw [card_union_of_disjoint hdj, Nat.cast_add]
    have h5 : (arcs G S : ℚ) ≤ (arcs G (S.filter (fun v => v ∈ kept D t rem)) : ℚ) +
        2 * ((∑ u ∈ S.filter (fun v => v ∈ gone D t rem), (G.nb u).countP (fun v => decide (v ∈ S)) : Nat) : ℚ) := by exact_mod_cast h1
    rw [h4]
    linarith

theorem good_nil {x : ℚ} : Good ε G [] x x := by
  refine ⟨le_refl _, Or.inl rfl, fun S hS => ?_⟩
  have : S = ∅ := eq_empty_of_forall_notMem fun v hv => by cases hS v hv
  subst this
  simp [arcs]

theorem loop_good (hG : G.Sym) (hε : 0 ≤ ε) {rem : List Nat} {al : Nat → Bool} {D : Nat → Nat} {x : ℚ} {o : Option ℚ} (hl : Loop ε G rem al D x o)
    (h : St G rem al D) {r : ℚ} (ho : o = some r) : Good ε G rem x r := by
  induction hl with
  | done => cases ho; exact good_nil
  | last hne hk =>
    cases ho
    rw [sum_arcs h] at hk ⊢
    refine good_step hG hε h hne ?_
    rw [hk]; exact good_nil
  | next hne hk hc hr ih =>
    have := ih (step_st hG h hc) ho
    rw [sum_arcs h] at this
    exact good_step hG hε h hne this
  | oob => cases ho

theorem init_st (hG : G.Sym) : St G (List.range G.n) (fun _ => true) (deg G) := by
  refine ⟨List.nodup_range, fun v hv => List.mem_range.1 hv, fun v hv => by simp [hv], fun v _ => ?_⟩
  rw [deg, eq_comm, List.countP_eq_length]
  exact fun u hu => by simpa using (hG.bound v u hu).2

theorem m_arcs (hG : G.Sym) : m G = arcs G (List.range G.n).toFinset := by
  rw [m_eq hG]; congr 1; ext v; simp

/-- C99: the value returned is `arcs(S) / |S|`, twice the density, of some set of vertices (0 without vertices), and `1 + ε` times the value
bounds the density of every set of vertices: half of the value is a `2 (1 + ε)`-approximation of the greatest density. -/
theorem densest_approx (hG : G.Sym) (hε : 0 ≤ ε) {x : ℚ} (h : Densest ε G (some x)) :
    (G.n = 0 ∧ x = 0 ∨ ∃ S : Finset Nat, S.Nonempty ∧ S ⊆ range G.n ∧ x / 2 = density G S) ∧
      ∀ S : Finset Nat, S ⊆ range G.n → density G S ≤ (1 + ε) * x := by
  have main : Good ε G (List.range G.n) 0 x := by
    generalize hx : some x = o at h
    cases h with
    | zero hn =>
      cases hx
      rw [hn]; exact good_nil
    | run hn hc hr =>
      have hs := init_st hG
      have hne : List.range G.n ≠ [] := by
        rw [ne_eq, List.range_eq_nil]; omega
      have := loop_good hG hε hr (step_st hG hs hc) hx.symm
      have hlen : G.n = (List.range G.n).length := List.length_range.symm
      refine good_step hG hε hs hne ?_
      rw [← hlen, ← m_arcs hG]
      exact this
    | oob => cases hx
  refine ⟨?_, fun S hS => ?_⟩
  · rcases main.from_ with h0 | ⟨S, h1, h2, h3⟩
    · by_cases hn : G.n = 0
      · exact Or.inl ⟨hn, h0⟩
      · refine Or.inr ⟨range G.n, ⟨0, mem_range.2 (Nat.pos_of_ne_zero hn)⟩, Subset.refl _, ?_⟩
        have hb := main.bound (range G.n) fun v hv => List.mem_range.2 (mem_range.1 hv)
        rw [h0, mul_zero, mul_zero, zero_mul] at hb
        have : (arcs G (range G.n) : ℚ) = 0 := le_antisymm hb (Nat.cast_nonneg _)
        rw [density, this, h0, zero_div, zero_div]
    · exact Or.inr ⟨S, h1, h2, by rw [h3, density, div_div, mul_comm (S.card : ℚ)]⟩
  · have hb := main.bound S fun v hv => List.mem_range.2 (mem_range.1 (hS hv))
    rw [density]
    rcases S.eq_empty_or_nonempty with rfl | hne
    · have := main.ge
      simp only [card_empty, Nat.cast_zero, mul_zero, div_zero]
      exact mul_nonneg (by linarith) this
    · have : (0 : ℚ) < S.card := Nat.cast_pos.2 hne.card_pos
      rw [div_le_iff₀ (by linarith)]
      linarith

/-! ### Termination -/

/-- Every round removes a vertex. -/
theorem progress (hε : 0 ≤ ε) {rem : List Nat} (D : Nat → Nat) (hne : rem ≠ []) :
    (kept D (target ε (rem.map D).sum rem.length) rem).length < rem.length := by
  have hex : ∃ v ∈ rem, (D v : ℚ) ≤ target ε (rem.map D).sum rem.length := by
    by_contra hc
    push Not at hc
    have hpos : (0 : ℚ) < rem.length := Nat.cast_pos.2 (List.length_pos_iff.2 hne)
    have hle : ((rem.map D).sum : ℚ) / rem.length ≤ target ε (rem.map D).sum rem.length := by
      rw [target, mul_div_assoc]
      have : (0 : ℚ) ≤ ((rem.map D).sum : ℚ) / rem.length := div_nonneg (Nat.cast_nonneg _) (Nat.cast_nonneg _)
      nlinarith
    have hlt : ∀ v ∈ rem, ((rem.map D).sum : ℚ) / rem.length < D v := fun v hv => lt_of_le_of_lt hle (hc v hv)
    have key : ∀ (l : List Nat) (a : ℚ), (∀ v ∈ l, a < D v) → l ≠ [] → a * l.length < ((l.map D).sum : Nat) := by
      intro l a
      induction l with
      | nil => intro _ h; exact absurd rfl h
      | cons b l ih =>
        intro h _
        rw [List.map_cons, List.sum_cons, List.length_cons, Nat.cast_add, Nat.cast_succ]
        have hb := h b List.mem_cons_self
        by_cases hl : l = []
        · subst hl; simpa using hb
        · have := ih (fun v hv => h v (List.mem_cons_of_mem _ hv)) hl
          rw [Nat.cast_zero, zero_add, mul_add, mul_one, Nat.cast_add]
          linarith
    have := key rem _ hlt hne
    rw [div_mul_cancel₀ _ hpos.ne'] at this
    exact lt_irrefl _ this
  obtain ⟨v, hv, hle⟩ := hex
  exact List.length_filter_lt_length_iff_exists.2 ⟨v, hv, by simpa using hle⟩

/-- `nghCount` can end, and always does with at most 2^24 arcs. -/
theorem nghCount_exists (al : Nat → Bool) (ids : List Nat) (D : Nat → Nat) : ∃ D', NghCount G al ids D (some D') := by
  by_cases hd : m G / 20 < ids.length + ((List.range ids.length).map fun i => (G.nb i).length).sum
  · exact ⟨_, .dense hd⟩
  · obtain ⟨h, hh⟩ := hist_exists ((ids.flatMap G.nb).filter al)
    exact ⟨_, .sparse (not_lt.1 hd) hh⟩

theorem nghCount_some {al : Nat → Bool} {ids : List Nat} {D : Nat → Nat} (hm : m G ≤ 2 ^ 24) (hnd : ids.Nodup) (hb : ∀ v ∈ ids, v < G.n) :
    ¬ NghCount G al ids D none := by
  intro h
  cases h with
  | stuck hd hl =>
    have h1 : (ids.flatMap G.nb).length = ∑ v ∈ ids.toFinset, (G.nb v).length := by
      rw [List.length_flatMap, ← sum_toFinset hnd]
    have h2 : ∑ v ∈ ids.toFinset, (G.nb v).length ≤ m G :=
      sum_le_sum_of_subset fun v hv => mem_range.2 (hb v (List.mem_toFinset.1 hv))
    omega

theorem loop_exists (hε : 0 ≤ ε) (k : Nat) : ∀ {rem : List Nat} (al : Nat → Bool) (D : Nat → Nat) (x : ℚ), rem.length ≤ k → ∃ r, Loop ε G rem al D x (some r) := by
  induction k with
  | zero =>
    intro rem al D x hl
    rw [Nat.le_zero, List.length_eq_zero_iff] at hl
    subst hl
    exact ⟨_, .done⟩
  | succ k ih =>
    intro rem al D x hl
    by_cases hne : rem = []
    · subst hne; exact ⟨_, .done⟩
    · by_cases hk : kept D (target ε (rem.map D).sum rem.length) rem = []
      · exact ⟨_, .last hne hk⟩
      · obtain ⟨D', hc⟩ := nghCount_exists (G := G) (die al (gone D (target ε (rem.map D).sum rem.length) rem)) (gone D (target ε (rem.map D).sum rem.length) rem) D
        have := progress hε D hne
        obtain ⟨r, hr⟩ := ih (rem := kept D (target ε (rem.map D).sum rem.length) rem) (die al (gone D (target ε (rem.map D).sum rem.length) rem)) D' (bump x (rem.map D).sum rem.length) (by omega)
        exact ⟨r, .next hne hk hc hr⟩

theorem loop_some (hm : m G ≤ 2 ^ 24) {rem : List Nat} {al : Nat → Bool} {D : Nat → Nat} {x : ℚ} {o : Option ℚ} (hl : Loop ε G rem al D x o)
    (hnd : rem.Nodup) (hb : ∀ v ∈ rem, v < G.n) : o ≠ none := by
  induction hl with
  | done => exact fun h => by cases h
  | last => exact fun h => by cases h
  | next hne hk hc hr ih => exact ih (hnd.filter _) fun v hv => hb v (mem_kept.1 hv).1
  | oob hne hk hc => exact absurd hc (nghCount_some hm (hnd.filter _) fun v hv => hb v (mem_gone.1 hv).1)

/-- C99: a call can return, and with at most 2^24 arcs always does. -/
theorem densest_returns (hε : 0 ≤ ε) : (∃ x, Densest ε G (some x)) ∧ (m G ≤ 2 ^ 24 → ¬ Densest ε G none) := by
  constructor
  · by_cases hn : G.n = 0
    · exact ⟨0, .zero hn⟩
    · obtain ⟨D', hc⟩ := nghCount_exists (G := G) (die (fun _ => true) (gone (deg G) (target ε (m G) G.n) (List.range G.n)))
        (gone (deg G) (target ε (m G) G.n) (List.range G.n)) (deg G)
      obtain ⟨r, hr⟩ := loop_exists (G := G) hε _ (rem := kept (deg G) (target ε (m G) G.n) (List.range G.n))
        (die (fun _ => true) (gone (deg G) (target ε (m G) G.n) (List.range G.n))) D' (bump 0 (m G) G.n) (le_refl _)
      exact ⟨r, .run (Nat.pos_of_ne_zero hn) hc hr⟩
  · intro hm h
    generalize ho : (none : Option ℚ) = o at h
    cases h with
    | zero => cases ho
    | run hn hc hr => exact loop_some hm hr (List.nodup_range.filter _) (fun v hv => List.mem_range.1 (mem_kept.1 hv).1) ho.symm
    | oob hn hc => exact nghCount_some hm (List.nodup_range.filter _) (fun v hv => List.mem_range.1 (mem_gone.1 hv).1) hc

/-! ### Example -/

/-- A triangle 0, 1, 2 with the tail 2, 3, 4. -/
def kite : UG := .ofLists [[1, 2], [0, 2], [0, 1, 3], [2, 4], [3]]

theorem kite_sym : kite.Sym := UG.ofLists_sym (by decide +kernel)

example : ∃ x, Densest 0 kite (some x) ∧ density kite {0, 1, 2} ≤ x := by
  obtain ⟨x, hx⟩ := (densest_returns (G := kite) (le_refl (0 : ℚ))).1
  refine ⟨x, hx, ?_⟩
  have := (densest_approx kite_sym (le_refl 0) hx).2 {0, 1, 2} (by decide +kernel)
  linarith

/-- The value for the kite with `ε = 0`: 2 arcs per vertex, of all vertices and of the rest of the first round, the vertex 2. -/
example : Densest 0 kite (some 2) := by
  have hm : m kite = 10 := by decide +kernel
  refine Densest.run (by decide) (NghCount.dense (by rw [hm]; decide +kernel)) ?_
  have hg : kept (deg kite) (target 0 (m kite) kite.n) (List.range kite.n) = [2] := by rw [hm]; decide +kernel
  rw [hg, hm]
  have hb : bump 0 10 kite.n = 2 := by decide +kernel
  rw [hb]
  have hl := Loop.last (ε := 0) (G := kite) (rem := [2]) (al := die (fun _ => true) (gone (deg kite) (target 0 10 kite.n) (List.range kite.n)))
    (D := fun v => if v < kite.n ∧ die (fun _ => true) (gone (deg kite) (target 0 10 kite.n) (List.range kite.n)) v = true then
      sub32 (deg kite v) ((kite.nb v).countP fun u => decide (u ∈ gone (deg kite) (target 0 10 kite.n) (List.range kite.n))) else deg kite v) (x := 2)
    (by decide) (by decide +kernel)
  convert hl using 2
  decide +kernel

end Gbbs.BKV
