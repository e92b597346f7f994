/-
C103: local queries, `benchmarks/MaximalIndependentSet/Yoshida/MaximalIndependentSet.h:29-137` and
`benchmarks/MaximalMatching/Yoshida/MaximalMatching.h:32-151` with `yoshida_matching_utils.h` and `reorder.h`.
-/
import Verif.Algo.UGraph
import Mathlib.Data.Finset.Card
import Mathlib.Data.Finset.Prod
import Mathlib.Data.Rat.Defs
import Mathlib.Algebra.Order.Field.Rat
import Mathlib.Tactic.NormNum
import Mathlib.Tactic.ByContra
import Mathlib.Tactic.Tauto

namespace Gbbs.Yoshida

/-! ### Queries over items in an order -/

/-- `mis_status`, `mm_status`. -/
inductive Status where
  | isIn | isOut | unknown
  deriving DecidableEq, Repr

/-- The loop of a query over its items in order: `MaximalIndependentSet.h:45-73` and `MaximalMatching.h:53-81`. `stop` is the condition of the
`break`s, `qry` the recursive call. `none` of `qry` is lack of fuel. -/
def scan {X : Type} (qry : X → Nat → Option (Status × Nat)) (stop : X → Bool) (cut : Nat) : List X → Nat → Option (Status × Nat)
  | [], w => some (.isIn, w)
  | y :: ys, w =>
    if w = cut then some (.unknown, w)
    else if stop y then some (.isIn, w + 1)
    else match qry y (w + 1) with
      | none => none
      | some (.isIn, w') => some (.isOut, w')
      | some (.unknown, w') => some (.unknown, w')
      | some (.isOut, w') => scan qry stop cut ys w'

/-- The recursion of `mis_query` and `mm_query`; `fuel` bounds its depth. -/
def query {X : Type} (nbs : X → List X) (stop : X → X → Bool) (cut : Nat) : Nat → X → Nat → Option (Status × Nat)
  | 0, _, _ => none
  | f + 1, x, w => scan (query nbs stop cut f) (stop x) cut (nbs x) w

section generic
variable {X : Type} {nbs : X → List X} {stop : X → X → Bool} {cut : Nat} {lt : X → X → Prop}

/-- The items chosen one after the other in the order: an item is chosen iff no earlier neighbour is. -/
def Greedy (nbs : X → List X) (lt : X → X → Prop) (I : X → Prop) : Prop := ∀ x, I x ↔ ∀ y ∈ nbs x, lt y x → ¬ I y

theorem greedy_exists (rk : X → Nat) (hrk : ∀ x, ∀ y ∈ nbs x, lt y x → rk y < rk x) : ∃ I, Greedy nbs lt I := by
  let F : (x : X) → ((y : X) → rk y < rk x → Prop) → Prop := fun x r => ∀ y ∈ nbs x, ∀ h : lt y x, ∀ h' : rk y < rk x, ¬ r y h'
  refine ⟨WellFounded.fix (measure rk).wf F, fun x => ?_⟩
  rw [WellFounded.fix_eq]
  constructor
  · intro h y hy hl
    exact h y hy hl (hrk x y hy hl)
  · intro h y hy hl _
    exact h y hy hl

theorem greedy_unique (rk : X → Nat) (hrk : ∀ x, ∀ y ∈ nbs x, lt y x → rk y < rk x) {I J : X → Prop} (hI : Greedy nbs lt I) (hJ : Greedy nbs lt J) :
    ∀ x, I x ↔ J x := by
  intro x
  generalize hk : rk x = k
  induction k using Nat.strong_induction_on generalizing x with
  | _ k ih =>
    rw [hI x, hJ x]
    refine forall_congr' fun y => forall_congr' fun hy => forall_congr' fun hl => not_congr ?_
    exact ih (rk y) (hk ▸ hrk x y hy hl) y rfl

/-- A query is answered by the greedy choice, and is left unanswered only at the cut-off. -/
theorem query_spec (htr : ∀ a b c, ¬ lt b a → ¬ lt c b → ¬ lt c a) (hstop : ∀ x, ∀ y ∈ nbs x, (stop x y = true ↔ ¬ lt y x))
    (hsort : ∀ x, (nbs x).Pairwise fun a b => ¬ lt b a) {I : X → Prop} (hI : Greedy nbs lt I) (f : Nat) :
    ∀ x w r, w ≤ cut → query nbs stop cut f x w = some r →
      (r.1 = .isIn → I x) ∧ (r.1 = .isOut → ¬ I x) ∧ (r.1 = .unknown → r.2 = cut) ∧ w ≤ r.2 ∧ r.2 ≤ cut := by
  induction f with
  | zero => intro x w r _ h; cases h
  | succ f ih =>
    intro x w r hw h
    rw [query] at h
    have key : ∀ l, (∀ y ∈ l, y ∈ nbs x) → l.Pairwise (fun a b => ¬ lt b a) → (∀ y ∈ nbs x, lt y x → y ∉ l → ¬ I y) → ∀ w r, w ≤ cut →
        scan (query nbs stop cut f) (stop x) cut l w = some r →
        (r.1 = .isIn → I x) ∧ (r.1 = .isOut → ¬ I x) ∧ (r.1 = .unknown → r.2 = cut) ∧ w ≤ r.2 ∧ r.2 ≤ cut := by
      intro l
      induction l with
      | nil =>
        intro _ _ hout w r hw h
        cases h
        exact ⟨fun _ => (hI x).2 fun y hy hl => hout y hy hl List.not_mem_nil, fun h => (by cases h), fun h => (by cases h), Nat.le_refl _, hw⟩
      | cons y ys ihl =>
        intro hsub hs hout w r hw h
        rw [scan] at h
        split at h
        · rename_i hc
          cases h
          exact ⟨fun h => (by cases h), fun h => (by cases h), fun _ => hc, Nat.le_refl _, hw⟩
        rename_i hc
        split at h
        · rename_i hst
          cases h
          have hny := (hstop x y (hsub y List.mem_cons_self)).1 hst
          refine ⟨fun _ => (hI x).2 fun z hz hl => ?_, fun h => (by cases h), fun h => (by cases h), Nat.le_succ _, by show w + 1 ≤ cut; omega⟩
          by_cases hm : z ∈ y :: ys
          · exfalso
            rcases List.mem_cons.1 hm with rfl | hm
            · exact hny hl
            · exact htr x y z hny ((List.pairwise_cons.1 hs).1 z hm) hl
          · exact hout z hz hl hm
        rename_i hst
        have hly : lt y x := by
          by_contra hc
          exact hst ((hstop x y (hsub y List.mem_cons_self)).2 hc)
        split at h
        · cases h
        · rename_i w' hq
          obtain ⟨h1, _, _, h4, h5⟩ := ih y (w + 1) _ (by omega) hq
          cases h
          exact ⟨fun h => (by cases h), fun _ hx => (hI x).1 hx y (hsub y List.mem_cons_self) hly (h1 rfl), fun h => (by cases h),
            by show w ≤ w'; have : w + 1 ≤ w' := h4; omega, h5⟩
        · rename_i w' hq
          obtain ⟨_, _, h3, h4, h5⟩ := ih y (w + 1) _ (by omega) hq
          cases h
          exact ⟨fun h => (by cases h), fun h => (by cases h), fun _ => h3 rfl, by show w ≤ w'; have : w + 1 ≤ w' := h4; omega, h5⟩
        · rename_i w' hq
          obtain ⟨_, h2, _, h4, h5⟩ := ih y (w + 1) _ (by omega) hq
          have h4 : w + 1 ≤ w' := h4
          obtain ⟨k1, k2, k3, k4, k5⟩ := ihl (fun z hz => hsub z (List.mem_cons_of_mem _ hz)) (List.pairwise_cons.1 hs).2 (fun z hz hl hm => by
            by_cases hzy : z = y
            · subst hzy; exact h2 rfl
            · exact hout z hz hl fun hc => (List.mem_cons.1 hc).elim hzy hm) w' r h5 h
          exact ⟨k1, k2, k3, by omega, k5⟩
    exact key (nbs x) (fun _ h => h) (hsort x) (fun y hy _ hn => absurd hy hn) w r hw h

theorem query_total (rk : X → Nat) (hrk : ∀ x, ∀ y ∈ nbs x, lt y x → rk y < rk x) (hstop : ∀ x, ∀ y ∈ nbs x, (stop x y = true ↔ ¬ lt y x)) :
    ∀ f x, rk x < f → ∀ w, ∃ r, query nbs stop cut f x w = some r := by
  intro f
  induction f with
  | zero => intro x h; omega
  | succ f ih =>
    intro x hx w
    have key : ∀ l, (∀ y ∈ l, y ∈ nbs x) → ∀ w, ∃ r, scan (query nbs stop cut f) (stop x) cut l w = some r := by
      intro l
      induction l with
      | nil => exact fun _ w => ⟨_, rfl⟩
      | cons y ys ihl =>
        intro hsub w
        rw [scan]
        split
        · exact ⟨_, rfl⟩
        split
        · exact ⟨_, rfl⟩
        rename_i hst
        have hy := hsub y List.mem_cons_self
        have hly : lt y x := by
          by_contra hc
          exact hst ((hstop x y hy).2 hc)
        obtain ⟨⟨st, w'⟩, hr⟩ := ih y (by have := hrk x y hy hly; omega) (w + 1)
        rw [hr]
        cases st
        · exact ⟨_, rfl⟩
        · exact ihl (fun z hz => hsub z (List.mem_cons_of_mem _ hz)) w'
        · exact ⟨_, rfl⟩
    exact key _ (fun _ h => h) w

end generic

/-! ### Independent sets -/

/-- Order by priority, then by vertex: `comp_f` of `reorder.h:28-39`. -/
def vlt (pri : Nat → Nat) (u v : Nat) : Prop := pri u < pri v ∨ (pri u = pri v ∧ u < v)

/-- The lists of `reorder_graph` (`reorder.h:7-59`): the neighbours, sorted (`sample_sort_inplace` is trusted). -/
def Reordered (G : UG) (pri : Nat → Nat) (nb : Nat → List Nat) : Prop :=
  ∀ u, (nb u).Perm (G.nb u) ∧ (nb u).Pairwise fun a b => ¬ vlt pri b a

/-- The `break`s, `MaximalIndependentSet.h:57-63`. -/
def vstop (pri : Nat → Nat) (u ngh : Nat) : Bool := decide (pri u < pri ngh) || (decide (pri u = pri ngh) && decide (u ≤ ngh))

/-- `mis_query(u, RG, w, cut)`, `MaximalIndependentSet.h:35-77`, for graphs without weights (the cast to `uintE*` in line 40 reads the weights as
neighbours otherwise). The exit in lines 53-55 for lists that are not sorted is left out: the lists come from `reorder_graph`. -/
def misQuery (pri : Nat → Nat) (nb : Nat → List Nat) (cut fuel u w : Nat) : Option (Status × Nat) := query nb (vstop pri) cut fuel u w

/-- The queries of `MaximalIndependentSet(G, cut)`, `:92-99`: what vertex `u` gets. -/
structure MisRun (G : UG) (pri : Nat → Nat) (cut : Nat) (res : Nat → Status × Nat) : Prop where
  run : ∃ nb fuel, Reordered G pri nb ∧ ∀ u < G.n, misQuery pri nb cut fuel u 0 = some (res u)

/-- `mis[u]`, `:94`. -/
def mis (res : Nat → Status × Nat) (u : Nat) : Prop := (res u).1 = .isIn

/-- The check in `:113-134`: no `exit`. -/
def Verified (G : UG) (res : Nat → Status × Nat) : Prop :=
  ∀ u < G.n, if (res u).1 = .isIn then (G.nb u).countP (fun v => decide ((res v).1 = .isIn)) = 0 else (G.nb u).countP (fun v => decide ((res v).1 = .isIn)) ≠ 0

/-- `fraction_covered`, `:100-104`. -/
def fraction (n : Nat) (res : Nat → Status × Nat) : ℚ := (((List.range n).countP fun u => decide ((res u).1 ≠ .unknown) : Nat) : ℚ) / n

theorem vlt_trans {pri : Nat → Nat} (a b c : Nat) (h1 : ¬ vlt pri b a) (h2 : ¬ vlt pri c b) : ¬ vlt pri c a := by
  unfold vlt at *; omega

theorem vstop_iff {pri : Nat → Nat} (u v : Nat) : vstop pri u v = true ↔ ¬ vlt pri v u := by
  unfold vstop vlt
  simp only [Bool.or_eq_true, Bool.and_eq_true, decide_eq_true_eq]
  omega

/-- Position in the order. -/
def vrk (n : Nat) (pri : Nat → Nat) (v : Nat) : Nat := ((Finset.range n).filter fun u => pri u < pri v ∨ (pri u = pri v ∧ u < v)).card

theorem vrk_lt {n : Nat} {pri : Nat → Nat} {u v : Nat} (hu : u < n) (h : vlt pri u v) : vrk n pri u < vrk n pri v := by
  refine Finset.card_lt_card ⟨fun w hw => ?_, fun hc => ?_⟩
  · obtain ⟨h1, h2⟩ := Finset.mem_filter.1 hw
    refine Finset.mem_filter.2 ⟨h1, ?_⟩
    unfold vlt at h; omega
  · have := hc (Finset.mem_filter.2 ⟨Finset.mem_range.2 hu, h⟩)
    have := (Finset.mem_filter.1 this).2
    omega

/-- The lexicographically first maximal independent set: a vertex is in it iff no earlier neighbour is. -/
def FirstMis (G : UG) (pri : Nat → Nat) (I : Nat → Prop) : Prop := Greedy G.nb (vlt pri) I

theorem firstMis_exists {G : UG} (hG : G.Sym) (pri : Nat → Nat) : ∃ I, FirstMis G pri I :=
  greedy_exists (vrk G.n pri) fun x y hy hl => vrk_lt (hG.bound x y hy).2 hl

/-- It is independent and maximal when there are no self-loops. -/
theorem firstMis_mis {G : UG} (hG : G.Sym) (hns : ∀ u, u ∉ G.nb u) {pri : Nat → Nat} {I : Nat → Prop} (hI : FirstMis G pri I) :
    (∀ u, ∀ v ∈ G.nb u, ¬ (I u ∧ I v)) ∧ ∀ u, ¬ I u → ∃ v ∈ G.nb u, I v := by
  have hsym : ∀ u v, v ∈ G.nb u → u ∈ G.nb v := fun u v h => by
    rw [← List.count_pos_iff] at h ⊢
    rw [hG.sym]; exact h
  refine ⟨fun u v hv ⟨h1, h2⟩ => ?_, fun u hu => ?_⟩
  · have hne : u ≠ v := fun hc => hns u (hc ▸ hv)
    have : vlt pri v u ∨ vlt pri u v := by unfold vlt; omega
    rcases this with h | h
    · exact (hI u).1 h1 v hv h h2
    · exact (hI v).1 h2 u (hsym u v hv) h h1
  · by_contra hc
    exact hu ((hI u).2 fun v hv _ hi => hc ⟨v, hv, hi⟩)

theorem greedy_perm {X : Type} {nbs nbs' : X → List X} {lt : X → X → Prop} (h : ∀ x y, y ∈ nbs' x ↔ y ∈ nbs x) {I : X → Prop}
    (hI : Greedy nbs lt I) : Greedy nbs' lt I := by
  intro x
  rw [hI x]
  exact ⟨fun h1 y hy => h1 y ((h x y).1 hy), fun h1 y hy => h1 y ((h x y).2 hy)⟩

/-- **C103: answers.** For every graph, priorities (with collisions or not) and cut-off: vertices answered "in" are in the lexicographically first
maximal independent set and those answered "out" are not; an unanswered query has used up the cut-off; no query does more work than that. -/
theorem mis_answers {G : UG} {pri : Nat → Nat} {cut : Nat} {res : Nat → Status × Nat} (h : MisRun G pri cut res) {I : Nat → Prop}
    (hI : FirstMis G pri I) (u : Nat) (hu : u < G.n) :
    ((res u).1 = .isIn → I u) ∧ ((res u).1 = .isOut → ¬ I u) ∧ ((res u).1 = .unknown → (res u).2 = cut) ∧ (res u).2 ≤ cut := by
  obtain ⟨nb, fuel, hre, hq⟩ := h.run
  obtain ⟨h1, h2, h3, _, h5⟩ := query_spec vlt_trans (fun x y _ => vstop_iff x y) (fun x => (hre x).2)
    (greedy_perm (fun x y => (hre x).1.mem_iff) hI) fuel u 0 (res u) (Nat.zero_le _) (hq u hu)
  exact ⟨h1, h2, h3, h5⟩

/-- **C103: complete runs.** If no query reached the cut-off, `mis` is a maximal independent set, the check passes, and everything is covered. -/
theorem mis_complete {G : UG} (hG : G.Sym) (hns : ∀ u, u ∉ G.nb u) {pri : Nat → Nat} {cut : Nat} {res : Nat → Status × Nat}
    (h : MisRun G pri cut res) (hcut : ∀ u < G.n, (res u).2 ≠ cut) :
    (∀ u < G.n, ∀ v ∈ G.nb u, ¬ (mis res u ∧ mis res v)) ∧ (∀ u < G.n, ¬ mis res u → ∃ v ∈ G.nb u, mis res v) ∧
    Verified G res ∧ (0 < G.n → fraction G.n res = 1) := by
  obtain ⟨I, hI⟩ := firstMis_exists hG pri
  have hres : ∀ u < G.n, mis res u ↔ I u := by
    intro u hu
    obtain ⟨h1, h2, h3, _⟩ := mis_answers h hI u hu
    have hu' := hcut u hu
    unfold mis
    cases hs : (res u).1 with
    | isIn => exact ⟨fun _ => h1 hs, fun _ => rfl⟩
    | isOut => exact ⟨fun hc => (by cases hc), fun hc => absurd hc (h2 hs)⟩
    | unknown => exact absurd (h3 hs) hu'
  obtain ⟨hi, hm⟩ := firstMis_mis hG hns hI
  have r1 : ∀ u < G.n, ∀ v ∈ G.nb u, ¬ (mis res u ∧ mis res v) := fun u hu v hv ⟨h1, h2⟩ =>
    hi u v hv ⟨(hres u hu).1 h1, (hres v (hG.bound u v hv).2).1 h2⟩
  have r2 : ∀ u < G.n, ¬ mis res u → ∃ v ∈ G.nb u, mis res v := fun u hu hn => by
    obtain ⟨v, hv, h1⟩ := hm u fun hc => hn ((hres u hu).2 hc)
    exact ⟨v, hv, (hres v (hG.bound u v hv).2).2 h1⟩
  refine ⟨r1, r2, fun u hu => ?_, fun hn => ?_⟩
  · split
    · rename_i hin
      refine List.countP_eq_zero.2 fun v hv => ?_
      have := r1 u hu v hv
      simp only [decide_eq_true_eq]
      exact fun hc => this ⟨hin, hc⟩
    · rename_i hin
      obtain ⟨v, hv, h1⟩ := r2 u hu hin
      exact Nat.ne_of_gt (List.countP_pos_iff.2 ⟨v, hv, decide_eq_true h1⟩)
  · have : (List.range G.n).countP (fun u => decide ((res u).1 ≠ .unknown)) = G.n := by
      conv_rhs => rw [← List.length_range (n := G.n)]
      refine List.countP_eq_length.2 fun u hu => decide_eq_true ?_
      have hu := List.mem_range.1 hu
      obtain ⟨_, _, h3, _⟩ := mis_answers h hI u hu
      exact fun hc => hcut u hu (h3 hc)
    rw [fraction, this]
    exact div_self (by exact_mod_cast Nat.ne_of_gt hn)

theorem exists_reordered (G : UG) (pri : Nat → Nat) : ∃ nb, Reordered G pri nb := by
  classical
  have hd : ∀ a b, Decidable (vlt pri a b) := fun a b => Classical.dec _
  refine ⟨fun u => (G.nb u).mergeSort fun a b => decide (¬ vlt pri b a), fun u => ⟨List.mergeSort_perm _ _, ?_⟩⟩
  have := List.pairwise_mergeSort (le := fun a b => decide (¬ vlt pri b a)) (fun a b c h1 h2 => by
    rw [decide_eq_true_eq] at *
    exact vlt_trans a b c h1 h2) (fun a b => by
    rw [Bool.or_eq_true, decide_eq_true_eq, decide_eq_true_eq]
    unfold vlt; omega) (G.nb u)
  exact this.imp fun h => by simpa using h

/-- **C103: the recursion ends.** -/
theorem mis_returns {G : UG} (hG : G.Sym) (pri : Nat → Nat) (cut : Nat) : ∃ res, MisRun G pri cut res := by
  obtain ⟨nb, hre⟩ := exists_reordered G pri
  have hk : ∀ v, vrk G.n pri v < G.n + 1 := fun v => by
    have := Finset.card_filter_le (Finset.range G.n) fun u => pri u < pri v ∨ (pri u = pri v ∧ u < v)
    rw [Finset.card_range] at this
    unfold vrk; omega
  have := fun u => query_total (cut := cut) (vrk G.n pri) (fun x y hy hl => vrk_lt (hG.bound x y ((hre x).1.mem_iff.1 hy)).2 hl)
    (fun x y _ => vstop_iff (pri := pri) x y) (G.n + 1) u (hk u) 0
  choose res hres using this
  exact ⟨res, nb, G.n + 1, hre, fun u _ => hres u⟩

/-- **C103, refuted: graphs with a self-loop.** A vertex with a self-loop and no other neighbour is chosen, and the check exits. -/
theorem mis_selfloop (pri : Nat → Nat) (cut : Nat) (hc : 1 < cut) {res : Nat → Status × Nat} (h : MisRun ⟨1, fun u => if u = 0 then [0] else []⟩ pri cut res) :
    mis res 0 ∧ ¬ Verified ⟨1, fun u => if u = 0 then [0] else []⟩ res := by
  obtain ⟨nb, fuel, hre, hq⟩ := h.run
  have hin : (res 0).1 = .isIn := by
    have h0 := hq 0 Nat.zero_lt_one
    have h1 : nb 0 = [0] := List.perm_singleton.1 (hre 0).1
    cases fuel with
    | zero => cases h0
    | succ f =>
      rw [misQuery, query, h1, scan, if_neg (by omega), if_pos (by simp [vstop])] at h0
      rw [← Option.some.inj h0]
  refine ⟨hin, fun hv => ?_⟩
  have := hv 0 Nat.zero_lt_one
  rw [if_pos hin] at this
  simp [hin] at this

/-- A path of four vertices, with equal priorities and with different ones: the answers. -/
example : ∃ res, MisRun (UG.ofLists [[1], [0, 2], [1, 3], [2]]) (fun v => v / 2) 100 res ∧ (res 0).1 = .isIn ∧ (res 1).1 = .isOut ∧ (res 2).1 = .isIn ∧
    (res 3) = (.isOut, 5) :=
  ⟨fun u => [(.isIn, 1), (.isOut, 2), (.isIn, 4), (.isOut, 5)].getD u (.isIn, 0), ⟨fun u => [[1], [0, 2], [1, 3], [2]].getD u [], 5, fun u => ⟨List.Perm.refl _, by
    by_cases hu : u < 4
    · have : ∀ u < 4, ([[1], [0, 2], [1, 3], [2]].getD u []).Pairwise fun a b => ¬ (b / 2 < a / 2 ∨ (b / 2 = a / 2 ∧ b < a)) := by decide
      exact this u hu
    · show ([[1], [0, 2], [1, 3], [2]].getD u []).Pairwise _
      rw [List.getD_eq_getElem?_getD, List.getElem?_eq_none (by show 4 ≤ u; omega)]
      exact List.Pairwise.nil⟩, by decide⟩, rfl, rfl, rfl, rfl⟩

example : (UG.ofLists [[1], [0, 2], [1, 3], [2]]).Sym := UG.ofLists_sym (by decide)

/-! ### Matchings -/

/-- The pair of an edge in increasing order. -/
def mkE (u v : Nat) : Nat × Nat := (min u v, max u v)

/-- Order of edges: by priority, then lexicographically (`MaximalMatching.h:62-70`, `yoshida_matching_utils.h:39-49`). -/
def elt (pri : Nat × Nat → Nat) (e f : Nat × Nat) : Prop := pri e < pri f ∨ (pri e = pri f ∧ (e.1 < f.1 ∨ (e.1 = f.1 ∧ e.2 < f.2)))

instance (pri : Nat × Nat → Nat) (e f : Nat × Nat) : Decidable (elt pri e f) := inferInstanceAs (Decidable (_ ∨ _))

/-- The lists of `reorder_graph` of the matching: sorted by the priority of the edge, then by neighbour (`reorder.h:28-39`). -/
def ReorderedE (G : UG) (pri : Nat × Nat → Nat) (nb : Nat → List Nat) : Prop :=
  ∀ u, (nb u).Perm (G.nb u) ∧ (nb u).Pairwise fun a b => ¬ (pri (mkE u b) < pri (mkE u a) ∨ (pri (mkE u b) = pri (mkE u a) ∧ b < a))

/-- The sequence of values of `get_next` of `sorted_it`, `yoshida_matching_utils.h:55-86`, from the remaining parts of the two lists. -/
def merged (pri : Nat × Nat → Nat) (u v : Nat) : List Nat → List Nat → List (Nat × Nat)
  | [], lb => lb.map (mkE v)
  | a :: la, [] => (a :: la).map (mkE u)
  | a :: la, b :: lb =>
    let ret := if elt pri (mkE u a) (mkE v b) then mkE u a else mkE v b
    if ret = mkE u a then ret :: merged pri u v la (b :: lb) else ret :: merged pri u v (a :: la) lb

/-- The `break`s, `MaximalMatching.h:62-70`. -/
def estop (pri : Nat × Nat → Nat) (e f : Nat × Nat) : Bool :=
  decide (pri e < pri f) || (decide (pri e = pri f) && (decide (f = e) || decide (e.1 < f.1 ∨ (e.1 = f.1 ∧ e.2 < f.2))))

/-- `mm_query(u, v, RG, w, cut)`, `MaximalMatching.h:36-85`, for graphs without weights. -/
def mmQuery (pri : Nat × Nat → Nat) (nb : Nat → List Nat) (cut fuel : Nat) (e : Nat × Nat) (w : Nat) : Option (Status × Nat) :=
  query (fun e => merged pri e.1 e.2 (nb e.1) (nb e.2)) (estop pri) cut fuel e w

/-- The queries of `MaximalMatching(G, cut)`, `:105-119`, one for every edge `u < v`. -/
structure MmRun (G : UG) (pri : Nat × Nat → Nat) (cut : Nat) (res : Nat × Nat → Status × Nat) : Prop where
  run : ∃ nb fuel, ReorderedE G pri nb ∧ ∀ u, ∀ v ∈ G.nb u, u < v → mmQuery pri nb cut fuel (u, v) 0 = some (res (u, v))

/-- `matching_cts[x]`, `:111-114`: the updates are atomic additions, so the sum over all arcs `u < v`. -/
def cts (G : UG) (res : Nat × Nat → Status × Nat) (x : Nat) : Nat :=
  ((List.range G.n).flatMap fun u => (G.nb u).filterMap fun v => if u < v ∧ (res (u, v)).1 = .isIn then some (u, v) else none).countP
    fun e => decide (e.1 = x ∨ e.2 = x)

theorem elt_trans {pri : Nat × Nat → Nat} (a b c : Nat × Nat) (h1 : ¬ elt pri b a) (h2 : ¬ elt pri c b) : ¬ elt pri c a := by
  unfold elt at *; omega

theorem estop_iff {pri : Nat × Nat → Nat} (e f : Nat × Nat) : estop pri e f = true ↔ ¬ elt pri f e := by
  unfold estop elt
  simp only [Bool.or_eq_true, Bool.and_eq_true, decide_eq_true_eq, Prod.ext_iff]
  omega

theorem mem_merged {pri : Nat × Nat → Nat} {u v : Nat} {e : Nat × Nat} : ∀ {la lb : List Nat},
    e ∈ merged pri u v la lb ↔ e ∈ la.map (mkE u) ∨ e ∈ lb.map (mkE v) := by
  intro la lb
  fun_induction merged pri u v la lb with
  | case1 lb => simp
  | case2 a la => simp
  | case3 a la b lb ret hr ih =>
    rw [List.mem_cons, ih, hr]
    simp only [List.map_cons, List.mem_cons]
    tauto
  | case4 a la b lb ret hr ih =>
    have hret : ret = mkE v b := by
      by_cases hc : elt pri (mkE u a) (mkE v b)
      · exact absurd (if_pos hc) hr
      · exact if_neg hc
    rw [List.mem_cons, ih, hret]
    simp only [List.map_cons, List.mem_cons]
    tauto

theorem merged_sorted {pri : Nat × Nat → Nat} {u v : Nat} : ∀ {la lb : List Nat}, (la.map (mkE u)).Pairwise (fun a b => ¬ elt pri b a) →
    (lb.map (mkE v)).Pairwise (fun a b => ¬ elt pri b a) → (merged pri u v la lb).Pairwise fun a b => ¬ elt pri b a := by
  intro la lb
  fun_induction merged pri u v la lb with
  | case1 lb => exact fun _ h => h
  | case2 a la => exact fun h _ => h
  | case3 a la b lb ret hr ih =>
    intro h1 h2
    have h1' := List.pairwise_cons.1 h1
    have h2' := List.pairwise_cons.1 h2
    refine List.pairwise_cons.2 ⟨fun e he => ?_, ih h1'.2 h2⟩
    have hab : ¬ elt pri (mkE v b) (mkE u a) := by
      by_cases hc : elt pri (mkE u a) (mkE v b)
      · unfold elt at *; omega
      · have h3 : ret = mkE v b := if_neg hc
        rw [← h3, hr]
        unfold elt; omega
    rw [hr]
    rcases mem_merged.1 he with he | he
    · exact h1'.1 e he
    · rcases List.mem_cons.1 he with rfl | he
      · exact hab
      · exact elt_trans _ _ _ hab (h2'.1 e he)
  | case4 a la b lb ret hr ih =>
    intro h1 h2
    have h1' := List.pairwise_cons.1 h1
    have h2' := List.pairwise_cons.1 h2
    have hc : ¬ elt pri (mkE u a) (mkE v b) := fun hc => hr (if_pos hc)
    have hret : ret = mkE v b := if_neg hc
    refine List.pairwise_cons.2 ⟨fun e he => ?_, ih h1 h2'.2⟩
    rw [hret]
    rcases mem_merged.1 he with he | he
    · rcases List.mem_cons.1 he with rfl | he
      · exact hc
      · exact elt_trans _ _ _ hc (h1'.1 e he)
    · exact h2'.1 e he

/-- The order of a list of `reorder_graph` is the order of the edges. -/
theorem reordered_sorted {G : UG} {pri : Nat × Nat → Nat} {nb : Nat → List Nat} (h : ReorderedE G pri nb) (u : Nat) :
    ((nb u).map (mkE u)).Pairwise fun a b => ¬ elt pri b a := by
  rw [List.pairwise_map]
  refine (h u).2.imp fun {a b} hab => ?_
  unfold elt mkE at *
  dsimp only at *
  omega

/-- Edges that share an end with `e`, including `e` itself. -/
def touch (G : UG) (e : Nat × Nat) : List (Nat × Nat) := (G.nb e.1).map (mkE e.1) ++ (G.nb e.2).map (mkE e.2)

/-- The matching that takes the edges one after the other in the order. -/
def FirstMatching (G : UG) (pri : Nat × Nat → Nat) (M : Nat × Nat → Prop) : Prop := Greedy (touch G) (elt pri) M

/-- Position in the order. -/
def erk (n : Nat) (pri : Nat × Nat → Nat) (f : Nat × Nat) : Nat :=
  ((Finset.range n ×ˢ Finset.range n).filter fun e => elt pri e f).card

theorem erk_lt {n : Nat} {pri : Nat × Nat → Nat} {e f : Nat × Nat} (h1 : e.1 < n) (h2 : e.2 < n) (h : elt pri e f) : erk n pri e < erk n pri f := by
  refine Finset.card_lt_card ⟨fun w hw => ?_, fun hc => ?_⟩
  · obtain ⟨h1, h2⟩ := Finset.mem_filter.1 hw
    refine Finset.mem_filter.2 ⟨h1, ?_⟩
    unfold elt at *; omega
  · have := hc (Finset.mem_filter.2 ⟨Finset.mem_product.2 ⟨Finset.mem_range.2 h1, Finset.mem_range.2 h2⟩, h⟩)
    have := (Finset.mem_filter.1 this).2
    unfold elt at this; omega

theorem touch_bound {G : UG} (hG : G.Sym) {e f : Nat × Nat} (h : f ∈ touch G e) : f.1 < G.n ∧ f.2 < G.n := by
  rcases List.mem_append.1 h with h | h <;>
  · obtain ⟨v, hv, rfl⟩ := List.mem_map.1 h
    have := hG.bound _ v hv
    unfold mkE; dsimp only; omega

theorem firstMatching_exists {G : UG} (hG : G.Sym) (pri : Nat × Nat → Nat) : ∃ M, FirstMatching G pri M :=
  greedy_exists (erk G.n pri) fun _ _ hy hl => erk_lt (touch_bound hG hy).1 (touch_bound hG hy).2 hl

/-- **C103: answers of the matching.** -/
theorem mm_answers {G : UG} {pri : Nat × Nat → Nat} {cut : Nat} {res : Nat × Nat → Status × Nat} (h : MmRun G pri cut res)
    {M : Nat × Nat → Prop} (hM : FirstMatching G pri M) (u v : Nat) (hv : v ∈ G.nb u) (huv : u < v) :
    ((res (u, v)).1 = .isIn → M (u, v)) ∧ ((res (u, v)).1 = .isOut → ¬ M (u, v)) ∧ ((res (u, v)).1 = .unknown → (res (u, v)).2 = cut) ∧
    (res (u, v)).2 ≤ cut := by
  obtain ⟨nb, fuel, hre, hq⟩ := h.run
  obtain ⟨h1, h2, h3, _, h5⟩ := query_spec elt_trans (fun x y _ => estop_iff x y)
    (fun x => merged_sorted (reordered_sorted hre x.1) (reordered_sorted hre x.2)) (greedy_perm (fun x y => by
      rw [mem_merged, touch, List.mem_append, ((hre x.1).1.map _).mem_iff, ((hre x.2).1.map _).mem_iff]) hM)
    fuel (u, v) 0 (res (u, v)) (Nat.zero_le _) (hq u v hv huv)
  exact ⟨h1, h2, h3, h5⟩

/-- `S` (pairs `u < v`) is a maximal matching of `G`. -/
structure IsMM (G : UG) (S : Nat × Nat → Prop) : Prop where
  edges : ∀ e, S e → e.1 < e.2 ∧ e.2 ∈ G.nb e.1
  disj : ∀ e f, S e → S f → (e.1 = f.1 ∨ e.1 = f.2 ∨ e.2 = f.1 ∨ e.2 = f.2) → e = f
  maxl : ∀ u, ∀ v ∈ G.nb u, ∃ e, S e ∧ (e.1 = u ∨ e.2 = u ∨ e.1 = v ∨ e.2 = v)

theorem firstMatching_mm {G : UG} (hG : G.Sym) (hns : ∀ u, u ∉ G.nb u) {pri : Nat × Nat → Nat} {M : Nat × Nat → Prop} (hM : FirstMatching G pri M) :
    IsMM G fun e => M e ∧ e.1 < e.2 ∧ e.2 ∈ G.nb e.1 := by
  have hsym : ∀ u v, v ∈ G.nb u → u ∈ G.nb v := fun u v h => by
    rw [← List.count_pos_iff] at h ⊢
    rw [hG.sym]; exact h
  have hmk : ∀ {a b}, a < b → mkE a b = (a, b) ∧ mkE b a = (a, b) := fun h => by unfold mkE; constructor <;> (ext <;> dsimp only <;> omega)
  -- an edge touches the edges with which it shares an end
  have htouch : ∀ e f : Nat × Nat, f.1 < f.2 → f.2 ∈ G.nb f.1 → (e.1 = f.1 ∨ e.1 = f.2 ∨ e.2 = f.1 ∨ e.2 = f.2) → f ∈ touch G e := by
    rintro ⟨a, b⟩ ⟨c, d⟩ h1 h2 h
    dsimp only at *
    unfold touch
    rw [List.mem_append, List.mem_map, List.mem_map]
    rcases h with rfl | rfl | rfl | rfl
    · exact .inl ⟨d, h2, (hmk h1).1⟩
    · exact .inl ⟨c, hsym _ _ h2, (hmk h1).2⟩
    · exact .inr ⟨d, h2, (hmk h1).1⟩
    · exact .inr ⟨c, hsym _ _ h2, (hmk h1).2⟩
  refine ⟨fun e he => he.2, fun e f he hf h => ?_, fun u v hv => ?_⟩
  · by_contra hne
    have : elt pri f e ∨ elt pri e f := by
      have : ¬ (e.1 = f.1 ∧ e.2 = f.2) := fun hc => hne (Prod.ext hc.1 hc.2)
      unfold elt; omega
    rcases this with hl | hl
    · exact (hM e).1 he.1 f (htouch e f hf.2.1 hf.2.2 h) hl hf.1
    · exact (hM f).1 hf.1 e (htouch f e he.2.1 he.2.2 (by omega)) hl he.1
  · have hne : u ≠ v := fun hc => hns u (hc ▸ hv)
    have key : ∀ a b, a < b → b ∈ G.nb a → ∃ e : Nat × Nat, (M e ∧ e.1 < e.2 ∧ e.2 ∈ G.nb e.1) ∧ (e.1 = a ∨ e.2 = a ∨ e.1 = b ∨ e.2 = b) := by
      intro a b hab hb
      by_cases hm : M (a, b)
      · exact ⟨(a, b), ⟨hm, hab, hb⟩, .inl rfl⟩
      · have : ∃ y ∈ touch G (a, b), elt pri y (a, b) ∧ M y := by
          by_contra hc
          exact hm ((hM (a, b)).2 fun y hy hl hi => hc ⟨y, hy, hl, hi⟩)
        obtain ⟨y, hy, _, hi⟩ := this
        unfold touch at hy
        rw [List.mem_append, List.mem_map, List.mem_map] at hy
        rcases hy with ⟨c, hc, rfl⟩ | ⟨c, hc, rfl⟩
        · have hc : c ∈ G.nb a := hc
          have hi : M (mkE a c) := hi
          rcases Nat.lt_trichotomy a c with h | rfl | h
          · rw [(hmk h).1] at hi; exact ⟨_, ⟨hi, h, hc⟩, .inl rfl⟩
          · exact absurd hc (hns _)
          · rw [(hmk h).2] at hi; exact ⟨_, ⟨hi, h, hsym _ _ hc⟩, .inr (.inl rfl)⟩
        · have hc : c ∈ G.nb b := hc
          have hi : M (mkE b c) := hi
          rcases Nat.lt_trichotomy b c with h | rfl | h
          · rw [(hmk h).1] at hi; exact ⟨_, ⟨hi, h, hc⟩, .inr (.inr (.inl rfl))⟩
          · exact absurd hc (hns _)
          · rw [(hmk h).2] at hi; exact ⟨_, ⟨hi, h, hsym _ _ hc⟩, .inr (.inr (.inr rfl))⟩
    rcases Nat.lt_or_gt_of_ne hne with h | h
    · exact key u v h hv
    · obtain ⟨e, h1, h2⟩ := key v u h (hsym _ _ hv)
      exact ⟨e, h1, by omega⟩

/-- **C103: complete runs of the matching.** If no query reached the cut-off, the edges answered "in" form a maximal matching; in a simple graph
every count is at most one, and of the ends of an edge not both counts are zero: the assertions hold. -/
theorem mm_complete {G : UG} (hG : G.Sym) (hns : ∀ u, u ∉ G.nb u) {pri : Nat × Nat → Nat} {cut : Nat} {res : Nat × Nat → Status × Nat}
    (h : MmRun G pri cut res) (hcut : ∀ u, ∀ v ∈ G.nb u, u < v → (res (u, v)).2 ≠ cut) :
    IsMM G (fun e => e.1 < e.2 ∧ e.2 ∈ G.nb e.1 ∧ (res e).1 = .isIn) ∧
    ((∀ u, (G.nb u).Nodup) → ∀ x, cts G res x ≤ 1) ∧ ∀ u, ∀ v ∈ G.nb u, ¬ (cts G res u = 0 ∧ cts G res v = 0) := by
  obtain ⟨M, hM⟩ := firstMatching_exists hG pri
  have hres : ∀ e : Nat × Nat, (e.1 < e.2 ∧ e.2 ∈ G.nb e.1 ∧ (res e).1 = .isIn) ↔ (M e ∧ e.1 < e.2 ∧ e.2 ∈ G.nb e.1) := by
    rintro ⟨u, v⟩
    dsimp only
    refine ⟨fun ⟨h1, h2, h3⟩ => ⟨(mm_answers h hM u v h2 h1).1 h3, h1, h2⟩, fun ⟨h3, h1, h2⟩ => ⟨h1, h2, ?_⟩⟩
    obtain ⟨_, a2, a3, _⟩ := mm_answers h hM u v h2 h1
    cases hs : (res (u, v)).1 with
    | isIn => rfl
    | isOut => exact absurd h3 (a2 hs)
    | unknown => exact absurd (a3 hs) (hcut u v h2 h1)
  have hmm := firstMatching_mm hG hns hM
  have hmm' : IsMM G fun e => e.1 < e.2 ∧ e.2 ∈ G.nb e.1 ∧ (res e).1 = .isIn := by
    have : (fun e : Nat × Nat => e.1 < e.2 ∧ e.2 ∈ G.nb e.1 ∧ (res e).1 = .isIn) = fun e => M e ∧ e.1 < e.2 ∧ e.2 ∈ G.nb e.1 :=
      funext fun e => propext (hres e)
    rw [this]; exact hmm
  let L := (List.range G.n).flatMap fun u => (G.nb u).filterMap fun v => if u < v ∧ (res (u, v)).1 = .isIn then some (u, v) else none
  have hL : ∀ e, e ∈ L ↔ e.1 < e.2 ∧ e.2 ∈ G.nb e.1 ∧ (res e).1 = .isIn := by
    rintro ⟨a, b⟩
    show (a, b) ∈ (List.range G.n).flatMap _ ↔ _
    simp only [List.mem_flatMap, List.mem_range, List.mem_filterMap]
    constructor
    · rintro ⟨u, hu, v, hv, h⟩
      split at h
      · rename_i hc
        cases h; exact ⟨hc.1, hv, hc.2⟩
      · cases h
    · rintro ⟨h1, h2, h3⟩
      exact ⟨a, (hG.bound a b h2).1, b, h2, if_pos ⟨h1, h3⟩⟩
  refine ⟨hmm', fun hnd x => ?_, fun u v hv ⟨h1, h2⟩ => ?_⟩
  · have hLn : L.Nodup := by
      refine List.nodup_flatMap.2 ⟨fun u _ => ?_, ?_⟩
      · refine List.Nodup.filterMap (fun a b c hc1 hc2 => ?_) (hnd u)
        split at hc1
        · split at hc2
          · cases hc1; cases hc2; rfl
          · cases hc2
        · cases hc1
      · refine List.nodup_range.imp fun {a b} hab => ?_
        intro e h1 h2
        obtain ⟨v, _, h1⟩ := List.mem_filterMap.1 h1
        obtain ⟨w, _, h2⟩ := List.mem_filterMap.1 h2
        split at h1
        · split at h2
          · cases h1; cases h2; exact hab rfl
          · cases h2
        · cases h1
    show L.countP _ ≤ 1
    rw [List.countP_eq_length_filter]
    by_contra hc
    obtain ⟨e, f, l, hl⟩ : ∃ e f l, L.filter (fun e => decide (e.1 = x ∨ e.2 = x)) = e :: f :: l := by
      generalize L.filter (fun e => decide (e.1 = x ∨ e.2 = x)) = l at hc
      match l, hc with
      | [], hc => exact absurd (Nat.zero_le _) hc
      | [_], hc => exact absurd (Nat.le_refl _) hc
      | e :: f :: l, _ => exact ⟨e, f, l, rfl⟩
    have hn := hLn.filter (fun e => decide (e.1 = x ∨ e.2 = x))
    rw [hl] at hn
    have he : e ∈ L.filter (fun e => decide (e.1 = x ∨ e.2 = x)) := by rw [hl]; simp
    have hf : f ∈ L.filter (fun e => decide (e.1 = x ∨ e.2 = x)) := by rw [hl]; simp
    obtain ⟨he1, he2⟩ := List.mem_filter.1 he
    obtain ⟨hf1, hf2⟩ := List.mem_filter.1 hf
    rw [decide_eq_true_eq] at he2 hf2
    have := hmm'.disj e f ((hL e).1 he1) ((hL f).1 hf1) (by omega)
    subst this
    exact (List.nodup_cons.1 hn).1 List.mem_cons_self
  · obtain ⟨e, he, h3⟩ := hmm'.maxl u v hv
    have h1 : L.countP (fun e => decide (e.1 = u ∨ e.2 = u)) = 0 := h1
    have h2 : L.countP (fun e => decide (e.1 = v ∨ e.2 = v)) = 0 := h2
    have a1 := List.countP_eq_zero.1 h1 e ((hL e).2 he)
    have a2 := List.countP_eq_zero.1 h2 e ((hL e).2 he)
    rw [decide_eq_true_eq] at a1 a2
    omega

/-- **C103: the recursion of the matching ends.** -/
theorem mm_returns {G : UG} (hG : G.Sym) (pri : Nat × Nat → Nat) (cut : Nat) : ∃ res, MmRun G pri cut res := by
  classical
  let le : Nat → Nat → Nat → Bool := fun u a b => decide (¬ (pri (mkE u b) < pri (mkE u a) ∨ (pri (mkE u b) = pri (mkE u a) ∧ b < a)))
  let nb : Nat → List Nat := fun u => (G.nb u).mergeSort (le u)
  have hre : ReorderedE G pri nb := fun u => ⟨List.mergeSort_perm _ _, by
    have := List.pairwise_mergeSort (le := le u) (fun a b c h1 h2 => by
      simp only [le, decide_eq_true_eq] at *
      omega) (fun a b => by
      simp only [le, Bool.or_eq_true, decide_eq_true_eq]
      omega) (G.nb u)
    exact this.imp fun h => of_decide_eq_true h⟩
  have hb : ∀ e f, f ∈ merged pri e.1 e.2 (nb e.1) (nb e.2) → f ∈ touch G e := fun e f hf => by
    rw [touch, List.mem_append, ← ((hre e.1).1.map (mkE e.1)).mem_iff, ← ((hre e.2).1.map (mkE e.2)).mem_iff]
    exact mem_merged.1 hf
  have hk : ∀ e, erk G.n pri e < G.n * G.n + 1 := fun e => by
    have := Finset.card_filter_le (Finset.range G.n ×ˢ Finset.range G.n) fun f => elt pri f e
    rw [Finset.card_product, Finset.card_range] at this
    unfold erk; omega
  have := fun e => query_total (cut := cut) (erk G.n pri) (fun x y hy hl => erk_lt (touch_bound hG (hb x y hy)).1 (touch_bound hG (hb x y hy)).2 hl)
    (fun x y _ => estop_iff (pri := pri) x y) (G.n * G.n + 1) e (hk e) 0
  choose res hres using this
  exact ⟨res, nb, G.n * G.n + 1, hre, fun u v _ _ => hres (u, v)⟩

/-- A path of four vertices whose middle edge is first; its query looks at one edge, those of the others at two more. -/
example : ∃ res, MmRun (UG.ofLists [[1], [0, 2], [1, 3], [2]]) (fun e => if e = (1, 2) then 0 else 1) 100 res ∧
    res (1, 2) = (.isIn, 1) ∧ res (0, 1) = (.isOut, 2) ∧ res (2, 3) = (.isOut, 2) := by
  refine ⟨fun e => if e = (1, 2) then (.isIn, 1) else (.isOut, 2), ⟨fun u => [[1], [2, 0], [1, 3], [2]].getD u [], 5, fun u => ?_, fun u v hv huv => ?_⟩, rfl, rfl, rfl⟩
  · by_cases hu : u < 4
    · have : ∀ u < 4, ([[1], [2, 0], [1, 3], [2]].getD u []).Perm ([[1], [0, 2], [1, 3], [2]].getD u []) ∧
          ([[1], [2, 0], [1, 3], [2]].getD u []).Pairwise fun a b => ¬ ((if mkE u b = (1, 2) then 0 else 1) < (if mkE u a = (1, 2) then 0 else 1) ∨
            ((if mkE u b = (1, 2) then 0 else 1) = (if mkE u a = (1, 2) then 0 else 1) ∧ b < a)) := by decide
      exact this u hu
    · have h1 : [[1], [2, 0], [1, 3], [2]].getD u [] = [] := by rw [List.getD_eq_getElem?_getD, List.getElem?_eq_none (by show 4 ≤ u; omega)]; rfl
      have h2 : (UG.ofLists [[1], [0, 2], [1, 3], [2]]).nb u = [] := by
        show [[1], [0, 2], [1, 3], [2]].getD u [] = []
        rw [List.getD_eq_getElem?_getD, List.getElem?_eq_none (by show 4 ≤ u; omega)]; rfl
      show ([[1], [2, 0], [1, 3], [2]].getD u []).Perm _ ∧ ([[1], [2, 0], [1, 3], [2]].getD u []).Pairwise _
      rw [h1, h2]
      exact ⟨List.Perm.refl _, List.Pairwise.nil⟩
  · have hb := (UG.ofLists_sym (l := [[1], [0, 2], [1, 3], [2]]) (by decide)).bound u v hv
    have hu : u < 4 := hb.1
    have h1 : ∀ u ∈ List.range 4, ∀ v ∈ [[1], [0, 2], [1, 3], [2]].getD u [], u < v → (u, v) ∈ [(0, 1), (1, 2), (2, 3)] := by decide
    have h2 : ∀ e ∈ [(0, 1), (1, 2), (2, 3)],
        mmQuery (fun e => if e = (1, 2) then 0 else 1) (fun u => [[1], [2, 0], [1, 3], [2]].getD u []) 100 5 e 0 =
          some (if e = (1, 2) then (Status.isIn, 1) else (Status.isOut, 2)) := by
      simp [mmQuery, query, scan, merged, estop, elt, mkE]
    exact h2 _ (h1 u (List.mem_range.2 hu) v hv huv)

end Gbbs.Yoshida
