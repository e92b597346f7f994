/-
`PageRank_edgeMap` and `PageRank`, `benchmarks/PageRank/PageRank.h:60-253`. Doubles are modelled by exact rationals.
-/
import Verif.EdgeMap.Accum
import Mathlib.Algebra.Order.BigOperators.Ring.Finset
import Mathlib.Algebra.BigOperators.Field
import Mathlib.Algebra.Order.Ring.Rat
import Mathlib.Tactic.Linarith
import Mathlib.Tactic.NormNum
import Mathlib.Tactic.Ring
import Mathlib.Tactic.FieldSimp
import Mathlib.LinearAlgebra.FiniteDimensional.Basic
import Mathlib.LinearAlgebra.FiniteDimensional.Lemmas
import Mathlib.Tactic.Positivity
import Mathlib.Tactic.IntervalCases

namespace Gbbs.PageRank

open Gbbs.Em Finset

variable {W : Type}

/-! ### Specification -/

/-- Number of edges from `s` to `d`. -/
def mult (G : Gr W) (s d : Nat) : Nat := (G.fwd s).countP fun x => decide (x.1 = d)

/-- One step of the random surfer: with probability 0.85 follow a random out-edge (from a vertex without one, go anywhere), otherwise
go anywhere. -/
def step (G : Gr W) (p : Nat → ℚ) (d : Nat) : ℚ :=
  17 / 20 * (∑ s ∈ range G.n, mult G s d * (p s / (G.fwd s).length) +
    (∑ s ∈ range G.n, if (G.fwd s).length = 0 then p s else 0) / G.n) + 3 / 20 / G.n

def l1 (n : Nat) (p q : Nat → ℚ) : ℚ := ∑ i ∈ range n, |p i - q i|

/-- The PageRank vector: a probability vector that the step leaves unchanged. -/
structure IsPageRank (G : Gr W) (π : Nat → ℚ) : Prop where
  fix : ∀ d < G.n, step G π d = π d
  nonneg : ∀ d < G.n, 0 ≤ π d
  sum : ∑ d ∈ range G.n, π d = 1

/-! ### Model of `PageRank_edgeMap` -/

/-- `PR_F`, `PageRank.h:60-79`: `p_curr` is the array `false`, `p_next` the array `true`. -/
def prK (G : Gr W) : AccP W (Bool × Nat) ℚ where
  src s := (false, s)
  dst d := (true, d)
  val e x := x / (G.fwd e.s).length
  c _ := true
  q _ := true

/-- Both arrays, as one memory. -/
def mem2 (curr next : Nat → ℚ) : Bool × Nat → ℚ := fun x => if x.1 then next x.2 else curr x.2

/-- `dangling_sum`, `PageRank.h:127-139`. -/
def dangling (G : Gr W) (curr : Nat → ℚ) : ℚ :=
  (((List.range G.n).filter fun i => decide ((G.fwd i).length = 0)).map curr).sum

/-- One iteration up to the convergence check, `PageRank.h:136-146`: `edgeMap` over all vertices (any traversal, any interleaving) and
`PR_Vertex_F` (`:82-102`). `nx` is `p_next` afterwards. `f` bounds the retries of `fetch_and_add`. -/
def Round (G : Gr W) (f : Nat) (curr next nx : Nat → ℚ) : Prop :=
  ∃ m' o, EdgeMapX (accF f (prK G)) G (fun _ => true) (mem2 curr next) m' o ∧
    ∀ i, nx i = if i < G.n then 17 / 20 * (m' (true, i) + dangling G curr * (1 / G.n)) + (1 - 17 / 20) * (1 / G.n) else 0

/-- `L1_norm`, `PageRank.h:149-151`. -/
def norm (n : Nat) (curr nx : Nat → ℚ) : ℚ := ((List.range n).map fun i => |curr i - nx i|).sum

/-- The loop of `PageRank_edgeMap`, `PageRank.h:132-160`, with `k` iterations left; the last argument is the result. -/
inductive Loop (G : Gr W) (f : Nat) (eps : ℚ) : Nat → (Nat → ℚ) → (Nat → ℚ) → (Nat → ℚ) → Prop
  | out (curr next) : Loop G f eps 0 curr next next
  | conv (k curr next nx) (h : Round G f curr next nx) (hc : norm G.n curr nx < eps) : Loop G f eps (k + 1) curr next nx
  | more (k curr next nx r) (h : Round G f curr next nx) (hc : ¬ norm G.n curr nx < eps)
      (h' : Loop G f eps k nx (fun _ => 0) r) : Loop G f eps (k + 1) curr next r

/-- `PageRank_edgeMap(G, eps, max_iters)`, `PageRank.h:115-164`. -/
def PageRankEM (G : Gr W) (f : Nat) (eps : ℚ) (maxIters : Nat) (r : Nat → ℚ) : Prop :=
  Loop G f eps maxIters (fun _ => 1 / G.n) (fun _ => 0) r

/-! ### The step is a contraction -/

/-- The probability of moving from `s` to `d`. -/
def ker (G : Gr W) (s d : Nat) : ℚ := mult G s d / (G.fwd s).length + if (G.fwd s).length = 0 then 1 / (G.n : ℚ) else 0

theorem step_ker (G : Gr W) (p : Nat → ℚ) (d : Nat) :
    step G p d = 17 / 20 * ∑ s ∈ range G.n, ker G s d * p s + 3 / 20 / G.n := by
  unfold step ker
  congr 2
  rw [sum_div, ← sum_add_distrib]
  refine sum_congr rfl fun s _ => ?_
  split <;> ring

theorem ker_nonneg (G : Gr W) (s d : Nat) : 0 ≤ ker G s d := by
  unfold ker
  split <;> positivity

theorem sum_mult {G : Gr W} (hG : G.Ok) (s : Nat) : ∑ d ∈ range G.n, mult G s d = (G.fwd s).length := by
  have key : ∀ l : List (Nat × W), (∀ x ∈ l, x.1 < G.n) →
      ∑ d ∈ range G.n, l.countP (fun x => decide (x.1 = d)) = l.length := by
    intro l
    induction l with
    | nil => intro _; simp
    | cons a l ih =>
      intro h
      simp only [List.countP_cons, sum_add_distrib, List.length_cons]
      rw [ih fun x hx => h x (List.mem_cons_of_mem _ hx)]
      congr 1
      simp only [decide_eq_true_eq]
      rw [sum_ite_eq, if_pos (mem_range.2 (h a List.mem_cons_self))]
  exact key _ fun x hx => (hG.bound s x.1 x.2 hx).2

theorem ker_sum {G : Gr W} (hG : G.Ok) (hn : 0 < G.n) (s : Nat) : ∑ d ∈ range G.n, ker G s d = 1 := by
  unfold ker
  rw [sum_add_distrib, ← sum_div, ← Nat.cast_sum, sum_mult hG]
  have h0 : (G.n : ℚ) ≠ 0 := by positivity
  by_cases h : (G.fwd s).length = 0
  · simp [h, h0]
  · have h1 : ((G.fwd s).length : ℚ) ≠ 0 := by exact_mod_cast h
    simp [h, h1]

theorem step_sum {G : Gr W} (hG : G.Ok) (hn : 0 < G.n) (p : Nat → ℚ) :
    ∑ d ∈ range G.n, step G p d = 17 / 20 * (∑ s ∈ range G.n, p s) + 3 / 20 := by
  have h0 : (G.n : ℚ) ≠ 0 := by positivity
  simp only [step_ker]
  rw [sum_add_distrib, ← mul_sum, sum_comm]
  have : ∑ s ∈ range G.n, ∑ d ∈ range G.n, ker G s d * p s = ∑ s ∈ range G.n, p s :=
    sum_congr rfl fun s _ => by rw [← sum_mul, ker_sum hG hn, one_mul]
  rw [this]
  congr 1
  rw [sum_const, card_range, nsmul_eq_mul]
  field_simp

theorem step_nonneg {G : Gr W} {p : Nat → ℚ} (hp : ∀ i < G.n, 0 ≤ p i) (d : Nat) : 0 ≤ step G p d := by
  rw [step_ker]
  have : 0 ≤ ∑ s ∈ range G.n, ker G s d * p s :=
    sum_nonneg fun s hs => mul_nonneg (ker_nonneg G s d) (hp s (mem_range.1 hs))
  positivity

theorem step_contract {G : Gr W} (hG : G.Ok) (p q : Nat → ℚ) : l1 G.n (step G p) (step G q) ≤ 17 / 20 * l1 G.n p q := by
  by_cases hn : 0 < G.n
  · unfold l1
    have h1 : ∀ d ∈ range G.n, |step G p d - step G q d| ≤ 17 / 20 * ∑ s ∈ range G.n, ker G s d * |p s - q s| := by
      intro d _
      rw [step_ker, step_ker]
      have : 17 / 20 * ∑ s ∈ range G.n, ker G s d * p s + 3 / 20 / (G.n : ℚ) -
          (17 / 20 * ∑ s ∈ range G.n, ker G s d * q s + 3 / 20 / (G.n : ℚ)) =
          17 / 20 * ∑ s ∈ range G.n, ker G s d * (p s - q s) := by
        simp only [mul_sub, sum_sub_distrib]; ring
      rw [this, abs_mul, abs_of_pos (by norm_num : (0 : ℚ) < 17 / 20)]
      refine mul_le_mul_of_nonneg_left ((abs_sum_le_sum_abs _ _).trans (sum_le_sum fun s _ => ?_)) (by norm_num)
      rw [abs_mul, abs_of_nonneg (ker_nonneg G s d)]
    refine (sum_le_sum h1).trans ?_
    rw [← mul_sum, sum_comm]
    refine mul_le_mul_of_nonneg_left (le_of_eq (sum_congr rfl fun s _ => ?_)) (by norm_num)
    rw [← sum_mul, ker_sum hG hn, one_mul]
  · have : G.n = 0 := by omega
    simp [l1, this]

theorem step_congr {G : Gr W} {p q : Nat → ℚ} (h : ∀ i < G.n, p i = q i) (d : Nat) : step G p d = step G q d := by
  rw [step_ker, step_ker]
  congr 2
  exact sum_congr rfl fun s hs => by rw [h s (mem_range.1 hs)]

theorem l1_congr {n : Nat} {p q p' q' : Nat → ℚ} (h : ∀ i < n, p i = p' i) (h' : ∀ i < n, q i = q' i) : l1 n p q = l1 n p' q' :=
  sum_congr rfl fun i hi => by rw [h i (mem_range.1 hi), h' i (mem_range.1 hi)]

theorem l1_tri (n : Nat) (p q r : Nat → ℚ) : l1 n p r ≤ l1 n p q + l1 n q r := by
  unfold l1
  rw [← sum_add_distrib]
  exact sum_le_sum fun i _ => abs_sub_le _ _ _

theorem l1_nonneg (n : Nat) (p q : Nat → ℚ) : 0 ≤ l1 n p q := sum_nonneg fun _ _ => abs_nonneg _

theorem l1_zero {n : Nat} {p q : Nat → ℚ} (h : l1 n p q ≤ 0) : ∀ i < n, p i = q i := by
  intro i hi
  have h0 := (sum_eq_zero_iff_of_nonneg fun i _ => abs_nonneg (p i - q i)).1 (le_antisymm h (l1_nonneg n p q)) i (mem_range.2 hi)
  exact sub_eq_zero.1 (abs_eq_zero.1 h0)

/-- The PageRank vector exists. -/
theorem pageRank_exists {G : Gr W} (hG : G.Ok) (hn : 0 < G.n) : ∃ π, IsPageRank G π := by
  classical
  let ext (x : Fin G.n → ℚ) : Nat → ℚ := fun i => if h : i < G.n then x ⟨i, h⟩ else 0
  let φ : (Fin G.n → ℚ) →ₗ[ℚ] (Fin G.n → ℚ) :=
    { toFun := fun x d => x d - 17 / 20 * ∑ s : Fin G.n, ker G s d * x s
      map_add' := by
        intro x y; funext d
        simp only [Pi.add_apply, mul_add, sum_add_distrib]; ring
      map_smul' := by
        intro c x; funext d
        simp only [Pi.smul_apply, smul_eq_mul, RingHom.id_apply, mul_sub]
        rw [mul_left_comm c, mul_sum, mul_sum, mul_sum]
        congr 1
        exact sum_congr rfl fun s _ => by ring }
  have hext : ∀ x : Fin G.n → ℚ, ∀ d : Fin G.n, ∑ s ∈ range G.n, ker G s d * ext x s = ∑ s : Fin G.n, ker G s d * x s := by
    intro x d
    rw [sum_range]
    refine sum_congr rfl fun s _ => ?_
    simp [ext]
  have hinj : Function.Injective φ := by
    rw [← LinearMap.ker_eq_bot, LinearMap.ker_eq_bot']
    intro x hx
    have h1 : ∀ i < G.n, step G (ext x) i - step G (fun _ => 0) i = ext x i := by
      intro i hi
      have h2 := congrFun hx ⟨i, hi⟩
      have h2 : x ⟨i, hi⟩ - 17 / 20 * ∑ s : Fin G.n, ker G s (⟨i, hi⟩ : Fin G.n) * x s = 0 := h2
      rw [step_ker, step_ker, hext x ⟨i, hi⟩]
      simp only [mul_zero, sum_const_zero, ext, hi, dite_true]
      linarith
    have h2 := step_contract hG (ext x) (fun _ => 0)
    have h3 : l1 G.n (step G (ext x)) (step G fun _ => 0) = l1 G.n (ext x) fun _ => 0 :=
      sum_congr rfl fun i hi => by rw [h1 i (mem_range.1 hi), sub_zero]
    have h4 := l1_zero (p := ext x) (q := fun _ => 0) (n := G.n) (by linarith)
    funext i
    have := h4 i i.2
    simpa [ext] using this
  obtain ⟨x, hx⟩ := LinearMap.injective_iff_surjective.1 hinj fun _ => 3 / 20 / (G.n : ℚ)
  have hfix : ∀ d < G.n, step G (ext x) d = ext x d := by
    intro d hd
    have h2 : x ⟨d, hd⟩ - 17 / 20 * ∑ s : Fin G.n, ker G s (⟨d, hd⟩ : Fin G.n) * x s = _ := congrFun hx ⟨d, hd⟩
    rw [step_ker, hext x ⟨d, hd⟩]
    simp only [ext, hd, dite_true]
    linarith
  -- a fixed point is nonnegative: its negative part would be contracted onto at least itself
  have hsum : ∑ d ∈ range G.n, ext x d = 1 := by
    have h1 := step_sum hG hn (ext x)
    rw [sum_congr rfl fun d hd => hfix d (mem_range.1 hd)] at h1
    linarith
  refine ⟨ext x, hfix, ?_, hsum⟩
  have habs : ∀ d < G.n, |ext x d| ≤ step G (fun i => |ext x i|) d := by
    intro d hd
    rw [← hfix d hd, step_ker, step_ker]
    refine (abs_add_le _ _).trans (add_le_add ?_ ?_)
    · rw [abs_mul, abs_of_pos (by norm_num : (0 : ℚ) < 17 / 20)]
      refine mul_le_mul_of_nonneg_left ((abs_sum_le_sum_abs _ _).trans (sum_le_sum fun s _ => ?_)) (by norm_num)
      rw [abs_mul, abs_of_nonneg (ker_nonneg G s d)]
    · rw [abs_of_nonneg (by positivity)]
  have h2 : ∑ d ∈ range G.n, |ext x d| ≤ 1 := by
    have h3 := step_sum hG hn fun i => |ext x i|
    have h4 := sum_le_sum fun d hd => habs d (mem_range.1 hd)
    rw [h3] at h4
    linarith
  intro d hd
  have h5 : ∑ d ∈ range G.n, (|ext x d| - ext x d) ≤ 0 := by rw [sum_sub_distrib, hsum]; linarith
  have h6 := single_le_sum (f := fun d => |ext x d| - ext x d) (fun i _ => sub_nonneg.2 (le_abs_self _)) (mem_range.2 hd)
  have h6 : |ext x d| - ext x d ≤ _ := h6
  have h7 := abs_nonneg (ext x d)
  linarith

/-- It is unique, even among all vectors the step leaves unchanged. -/
theorem pageRank_unique {G : Gr W} (hG : G.Ok) {π π' : Nat → ℚ} (h : ∀ d < G.n, step G π d = π d)
    (h' : ∀ d < G.n, step G π' d = π' d) : ∀ d < G.n, π d = π' d := by
  have h1 := step_contract hG π π'
  rw [l1_congr h h'] at h1
  exact l1_zero (by linarith [l1_nonneg G.n π π'])

/-! ### `PageRank_edgeMap` -/

theorem norm_eq (n : Nat) (p q : Nat → ℚ) : norm n p q = l1 n p q := by
  unfold norm l1
  rw [sum_range_eq_list]
where
  sum_range_eq_list : ∑ i ∈ range n, |p i - q i| = ((List.range n).map fun i => |p i - q i|).sum := by
    rw [Finset.sum_eq_multiset_sum]
    simp [Finset.range, Multiset.range]

theorem sum_range_list (n : Nat) (h : Nat → ℚ) : ((List.range n).map h).sum = ∑ i ∈ range n, h i := by
  rw [Finset.sum_eq_multiset_sum]
  simp [Finset.range, Multiset.range]

theorem dangling_eq (G : Gr W) (p : Nat → ℚ) : dangling G p = ∑ s ∈ range G.n, if (G.fwd s).length = 0 then p s else 0 := by
  rw [← sum_range_list]
  unfold dangling
  induction List.range G.n with
  | nil => rfl
  | cons a l ih =>
    rw [List.filter_cons, List.map_cons, List.sum_cons]
    by_cases h : (G.fwd a).length = 0
    · simp only [h, decide_true, if_true, List.map_cons, List.sum_cons]; rw [ih]
    · simp only [h, decide_false, if_false, Bool.false_eq_true, zero_add]; rw [ih]

theorem sumTo_edges (G : Gr W) (v : Nat → ℚ) (d : Nat) :
    sumTo (activeEdges G fun _ => true) (fun e => v e.s) (fun _ => True) d = ∑ s ∈ range G.n, mult G s d * v s := by
  rw [← sum_range_list]
  unfold sumTo activeEdges mult
  rw [List.filter_true]
  induction List.range G.n with
  | nil => rfl
  | cons a l ih =>
    rw [List.flatMap_cons, List.map_append, List.sum_append, ih, List.map_cons, List.sum_cons]
    congr 1
    induction G.fwd a with
    | nil => simp
    | cons x l ih =>
      rw [List.map_cons, List.map_cons, List.sum_cons, ih, List.countP_cons]
      by_cases hx : x.1 = d
      · simp only [hx, true_and, if_true, decide_true, Nat.cast_add, Nat.cast_one]; ring
      · simp [hx]

/-- One iteration computes the step, whatever the traversal and the interleaving. -/
theorem round_step {G : Gr W} (hG : G.Ok) (hO : G.Once) {f : Nat} {curr nx : Nat → ℚ} (h : Round G f curr (fun _ => 0) nx) :
    ∀ i < G.n, nx i = step G curr i := by
  obtain ⟨m', o, hr, hx⟩ := h
  have hS : (prK G).Sep (activeEdges G fun _ => true) :=
    ⟨fun d d' h => (Prod.ext_iff.1 h).2, fun e e' _ _ _ _ h => by cases (Prod.ext_iff.1 h).1⟩
  intro i hi
  have h1 := (acc_round G hG hO _ hS hr).1 i
  have h1 : m' (true, i) = 0 + sumTo (activeEdges G fun _ => true) (fun e => curr e.s / (G.fwd e.s).length)
    (fun e => true = true) i := h1
  have h2 := sumTo_edges G (fun s => curr s / (G.fwd s).length) i
  simp only at h1
  rw [h2, zero_add] at h1
  rw [hx, if_pos hi, h1, dangling_eq]
  unfold step
  ring

theorem round_exists {G : Gr W} (hG : G.Ok) (hO : G.Once) (f : Nat) (curr next : Nat → ℚ) : ∃ nx, Round G (f + 1) curr next nx := by
  obtain ⟨m', o, h⟩ := accF_exists (f := f) (prK G) hG hO (fun _ => true) (mem2 curr next)
  exact ⟨_, m', o, h, fun _ => rfl⟩

/-- How a run ends: at the first iteration whose change is below `eps`, with the new vector; or after `k` iterations, none of which was. -/
theorem loop_inv {G : Gr W} (hG : G.Ok) (hO : G.Once) {f : Nat} {eps : ℚ} {k : Nat} {curr r : Nat → ℚ}
    (h : Loop G f eps k curr (fun _ => 0) r) :
    (∃ j < k, (∀ i < G.n, r i = (step G)^[j + 1] curr i) ∧ l1 G.n ((step G)^[j] curr) ((step G)^[j + 1] curr) < eps) ∨
    ((∀ i < G.n, r i = 0) ∧ ∀ j < k, eps ≤ l1 G.n ((step G)^[j] curr) ((step G)^[j + 1] curr)) := by
  induction k generalizing curr with
  | zero => cases h; exact Or.inr ⟨fun _ _ => rfl, fun _ h => absurd h (Nat.not_lt_zero _)⟩
  | succ k ih =>
    cases h with
    | conv _ _ _ _ h hc =>
      have h1 := round_step hG hO h
      rw [norm_eq, l1_congr (fun _ _ => rfl) h1] at hc
      exact Or.inl ⟨0, Nat.succ_pos _, h1, hc⟩
    | more _ _ _ nx _ h hc h' =>
      have h1 := round_step hG hO h
      rw [norm_eq, l1_congr (fun _ _ => rfl) h1] at hc
      have hit : ∀ j, ∀ i < G.n, (step G)^[j] nx i = (step G)^[j + 1] curr i := by
        intro j
        induction j with
        | zero => exact h1
        | succ j ihj =>
          intro i _
          rw [Function.iterate_succ_apply', Function.iterate_succ_apply']
          exact step_congr ihj i
      rcases ih h' with ⟨j, hj, h2, h3⟩ | ⟨h2, h3⟩
      · refine Or.inl ⟨j + 1, by omega, fun i hi => (h2 i hi).trans (hit (j + 1) i hi), ?_⟩
        rwa [← l1_congr (hit j) (hit (j + 1))]
      · refine Or.inr ⟨h2, fun j hj => ?_⟩
        cases j with
        | zero => exact not_lt.1 hc
        | succ j => rw [← l1_congr (hit j) (hit (j + 1))]; exact h3 j (by omega)

theorem iter_dist {G : Gr W} (hG : G.Ok) (p : Nat → ℚ) (j : Nat) :
    l1 G.n ((step G)^[j] p) ((step G)^[j + 1] p) ≤ (17 / 20) ^ j * l1 G.n p (step G p) := by
  induction j with
  | zero => simp
  | succ j ih =>
    have h1 := step_contract hG ((step G)^[j] p) ((step G)^[j + 1] p)
    rw [Function.iterate_succ_apply' _ (j + 1), Function.iterate_succ_apply' _ j] at *
    rw [pow_succ']
    linarith

theorem iter_prob {G : Gr W} (hG : G.Ok) (hn : 0 < G.n) (j : Nat) :
    (∀ i < G.n, 0 ≤ (step G)^[j] (fun _ => 1 / (G.n : ℚ)) i) ∧ ∑ i ∈ range G.n, (step G)^[j] (fun _ => 1 / (G.n : ℚ)) i = 1 := by
  have h0 : (G.n : ℚ) ≠ 0 := by positivity
  induction j with
  | zero =>
    refine ⟨fun i _ => by simp, ?_⟩
    simp [h0]
  | succ j ih =>
    rw [Function.iterate_succ_apply']
    refine ⟨fun i _ => step_nonneg ih.1 i, ?_⟩
    rw [step_sum hG hn, ih.2]; norm_num

/-- Probability vectors differ by at most 2. -/
theorem l1_two {n : Nat} {p q : Nat → ℚ} (hp : ∀ i < n, 0 ≤ p i) (hq : ∀ i < n, 0 ≤ q i) (sp : ∑ i ∈ range n, p i = 1)
    (sq : ∑ i ∈ range n, q i = 1) : l1 n p q ≤ 2 := by
  unfold l1
  have : ∑ i ∈ range n, |p i - q i| ≤ ∑ i ∈ range n, (p i + q i) := by
    refine sum_le_sum fun i hi => ?_
    have h1 := hp i (mem_range.1 hi)
    have h2 := hq i (mem_range.1 hi)
    rw [abs_le]; constructor <;> linarith
  rw [sum_add_distrib, sp, sq] at this
  linarith

/-- What a converged run returns. -/
structure Good (G : Gr W) (eps : ℚ) (r : Nat → ℚ) : Prop where
  nonneg : ∀ i < G.n, 0 ≤ r i
  sum : ∑ i ∈ range G.n, r i = 1
  near : ∀ π, IsPageRank G π → l1 G.n r π ≤ 17 / 3 * eps

theorem good_of {G : Gr W} (hG : G.Ok) (hn : 0 < G.n) {eps : ℚ} {r : Nat → ℚ} {j : Nat}
    (h1 : ∀ i < G.n, r i = (step G)^[j + 1] (fun _ => 1 / (G.n : ℚ)) i)
    (h2 : l1 G.n ((step G)^[j] (fun _ => 1 / (G.n : ℚ))) ((step G)^[j + 1] (fun _ => 1 / (G.n : ℚ))) < eps) : Good G eps r := by
  obtain ⟨h3, h4⟩ := iter_prob hG hn (j + 1)
  refine ⟨fun i hi => by rw [h1 i hi]; exact h3 i hi, by rw [sum_congr rfl fun i hi => h1 i (mem_range.1 hi), h4], fun π hπ => ?_⟩
  rw [l1_congr h1 (fun _ _ => rfl)]
  have h5 := step_contract hG ((step G)^[j] (fun _ => 1 / (G.n : ℚ))) π
  have h6 := l1_tri G.n ((step G)^[j] (fun _ => 1 / (G.n : ℚ))) ((step G)^[j + 1] (fun _ => 1 / (G.n : ℚ))) π
  rw [l1_congr (p' := (step G)^[j + 1] (fun _ => 1 / (G.n : ℚ))) (q' := π)
    (fun i _ => by rw [Function.iterate_succ_apply']) hπ.fix] at h5
  linarith

/-- C76, the part that holds: if `max_iters` is large enough for `eps`, every run returns a probability vector within `17/3 eps` of the
PageRank vector in the L1 norm. -/
theorem pageRankEM_partial {G : Gr W} (hG : G.Ok) (hO : G.Once) (hn : 0 < G.n) {f : Nat} {eps : ℚ} {maxIters : Nat}
    (hm : 2 * (17 / 20) ^ (maxIters - 1) < eps) (hm0 : 0 < maxIters) {r : Nat → ℚ} (h : PageRankEM G f eps maxIters r) : Good G eps r := by
  rcases loop_inv hG hO h with ⟨j, _, h1, h2⟩ | ⟨_, h2⟩
  · exact good_of hG hn h1 h2
  · exfalso
    have h3 := h2 (maxIters - 1) (by omega)
    have h4 := iter_dist hG (fun _ => 1 / (G.n : ℚ)) (maxIters - 1)
    have h5 := iter_prob hG hn 0
    have h6 := iter_prob hG hn 1
    have h7 := l1_two h5.1 h6.1 h5.2 h6.2
    have h7 : l1 G.n (fun _ => 1 / (G.n : ℚ)) (step G (fun _ => 1 / (G.n : ℚ))) ≤ 2 := h7
    have h8 : (0 : ℚ) ≤ (17 / 20) ^ (maxIters - 1) := by positivity
    have h9 := mul_le_mul_of_nonneg_left h7 h8
    linarith

/-- With the default arguments (`eps = 0.000001`, `max_iters = 100`). -/
theorem pageRankEM_default {G : Gr W} (hG : G.Ok) (hO : G.Once) (hn : 0 < G.n) {f : Nat} {r : Nat → ℚ}
    (h : PageRankEM G f (1 / 1000000) 100 r) : Good G (1 / 1000000) r :=
  pageRankEM_partial hG hO hn (by norm_num) (by norm_num) h

/-- A run whose iterations all change the vector by at least `eps` returns zeros. -/
theorem pageRankEM_zero {G : Gr W} (hG : G.Ok) (hO : G.Once) {f : Nat} {eps : ℚ} {maxIters : Nat} {r : Nat → ℚ}
    (h : PageRankEM G f eps maxIters r)
    (hc : ∀ j < maxIters, eps ≤ l1 G.n ((step G)^[j] fun _ => 1 / (G.n : ℚ)) ((step G)^[j + 1] fun _ => 1 / (G.n : ℚ))) :
    ∀ i < G.n, r i = 0 := by
  rcases loop_inv hG hO h with ⟨j, hj, _, h2⟩ | ⟨h1, _⟩
  · exact absurd (hc j hj) (not_le.2 h2)
  · exact h1

/-- Runs exist. -/
theorem pageRankEM_exists {G : Gr W} (hG : G.Ok) (hO : G.Once) (f : Nat) (eps : ℚ) (maxIters : Nat) :
    ∃ r, PageRankEM G (f + 1) eps maxIters r := by
  have key : ∀ k curr next, ∃ r, Loop G (f + 1) eps k curr next r := by
    intro k
    induction k with
    | zero => exact fun curr next => ⟨_, .out curr next⟩
    | succ k ih =>
      intro curr next
      obtain ⟨nx, hx⟩ := round_exists hG hO f curr next
      by_cases hc : norm G.n curr nx < eps
      · exact ⟨nx, .conv k curr next nx hx hc⟩
      · obtain ⟨r, hr⟩ := ih nx fun _ => 0
        exact ⟨r, .more k curr next nx r hx hc hr⟩
  exact key _ _ _

/-- C76 fails in general: with `eps = 0`, i.e. asking for exactly `max_iters` iterations, every run on every graph returns zeros, although
the iterates are probability vectors. -/
theorem pageRankEM_refuted {G : Gr W} (hG : G.Ok) (hO : G.Once) (f maxIters : Nat) :
    (∃ r, PageRankEM G (f + 1) 0 maxIters r) ∧ ∀ r, PageRankEM G (f + 1) 0 maxIters r →
      (∀ i < G.n, r i = 0) ∧ ∑ i ∈ range G.n, r i ≠ 1 := by
  refine ⟨pageRankEM_exists hG hO f 0 maxIters, fun r h => ?_⟩
  have h0 := pageRankEM_zero hG hO h fun j _ => l1_nonneg _ _ _
  refine ⟨h0, ?_⟩
  rw [sum_congr rfl fun i hi => h0 i (mem_range.1 hi)]
  simp

/-! ### Model of `PageRank`

The values computed by the edge-map-reduce version may be infinite or NaN (division by an out-degree of 0): `none`. All operations applied
to such a value yield such a value again, and comparing it with `<` yields false. -/

abbrev Fl := Option ℚ

def fadd (a b : Fl) : Fl := a.bind fun x => b.map fun y => x + y

def fsum (l : List Fl) : Fl := l.foldr fadd (some 0)

/-- Division by an integer, converted to double. -/
def fdiv (a : Fl) (k : Nat) : Fl := a.bind fun x => if k = 0 then none else some (x / k)

def fless (a : Fl) (b : ℚ) : Bool := match a with
  | none => false
  | some x => decide (x < b)

def fdist (a b : Fl) : Fl := a.bind fun x => b.map fun y => |x - y|

/-- `dangling_sum` in `PageRank`, `PageRank.h:187-190, 219-222`. -/
def dangling2 (G : Gr W) (curr : Nat → Fl) : Fl :=
  fsum (((List.range G.n).filter fun i => decide ((G.fwd i).length = 0)).map curr)

/-- `map_f`, `reduce_f`, `apply_f` for vertex `i` of `edgeMapReduce_dense(Frontier, ..., no_output)`, `PageRank.h:202-215, 229-230` and
`edge_map_reduce.h:325-350`: without the flag `in_edges` the neighbours are the out-neighbours of `i`. The new `p_next[i]`. -/
def nextOf (G : Gr W) (dang : Fl) (pdiv : Nat → Fl) (i : Nat) : Fl :=
  (fadd (fsum ((G.fwd i).map fun x => pdiv x.1)) (dang.map fun s => s * (1 / G.n))).map fun c =>
    17 / 20 * c + (1 - 17 / 20) * (1 / G.n)

/-- The loop of `PageRank`, `PageRank.h:217-249`, with `k` iterations left. `apply_f` also sets `p_div_next`; the convergence check zeroes
`p_curr` (each element of `differences` is evaluated once). -/
def loop2 (G : Gr W) (eps : ℚ) : Nat → (Nat → Fl) → (Nat → Fl) → (Nat → Fl) → Nat → Fl
  | 0, _, next, _ => next
  | k + 1, curr, _, pdiv =>
    if fless (fsum ((List.range G.n).map fun i => fdist (curr i) (nextOf G (dangling2 G curr) pdiv i))) eps then
      nextOf G (dangling2 G curr) pdiv
    else loop2 G eps k (nextOf G (dangling2 G curr) pdiv) (fun _ => some 0)
      fun i => fdiv (nextOf G (dangling2 G curr) pdiv i) (G.fwd i).length

/-- `PageRank(G, eps, max_iters)`, `PageRank.h:166-253`. -/
def pageRank2 (G : Gr W) (eps : ℚ) (maxIters : Nat) : Nat → Fl :=
  loop2 G eps maxIters (fun _ => some (1 / G.n)) (fun _ => some 0) fun i => some (1 / G.n / (max 1 (G.fwd i).length : Nat))

/-- Every edge is stored in both directions. -/
def Sym (G : Gr W) : Prop := ∀ s d, mult G s d = mult G d s

theorem fsum_some {α : Type} (l : List α) (F : α → Fl) (h : α → ℚ) (hF : ∀ a ∈ l, F a = some (h a)) :
    fsum (l.map F) = some (l.map h).sum := by
  induction l with
  | nil => rfl
  | cons a l ih =>
    have := ih fun a ha => hF a (List.mem_cons_of_mem _ ha)
    unfold fsum at this ⊢
    rw [List.map_cons, List.foldr_cons, this, hF a List.mem_cons_self, List.map_cons, List.sum_cons]
    rfl

theorem sum_nbrs {G : Gr W} (hG : G.Ok) (i : Nat) (v : Nat → ℚ) :
    ((G.fwd i).map fun x => v x.1).sum = ∑ s ∈ range G.n, mult G i s * v s := by
  have key : ∀ l : List (Nat × W), (∀ x ∈ l, x.1 < G.n) →
      (l.map fun x => v x.1).sum = ∑ s ∈ range G.n, (l.countP (fun x => decide (x.1 = s)) : ℚ) * v s := by
    intro l
    induction l with
    | nil => intro _; simp
    | cons a l ih =>
      intro h
      rw [List.map_cons, List.sum_cons, ih fun x hx => h x (List.mem_cons_of_mem _ hx)]
      simp only [List.countP_cons, Nat.cast_add, add_mul, sum_add_distrib]
      rw [add_comm]
      congr 1
      simp only [decide_eq_true_eq, Nat.cast_ite, Nat.cast_one, Nat.cast_zero, ite_mul, one_mul, zero_mul]
      rw [sum_ite_eq, if_pos (mem_range.2 (h a List.mem_cons_self))]
  exact key _ fun x hx => (hG.bound i x.1 x.2 hx).2

/-- On a symmetric graph an iteration computes the step. -/
theorem next_step {G : Gr W} (hG : G.Ok) (hs : Sym G) {curr pdiv : Nat → Fl} {p : Nat → ℚ} (hc : ∀ i < G.n, curr i = some (p i))
    (hd : ∀ i < G.n, (G.fwd i).length ≠ 0 → pdiv i = some (p i / (G.fwd i).length)) :
    ∀ i, nextOf G (dangling2 G curr) pdiv i = some (step G p i) := by
  intro i
  have h1 : dangling2 G curr = some (dangling G p) := by
    unfold dangling2 dangling
    exact fsum_some _ _ _ fun a ha => hc a (List.mem_range.1 (List.mem_filter.1 ha).1)
  have h2 : fsum ((G.fwd i).map fun x => pdiv x.1) = some ((G.fwd i).map fun x => p x.1 / (G.fwd x.1).length).sum := by
    refine fsum_some _ _ _ fun x hx => hd x.1 (hG.bound i x.1 x.2 hx).2 fun h0 => ?_
    have h3 := hs i x.1
    have h4 : 0 < mult G i x.1 := by
      unfold mult
      rw [List.countP_pos_iff]
      exact ⟨x, hx, by simp⟩
    have h5 : mult G x.1 i ≤ (G.fwd x.1).length := List.countP_le_length
    omega
  unfold nextOf
  rw [h1, h2, sum_nbrs hG i fun s => p s / (G.fwd s).length, dangling_eq]
  unfold step
  simp only [fadd, Option.map_some, Option.bind_some]
  rw [sum_congr rfl fun s _ => by rw [hs i s]]
  congr 1; ring

theorem norm2_eq {n : Nat} {curr nx : Nat → Fl} {p q : Nat → ℚ} (hc : ∀ i < n, curr i = some (p i)) (hn : ∀ i < n, nx i = some (q i)) :
    fsum ((List.range n).map fun i => fdist (curr i) (nx i)) = some (l1 n p q) := by
  rw [fsum_some _ _ (fun i => |p i - q i|) fun i hi => ?_, sum_range_list]; rfl
  rw [hc i (List.mem_range.1 hi), hn i (List.mem_range.1 hi)]; rfl

theorem loop2_inv {G : Gr W} (hG : G.Ok) (hs : Sym G) {eps : ℚ} (k : Nat) {curr pdiv : Nat → Fl} {p : Nat → ℚ}
    (hc : ∀ i < G.n, curr i = some (p i))
    (hd : ∀ i < G.n, (G.fwd i).length ≠ 0 → pdiv i = some (p i / (G.fwd i).length)) :
    (∃ j < k, (∀ i < G.n, loop2 G eps k curr (fun _ => some 0) pdiv i = some ((step G)^[j + 1] p i)) ∧
      l1 G.n ((step G)^[j] p) ((step G)^[j + 1] p) < eps) ∨
    ((∀ i < G.n, loop2 G eps k curr (fun _ => some 0) pdiv i = some 0) ∧
      ∀ j < k, eps ≤ l1 G.n ((step G)^[j] p) ((step G)^[j + 1] p)) := by
  induction k generalizing curr pdiv p with
  | zero => exact Or.inr ⟨fun _ _ => rfl, fun _ h => absurd h (Nat.not_lt_zero _)⟩
  | succ k ih =>
    have h1 := next_step hG hs hc hd
    have h2 := norm2_eq (q := step G p) hc fun i _ => h1 i
    by_cases hlt : l1 G.n p (step G p) < eps
    · refine Or.inl ⟨0, Nat.succ_pos _, fun i _ => ?_, hlt⟩
      unfold loop2
      rw [h2, if_pos (by simpa [fless] using hlt)]
      exact h1 i
    · have h3 : loop2 G eps (k + 1) curr (fun _ => some 0) pdiv = loop2 G eps k (nextOf G (dangling2 G curr) pdiv) (fun _ => some 0)
          fun i => fdiv (nextOf G (dangling2 G curr) pdiv i) (G.fwd i).length := by
        rw [loop2, h2, if_neg (by simpa [fless] using hlt)]
      rw [h3]
      rcases ih (curr := nextOf G (dangling2 G curr) pdiv) (pdiv := fun i => fdiv (nextOf G (dangling2 G curr) pdiv i) (G.fwd i).length)
        (p := step G p) (fun i _ => h1 i) (fun i _ h0 => by rw [h1]; simp [fdiv, h0]) with ⟨j, hj, h4, h5⟩ | ⟨h4, h5⟩
      · exact Or.inl ⟨j + 1, by omega, h4, h5⟩
      · refine Or.inr ⟨h4, fun j hj => ?_⟩
        cases j with
        | zero => exact not_lt.1 hlt
        | succ j => exact h5 j (by omega)

theorem pageRank2_inv {G : Gr W} (hG : G.Ok) (hs : Sym G) (eps : ℚ) (k : Nat) :
    (∃ j < k, (∀ i < G.n, pageRank2 G eps k i = some ((step G)^[j + 1] (fun _ => 1 / (G.n : ℚ)) i)) ∧
      l1 G.n ((step G)^[j] fun _ => 1 / (G.n : ℚ)) ((step G)^[j + 1] fun _ => 1 / (G.n : ℚ)) < eps) ∨
    ((∀ i < G.n, pageRank2 G eps k i = some 0) ∧
      ∀ j < k, eps ≤ l1 G.n ((step G)^[j] fun _ => 1 / (G.n : ℚ)) ((step G)^[j + 1] fun _ => 1 / (G.n : ℚ))) := by
  refine loop2_inv hG hs k (p := fun _ => 1 / (G.n : ℚ)) (fun _ _ => rfl) fun i _ h0 => ?_
  rw [max_eq_right]
  exact_mod_cast Nat.one_le_iff_ne_zero.2 h0

/-- C77, the part that holds: on symmetric graphs, with `max_iters` large enough for `eps`, the result is a probability vector within
`17/3 eps` of the PageRank vector. -/
theorem pageRank2_partial {G : Gr W} (hG : G.Ok) (hs : Sym G) (hn : 0 < G.n) {eps : ℚ} {maxIters : Nat}
    (hm : 2 * (17 / 20) ^ (maxIters - 1) < eps) (hm0 : 0 < maxIters) :
    ∃ r, (∀ i < G.n, pageRank2 G eps maxIters i = some (r i)) ∧ Good G eps r := by
  rcases pageRank2_inv hG hs eps maxIters with ⟨j, _, h1, h2⟩ | ⟨_, h2⟩
  · exact ⟨_, h1, good_of hG hn (fun _ _ => rfl) h2⟩
  · exfalso
    have h3 := h2 (maxIters - 1) (by omega)
    have h4 := iter_dist hG (fun _ => 1 / (G.n : ℚ)) (maxIters - 1)
    have h5 := iter_prob hG hn 0
    have h6 := iter_prob hG hn 1
    have h7 : l1 G.n (fun _ => 1 / (G.n : ℚ)) (step G (fun _ => 1 / (G.n : ℚ))) ≤ 2 := l1_two h5.1 h6.1 h5.2 h6.2
    have h8 : (0 : ℚ) ≤ (17 / 20) ^ (maxIters - 1) := by positivity
    have h9 := mul_le_mul_of_nonneg_left h7 h8
    linarith

/-- Both versions return the same on symmetric graphs. -/
theorem pageRank2_same {G : Gr W} (hG : G.Ok) (hO : G.Once) (hs : Sym G) {f : Nat} {eps : ℚ} {maxIters : Nat}
    {r : Nat → ℚ} (h : PageRankEM G f eps maxIters r) : ∀ i < G.n, pageRank2 G eps maxIters i = some (r i) := by
  have key : ∀ k (curr pdiv : Nat → Fl) (p r : Nat → ℚ), (∀ i < G.n, curr i = some (p i)) →
      (∀ i < G.n, (G.fwd i).length ≠ 0 → pdiv i = some (p i / (G.fwd i).length)) → Loop G f eps k p (fun _ => 0) r →
      ∀ i < G.n, loop2 G eps k curr (fun _ => some 0) pdiv i = some (r i) := by
    intro k
    induction k with
    | zero => intro curr pdiv p r hc hd h i _; cases h; rfl
    | succ k ih =>
      intro curr pdiv p r hc hd h i hi
      have h1 := next_step hG hs hc hd
      have h2 := norm2_eq (q := step G p) hc fun i _ => h1 i
      cases h with
      | conv _ _ _ _ h hlt =>
        have h3 := round_step hG hO h
        rw [norm_eq, l1_congr (fun _ _ => rfl) h3] at hlt
        unfold loop2
        rw [h2, if_pos (by simpa [fless] using hlt), h1, h3 i hi]
      | more _ _ _ nx _ h hlt h' =>
        have h3 := round_step hG hO h
        rw [norm_eq, l1_congr (fun _ _ => rfl) h3] at hlt
        rw [loop2, h2, if_neg (by simpa [fless] using hlt)]
        exact ih _ _ nx r (fun i hi => by rw [h1, h3 i hi]) (fun i hi h0 => by rw [h1, ← h3 i hi]; simp [fdiv, h0]) h' i hi
  refine key maxIters _ _ (fun _ => 1 / (G.n : ℚ)) r (fun _ _ => rfl) (fun i _ h0 => ?_) h
  rw [max_eq_right]
  exact_mod_cast Nat.one_le_iff_ne_zero.2 h0

/-- The directed graph with the single edge from 0 to 1. -/
def g01 : Gr Unit := Gr.ofLists [[(1, ())], []] [[], [(0, ())]]

theorem g01_ok : g01.Ok := Gr.ofLists_ok (by decide)

theorem g01_inf (eps : ℚ) (k : Nat) (curr pdiv : Nat → Fl) (h : pdiv 1 = none) (i : Nat) :
    loop2 g01 eps k curr (fun _ => some 0) pdiv i = some 0 := by
  induction k generalizing curr pdiv with
  | zero => rfl
  | succ k ih =>
    have h0 : nextOf g01 (dangling2 g01 curr) pdiv 0 = none := by
      have : g01.fwd 0 = [(1, ())] := rfl
      rw [nextOf, this]
      simp [fsum, fadd, h]
    have h1 : fsum ((List.range g01.n).map fun i => fdist (curr i) (nextOf g01 (dangling2 g01 curr) pdiv i)) = none := by
      have : List.range g01.n = [0, 1] := rfl
      rw [this, List.map_cons, h0]
      simp [fsum, fadd, fdist]
    rw [loop2, h1, if_neg (by simp [fless])]
    refine ih _ _ ?_
    have : (g01.fwd 1).length = 0 := rfl
    rw [this, fdiv]
    cases nextOf g01 (dangling2 g01 curr) pdiv 1 <;> rfl

/-- C77 fails on directed graphs: for the graph with the single edge from 0 to 1 and any tolerance below 0.4, in particular with the
default arguments, the result is the zero vector. After one iteration the ranks of the two vertices are swapped. -/
theorem pageRank2_refuted : g01.Ok ∧ (∀ eps maxIters, eps ≤ 2 / 5 → ∀ i, pageRank2 g01 eps maxIters i = some 0) ∧
    pageRank2 g01 (1 / 2) 1 0 = some (57 / 80) ∧ pageRank2 g01 (1 / 2) 1 1 = some (23 / 80) ∧
    step g01 (fun _ => 1 / 2) 0 = 23 / 80 ∧ step g01 (fun _ => 1 / 2) 1 = 57 / 80 := by
  have n2 : g01.n = 2 := rfl
  have f0 : g01.fwd 0 = [(1, ())] := rfl
  have f1 : g01.fwd 1 = [] := rfl
  have c0 : nextOf g01 (dangling2 g01 fun _ => some (1 / (g01.n : ℚ)))
      (fun i => some (1 / (g01.n : ℚ) / (max 1 (g01.fwd i).length : Nat))) 0 = some (57 / 80) := by
    have h : dangling2 g01 (fun _ => some (1 / (g01.n : ℚ))) = some (1 / 2) := by
      unfold dangling2
      have : (List.range g01.n).filter (fun i => decide ((g01.fwd i).length = 0)) = [1] := by decide
      rw [this, n2]
      norm_num [fsum, fadd]
    rw [h, nextOf, f0]
    norm_num [fsum, fadd, n2, f1]
  have c1 : nextOf g01 (dangling2 g01 fun _ => some (1 / (g01.n : ℚ)))
      (fun i => some (1 / (g01.n : ℚ) / (max 1 (g01.fwd i).length : Nat))) 1 = some (23 / 80) := by
    have h : dangling2 g01 (fun _ => some (1 / (g01.n : ℚ))) = some (1 / 2) := by
      unfold dangling2
      have : (List.range g01.n).filter (fun i => decide ((g01.fwd i).length = 0)) = [1] := by decide
      rw [this, n2]
      norm_num [fsum, fadd]
    rw [h, nextOf, f1]
    norm_num [fsum, fadd, n2]
  have nm : fsum ((List.range g01.n).map fun i => fdist (some (1 / (g01.n : ℚ))) (nextOf g01
      (dangling2 g01 fun _ => some (1 / (g01.n : ℚ))) (fun i => some (1 / (g01.n : ℚ) / (max 1 (g01.fwd i).length : Nat))) i)) =
      some (17 / 40) := by
    have : List.range g01.n = [0, 1] := rfl
    rw [this, List.map_cons, List.map_cons, c0, c1, n2]
    simp only [List.map_nil, fsum, List.foldr_cons, List.foldr_nil, fadd, fdist, Option.bind_some, Option.map_some]
    norm_num [abs_of_nonneg, abs_of_neg]
  refine ⟨g01_ok, fun eps k he i => ?_, ?_, ?_, ?_, ?_⟩
  · cases k with
    | zero => rfl
    | succ k =>
      unfold pageRank2
      rw [loop2, nm, if_neg (by simp only [fless, decide_eq_true_eq, not_lt]; linarith)]
      refine g01_inf _ _ _ _ ?_ i
      rw [c1, f1]; rfl
  · unfold pageRank2
    rw [loop2, nm, if_pos (by norm_num [fless])]; exact c0
  · unfold pageRank2
    rw [loop2, nm, if_pos (by norm_num [fless])]; exact c1
  · unfold step
    rw [n2]
    norm_num [sum_range_succ, f0, f1, mult]
  · unfold step
    rw [n2]
    norm_num [sum_range_succ, f0, f1, mult]

/-- The vector returned for `g01` is not the PageRank vector, nor near it. -/
theorem pageRank2_refuted' : ¬ ∃ r, (∀ i < g01.n, pageRank2 g01 (1 / 1000000) 100 i = some (r i)) ∧ Good g01 (1 / 1000000) r := by
  rintro ⟨r, h1, h2⟩
  have h := pageRank2_refuted.2.1 (1 / 1000000) 100 (by norm_num)
  have h3 := h2.sum
  rw [sum_congr rfl fun i hi => (Option.some.inj ((h1 i (mem_range.1 hi)).symm.trans (h i)) : r i = 0)] at h3
  simp at h3

/-- Both versions, `eps = 0`: zeros. -/
theorem pageRank2_zero {G : Gr W} (hG : G.Ok) (hs : Sym G) (maxIters : Nat) : ∀ i < G.n, pageRank2 G 0 maxIters i = some 0 := by
  rcases pageRank2_inv hG hs 0 maxIters with ⟨j, _, _, h2⟩ | ⟨h1, _⟩
  · exact absurd (l1_nonneg _ _ _) (not_le.2 h2)
  · exact h1

/-- The path 0 - 1 - 2: the hypotheses of the theorems can be met. -/
def path3 : Gr Unit := Gr.ofLists [[(1, ())], [(0, ()), (2, ())], [(1, ())]] [[(1, ())], [(0, ()), (2, ())], [(1, ())]]

theorem path3_ok : path3.Ok := Gr.ofLists_ok (by decide)

theorem path3_once : path3.Once := by
  have : ∀ v, (path3.fwd v).Nodup := by
    intro v
    match v with
    | 0 => decide
    | 1 => decide
    | 2 => decide
    | v + 3 => exact List.nodup_nil
  exact ⟨this, this⟩

theorem path3_sym : Sym path3 := by
  intro s d
  have key : ∀ s d, (3 ≤ s ∨ 3 ≤ d) → mult path3 s d = 0 := by
    intro s d h
    unfold mult
    rw [List.countP_eq_zero]
    intro x hx
    have := path3_ok.bound s x.1 x.2 hx
    have h2 : path3.n = 3 := rfl
    simp only [decide_eq_true_eq]
    omega
  by_cases h : 3 ≤ s ∨ 3 ≤ d
  · rw [key s d h, key d s h.symm]
  · have h1 : s < 3 := by omega
    have h2 : d < 3 := by omega
    have : ∀ s < 3, ∀ d < 3, mult path3 s d = mult path3 d s := by decide
    exact this s h1 d h2

/-- A concrete run with the default arguments, and the PageRank vector it approximates. -/
example : ∃ r π, PageRankEM path3 1 (1 / 1000000) 100 r ∧ IsPageRank path3 π ∧ l1 3 r π ≤ 17 / 3 * (1 / 1000000) ∧
    π 1 = 18 / 37 := by
  obtain ⟨r, hr⟩ := pageRankEM_exists path3_ok path3_once 0 (1 / 1000000) 100
  have n3 : path3.n = 3 := rfl
  have f0 : path3.fwd 0 = [(1, ())] := rfl
  have f1 : path3.fwd 1 = [(0, ()), (2, ())] := rfl
  have f2 : path3.fwd 2 = [(1, ())] := rfl
  have hπ : IsPageRank path3 fun i => if i = 1 then 18 / 37 else 19 / 74 := by
    refine ⟨?_, fun d _ => ?_, ?_⟩
    · intro d hd
      rw [n3] at hd
      interval_cases d <;> · unfold step; rw [n3]; simp [sum_range_succ, f0, f1, f2, mult]; norm_num
    · split <;> norm_num
    · rw [n3]; norm_num [sum_range_succ]
  exact ⟨r, _, hr, hπ, (pageRankEM_default path3_ok path3_once (by decide) hr).near _ hπ, by norm_num⟩

/-- The edge-map-reduce version on the path. -/
example : ∃ r, (∀ i < 3, pageRank2 path3 (1 / 1000000) 100 i = some (r i)) ∧ Good path3 (1 / 1000000) r :=
  pageRank2_partial path3_ok path3_sym (by decide) (by norm_num) (by norm_num)

end Gbbs.PageRank
