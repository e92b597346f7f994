/-
`PageRankDelta`, `benchmarks/PageRank/PageRank.h:255-461`. Doubles are modelled by exact rationals.
-/
import Verif.Algo.PageRank

namespace Gbbs.PageRank

open Gbbs.Em Finset

variable {W : Type}

/-- `PR_Delta_F`, `PageRank.h:262-285`: `Delta[.].delta_over_degree` is the array `false`, `nghSum` the array `true`. -/
def deltaK : AccP W (Bool × Nat) ℚ where
  src s := (false, s)
  dst d := (true, d)
  val _ x := x
  c _ := true
  q x := decide (x = 0)

/-- `Delta[i].delta_over_degree`, `PageRank.h:352, 384, 416`. It is only read for sources of edges, so the division by 0 for vertices
without out-edges (infinite in the code, 0 here) is never used. -/
def over (G : Gr W) (delta : Nat → ℚ) (i : Nat) : ℚ := delta i / (G.fwd i).length

/-- Number of vertices in the frontier. -/
def size (n : Nat) (fr : Nat → Bool) : Nat := (List.range n).countP fr

/-- `sparse_or_dense`, `PageRank.h:287-326`, with `nghSum` all 0: `ngh` is `nghSum` afterwards. The flags passed to
`edgeMapReduce_dense` are `no_output | in_edges`. -/
def Ngh (G : Gr W) (f : Nat) (fr : Nat → Bool) (delta ngh : Nat → ℚ) : Prop :=
  if size G.n fr > G.n / 5 then
    ∀ u < G.n, ngh u = ((G.bwd u).map fun x => if fr x.1 then over G delta x.1 else 0).sum
  else ∃ m' o, EdgeMapX (accF f deltaK) G fr (mem2 (over G delta) fun _ => 0) m' o ∧ ∀ u, ngh u = m' (true, u)

/-- What `PR_Vertex_F_FirstRound` (`:328-355`) and `PR_Vertex_F` (`:366-391`) do to a vertex: the new rank, the new delta, and whether
the vertex is active in the next round. -/
def vertexF (first : Bool) (n : Nat) (eps2 : ℚ) (p ngh : ℚ) : ℚ × ℚ × Bool :=
  if first then
    (p + (17 / 20 * ngh + (1 - 17 / 20) * (1 / n)), 17 / 20 * ngh + (1 - 17 / 20) * (1 / n) - 1 / n,
      decide (17 / 20 * ngh + (1 - 17 / 20) * (1 / n) - 1 / n > eps2 * (p + (17 / 20 * ngh + (1 - 17 / 20) * (1 / n)))))
  else if |ngh * (17 / 20)| > eps2 * p then (p + ngh * (17 / 20), ngh * (17 / 20), true) else (p, ngh * (17 / 20), false)

/-- The loop of `PageRankDelta`, `PageRank.h:428-455`, with `k` rounds left (`first`: `round == 1`); the last argument is the result. -/
inductive DLoop (G : Gr W) (f : Nat) (eps eps2 : ℚ) : Bool → Nat → (Nat → Bool) → (Nat → ℚ) → (Nat → ℚ) → (Nat → ℚ) → Prop
  | out (first fr p delta) : DLoop G f eps eps2 first 0 fr p delta p
  | conv (first k fr p delta ngh) (h : Ngh G f fr delta ngh)
      (hc : ((List.range G.n).map fun i => |(vertexF first G.n eps2 (p i) (ngh i)).2.1|).sum < eps) :
      DLoop G f eps eps2 first (k + 1) fr p delta fun i => (vertexF first G.n eps2 (p i) (ngh i)).1
  | more (first k fr p delta ngh r) (h : Ngh G f fr delta ngh)
      (hc : ¬ ((List.range G.n).map fun i => |(vertexF first G.n eps2 (p i) (ngh i)).2.1|).sum < eps)
      (h' : DLoop G f eps eps2 false k (fun i => (vertexF first G.n eps2 (p i) (ngh i)).2.2)
        (fun i => (vertexF first G.n eps2 (p i) (ngh i)).1) (fun i => (vertexF first G.n eps2 (p i) (ngh i)).2.1) r) :
      DLoop G f eps eps2 first (k + 1) fr p delta r

/-- `PageRankDelta(G, eps, local_eps, max_iters)`, `PageRank.h:400-460`. -/
def PageRankDelta (G : Gr W) (f : Nat) (eps localEps : ℚ) (maxIters : Nat) (r : Nat → ℚ) : Prop :=
  DLoop G f eps localEps true maxIters (fun _ => true) (fun _ => 0) (fun _ => 1 / G.n) r

/-! ### One round -/

/-- In-edges are the edges in the other direction. -/
theorem sum_bwd {G : Gr W} (hG : G.Ok) (hO : G.Once) (u : Nat) (v : Nat → ℚ) :
    ((G.bwd u).map fun x => v x.1).sum = ∑ s ∈ range G.n, mult G s u * v s := by
  classical
  rw [← sumTo_edges]
  have hperm : ((activeEdges G fun _ => true).filter fun e => decide (e.d = u)).Perm
      ((G.bwd u).map fun x => (⟨x.1, u, x.2⟩ : Edge W)) := by
    rw [List.perm_ext_iff_of_nodup ((activeEdges_nodup hO _).filter _) ((hO.bwd u).map fun x y h => ?_)]
    · rintro ⟨s, d, w⟩
      rw [List.mem_filter, mem_activeEdges hG]
      simp only [Active, true_and, decide_eq_true_eq, List.mem_map]
      constructor
      · rintro ⟨h1, rfl⟩
        exact ⟨(s, w), (hG.same _ _ _).1 h1, rfl⟩
      · rintro ⟨x, hx, h⟩
        injection h with h1 h2 h3
        subst h1 h2 h3
        exact ⟨(hG.same _ _ _).2 hx, rfl⟩
    · injection h with h1 _ h3
      exact Prod.ext h1 h3
  have h1 := (hperm.map fun e => v e.s).sum_eq
  rw [List.map_map] at h1
  have h2 : ((G.bwd u).map fun x => v x.1).sum = ((G.bwd u).map ((fun e : Edge W => v e.s) ∘ fun x => ⟨x.1, u, x.2⟩)).sum := rfl
  rw [h2, ← h1]
  unfold sumTo
  induction activeEdges G fun _ => true with
  | nil => rfl
  | cons a l ih =>
    rw [List.filter_cons, List.map_cons, List.sum_cons, ← ih]
    by_cases ha : a.d = u
    · simp [ha]
    · simp [ha]

/-- Both branches of `sparse_or_dense` add up the deltas of the frontier. -/
theorem ngh_sum {G : Gr W} (hG : G.Ok) (hO : G.Once) {f : Nat} {fr : Nat → Bool} {delta ngh : Nat → ℚ} (h : Ngh G f fr delta ngh) :
    ∀ u < G.n, ngh u = ∑ s ∈ range G.n, mult G s u * (if fr s then delta s / (G.fwd s).length else 0) := by
  intro u hu
  unfold Ngh at h
  split at h
  · rw [h u hu, ← sum_bwd hG hO]; rfl
  · obtain ⟨m', o, hr, hx⟩ := h
    have hS : (deltaK (W := W)).Sep (activeEdges G fr) :=
      ⟨fun d d' h => (Prod.ext_iff.1 h).2, fun e e' _ _ _ _ h => by cases (Prod.ext_iff.1 h).1⟩
    have h1 : m' (true, u) = 0 + sumTo (activeEdges G fr) (fun e => delta e.s / (G.fwd e.s).length)
      (fun e => true = true) u := (acc_round G hG hO _ hS hr).1 u
    rw [hx, h1, zero_add, ← sumTo_edges]
    unfold sumTo activeEdges
    rw [List.filter_true]
    induction List.range G.n with
    | nil => rfl
    | cons a l ih =>
      rw [List.filter_cons, List.flatMap_cons, List.map_append, List.sum_append, ← ih]
      by_cases ha : fr a = true
      · rw [if_pos ha, List.flatMap_cons, List.map_append, List.sum_append]
        congr 2
        rw [List.map_map, List.map_map]
        refine List.map_congr_left fun x _ => ?_
        simp [ha]
      · rw [if_neg ha]
        symm
        refine (add_eq_right).2 (List.sum_eq_zero fun y hy => ?_)
        rw [List.map_map] at hy
        obtain ⟨x, _, rfl⟩ := List.mem_map.1 hy
        simp [ha]

theorem ngh_exists {G : Gr W} (hG : G.Ok) (hO : G.Once) (f : Nat) (fr : Nat → Bool) (delta : Nat → ℚ) : ∃ ngh, Ngh G (f + 1) fr delta ngh := by
  unfold Ngh
  split
  · exact ⟨_, fun _ _ => rfl⟩
  · obtain ⟨m', o, h⟩ := accF_exists (f := f) (deltaK (W := W)) hG hO fr (mem2 (over G delta) fun _ => 0)
    exact ⟨_, m', o, h, fun _ => rfl⟩

/-- Runs exist. -/
theorem delta_exists {G : Gr W} (hG : G.Ok) (hO : G.Once) (f : Nat) (eps eps2 : ℚ) (maxIters : Nat) :
    ∃ r, PageRankDelta G (f + 1) eps eps2 maxIters r := by
  have key : ∀ k first fr p delta, ∃ r, DLoop G (f + 1) eps eps2 first k fr p delta r := by
    intro k
    induction k with
    | zero => exact fun first fr p delta => ⟨_, .out first fr p delta⟩
    | succ k ih =>
      intro first fr p delta
      obtain ⟨ngh, hx⟩ := ngh_exists hG hO f fr delta
      by_cases hc : ((List.range G.n).map fun i => |(vertexF first G.n eps2 (p i) (ngh i)).2.1|).sum < eps
      · exact ⟨_, .conv first k fr p delta ngh hx hc⟩
      · obtain ⟨r, hr⟩ := ih false _ _ _
        exact ⟨r, .more first k fr p delta ngh r hx hc hr⟩
  exact key _ _ _ _ _

/-! ### After the first round ranks only grow -/

theorem ngh_nonneg {G : Gr W} (hG : G.Ok) (hO : G.Once) {f : Nat} {fr : Nat → Bool} {delta ngh : Nat → ℚ}
    (hd : ∀ i < G.n, fr i = true → 0 ≤ delta i) (h : Ngh G f fr delta ngh) : ∀ i < G.n, 0 ≤ ngh i := by
  intro i hi
  rw [ngh_sum hG hO h i hi]
  refine sum_nonneg fun s hs => mul_nonneg (Nat.cast_nonneg _) ?_
  split
  · exact div_nonneg (hd s (mem_range.1 hs) (by assumption)) (Nat.cast_nonneg _)
  · exact le_refl _

theorem vertexF_grow {n : Nat} {eps2 p ngh : ℚ} (h : 0 ≤ ngh) : p ≤ (vertexF false n eps2 p ngh).1 ∧ 0 ≤ (vertexF false n eps2 p ngh).2.1 := by
  rw [vertexF, if_neg Bool.false_ne_true]
  split
  · exact ⟨by dsimp only; linarith, by dsimp only; linarith⟩
  · exact ⟨le_refl _, by dsimp only; linarith⟩

theorem delta_grow {G : Gr W} (hG : G.Ok) (hO : G.Once) {f : Nat} {eps eps2 : ℚ} {k : Nat} {fr : Nat → Bool} {p delta r : Nat → ℚ}
    (hd : ∀ i < G.n, fr i = true → 0 ≤ delta i) (h : DLoop G f eps eps2 false k fr p delta r) : ∀ i < G.n, p i ≤ r i := by
  induction k generalizing fr p delta with
  | zero => cases h; exact fun i _ => le_refl _
  | succ k ih =>
    cases h with
    | conv _ _ _ _ _ ngh h hc => exact fun i hi => (vertexF_grow (ngh_nonneg hG hO hd h i hi)).1
    | more _ _ _ _ _ ngh _ h hc h' =>
      have hn := ngh_nonneg hG hO hd h
      intro i hi
      exact (vertexF_grow (hn i hi)).1.trans (ih (fun i hi _ => (vertexF_grow (hn i hi)).2) h' i hi)

/-- The ranks after the first round: one step from the uniform vector, without the share of vertices that have no out-edges. -/
def round1 (G : Gr W) (i : Nat) : ℚ :=
  17 / 20 * ∑ s ∈ range G.n, (mult G s i : ℚ) * (1 / G.n / (G.fwd s).length) + (1 - 17 / 20) * (1 / G.n)

theorem round1_eq {G : Gr W} (hd : ∀ s < G.n, (G.fwd s).length ≠ 0) (i : Nat) : round1 G i = step G (fun _ => 1 / (G.n : ℚ)) i := by
  unfold round1 step
  rw [sum_eq_zero (s := range G.n) (f := fun s => if (G.fwd s).length = 0 then 1 / (G.n : ℚ) else 0)
    fun s hs => if_neg (hd s (mem_range.1 hs))]
  ring

theorem round1_pos {G : Gr W} (i : Nat) : 0 ≤ round1 G i := by
  unfold round1
  have : 0 ≤ ∑ s ∈ range G.n, (mult G s i : ℚ) * (1 / G.n / (G.fwd s).length) := sum_nonneg fun s _ => by positivity
  have h2 : (0 : ℚ) ≤ (1 - 17 / 20) * (1 / G.n) := by
    have : (0 : ℚ) ≤ 1 / G.n := by positivity
    linarith
  linarith

theorem vertexF_first {G : Gr W} (hG : G.Ok) (hO : G.Once) {f : Nat} {eps2 : ℚ} {ngh : Nat → ℚ}
    (h : Ngh G f (fun _ => true) (fun _ => 1 / (G.n : ℚ)) ngh) : ∀ i < G.n, vertexF true G.n eps2 0 (ngh i) =
      (round1 G i, round1 G i - 1 / G.n, decide (round1 G i - 1 / G.n > eps2 * round1 G i)) := by
  intro i hi
  have h1 := ngh_sum hG hO h i hi
  simp only [if_true] at h1
  rw [vertexF, if_pos rfl, h1, zero_add]; rfl

/-- Never below the ranks after one round: negative deltas of the first round are not propagated. -/
theorem delta_lower {G : Gr W} (hG : G.Ok) (hO : G.Once) {f : Nat} {eps eps2 : ℚ} (h2 : 0 ≤ eps2) {maxIters : Nat} (hm : 0 < maxIters)
    {r : Nat → ℚ} (h : PageRankDelta G f eps eps2 maxIters r) : ∀ i < G.n, round1 G i ≤ r i := by
  unfold PageRankDelta at h
  obtain ⟨k, rfl⟩ : ∃ k, maxIters = k + 1 := ⟨maxIters - 1, by omega⟩
  cases h with
  | conv _ _ _ _ _ ngh h hc =>
    intro i hi
    beta_reduce
    rw [vertexF_first hG hO h i hi]
  | more _ _ _ _ _ ngh _ h hc h' =>
    have hv := vertexF_first (eps2 := eps2) hG hO h
    intro i hi
    have := delta_grow hG hO (fun j hj ha => ?_) h' i hi
    · rwa [hv i hi] at this
    · beta_reduce at ha ⊢
      rw [hv j hj] at ha ⊢
      simp only [decide_eq_true_eq] at ha
      have := mul_nonneg h2 (round1_pos (G := G) j)
      dsimp only
      linarith

/-- C78, the part that holds, for graphs in which every vertex has out-edges: one round is one step of the random surfer; the ranks of later
rounds are never below it, so they add up to at least 1; and if the uniform vector is the PageRank vector, it is returned. -/
theorem delta_partial {G : Gr W} (hG : G.Ok) (hO : G.Once) (hn : 0 < G.n) (hd : ∀ s < G.n, (G.fwd s).length ≠ 0) {f : Nat}
    {eps eps2 : ℚ} (h2 : 0 ≤ eps2) {maxIters : Nat} (hm : 0 < maxIters) {r : Nat → ℚ} (h : PageRankDelta G f eps eps2 maxIters r) :
    (maxIters = 1 → ∀ i < G.n, r i = step G (fun _ => 1 / (G.n : ℚ)) i) ∧
    (∀ i < G.n, step G (fun _ => 1 / (G.n : ℚ)) i ≤ r i) ∧ 1 ≤ ∑ i ∈ range G.n, r i ∧
    (IsPageRank G (fun _ => 1 / (G.n : ℚ)) → ∀ i < G.n, r i = 1 / G.n) := by
  have hlow : ∀ i < G.n, step G (fun _ => 1 / (G.n : ℚ)) i ≤ r i := fun i hi => by
    rw [← round1_eq hd]; exact delta_lower hG hO h2 hm h i hi
  refine ⟨?_, hlow, ?_, ?_⟩
  · rintro rfl i hi
    cases h with
    | conv _ _ _ _ _ ngh h hc => beta_reduce; rw [vertexF_first hG hO h i hi, round1_eq hd]
    | more _ _ _ _ _ ngh _ h hc h' =>
      cases h'
      beta_reduce; rw [vertexF_first hG hO h i hi, round1_eq hd]
  · have h1 := sum_le_sum fun i hi => hlow i (mem_range.1 hi)
    exact (iter_prob hG hn 1).2.symm.le.trans h1
  · intro hu i hi
    unfold PageRankDelta at h
    obtain ⟨k, rfl⟩ : ∃ k, maxIters = k + 1 := ⟨maxIters - 1, by omega⟩
    have h1 : ∀ i < G.n, round1 G i = 1 / G.n := fun i hi => by rw [round1_eq hd, hu.fix i hi]
    have hz : ∀ k (fr : Nat → Bool) (p delta r : Nat → ℚ), (∀ i < G.n, p i = 1 / G.n) → (∀ i < G.n, delta i = 0) →
        DLoop G f eps eps2 false k fr p delta r → ∀ i < G.n, r i = 1 / G.n := by
      intro k
      induction k with
      | zero => intro fr p delta r hp _ h; cases h; exact hp
      | succ k ih =>
        intro fr p delta r hp hz h
        have hv : ∀ ngh, Ngh G f fr delta ngh → ∀ i < G.n, vertexF false G.n eps2 (p i) (ngh i) = (p i, 0, false) := by
          intro ngh hx i hi
          have h0 : ngh i = 0 := by
            rw [ngh_sum hG hO hx i hi]
            refine sum_eq_zero fun s hs => ?_
            rw [hz s (mem_range.1 hs)]; simp
          have : ¬ |(0 : ℚ) * (17 / 20)| > eps2 * p i := by
            rw [hp i hi]
            have := mul_nonneg h2 (show (0 : ℚ) ≤ 1 / G.n by positivity)
            simpa using this
          rw [vertexF, if_neg Bool.false_ne_true, h0, if_neg this, zero_mul]
        cases h with
        | conv _ _ _ _ _ ngh h hc => exact fun i hi => by beta_reduce; rw [hv ngh h i hi]; exact hp i hi
        | more _ _ _ _ _ ngh _ h hc h' =>
          exact ih _ _ _ _ (fun i hi => by rw [hv ngh h i hi]; exact hp i hi) (fun i hi => by rw [hv ngh h i hi]) h'
    cases h with
    | conv _ _ _ _ _ ngh h hc => beta_reduce; rw [vertexF_first hG hO h i hi, h1 i hi]
    | more _ _ _ _ _ ngh _ h hc h' =>
      refine hz _ _ _ _ _ (fun i hi => ?_) (fun i hi => ?_) h' i hi
      · beta_reduce; rw [vertexF_first hG hO h i hi, h1 i hi]
      · beta_reduce; rw [vertexF_first hG hO h i hi, h1 i hi, sub_self]

/-- C78 fails on the path 0 - 1 - 2: with the default arguments the ranks add up to more than 1.24, so they are not within 0.2 of the
PageRank vector. The rank of vertex 1 stays at least 0.61 (its PageRank is 18/37). -/
theorem delta_refuted : path3.Ok ∧ path3.Once ∧ (∃ r, PageRankDelta path3 1 (1 / 1000000) (1 / 100) 100 r) ∧
    ∀ f r, PageRankDelta path3 f (1 / 1000000) (1 / 100) 100 r →
      31 / 25 < ∑ i ∈ range 3, r i ∧ 61 / 100 < r 1 ∧ ∀ π, IsPageRank path3 π → 1 / 5 < l1 3 r π := by
  refine ⟨path3_ok, path3_once, delta_exists path3_ok path3_once 0 _ _ _, fun f r h => ?_⟩
  have n3 : path3.n = 3 := rfl
  have f0 : path3.fwd 0 = [(1, ())] := rfl
  have f1 : path3.fwd 1 = [(0, ()), (2, ())] := rfl
  have f2 : path3.fwd 2 = [(1, ())] := rfl
  have r0 : round1 path3 0 = 23 / 120 := by
    unfold round1; rw [n3]; norm_num [sum_range_succ, f0, f1, f2, mult]
  have r1 : round1 path3 1 = 37 / 60 := by
    unfold round1; rw [n3]; norm_num [sum_range_succ, f0, f1, f2, mult]
  have r2 : round1 path3 2 = 23 / 120 := by
    unfold round1; rw [n3]; norm_num [sum_range_succ, f0, f1, f2, mult]
  have main : 31 / 25 < r 0 + r 1 + r 2 ∧ 61 / 100 < r 1 := by
    unfold PageRankDelta at h
    cases h with
    | conv _ _ _ _ _ ngh h hc =>
      exfalso
      have hv := vertexF_first (eps2 := 1 / 100) path3_ok path3_once h
      have : List.range path3.n = [0, 1, 2] := rfl
      rw [this] at hc
      simp only [List.map_cons, List.map_nil] at hc
      rw [hv 0 (by decide), hv 1 (by decide), hv 2 (by decide), r0, r1, r2, n3] at hc
      have a1 : |(37 / 60 - 1 / ((3 : Nat) : ℚ))| = 17 / 60 := by rw [abs_of_nonneg] <;> norm_num
      have a0 : |(23 / 120 - 1 / ((3 : Nat) : ℚ))| = 17 / 120 := by rw [abs_of_neg] <;> norm_num
      simp only [List.sum_cons, List.sum_nil] at hc
      rw [a0, a1] at hc
      norm_num at hc
    | more _ _ _ _ _ ngh _ h hc h' =>
      have hv := vertexF_first (eps2 := 1 / 100) path3_ok path3_once h
      have v0 := hv 0 (by decide)
      have v1 := hv 1 (by decide)
      have v2 := hv 2 (by decide)
      rw [r0, n3] at v0
      rw [r1, n3] at v1
      rw [r2, n3] at v2
      have e0 : decide ((23 : ℚ) / 120 - 1 / ((3 : Nat) : ℚ) > 1 / 100 * (23 / 120)) = false := by norm_num
      have e1 : decide ((37 : ℚ) / 60 - 1 / ((3 : Nat) : ℚ) > 1 / 100 * (37 / 60)) = true := by norm_num
      rw [e0] at v0 v2
      rw [e1] at v1
      -- the second round
      have second : ∀ ngh2, Ngh path3 f (fun i => (vertexF true path3.n (1 / 100) 0 (ngh i)).2.2)
          (fun i => (vertexF true path3.n (1 / 100) 0 (ngh i)).2.1) ngh2 → ngh2 0 = 17 / 120 ∧ ngh2 1 = 0 ∧ ngh2 2 = 17 / 120 := by
        intro ngh2 hx
        have hs := ngh_sum path3_ok path3_once hx
        have w : ∀ u, ngh2 u = ∑ s ∈ range 3, mult path3 s u * (if (vertexF true 3 (1 / 100) 0 (ngh s)).2.2 then
          (vertexF true 3 (1 / 100) 0 (ngh s)).2.1 / (path3.fwd s).length else 0) → ngh2 u = mult path3 1 u * (17 / 120) := by
          intro u hu
          rw [hu, sum_range_succ, sum_range_succ, sum_range_succ, sum_range_zero]
          rw [show vertexF true 3 (1 / 100) 0 (ngh 0) = _ from v0, show vertexF true 3 (1 / 100) 0 (ngh 1) = _ from v1,
            show vertexF true 3 (1 / 100) 0 (ngh 2) = _ from v2, f1]
          norm_num
        have m0 : mult path3 1 0 = 1 := by decide
        have m1 : mult path3 1 1 = 0 := by decide
        have m2 : mult path3 1 2 = 1 := by decide
        refine ⟨?_, ?_, ?_⟩
        · rw [w 0 (hs 0 (by decide)), m0]; norm_num
        · rw [w 1 (hs 1 (by decide)), m1]; norm_num
        · rw [w 2 (hs 2 (by decide)), m2]; norm_num
      have vv : ∀ p n : ℚ, |n * (17 / 20)| > 1 / 100 * p → vertexF false 3 (1 / 100) p n = (p + n * (17 / 20), n * (17 / 20), true) := by
        intro p n h; rw [vertexF, if_neg Bool.false_ne_true, if_pos h]
      have x0 : vertexF false 3 (1 / 100) (23 / 120) (17 / 120) = (749 / 2400, 289 / 2400, true) := by
        rw [vv _ _ (by rw [abs_of_nonneg] <;> norm_num)]; norm_num
      have x1 : vertexF false 3 (1 / 100) (37 / 60) 0 = (37 / 60, 0, false) := by
        rw [vertexF, if_neg Bool.false_ne_true, if_neg (by norm_num)]; norm_num
      cases h' with
      | conv _ _ _ _ _ ngh2 hx hc2 =>
        obtain ⟨n0, n1, n2⟩ := second ngh2 hx
        show 31 / 25 < (vertexF false 3 (1 / 100) (vertexF true 3 (1 / 100) 0 (ngh 0)).1 (ngh2 0)).1 +
          (vertexF false 3 (1 / 100) (vertexF true 3 (1 / 100) 0 (ngh 1)).1 (ngh2 1)).1 +
          (vertexF false 3 (1 / 100) (vertexF true 3 (1 / 100) 0 (ngh 2)).1 (ngh2 2)).1 ∧
          61 / 100 < (vertexF false 3 (1 / 100) (vertexF true 3 (1 / 100) 0 (ngh 1)).1 (ngh2 1)).1
        rw [show vertexF true 3 (1 / 100) 0 (ngh 0) = _ from v0, show vertexF true 3 (1 / 100) 0 (ngh 1) = _ from v1,
          show vertexF true 3 (1 / 100) 0 (ngh 2) = _ from v2, n0, n1, n2, x0, x1]
        norm_num
      | more _ _ _ _ _ ngh2 _ hx hc2 h'' =>
        obtain ⟨n0, n1, n2⟩ := second ngh2 hx
        have w0 : vertexF false path3.n (1 / 100) (vertexF true path3.n (1 / 100) 0 (ngh 0)).1 (ngh2 0) = (749 / 2400, 289 / 2400, true) := by
          rw [show vertexF true path3.n (1 / 100) 0 (ngh 0) = _ from v0, n0]; exact x0
        have w1 : vertexF false path3.n (1 / 100) (vertexF true path3.n (1 / 100) 0 (ngh 1)).1 (ngh2 1) = (37 / 60, 0, false) := by
          rw [show vertexF true path3.n (1 / 100) 0 (ngh 1) = _ from v1, n1]; exact x1
        have w2 : vertexF false path3.n (1 / 100) (vertexF true path3.n (1 / 100) 0 (ngh 2)).1 (ngh2 2) = (749 / 2400, 289 / 2400, true) := by
          rw [show vertexF true path3.n (1 / 100) 0 (ngh 2) = _ from v2, n2]; exact x0
        have hg := delta_grow path3_ok path3_once (fun i hi _ => ?_) h''
        · have g0 := hg 0 (by decide)
          have g1 := hg 1 (by decide)
          have g2 := hg 2 (by decide)
          rw [w0] at g0
          rw [w1] at g1
          rw [w2] at g2
          dsimp only at g0 g1 g2
          constructor <;> linarith
        · rw [n3] at hi
          interval_cases i
          · rw [w0]; norm_num
          · rw [w1]
          · rw [w2]; norm_num
  have hsum : ∑ i ∈ range 3, r i = r 0 + r 1 + r 2 := by rw [sum_range_succ, sum_range_succ, sum_range_succ, sum_range_zero, zero_add]
  refine ⟨by rw [hsum]; exact main.1, main.2, fun π hπ => ?_⟩
  have h1 := hπ.sum
  rw [n3, sum_range_succ, sum_range_succ, sum_range_succ, sum_range_zero, zero_add] at h1
  unfold l1
  rw [sum_range_succ, sum_range_succ, sum_range_succ, sum_range_zero, zero_add]
  have a0 := le_abs_self (r 0 - π 0)
  have a1 := le_abs_self (r 1 - π 1)
  have a2 := le_abs_self (r 2 - π 2)
  linarith [main.1]

/-- Two vertices joined by an edge: the hypotheses of `delta_partial` can be met, including the last one. -/
def pair : Gr Unit := Gr.ofLists [[(1, ())], [(0, ())]] [[(1, ())], [(0, ())]]

theorem pair_once : pair.Once := by
  have : ∀ v, (pair.fwd v).Nodup := by
    intro v
    match v with
    | 0 => decide
    | 1 => decide
    | v + 2 => exact List.nodup_nil
  exact ⟨this, this⟩

example : ∃ r, PageRankDelta pair 1 (1 / 1000000) (1 / 100) 100 r ∧ ∀ i < 2, r i = 1 / 2 := by
  have hG : pair.Ok := Gr.ofLists_ok (by decide)
  obtain ⟨r, hr⟩ := delta_exists hG pair_once 0 (1 / 1000000) (1 / 100) 100
  refine ⟨r, hr, ?_⟩
  have n2 : pair.n = 2 := rfl
  have f0 : pair.fwd 0 = [(1, ())] := rfl
  have f1 : pair.fwd 1 = [(0, ())] := rfl
  have := (delta_partial hG pair_once (by decide) (by decide) (by norm_num) (by norm_num) hr).2.2.2 ⟨fun d hd => ?_, fun d _ => by positivity, ?_⟩
  · rw [n2] at this; simpa using this
  · rw [n2] at hd ⊢
    interval_cases d <;> · unfold step; rw [n2]; norm_num [sum_range_succ, f0, f1, mult]
  · rw [n2]; norm_num [sum_range_succ]

end Gbbs.PageRank
