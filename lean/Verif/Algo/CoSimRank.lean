/-
`CoSimRank_edgeMap` and `CoSimRank`, `benchmarks/CoSimRank/CoSimRank.h:9-219`. Doubles are modelled by exact rationals.
-/
import Verif.Algo.PageRank
import Mathlib.Algebra.Order.Archimedean.Basic

namespace Gbbs.CoSim

open Gbbs.Em Gbbs.PageRank Finset
open Conc Conc.Prog
open Atomics (Steps)

variable {W : Type}

/-! ### Specification -/

/-- One step of a walk along the edges: the mass of a vertex is divided among its out-edges. -/
def walk (G : Gr W) (p : Nat → ℚ) (d : Nat) : ℚ := ∑ s ∈ range G.n, mult G s d * (p s / (G.fwd s).length)

/-- All mass on one vertex. -/
def pt (v : Nat) : Nat → ℚ := fun i => if i = v then 1 else 0

/-- The inner product of the distributions of the walks from `u` and `v` after `k` steps. -/
def term (G : Gr W) (u v k : Nat) : ℚ := ∑ d ∈ range G.n, (walk G)^[k] (pt u) d * (walk G)^[k] (pt v) d

/-- CoSimRank of `u` and `v` with decay `c`, up to the `K`-th term of the series. -/
def cosim (G : Gr W) (c : ℚ) (u v K : Nat) : ℚ := ∑ k ∈ range (K + 1), c ^ k * term G u v k

/-- The stopping criterion of the code after `j + 1` steps: both distributions moved by less than `eps`. -/
def Conv (G : Gr W) (eps : ℚ) (u v j : Nat) : Prop :=
  l1 G.n ((walk G)^[j] (pt v)) ((walk G)^[j + 1] (pt v)) < eps ∧ l1 G.n ((walk G)^[j] (pt u)) ((walk G)^[j + 1] (pt u)) < eps

/-! ### Model of `CoSimRank_edgeMap` -/

/-- `edgeMap(G, Frontier, Co_PR_F, 0)`, `CoSimRank.h:69-74` and `edge_map_data.h:136-183` with threshold 0 and no flags: if the frontier
has no out-edges, the empty subset is returned; else the traversal is `edgeMapDense`, whatever the representation of the frontier
(`m + out_degrees > 0`). `Co_PR_F` (`:9-28`) is the struct `PR_F` of PageRank. `curr` and `next` are `p_curr` and `p_next`, `nx` is `p_next`
afterwards, `inF'` the next frontier. The threads may be interleaved in any way. -/
inductive EM (G : Gr W) (f : Nat) (curr next : Nat → ℚ) (inF : Nat → Bool) : (Nat → ℚ) → (Nat → Bool) → Prop
  | none (h : ∀ s < G.n, inF s = true → G.fwd s = []) : EM G f curr next inF next fun _ => false
  | dense (m' : Bool × Nat → ℚ) (out : Nat × Nat → List (Nat × Unit)) (o : List (Nat × Unit))
      (h : Steps Step (⟨mem2 curr next, denseProg (accF f (prK G)) G inF false⟩ : Conf (Nat × Nat) (Bool × Nat) ℚ (List (Nat × Unit)))
        ⟨m', fun i => ret (out i)⟩) (hc : Collect out o) :
      EM G f curr next inF (fun i => m' (true, i)) fun v => decide (v ∈ o.map Prod.fst)

/-- `p_curr`, `p_next` and the frontier of one of the two vertices. -/
structure Side where
  curr : Nat → ℚ
  next : Nat → ℚ
  inF : Nat → Bool

/-- `inner_product`, `CoSimRank.h:30-35`. -/
def inner (n : Nat) (p q : Nat → ℚ) : ℚ := ((List.range n).map fun i => p i * q i).sum

/-- The printed similarity, and `p_next_v`, `p_next_u` when their maxima are printed (`CoSimRank.h:103-107`). -/
structure Res where
  sim : ℚ
  nextV : Nat → ℚ
  nextU : Nat → ℚ

/-- The loop, `CoSimRank.h:66-101`, with `k` iterations left; `i` iterations were made before. -/
inductive Loop (G : Gr W) (f : Nat) (eps c : ℚ) : Nat → Nat → Side → Side → ℚ → Res → Prop
  | out (i sv su sim) : Loop G f eps c 0 i sv su sim ⟨sim, sv.next, su.next⟩
  | conv (k i sv su sim nv Fv nu Fu) (hv : EM G f sv.curr sv.next sv.inF nv Fv) (hu : EM G f su.curr su.next su.inF nu Fu)
      (hc : norm G.n sv.curr nv < eps ∧ norm G.n su.curr nu < eps) :
      Loop G f eps c (k + 1) i sv su sim ⟨sim + c ^ (i + 1) * inner G.n nu nv, nv, nu⟩
  | more (k i sv su sim nv Fv nu Fu r) (hv : EM G f sv.curr sv.next sv.inF nv Fv) (hu : EM G f su.curr su.next su.inF nu Fu)
      (hc : ¬ (norm G.n sv.curr nv < eps ∧ norm G.n su.curr nu < eps))
      (h : Loop G f eps c k (i + 1) ⟨nv, fun _ => 0, Fv⟩ ⟨nu, fun _ => 0, Fu⟩ (sim + c ^ (i + 1) * inner G.n nu nv) r) :
      Loop G f eps c (k + 1) i sv su sim r

/-- The arrays of one vertex at the start, `CoSimRank.h:42-62`. -/
def side0 (v : Nat) : Side := ⟨pt v, fun _ => 0, fun i => decide (i = v)⟩

/-- `CoSimRank_edgeMap(G, v, u, eps, c, max_iters)`, `CoSimRank.h:37-108`. -/
def CoSimEM (G : Gr W) (f : Nat) (eps c : ℚ) (maxIters v u : Nat) (r : Res) : Prop :=
  Loop G f eps c maxIters 0 (side0 v) (side0 u) (if u = v then 1 else 0) r

/-! ### One traversal -/

/-- The rely-guarantee conditions that ask nothing. -/
def anyRG (ι L V : Type) : RG ι Unit L V where
  Inv _ _ := True
  R _ _ _ := True
  Gu _ _ _ := True
  refl _ _ := trivial
  trans _ _ _ _ _ _ := trivial
  compat _ _ _ _ _ _ := trivial

/-- A thread over the in-edges of `v` emits `v` if one of them comes from the frontier. -/
theorem denseRun_emits (G : Gr W) (f : Nat) (inF : Nat → Bool) (v : Nat) (i : Nat × Nat) (us : List (Nat × W)) (l : List (Nat × Unit)) :
    Safe (anyRG (Nat × Nat) (Bool × Nat) ℚ) i (fun _ l' => ((∃ x ∈ us, inF x.1 = true) ∨ (v, ()) ∈ l) → (v, ()) ∈ l')
      (denseRun (accF f (prK G)) (accF f (prK G)).upd inF v us l) () := by
  induction us generalizing l with
  | nil =>
    intro _ _ h
    rcases h with ⟨x, hx, _⟩ | h
    · cases hx
    · exact h
  | cons a us ih =>
    show Safe _ i _ (if inF a.1 then _ else _) ()
    split
    · rename_i ha
      intro _ _ _ _
      refine ⟨(), trivial, trivial, fun _ _ _ _ => ⟨(), trivial, trivial, fun _ _ _ _ => ⟨(), trivial, trivial, fun _ _ _ _ => ⟨(), trivial, trivial, ?_⟩⟩⟩⟩
      refine (ih _).weaken fun l' _ h _ => h (Or.inr ?_)
      exact List.mem_cons_self
    · rename_i ha
      refine (ih l).weaken fun l' _ h h' => h ?_
      rcases h' with ⟨x, hx, h1⟩ | h'
      · rcases List.mem_cons.1 hx with rfl | hx
        · exact absurd h1 ha
        · exact Or.inl ⟨x, hx, h1⟩
      · exact Or.inr h'

/-- The next frontier contains every vertex with an edge from the frontier. -/
theorem em_frontier {G : Gr W} (hG : G.Ok) {f : Nat} {curr next nx : Nat → ℚ} {inF inF' : Nat → Bool} (h : EM G f curr next inF nx inF')
    {e : Edge W} (he : Active G inF e) : inF' e.d = true := by
  cases h with
  | none h =>
    have := h e.s (hG.bound _ _ _ he.2).1 he.1
    rw [Active, this] at he
    cases he.2
  | dense m' out o h hc =>
    obtain ⟨_, _, _, hp⟩ := safe_reach (anyRG (Nat × Nat) (Bool × Nat) ℚ)
      (fun i _ l => i.1 < G.n → i.2 = 0 → (∃ x ∈ G.bwd i.1, inF x.1 = true) → (i.1, ()) ∈ l) h () trivial (by
        rintro ⟨v, b⟩
        show Safe _ _ _ (denseProg (accF f (prK G)) G inF false (v, b)) ()
        unfold denseProg
        dsimp only
        by_cases hv : v < G.n
        · rw [if_pos hv, if_pos (by simp)]
          by_cases hb : b = 0
          · rw [if_pos hb]
            exact (denseRun_emits G f inF v (v, b) (G.bwd v) []).weaken fun l _ h _ _ h1 => h (Or.inl h1)
          · rw [if_neg hb]
            exact fun _ _ _ h => absurd h hb
        · rw [if_neg hv]
          exact fun _ _ h => absurd h hv)
    have h1 := hp (e.d, 0) _ rfl (hG.bound _ _ _ he.2).2 rfl ⟨(e.s, e.w), (hG.same _ _ _).1 he.2, he.1⟩
    obtain ⟨y, hy⟩ := hc.all _ _ _ h1
    exact decide_eq_true (List.mem_map.2 ⟨_, hy, rfl⟩)

theorem sumTo_sub (G : Gr W) (inF : Nat → Bool) (v : Nat → ℚ) (hv : ∀ s < G.n, inF s = false → v s = 0) (d : Nat) :
    sumTo (activeEdges G inF) (fun e => v e.s) (fun _ => True) d = sumTo (activeEdges G fun _ => true) (fun e => v e.s) (fun _ => True) d := by
  unfold sumTo activeEdges
  rw [List.filter_true]
  have : ∀ s ∈ List.range G.n, inF s = false → v s = 0 := fun s hs => hv s (List.mem_range.1 hs)
  revert this
  induction List.range G.n with
  | nil => intro _; rfl
  | cons a l ih =>
    intro h
    have ih := ih fun s hs => h s (List.mem_cons_of_mem _ hs)
    rw [List.flatMap_cons, List.map_append, List.sum_append, ← ih]
    by_cases ha : inF a = true
    · rw [List.filter_cons_of_pos ha, List.flatMap_cons, List.map_append, List.sum_append]
    · rw [List.filter_cons_of_neg ha]
      have h0 := h a List.mem_cons_self (by simpa using ha)
      rw [List.sum_eq_zero (l := List.map _ (List.map _ (G.fwd a))), zero_add]
      intro x hx
      obtain ⟨e, he, rfl⟩ := List.mem_map.1 hx
      obtain ⟨y, _, rfl⟩ := List.mem_map.1 he
      simp [h0]

/-- A traversal computes a step of the walk if the frontier contains all vertices with mass; and then so does the next frontier. -/
theorem em_walk {G : Gr W} (hG : G.Ok) (hO : G.Once) {f : Nat} {curr nx : Nat → ℚ} {inF inF' : Nat → Bool}
    (h : EM G f curr (fun _ => 0) inF nx inF') (hF : ∀ s < G.n, inF s = false → curr s = 0) :
    (∀ d, nx d = walk G curr d) ∧ ∀ d, inF' d = false → nx d = 0 := by
  have h1 : ∀ d, nx d = walk G curr d := by
    cases h with
    | none h =>
      intro d
      refine (Finset.sum_eq_zero fun s hs => ?_).symm
      by_cases hs' : inF s = true
      · simp [h s (mem_range.1 hs) hs']
      · simp [hF s (mem_range.1 hs) (by simpa using hs')]
    | dense m' out o h hc =>
      intro d
      have hS : (prK G).Sep (activeEdges G inF) :=
        ⟨fun d d' h => (Prod.ext_iff.1 h).2, fun e e' _ _ _ _ h => by cases (Prod.ext_iff.1 h).1⟩
      have h1 := (acc_round G hG hO inF hS ⟨_, .dense false, out, h, hc⟩).1 d
      have h1 : m' (true, d) = 0 + sumTo (activeEdges G inF) (fun e => curr e.s / (G.fwd e.s).length) (fun e => true = true) d := h1
      have h2 := sumTo_edges G (fun s => curr s / (G.fwd s).length) d
      have h3 := sumTo_sub G inF (fun s => curr s / (G.fwd s).length) (fun s hs h => by simp [hF s hs h]) d
      simp only at h1
      show m' (true, d) = _
      rw [h1, zero_add, h3, h2]; rfl
  refine ⟨h1, fun d hd => ?_⟩
  rw [h1]
  refine Finset.sum_eq_zero fun s hs => ?_
  by_cases hs' : inF s = true
  · have : mult G s d = 0 := by
      unfold mult
      rw [List.countP_eq_zero]
      intro x hx
      simp only [decide_eq_true_eq]
      rintro rfl
      have := em_frontier hG h (e := ⟨s, x.1, x.2⟩) ⟨hs', hx⟩
      rw [hd] at this; cases this
    simp [this]
  · simp [hF s (mem_range.1 hs) (by simpa using hs')]

/-! ### The loop -/

theorem walk_congr {G : Gr W} {p q : Nat → ℚ} (h : ∀ i < G.n, p i = q i) (d : Nat) : walk G p d = walk G q d :=
  sum_congr rfl fun s hs => by rw [h s (mem_range.1 hs)]

theorem inner_eq (n : Nat) (p q : Nat → ℚ) : inner n p q = ∑ i ∈ range n, p i * q i := sum_range_list _ _

theorem cosim_succ (G : Gr W) (c : ℚ) (u v K : Nat) : cosim G c u v (K + 1) = cosim G c u v K + c ^ (K + 1) * term G u v (K + 1) :=
  sum_range_succ _ _

theorem cosim_zero {G : Gr W} (c : ℚ) {u v : Nat} (hu : u < G.n) : cosim G c u v 0 = if u = v then 1 else 0 := by
  simp only [cosim, zero_add, range_one, sum_singleton, pow_zero, one_mul, term, Function.iterate_zero, id_eq, pt]
  rw [sum_eq_single u]
  · simp
  · intro b _ hb; simp [hb]
  · intro h; exact absurd (mem_range.2 hu) h

/-- How a run ends. -/
structure Ends (G : Gr W) (eps c : ℚ) (maxIters v u K : Nat) (r : Res) : Prop where
  le : K ≤ maxIters
  sim : r.sim = cosim G c u v K
  no : ∀ j, j + 1 < K → ¬ Conv G eps u v j
  last : (∃ j, K = j + 1 ∧ Conv G eps u v j ∧ (∀ i, r.nextV i = (walk G)^[K] (pt v) i) ∧ ∀ i, r.nextU i = (walk G)^[K] (pt u) i) ∨
    (K = maxIters ∧ (∀ j, j < K → ¬ Conv G eps u v j) ∧ (∀ i, r.nextV i = 0) ∧ ∀ i, r.nextU i = 0)

theorem loop_ends {G : Gr W} (hG : G.Ok) (hO : G.Once) {f : Nat} {eps c : ℚ} {u v : Nat} {k i : Nat} {sv su : Side} {sim : ℚ} {r : Res}
    (h : Loop G f eps c k i sv su sim r) (hv : ∀ d, sv.curr d = (walk G)^[i] (pt v) d) (hu : ∀ d, su.curr d = (walk G)^[i] (pt u) d)
    (nv : sv.next = fun _ => 0) (nu : su.next = fun _ => 0)
    (fv : ∀ d, sv.inF d = false → sv.curr d = 0) (fu : ∀ d, su.inF d = false → su.curr d = 0)
    (hs : sim = cosim G c u v i) (hno : ∀ j, j < i → ¬ Conv G eps u v j) : ∃ K, Ends G eps c (i + k) v u K r := by
  have step : ∀ {s : Side} {w : Nat} {nx : Nat → ℚ} {F : Nat → Bool} {i : Nat}, EM G f s.curr s.next s.inF nx F → (s.next = fun _ => 0) →
      (∀ d, s.curr d = (walk G)^[i] (pt w) d) → (∀ d, s.inF d = false → s.curr d = 0) →
      (∀ d, nx d = (walk G)^[i + 1] (pt w) d) ∧ ∀ d, F d = false → nx d = 0 := by
    intro s w nx F i h hn hc hf
    rw [hn] at h
    obtain ⟨h1, h2⟩ := em_walk hG hO h fun s _ => hf s
    refine ⟨fun d => ?_, h2⟩
    rw [h1, Function.iterate_succ_apply']
    exact walk_congr (fun i _ => hc i) d
  induction h with
  | out i sv su sim =>
    refine ⟨i, le_rfl, hs, fun j hj => hno j (by omega), Or.inr ⟨rfl, hno, ?_, ?_⟩⟩
    · intro i; show sv.next i = 0; rw [nv]
    · intro i; show su.next i = 0; rw [nu]
  | conv k i sv su sim pv Fv pu Fu h1 h2 hc =>
    obtain ⟨a1, -⟩ := step h1 nv hv fv
    obtain ⟨b1, -⟩ := step h2 nu hu fu
    rw [norm_eq, norm_eq, l1_congr (fun i _ => hv i) (fun i _ => a1 i), l1_congr (fun i _ => hu i) (fun i _ => b1 i)] at hc
    refine ⟨i + 1, by omega, ?_, fun j hj => hno j (by omega), Or.inl ⟨i, rfl, hc, a1, b1⟩⟩
    show sim + _ = _
    rw [cosim_succ, hs, inner_eq, term]
    simp only [a1, b1]
  | more k i sv su sim pv Fv pu Fu r h1 h2 hc _ ih =>
    obtain ⟨a1, a2⟩ := step h1 nv hv fv
    obtain ⟨b1, b2⟩ := step h2 nu hu fu
    rw [norm_eq, norm_eq, l1_congr (fun i _ => hv i) (fun i _ => a1 i), l1_congr (fun i _ => hu i) (fun i _ => b1 i)] at hc
    have := ih a1 b1 rfl rfl a2 b2 (by
      rw [cosim_succ, hs, inner_eq, term]
      simp only [a1, b1]) (fun j hj => by
      rcases Nat.lt_succ_iff_lt_or_eq.1 hj with h | rfl
      · exact hno j h
      · exact hc)
    rwa [show i + 1 + k = i + (k + 1) by omega] at this

/-- C114, the part that holds: whatever the interleavings, the similarity printed by `CoSimRank_edgeMap` is the series cut off after term
`K`, where `K` is the first number of steps after which both distributions moved by less than `eps`, or `max_iters`. -/
theorem cosimEM_partial {G : Gr W} (hG : G.Ok) (hO : G.Once) {f : Nat} {eps c : ℚ} {maxIters v u : Nat} (hu : u < G.n) {r : Res}
    (h : CoSimEM G f eps c maxIters v u r) : ∃ K, Ends G eps c maxIters v u K r := by
  have := loop_ends (u := u) (v := v) hG hO h (fun _ => rfl) (fun _ => rfl) rfl rfl (fun d hd => by
    have : d ≠ v := by simpa [side0] using hd
    simp [side0, pt, this]) (fun d hd => by
    have : d ≠ u := by simpa [side0] using hd
    simp [side0, pt, this]) (cosim_zero c hu).symm (fun j hj => absurd hj (Nat.not_lt_zero _))
  rwa [Nat.zero_add] at this

/-! ### The series -/

theorem mult_sum_le {G : Gr W} (hG : G.Ok) (s : Nat) : ∑ d ∈ range G.n, (mult G s d : ℚ) / (G.fwd s).length ≤ 1 := by
  rw [← sum_div, ← Nat.cast_sum, sum_mult hG]
  exact div_self_le_one _

/-- A walk keeps masses nonnegative and adds none. -/
theorem walk_sub {G : Gr W} (hG : G.Ok) {p : Nat → ℚ} (hp : ∀ i < G.n, 0 ≤ p i) :
    (∀ d, 0 ≤ walk G p d) ∧ ∑ d ∈ range G.n, walk G p d ≤ ∑ d ∈ range G.n, p d := by
  refine ⟨fun d => sum_nonneg fun s hs => mul_nonneg (by positivity) (div_nonneg (hp s (mem_range.1 hs)) (by positivity)), ?_⟩
  unfold walk
  rw [sum_comm]
  refine sum_le_sum fun s hs => ?_
  have : ∑ d ∈ range G.n, (mult G s d : ℚ) * (p s / (G.fwd s).length) = p s * ∑ d ∈ range G.n, (mult G s d : ℚ) / (G.fwd s).length := by
    rw [mul_sum]
    exact sum_congr rfl fun d _ => by ring
  rw [this]
  exact mul_le_of_le_one_right (hp s (mem_range.1 hs)) (mult_sum_le hG s)

theorem iter_sub {G : Gr W} (hG : G.Ok) (v k : Nat) :
    (∀ d, 0 ≤ (walk G)^[k] (pt v) d) ∧ ∑ d ∈ range G.n, (walk G)^[k] (pt v) d ≤ 1 := by
  induction k with
  | zero =>
    refine ⟨fun d => ?_, ?_⟩
    · show 0 ≤ pt v d
      unfold pt; split <;> norm_num
    · show ∑ d ∈ range G.n, pt v d ≤ 1
      unfold pt
      rw [sum_ite_eq']
      split <;> norm_num
  | succ k ih =>
    rw [Function.iterate_succ_apply']
    obtain ⟨h1, h2⟩ := walk_sub hG fun i _ => ih.1 i
    exact ⟨h1, h2.trans ih.2⟩

theorem term_bound {G : Gr W} (hG : G.Ok) (u v k : Nat) : 0 ≤ term G u v k ∧ term G u v k ≤ 1 := by
  obtain ⟨h1, h2⟩ := iter_sub hG u k
  obtain ⟨h3, h4⟩ := iter_sub hG v k
  refine ⟨sum_nonneg fun d _ => mul_nonneg (h1 d) (h3 d), ?_⟩
  refine (sum_le_sum fun d hd => ?_).trans h2
  have : (walk G)^[k] (pt v) d ≤ 1 := (single_le_sum (f := fun d => (walk G)^[k] (pt v) d) (fun i _ => h3 i) hd).trans h4
  exact mul_le_of_le_one_right (h1 d) this

/-- Cutting off the series after term `K` loses at most `c^(K+1) / (1 - c)`. -/
theorem cosim_tail {G : Gr W} (hG : G.Ok) {c : ℚ} (h0 : 0 ≤ c) (h1 : c < 1) (u v K N : Nat) (hN : K ≤ N) :
    cosim G c u v K ≤ cosim G c u v N ∧ cosim G c u v N ≤ cosim G c u v K + (c ^ (K + 1) - c ^ (N + 1)) / (1 - c) := by
  induction N, hN using Nat.le_induction with
  | base => simp
  | succ N _ ih =>
    rw [cosim_succ]
    obtain ⟨h2, h3⟩ := term_bound hG u v (N + 1)
    have h4 : 0 ≤ c ^ (N + 1) := pow_nonneg h0 _
    refine ⟨ih.1.trans (le_add_of_nonneg_right (mul_nonneg h4 h2)), ?_⟩
    have h5 : c ^ (N + 1) * term G u v (N + 1) ≤ c ^ (N + 1) := mul_le_of_le_one_right h4 h3
    have h6 : (c ^ (K + 1) - c ^ (N + 1 + 1)) / (1 - c) = (c ^ (K + 1) - c ^ (N + 1)) / (1 - c) + c ^ (N + 1) := by
      have : 1 - c ≠ 0 := by linarith
      field_simp
      ring
    rw [h6]
    linarith [ih.2]

/-- C114: without early stops (`eps = 0`), the result is below every longer sum by less than `c^(max_iters+1) / (1 - c)`; for the defaults
`c = 0.85` and 100 iterations, by less than `10^-6`. -/
theorem cosimEM_near {G : Gr W} (hG : G.Ok) (hO : G.Once) {f : Nat} {c : ℚ} (h0 : 0 ≤ c) (h1 : c < 1) {maxIters v u : Nat} (hu : u < G.n)
    {r : Res} (h : CoSimEM G f 0 c maxIters v u r) (N : Nat) (hN : maxIters ≤ N) :
    r.sim ≤ cosim G c u v N ∧ cosim G c u v N ≤ r.sim + c ^ (maxIters + 1) / (1 - c) := by
  obtain ⟨K, hK⟩ := cosimEM_partial hG hO hu h
  rcases hK.last with ⟨j, _, hc, _⟩ | ⟨rfl, _⟩
  · exact absurd hc.1 (not_lt.2 (l1_nonneg _ _ _))
  · obtain ⟨h2, h3⟩ := cosim_tail hG h0 h1 u v K N hN
    rw [hK.sim]
    refine ⟨h2, h3.trans (add_le_add_right (div_le_div_of_nonneg_right ?_ (by linarith)) _)⟩
    have : 0 ≤ c ^ (N + 1) := pow_nonneg h0 _
    linarith

theorem default_bound : ((17 / 20 : ℚ) ^ 101) / (1 - 17 / 20) < 1 / 1000000 := by norm_num

/-! ### Runs exist -/

theorem steps_trans {ι L V α : Type} [DecidableEq ι] [DecidableEq L] [DecidableEq V] {a b d : Conf ι L V α} (h1 : Steps Step a b)
    (h2 : Steps Step b d) : Steps Step a d := by
  induction h2 with
  | refl => exact h1
  | tail _ hs ih => exact ih.tail hs

theorem denseRun_total (G : Gr W) (f : Nat) (inF : Nat → Bool) (v : Nat) (us : List (Nat × W)) (l : List (Nat × Unit)) (m : Bool × Nat → ℚ) :
    ∃ r, exec (denseRun (accF f (prK G)) (accF f (prK G)).upd inF v us l) m = some r := by
  induction us generalizing l m with
  | nil => exact ⟨_, rfl⟩
  | cons a us ih =>
    show ∃ r, exec (if inF a.1 then _ else _) m = some r
    split
    · exact ih _ _
    · exact ih _ _

theorem dense_exists (G : Gr W) (f : Nat) (inF : Nat → Bool) (m : Bool × Nat → ℚ) :
    ∃ (m' : Bool × Nat → ℚ) (out : Nat × Nat → List (Nat × Unit)),
    Steps Step (⟨m, denseProg (accF f (prK G)) G inF false⟩ : Conf (Nat × Nat) (Bool × Nat) ℚ (List (Nat × Unit))) ⟨m', fun i => ret (out i)⟩ ∧
      ∀ i : Nat × Nat, ¬ (i.1 < G.n ∧ i.2 = 0) → out i = [] := by
  have hp : ∀ v, v < G.n → denseProg (accF f (prK G)) G inF false (v, 0) =
      denseRun (accF f (prK G)) (accF f (prK G)).upd inF v (G.bwd v) [] := by
    intro v hv; unfold denseProg; simp [hv]
  have hq : ∀ i : Nat × Nat, ¬ (i.1 < G.n ∧ i.2 = 0) → denseProg (accF f (prK G)) G inF false i = ret [] := by
    rintro ⟨v, b⟩ h
    unfold denseProg
    by_cases hv : v < G.n
    · have hb : ¬ b = 0 := fun hb => h ⟨hv, hb⟩
      simp [hv, hb]
    · simp [hv]
  have key : ∀ k ≤ G.n, ∃ (m' : Bool × Nat → ℚ) (out : Nat × Nat → List (Nat × Unit)), Steps Step
      (⟨m, denseProg (accF f (prK G)) G inF false⟩ : Conf (Nat × Nat) (Bool × Nat) ℚ (List (Nat × Unit)))
      ⟨m', fun i => if i.1 < k ∧ i.2 = 0 then ret (out i) else denseProg (accF f (prK G)) G inF false i⟩ := by
    intro k
    induction k with
    | zero =>
      intro _
      refine ⟨m, fun _ => [], ?_⟩
      simp only [Nat.not_lt_zero, false_and, if_false]
      exact Steps.refl _
    | succ k ih =>
      intro hk
      obtain ⟨m', out, h1⟩ := ih (by omega)
      obtain ⟨⟨l, m''⟩, h2⟩ := denseRun_total G f inF k (G.bwd k) [] m'
      have h3 := exec_steps _ ((k, 0) : Nat × Nat)
        (fun i => if i.1 < k ∧ i.2 = 0 then ret (out i) else denseProg (accF f (prK G)) G inF false i) h2
      refine ⟨m'', fun i => if i = (k, 0) then l else out i, steps_trans h1 ?_⟩
      convert h3 using 2
      · funext i
        by_cases hi : i = (k, 0)
        · subst hi; simp [hp k hk]
        · rw [if_neg hi]
      · funext i
        obtain ⟨a, b⟩ := i
        by_cases hi : (a, b) = (k, 0)
        · rw [if_pos hi]
          obtain ⟨rfl, rfl⟩ := Prod.mk.inj hi
          simp
        · rw [if_neg hi]
          have : (a < k + 1 ∧ b = 0) ↔ (a < k ∧ b = 0) := by
            constructor
            · rintro ⟨h, rfl⟩
              refine ⟨?_, rfl⟩
              rcases Nat.lt_succ_iff_lt_or_eq.1 h with h | rfl
              · exact h
              · exact absurd rfl hi
            · rintro ⟨h, rfl⟩; exact ⟨by omega, rfl⟩
          simp only [this, hi, if_false]
  obtain ⟨m', out, h⟩ := key G.n le_rfl
  refine ⟨m', fun i => if i.1 < G.n ∧ i.2 = 0 then out i else [], ?_, fun i hi => if_neg hi⟩
  convert h using 2
  funext i
  by_cases hi : i.1 < G.n ∧ i.2 = 0
  · simp only [hi, and_self, if_true]
  · rw [if_neg hi, hq i hi]
    simp only [hi, if_false]

theorem em_exists (G : Gr W) (f : Nat) (curr next : Nat → ℚ) (inF : Nat → Bool) : ∃ nx F', EM G f curr next inF nx F' := by
  obtain ⟨m', out, h, hn⟩ := dense_exists G f inF (mem2 curr next)
  refine ⟨_, _, .dense m' out (((List.range G.n).flatMap fun v => out (v, 0)).dedup) h ⟨fun x hx => ?_, fun i d x hx => ⟨x, ?_⟩, fun _ _ => ?_⟩⟩
  · obtain ⟨v, _, hv⟩ := List.mem_flatMap.1 (List.mem_dedup.1 hx)
    exact ⟨_, hv⟩
  · by_cases hi : i.1 < G.n ∧ i.2 = 0
    · refine List.mem_dedup.2 (List.mem_flatMap.2 ⟨i.1, List.mem_range.2 hi.1, ?_⟩)
      rwa [← hi.2]
    · rw [hn i hi] at hx; cases hx
  · exact (List.nodup_dedup _).map fun a b h => Prod.ext h rfl

/-- Runs exist. -/
theorem cosimEM_exists (G : Gr W) (f : Nat) (eps c : ℚ) (maxIters v u : Nat) : ∃ r, CoSimEM G f eps c maxIters v u r := by
  have key : ∀ k i sv su sim, ∃ r, Loop G f eps c k i sv su sim r := by
    intro k
    induction k with
    | zero => exact fun i sv su sim => ⟨_, .out i sv su sim⟩
    | succ k ih =>
      intro i sv su sim
      obtain ⟨nv, Fv, hv⟩ := em_exists G f sv.curr sv.next sv.inF
      obtain ⟨nu, Fu, hu⟩ := em_exists G f su.curr su.next su.inF
      by_cases hc : norm G.n sv.curr nv < eps ∧ norm G.n su.curr nu < eps
      · exact ⟨_, .conv k i sv su sim nv Fv nu Fu hv hu hc⟩
      · obtain ⟨r, hr⟩ := ih (i + 1) ⟨nv, fun _ => 0, Fv⟩ ⟨nu, fun _ => 0, Fu⟩ (sim + c ^ (i + 1) * inner G.n nu nv)
        exact ⟨r, .more k i sv su sim nv Fv nu Fu r hv hu hc hr⟩
  exact key _ _ _ _ _

theorem Ends.unique {G : Gr W} {eps c : ℚ} {maxIters v u K K' : Nat} {r r' : Res} (h : Ends G eps c maxIters v u K r)
    (h' : Ends G eps c maxIters v u K' r') : K = K' := by
  have main : ∀ {K K' : Nat} {r r' : Res}, Ends G eps c maxIters v u K r → Ends G eps c maxIters v u K' r' → ¬ K < K' := by
    intro K K' r r' h h' hlt
    rcases h.last with ⟨j, rfl, hc, _⟩ | ⟨rfl, _⟩
    · exact h'.no j hlt hc
    · exact absurd h'.le (by omega)
  exact le_antisymm (not_lt.1 (main h' h)) (not_lt.1 (main h h'))

/-! ### Model of `CoSimRank`

Values may be infinite or NaN (`none`), as in the model of `PageRank`. -/

def fmul (a b : Fl) : Fl := a.bind fun x => b.map fun y => x * y

/-- `map_f`, `reduce_f`, `apply_f` for vertex `i` of `edgeMapReduce_dense(Frontier, ..., 0.0, 0)`, `CoSimRank.h:153-171, 181-185` and
`edge_map_reduce.h:325-350`: without the flag `in_edges` the neighbours are the out-neighbours of `i`. The frontier plays no role. -/
def nextOf2 (G : Gr W) (curr : Nat → Fl) (i : Nat) : Fl := fsum ((G.fwd i).map fun x => fdiv (curr x.1) (G.fwd x.1).length)

/-- `inner_product`, `CoSimRank.h:30-35`. -/
def inner2 (n : Nat) (p q : Nat → Fl) : Fl := fsum ((List.range n).map fun i => fmul (p i) (q i))

/-- `L1_norm`, `CoSimRank.h:194-206`; the elements of `p_curr` are zeroed as they are read. -/
def norm2 (n : Nat) (p q : Nat → Fl) : Fl := fsum ((List.range n).map fun i => fdist (p i) (q i))

/-- What `CoSimRank` prints. -/
structure Res2 where
  sim : Fl
  nextV : Nat → Fl
  nextU : Nat → Fl

/-- The loop of `CoSimRank`, `CoSimRank.h:175-213`, with `k` iterations left, after `i` iterations. -/
def loop2 (G : Gr W) (eps c : ℚ) : Nat → Nat → (Nat → Fl) → (Nat → Fl) → (Nat → Fl) → (Nat → Fl) → Fl → Res2
  | 0, _, _, _, nv, nu, sim => ⟨sim, nv, nu⟩
  | k + 1, i, cv, cu, _, _, sim =>
    if fless (norm2 G.n cv (nextOf2 G cv)) eps && fless (norm2 G.n cu (nextOf2 G cu)) eps then
      ⟨fadd sim ((inner2 G.n (nextOf2 G cu) (nextOf2 G cv)).map fun x => c ^ (i + 1) * x), nextOf2 G cv, nextOf2 G cu⟩
    else loop2 G eps c k (i + 1) (nextOf2 G cv) (nextOf2 G cu) (fun _ => some 0) (fun _ => some 0)
      (fadd sim ((inner2 G.n (nextOf2 G cu) (nextOf2 G cv)).map fun x => c ^ (i + 1) * x))

/-- `CoSimRank(G, v, u, eps, c, max_iters)`, `CoSimRank.h:110-219`. -/
def cosim2 (G : Gr W) (eps c : ℚ) (maxIters v u : Nat) : Res2 :=
  loop2 G eps c maxIters 0 (fun i => some (pt v i)) (fun i => some (pt u i)) (fun _ => some 0) (fun _ => some 0)
    (some (if u = v then 1 else 0))

theorem nextOf2_walk {G : Gr W} (hG : G.Ok) (hs : Sym G) {cv : Nat → Fl} {p : Nat → ℚ} (hc : ∀ i, cv i = some (p i)) (i : Nat) :
    nextOf2 G cv i = some (walk G p i) := by
  have h2 : nextOf2 G cv i = some ((G.fwd i).map fun x => p x.1 / (G.fwd x.1).length).sum := by
    refine fsum_some _ _ _ fun x hx => ?_
    have h3 := hs i x.1
    have h4 : 0 < mult G i x.1 := by
      unfold mult
      rw [List.countP_pos_iff]
      exact ⟨x, hx, by simp⟩
    have h5 : mult G x.1 i ≤ (G.fwd x.1).length := List.countP_le_length
    rw [hc, fdiv]
    simp only [Option.bind_some]
    rw [if_neg (by omega)]
  rw [h2, sum_nbrs hG i fun s => p s / (G.fwd s).length]
  unfold walk
  rw [sum_congr rfl fun s _ => by rw [hs i s]]

theorem inner2_eq {n : Nat} {a b : Nat → Fl} {p q : Nat → ℚ} (ha : ∀ i, a i = some (p i)) (hb : ∀ i, b i = some (q i)) :
    inner2 n a b = some (∑ i ∈ range n, p i * q i) := by
  unfold inner2
  rw [fsum_some _ _ (fun i => p i * q i) fun i _ => by rw [ha, hb]; rfl, sum_range_list]

theorem norm2_eq' {n : Nat} {a b : Nat → Fl} {p q : Nat → ℚ} (ha : ∀ i, a i = some (p i)) (hb : ∀ i, b i = some (q i)) :
    norm2 n a b = some (l1 n p q) := norm2_eq (fun i _ => ha i) (fun i _ => hb i)

theorem loop2_ends {G : Gr W} (hG : G.Ok) (hs : Sym G) {eps c : ℚ} {u v : Nat} (k i : Nat) (cv cu : Nat → Fl)
    (hv : ∀ d, cv d = some ((walk G)^[i] (pt v) d)) (hu : ∀ d, cu d = some ((walk G)^[i] (pt u) d))
    (hno : ∀ j, j < i → ¬ Conv G eps u v j) : ∃ K r, Ends G eps c (i + k) v u K r ∧
      loop2 G eps c k i cv cu (fun _ => some 0) (fun _ => some 0) (some (cosim G c u v i)) =
        ⟨some r.sim, fun d => some (r.nextV d), fun d => some (r.nextU d)⟩ := by
  induction k generalizing i cv cu with
  | zero => exact ⟨i, ⟨cosim G c u v i, fun _ => 0, fun _ => 0⟩, ⟨le_rfl, rfl, fun j hj => hno j (by omega),
      Or.inr ⟨rfl, hno, fun _ => rfl, fun _ => rfl⟩⟩, rfl⟩
  | succ k ih =>
    have a1 : ∀ d, nextOf2 G cv d = some ((walk G)^[i + 1] (pt v) d) := fun d => by
      rw [nextOf2_walk hG hs hv, Function.iterate_succ_apply']
    have b1 : ∀ d, nextOf2 G cu d = some ((walk G)^[i + 1] (pt u) d) := fun d => by
      rw [nextOf2_walk hG hs hu, Function.iterate_succ_apply']
    have hi : fadd (some (cosim G c u v i)) ((inner2 G.n (nextOf2 G cu) (nextOf2 G cv)).map fun x => c ^ (i + 1) * x) =
        some (cosim G c u v (i + 1)) := by
      rw [inner2_eq b1 a1, cosim_succ]; rfl
    have hn : (fless (norm2 G.n cv (nextOf2 G cv)) eps && fless (norm2 G.n cu (nextOf2 G cu)) eps) = true ↔ Conv G eps u v i := by
      rw [norm2_eq' hv a1, norm2_eq' hu b1, Bool.and_eq_true]
      simp only [fless, decide_eq_true_eq]
      rfl
    unfold loop2
    rw [hi]
    by_cases hc : Conv G eps u v i
    · rw [if_pos (hn.2 hc)]
      exact ⟨i + 1, ⟨cosim G c u v (i + 1), _, _⟩, ⟨by omega, rfl, fun j hj => hno j (by omega),
        Or.inl ⟨i, rfl, hc, fun _ => rfl, fun _ => rfl⟩⟩, by
          rw [funext a1, funext b1]; rfl⟩
    · rw [if_neg (fun h => hc (hn.1 h))]
      obtain ⟨K, r, h1, h2⟩ := ih (i + 1) _ _ a1 b1 (fun j hj => by
        rcases Nat.lt_succ_iff_lt_or_eq.1 hj with h | rfl
        · exact hno j h
        · exact hc)
      exact ⟨K, r, by rwa [show i + 1 + k = i + (k + 1) by omega] at h1, h2⟩

/-- C115, the part that holds: on symmetric graphs `CoSimRank` prints what `CoSimRank_edgeMap` prints. -/
theorem cosim2_partial {G : Gr W} (hG : G.Ok) (hO : G.Once) (hs : Sym G) {f : Nat} {eps c : ℚ} {maxIters v u : Nat} (hu : u < G.n) {r : Res}
    (h : CoSimEM G f eps c maxIters v u r) : cosim2 G eps c maxIters v u = ⟨some r.sim, fun d => some (r.nextV d), fun d => some (r.nextU d)⟩ := by
  obtain ⟨K, hK⟩ := cosimEM_partial hG hO hu h
  obtain ⟨K', r', h1, h2⟩ := loop2_ends (eps := eps) (c := c) (u := u) (v := v) hG hs maxIters 0 (fun i => some (pt v i)) (fun i => some (pt u i))
    (fun _ => rfl) (fun _ => rfl) (fun j hj => absurd hj (Nat.not_lt_zero _))
  rw [Nat.zero_add] at h1
  rw [cosim_zero c hu] at h2
  unfold cosim2
  rw [h2]
  have hKK := hK.unique h1
  subst hKK
  have e1 : r'.sim = r.sim := h1.sim.trans hK.sim.symm
  have e2 : r'.nextV = r.nextV ∧ r'.nextU = r.nextU := by
    rcases hK.last with ⟨j, rfl, hc, a1, a2⟩ | ⟨hm, hc, a1, a2⟩
    · rcases h1.last with ⟨j', _, _, b1, b2⟩ | ⟨_, hc', _⟩
      · exact ⟨funext fun i => (b1 i).trans (a1 i).symm, funext fun i => (b2 i).trans (a2 i).symm⟩
      · exact absurd hc (hc' j (by omega))
    · rcases h1.last with ⟨j', hj, hc', _⟩ | ⟨_, _, b1, b2⟩
      · exact absurd hc' (hc j' (by omega))
      · exact ⟨funext fun i => (b1 i).trans (a1 i).symm, funext fun i => (b2 i).trans (a2 i).symm⟩
  rw [e1, e2.1, e2.2]

/-! ### Where they fail -/

/-- The triangle. -/
def k3 : Gr Unit := Gr.ofLists [[(1, ()), (2, ())], [(0, ()), (2, ())], [(0, ()), (1, ())]] [[(1, ()), (2, ())], [(0, ()), (2, ())], [(0, ()), (1, ())]]

theorem k3_ok : k3.Ok := Gr.ofLists_ok (by decide)

theorem k3_once : k3.Once := by
  have : ∀ v, (k3.fwd v).Nodup := by
    intro v
    match v with
    | 0 => decide
    | 1 => decide
    | 2 => decide
    | v + 3 => exact List.nodup_nil
  exact ⟨this, this⟩

theorem k3_sym : Sym k3 := by
  intro s d
  have key : ∀ s d, (3 ≤ s ∨ 3 ≤ d) → mult k3 s d = 0 := by
    intro s d h
    unfold mult
    rw [List.countP_eq_zero]
    intro x hx
    have := k3_ok.bound s x.1 x.2 hx
    have h2 : k3.n = 3 := rfl
    simp only [decide_eq_true_eq]
    omega
  by_cases h : 3 ≤ s ∨ 3 ≤ d
  · rw [key s d h, key d s h.symm]
  · have h1 : s < 3 := by omega
    have h2 : d < 3 := by omega
    have : ∀ s < 3, ∀ d < 3, mult k3 s d = mult k3 d s := by decide
    exact this s h1 d h2

theorem k3_walk (k v i : Nat) (hv : v < 3) (hi : i < 3) :
    (walk k3)^[k] (pt v) i = 1 / 3 + (-1 / 2) ^ k * (if i = v then 2 / 3 else -1 / 3) := by
  have n3 : k3.n = 3 := rfl
  have f0 : k3.fwd 0 = [(1, ()), (2, ())] := rfl
  have f1 : k3.fwd 1 = [(0, ()), (2, ())] := rfl
  have f2 : k3.fwd 2 = [(0, ()), (1, ())] := rfl
  have hw : ∀ p : Nat → ℚ, walk k3 p 0 = p 1 / 2 + p 2 / 2 ∧ walk k3 p 1 = p 0 / 2 + p 2 / 2 ∧ walk k3 p 2 = p 0 / 2 + p 1 / 2 := by
    intro p
    unfold walk
    rw [n3]
    simp [sum_range_succ, f0, f1, f2, mult]
  induction k generalizing i with
  | zero =>
    show pt v i = _
    unfold pt
    split <;> norm_num
  | succ k ih =>
    rw [Function.iterate_succ_apply']
    obtain ⟨h0, h1, h2⟩ := hw ((walk k3)^[k] (pt v))
    rw [ih 1 (by omega), ih 2 (by omega)] at h0
    rw [ih 0 (by omega), ih 2 (by omega)] at h1
    rw [ih 0 (by omega), ih 1 (by omega)] at h2
    rw [pow_succ]
    interval_cases v <;> interval_cases i <;> first | (rw [h0]; norm_num; ring) | (rw [h1]; norm_num; ring) | (rw [h2]; norm_num; ring)

theorem k3_l1 (k v : Nat) (hv : v < 3) : l1 3 ((walk k3)^[k] (pt v)) ((walk k3)^[k + 1] (pt v)) = 2 * (1 / 2) ^ k := by
  unfold l1
  have : ∀ i < 3, |(walk k3)^[k] (pt v) i - (walk k3)^[k + 1] (pt v) i| = (1 / 2) ^ k * (if i = v then 1 else 1 / 2) := by
    intro i hi
    rw [k3_walk k v i hv hi, k3_walk (k + 1) v i hv hi]
    have : (1 / 3 + (-1 / 2) ^ k * (if i = v then 2 / 3 else -1 / 3) - (1 / 3 + (-1 / 2) ^ (k + 1) * (if i = v then 2 / 3 else -1 / 3)) : ℚ) =
        (-1 / 2) ^ k * (if i = v then 1 else -1 / 2) := by
      rw [pow_succ]; split <;> ring
    rw [this, abs_mul, abs_pow]
    congr 1
    · congr 1; norm_num [abs_of_neg]
    · split <;> norm_num [abs_of_neg]
  rw [sum_congr rfl fun i hi => this i (mem_range.1 hi)]
  interval_cases v <;> simp [sum_range_succ] <;> ring

theorem k3_term (k : Nat) : term k3 1 0 k = 1 / 3 - 1 / 3 * (1 / 4) ^ k := by
  unfold term
  rw [show k3.n = 3 from rfl, sum_congr rfl fun i hi => by
    rw [k3_walk k 1 i (by omega) (mem_range.1 hi), k3_walk k 0 i (by omega) (mem_range.1 hi)]]
  have : ((1 : ℚ) / 4) ^ k = (-1 / 2) ^ k * (-1 / 2) ^ k := by rw [← mul_pow]; norm_num
  rw [this]
  simp [sum_range_succ]
  ring

theorem k3_conv (j : Nat) : Conv k3 (1 / 1000000) 1 0 j ↔ 21 ≤ j := by
  unfold Conv
  rw [show k3.n = 3 from rfl, k3_l1 j 0 (by omega), k3_l1 j 1 (by omega), and_self]
  constructor
  · intro h
    by_contra hj
    have : ((1 : ℚ) / 2) ^ 20 ≤ (1 / 2) ^ j := pow_le_pow_of_le_one (by norm_num) (by norm_num) (by omega)
    have : (2 : ℚ) * (1 / 2) ^ 20 < 1 / 1000000 := by linarith
    norm_num at this
  · intro hj
    have : ((1 : ℚ) / 2) ^ j ≤ (1 / 2) ^ 21 := pow_le_pow_of_le_one (by norm_num) (by norm_num) hj
    have h2 : (2 : ℚ) * (1 / 2) ^ 21 < 1 / 1000000 := by norm_num
    linarith

/-- C114 fails in general. Stopping when the distributions no longer move cuts off the series although its terms do not vanish then: with
the default arguments, on the triangle, every run stops after term 22 and prints a value too small by more than 0.03. -/
theorem cosimEM_refuted (f : Nat) : k3.Ok ∧ k3.Once ∧ (∃ r, CoSimEM k3 f (1 / 1000000) (17 / 20) 100 0 1 r) ∧
    ∀ r, CoSimEM k3 f (1 / 1000000) (17 / 20) 100 0 1 r → r.sim = cosim k3 (17 / 20) 1 0 22 ∧
      ∀ N ≥ 30, r.sim + 3 / 100 < cosim k3 (17 / 20) 1 0 N := by
  refine ⟨k3_ok, k3_once, cosimEM_exists k3 f _ _ _ _ _, fun r h => ?_⟩
  obtain ⟨K, hK⟩ := cosimEM_partial k3_ok k3_once (by decide) h
  have hK22 : K = 22 := by
    rcases hK.last with ⟨j, rfl, hc, _⟩ | ⟨rfl, hc, _⟩
    · have h1 := (k3_conv j).1 hc
      by_contra h2
      exact hK.no 21 (by omega) ((k3_conv 21).2 le_rfl)
    · exact absurd ((k3_conv 21).2 le_rfl) (hc 21 (by omega))
  subst hK22
  refine ⟨hK.sim, fun N hN => ?_⟩
  have h1 := (cosim_tail k3_ok (c := 17 / 20) (by norm_num) (by norm_num) 1 0 30 N hN).1
  refine lt_of_lt_of_le ?_ h1
  rw [hK.sim]
  simp only [cosim_succ, k3_term]
  norm_num
  linarith

/-- C114 also fails for the printed maxima: when the loop ends by `max_iters` they are those of the zeroed arrays. On the triangle with
`eps = 0` every run prints 0, although the distributions sum to 1. -/
theorem cosimEM_max_refuted (f maxIters : Nat) : (∃ r, CoSimEM k3 f 0 (17 / 20) maxIters 0 1 r) ∧
    ∀ r, CoSimEM k3 f 0 (17 / 20) maxIters 0 1 r → (∀ i, r.nextV i = 0 ∧ r.nextU i = 0) ∧
      ∑ i ∈ range 3, (walk k3)^[maxIters] (pt 0) i = 1 := by
  refine ⟨cosimEM_exists k3 f _ _ _ _ _, fun r h => ?_⟩
  obtain ⟨K, hK⟩ := cosimEM_partial k3_ok k3_once (by decide) h
  rcases hK.last with ⟨j, _, hc, _⟩ | ⟨_, _, h1, h2⟩
  · exact absurd hc.1 (not_lt.2 (l1_nonneg _ _ _))
  · refine ⟨fun i => ⟨h1 i, h2 i⟩, ?_⟩
    rw [sum_congr rfl fun i hi => k3_walk maxIters 0 i (by omega) (mem_range.1 hi)]
    simp [sum_range_succ]
    ring

/-- The directed graph with the edges 0 → 2, 1 → 2, 2 → 0. -/
def g3 : Gr Unit := Gr.ofLists [[(2, ())], [(2, ())], [(0, ())]] [[(2, ())], [], [(0, ()), (1, ())]]

theorem g3_ok : g3.Ok := Gr.ofLists_ok (by decide)

theorem g3_next (p : Nat → ℚ) (i : Nat) (cv : Nat → Fl) (hc : ∀ i, cv i = some (p i)) :
    nextOf2 g3 cv i = some (if i = 0 then p 2 else if i = 1 then p 2 else if i = 2 then p 0 else 0) := by
  match i with
  | 0 => simp [nextOf2, show g3.fwd 0 = [(2, ())] from rfl, show g3.fwd 2 = [(0, ())] from rfl, hc, fsum, fadd, fdiv]
  | 1 => simp [nextOf2, show g3.fwd 1 = [(2, ())] from rfl, show g3.fwd 2 = [(0, ())] from rfl, hc, fsum, fadd, fdiv]
  | 2 => simp [nextOf2, show g3.fwd 0 = [(2, ())] from rfl, show g3.fwd 2 = [(0, ())] from rfl, hc, fsum, fadd, fdiv]
  | i + 3 => simp [nextOf2, show g3.fwd (i + 3) = [] from rfl, fsum]

/-- C115 fails on directed graphs: 0 and 1 both have the single out-neighbour 2, so their similarity is at least `c`; but `CoSimRank` prints
0, for all arguments. -/
theorem cosim2_refuted (eps c : ℚ) (maxIters : Nat) : g3.Ok ∧ (cosim2 g3 eps c maxIters 0 1).sim = some 0 ∧
    (0 ≤ c → ∀ N ≥ 1, c ≤ cosim g3 c 1 0 N) := by
  refine ⟨g3_ok, ?_, fun h0 N hN => ?_⟩
  · have key : ∀ k i (cv cu nv nu : Nat → Fl) (p q : Nat → ℚ), (∀ i, cv i = some (p i)) → (∀ i, cu i = some (q i)) → q 0 = 0 → q 2 = 0 →
        (loop2 g3 eps c k i cv cu nv nu (some 0)).sim = some 0 := by
      intro k
      induction k with
      | zero => intros; rfl
      | succ k ih =>
        intro i cv cu nv nu p q hv hu h0 h2
        have a1 := fun i => g3_next p i cv hv
        have b1 := fun i => g3_next q i cu hu
        have hz : ∀ i, (if i = 0 then q 2 else if i = 1 then q 2 else if i = 2 then q 0 else 0 : ℚ) = 0 := by
          intro i; rw [h0, h2]; simp
        have hi : fadd (some 0) ((inner2 g3.n (nextOf2 g3 cu) (nextOf2 g3 cv)).map fun x => c ^ (i + 1) * x) = some 0 := by
          rw [inner2_eq b1 a1]
          simp only [hz, zero_mul, sum_const_zero, Option.map_some, mul_zero]
          simp [fadd]
        unfold loop2
        rw [hi]
        split
        · rfl
        · exact ih _ _ _ _ _ _ _ a1 b1 (hz 0) (hz 2)
    exact key maxIters 0 _ _ _ _ (pt 0) (pt 1) (fun _ => rfl) (fun _ => rfl) rfl rfl
  · induction N, hN using Nat.le_induction with
    | base =>
      rw [cosim_succ, cosim_zero c (by decide)]
      have : term g3 1 0 1 = 1 := by
        unfold term
        rw [show g3.n = 3 from rfl]
        simp [sum_range_succ, walk, pt, mult, show g3.n = 3 from rfl, show g3.fwd 0 = [(2, ())] from rfl,
          show g3.fwd 1 = [(2, ())] from rfl, show g3.fwd 2 = [(0, ())] from rfl]
      rw [this]; simp
    | succ N _ ih =>
      rw [cosim_succ]
      exact ih.trans (le_add_of_nonneg_right (mul_nonneg (pow_nonneg h0 _) (term_bound g3_ok 1 0 _).1))

/-- Both versions on the triangle, with one iteration: 0 and 1 have the similarity 0.85 / 4. -/
example : ∃ r, CoSimEM k3 3 0 (17 / 20) 1 0 1 r ∧ r.sim = 17 / 80 ∧ (cosim2 k3 0 (17 / 20) 1 0 1).sim = some (17 / 80) ∧
    cosim k3 (17 / 20) 1 0 50 ≤ r.sim + (17 / 20) ^ 2 / (1 - 17 / 20) := by
  obtain ⟨r, h⟩ := cosimEM_exists k3 3 0 (17 / 20) 1 0 1
  have h1 := (cosimEM_near k3_ok k3_once (by norm_num) (by norm_num) (by decide) h 50 (by norm_num)).2
  have h2 : r.sim = 17 / 80 := by
    obtain ⟨K, hK⟩ := cosimEM_partial k3_ok k3_once (by decide) h
    rcases hK.last with ⟨j, _, hc, _⟩ | ⟨rfl, _⟩
    · exact absurd hc.1 (not_lt.2 (l1_nonneg _ _ _))
    · rw [hK.sim, cosim_succ, cosim_zero _ (by decide), k3_term]; norm_num
  refine ⟨r, h, h2, ?_, h1⟩
  rw [cosim2_partial k3_ok k3_once k3_sym (by decide) h, h2]

end Gbbs.CoSim
