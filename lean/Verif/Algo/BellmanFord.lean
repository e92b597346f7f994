/-
C33: Bellman-Ford, `benchmarks/GeneralWeightSSSP/BellmanFord/BellmanFord.h`.
-/
import Verif.Algo.Relax
import Verif.Algo.Walks

namespace Gbbs.BF

open Conc Conc.Prog Em Relax Walks
open Atomics (Steps)

/-! ### Model -/

/-- `vertexMap(output, BF_Vertex_F)`, `BellmanFord.h:63-70, 99`: the flags of the output are reset. -/
def reset (o : List (Nat × Unit)) (m : Relax.Loc → Int) : Relax.Loc → Int
  | .sp d => m (.sp d)
  | .vis d => if d ∈ o.map Prod.fst then 0 else m (.vis d)

/-- The loop of `BellmanFord`, `BellmanFord.h:87-103`, from round `r`, a memory and a frontier; the results
are the final memory and whether the message "Found negative weight cycle" was printed. `f` bounds the
retries of one `write_min`. -/
inductive Loop (f : Nat) (G : Gr Int) : Nat → (Relax.Loc → Int) → List Nat → (Relax.Loc → Int) → Bool → Prop
  | done (r m) : Loop f G r m [] m false
  | neg {m F} (hF : F ≠ []) : Loop f G G.n m F m true
  | round {r m F m' o m'' b} (hF : F ≠ []) (hr : r ≠ G.n)
      (h : EdgeMap (bfF f) G (fun v => decide (v ∈ F)) m m' o)
      (hl : Loop f G (r + 1) (reset o m') (o.map Prod.fst) m'' b) : Loop f G r m F m'' b

/-- `BellmanFord(G, src)`, `BellmanFord.h:72-112`: `SP` and `Visited` initialised, then the loop. `inf` is
`std::numeric_limits<Distance>::max()`. -/
def BellmanFord (f : Nat) (inf : Int) (G : Gr Int) (src : Nat) (sp : Nat → Int) (neg : Bool) : Prop :=
  ∃ m, Loop f G 0 (fun | .sp d => if d = src then 0 else inf | .vis _ => 0) [src] m neg ∧ ∀ d, m (.sp d) = sp d

/-! ### Proof -/

/-- One round. -/
theorem round_ok {f : Nat} {G : Gr Int} (hG : G.Ok) {inf : Int} {Good : Nat → Int → Prop}
    (hgood : ∀ u v w x, (v, w) ∈ G.fwd u → Good u x → Good v (x + w)) {F : List Nat} {m m' : Relax.Loc → Int}
    (hF : ∀ v, v ∈ F → m (.sp v) < inf) (hg : ∀ d, m (.sp d) < inf → Good d (m (.sp d)))
    (hv : ∀ d, m (.vis d) = 0) {o : List (Nat × Unit)}
    (hr : EdgeMap (bfF f) G (fun v => decide (v ∈ F)) m m' o) :
    (∀ d, m' (.sp d) ≤ m (.sp d)) ∧ (∀ d, m' (.sp d) < inf → Good d (m' (.sp d))) ∧
    (∀ u v w, u ∈ F → (v, w) ∈ G.fwd u → m' (.sp v) ≤ m (.sp u) + w) ∧
    (∀ d, d ∈ o.map Prod.fst ↔ m' (.sp d) < m (.sp d)) ∧ (∀ d, reset o m' (.vis d) = 0) := by
  obtain ⟨g, out, hi, hdn, hT, hcol⟩ := edgeMap_sound (bf_spec f inf (fun d => m (.sp d)) Good
    (Active G (fun v => decide (v ∈ F))) (fun e he => hF _ (by simpa using he.1))
    (fun e x he hx => hgood _ _ _ _ he.2 hx)) G hG _ (fun _ h => h) (BInv inf (fun d => m (.sp d)) Good)
    (fun _ _ _ => Iff.rfl) ⟨fun d => m (.sp d), fun _ => none, fun _ => none⟩
    ⟨fun _ => rfl, fun d => by simpa using hv d, fun _ => Int.le_refl _, hg, fun _ _ h => (by cases h),
      fun d h => absurd h (Int.lt_irrefl _)⟩
    (fun i => ⟨List.nodup_nil, fun d => ⟨fun h => (by cases h), fun h => (by cases h)⟩, rfl⟩) hr
  have hmem : ∀ d, d ∈ o.map Prod.fst ↔ ∃ i, g.own d = some i := by
    intro d
    constructor
    · intro h
      obtain ⟨⟨d', x⟩, h1, rfl⟩ := List.mem_map.1 h
      obtain ⟨i, hi'⟩ := hcol.sub _ h1
      exact ⟨i, ((hT i).2.1 _).1 (List.mem_map.2 ⟨_, hi', rfl⟩)⟩
    · rintro ⟨i, h⟩
      obtain ⟨⟨d', x⟩, h1, rfl⟩ := List.mem_map.1 (((hT i).2.1 d).2 h)
      obtain ⟨y, hy⟩ := hcol.all i _ _ h1
      exact List.mem_map.2 ⟨_, hy, rfl⟩
  refine ⟨fun d => by rw [hi.sp]; exact hi.le d, fun d => by rw [hi.sp]; exact hi.good d, fun u v w hu he => ?_,
    fun d => ?_, fun d => ?_⟩
  · rw [hi.sp]; exact hdn ⟨u, v, w⟩ ⟨by simpa using hu, he⟩
  · rw [hmem, hi.sp]
    constructor
    · rintro ⟨i, h⟩; exact hi.own d i h
    · intro h
      rcases hi.low d h with h1 | ⟨i, h1⟩
      · exact Option.ne_none_iff_exists'.1 h1
      · rw [(hT i).2.2] at h1; cases h1
  · show (if d ∈ o.map Prod.fst then 0 else m' (.vis d)) = 0
    by_cases h : d ∈ o.map Prod.fst
    · rw [if_pos h]
    · rw [if_neg h, hi.vis, if_pos]
      rw [hmem] at h
      by_contra hc
      exact h (Option.ne_none_iff_exists'.1 hc)

/-- State before round `r`. -/
structure Inv (G : Gr Int) (inf : Int) (src r : Nat) (m : Relax.Loc → Int) (F : List Nat) : Prop where
  top : ∀ d, m (.sp d) ≤ inf
  good : ∀ d, m (.sp d) < inf → ∃ k, WWalk G src d k (m (.sp d))
  vis : ∀ d, m (.vis d) = 0
  fin : ∀ v, v ∈ F → m (.sp v) < inf
  relaxed : ∀ u v w, u ∉ F → m (.sp u) < inf → (v, w) ∈ G.fwd u → m (.sp v) ≤ m (.sp u) + w
  short : ∀ v k x, WWalk G src v k x → k ≤ r → k < G.n → m (.sp v) ≤ x
  improved : 0 < r → ∀ v, v ∈ F → ∀ k x, WWalk G src v k x → k < r → k < G.n → m (.sp v) < x

variable {G : Gr Int} {inf : Int} {src : Nat}

theorem Inv.step {f : Nat} (hG : G.Ok) (hB : ∀ v k x, WWalk G src v k x → k < G.n → x < inf)
    {r : Nat} {m m' : Relax.Loc → Int} {F : List Nat} {o : List (Nat × Unit)} (h : Inv G inf src r m F)
    (hr : EdgeMap (bfF f) G (fun v => decide (v ∈ F)) m m' o) :
    Inv G inf src (r + 1) (reset o m') (o.map Prod.fst) := by
  obtain ⟨h1, h2, h3, h4, h5⟩ := round_ok hG (Good := fun d x => ∃ k, WWalk G src d k x)
    (fun u v w x he ⟨k, hk⟩ => ⟨_, .cons w hk he⟩) h.fin h.good h.vis hr
  have hall : ∀ u v w, m (.sp u) < inf → (v, w) ∈ G.fwd u → m' (.sp v) ≤ m (.sp u) + w := by
    intro u v w hu he
    by_cases hF : u ∈ F
    · exact h3 u v w hF he
    · exact Int.le_trans (h1 v) (h.relaxed u v w hF hu he)
  refine ⟨fun d => Int.le_trans (h1 d) (h.top d), h2, h5, fun v hv => ?_, fun u v w hu hlt he => ?_,
    fun v k x hw hk hn => ?_, fun _ v hv k x hw hk hn => ?_⟩
  · have := (h4 v).1 hv
    have := h.top v
    show m' (.sp v) < inf
    omega
  · rw [h4] at hu
    have := h1 u
    have heq : m' (.sp u) = m (.sp u) := by omega
    show m' (.sp v) ≤ m' (.sp u) + w
    rw [heq]
    exact hall u v w (by rw [← heq]; exact hlt) he
  · show m' (.sp v) ≤ x
    cases hw with
    | nil => exact Int.le_trans (h1 _) (h.short _ _ _ .nil (Nat.zero_le _) hn)
    | @cons u _ k x w hu e =>
      have h6 := h.short _ _ _ hu (by omega) (by omega)
      have h7 := hB _ _ _ hu (by omega)
      have := hall u v w (by omega) e
      omega
  · have := (h4 v).1 hv
    have := h.short v k x hw (by omega) hn
    show m' (.sp v) < x
    omega

theorem inv_init (hinf : 0 < inf) : Inv G inf src 0
    (fun | .sp d => if d = src then 0 else inf | .vis _ => 0) [src] := by
  refine ⟨fun d => ?_, fun d hd => ?_, fun _ => rfl, fun v hv => ?_, fun u v w hu hlt => ?_, fun v k x hw hk _ => ?_,
    fun h => by omega⟩
  · show (if d = src then 0 else inf) ≤ inf
    split <;> omega
  · have hd : (if d = src then 0 else inf) < inf := hd
    by_cases h : d = src
    · subst h
      refine ⟨0, ?_⟩
      show WWalk G d d 0 (if d = d then 0 else inf)
      rw [if_pos rfl]; exact .nil
    · rw [if_neg h] at hd; omega
  · show (if v = src then 0 else inf) < inf
    rw [if_pos (by simpa using hv)]; exact hinf
  · have hlt : (if u = src then 0 else inf) < inf := hlt
    rw [if_neg (by simpa using hu)] at hlt; omega
  · cases hw with
    | nil =>
      show (if src = src then 0 else inf) ≤ 0
      rw [if_pos rfl]
    | cons => omega

theorem loop_ok {f : Nat} (hG : G.Ok) (hB : ∀ v k x, WWalk G src v k x → k < G.n → x < inf)
    {r : Nat} {m m' : Relax.Loc → Int} {F : List Nat} {b : Bool} (hl : Loop f G r m F m' b) (hr : r ≤ G.n)
    (h : Inv G inf src r m F) :
    (b = false → ∃ r, Inv G inf src r m' []) ∧ (b = true → ∃ F, F ≠ [] ∧ Inv G inf src G.n m' F) := by
  induction hl with
  | done r m => exact ⟨fun _ => ⟨r, h⟩, fun h => by cases h⟩
  | neg hF => exact ⟨fun h => (by cases h), fun _ => ⟨_, hF, h⟩⟩
  | round hF hr' he _ ih => exact ih (by omega) (h.step hG hB he)

/-- With everything relaxed, the distances are below the weights of all walks. -/
theorem relaxed_le (hG : G.Ok) (hs : src < G.n) (hB : ∀ v k x, WWalk G src v k x → k < G.n → x < inf)
    {r : Nat} {m : Relax.Loc → Int} (h : Inv G inf src r m []) :
    (∀ v k x, WWalk G src v k x → m (.sp v) < inf) ∧
    ∀ u, m (.sp u) < inf → ∀ v k x, WWalk G u v k x → m (.sp v) ≤ m (.sp u) + x := by
  have h1 : ∀ v k x, WWalk G src v k x → k < G.n → m (.sp v) ≤ x := by
    intro v k x hw
    induction hw with
    | nil => exact fun hn => h.short _ _ _ .nil (Nat.zero_le _) hn
    | @cons u v k x w hu e ih =>
      intro hk
      have h2 := ih (by omega)
      have h3 := hB _ _ _ hu (by omega)
      have := h.relaxed u v w (by simp) (by omega) e
      omega
  have h2 : ∀ v k x, WWalk G src v k x → m (.sp v) < inf := by
    intro v k x hw
    obtain ⟨k', x', hk', hw'⟩ := short_reach hG hs hw
    have := h1 _ _ _ hw' hk'
    have := hB _ _ _ hw' hk'
    omega
  refine ⟨h2, fun u hu v k x hw => ?_⟩
  obtain ⟨j, hj⟩ := h.good u hu
  induction hw with
  | nil => omega
  | @cons a b k x w ha e ih =>
    have := h.relaxed a b w (by simp) (h2 _ _ _ (hj.trans ha)) e
    omega

/-- C33: the message is printed exactly when a negative cycle can be reached. Hypotheses on the range:
`inf` is positive and no walk of fewer than `n` edges weighs `inf` or more; arithmetic is exact. -/
theorem bf_detect (hG : G.Ok) (hs : src < G.n) (hinf : 0 < inf)
    (hB : ∀ v k x, WWalk G src v k x → k < G.n → x < inf) {f : Nat} {sp : Nat → Int} {neg : Bool}
    (h : BellmanFord f inf G src sp neg) : neg = true ↔ NegCycle G src := by
  obtain ⟨m, hl, hm⟩ := h
  obtain ⟨h1, h2⟩ := loop_ok hG hB hl (Nat.zero_le _) (inv_init hinf)
  constructor
  · intro hneg
    obtain ⟨F, hF, hi⟩ := h2 hneg
    by_contra hno
    obtain ⟨v, hv⟩ := List.exists_mem_of_ne_nil F hF
    obtain ⟨k, hw⟩ := hi.good v (hi.fin v hv)
    obtain ⟨k', x', hk', hx', hw'⟩ := short_walk hG hs hno hw
    have := hi.improved (by omega) v hv k' x' hw' hk' hk'
    omega
  · rintro ⟨v, j, y, k, x, hj, hc, hx⟩
    by_contra hf
    obtain ⟨r, hi⟩ := h1 (by simpa using hf)
    obtain ⟨h3, h4⟩ := relaxed_le hG hs hB hi
    have := h4 v (h3 _ _ _ hj) v k x hc
    omega

/-- C33: without reachable negative cycle, the distance of every reachable vertex is the least weight of a
walk to it, and `inf` for the others. -/
theorem bf_correct (hG : G.Ok) (hs : src < G.n) (hinf : 0 < inf)
    (hB : ∀ v k x, WWalk G src v k x → k < G.n → x < inf) (hno : ¬ NegCycle G src) {f : Nat} {sp : Nat → Int}
    {neg : Bool} (h : BellmanFord f inf G src sp neg) :
    (∀ v k x, WWalk G src v k x → MinWeight G src v (sp v)) ∧
    ∀ v, (¬ ∃ k x, WWalk G src v k x) → sp v = inf := by
  have hd := bf_detect hG hs hinf hB h
  obtain ⟨m, hl, hm⟩ := h
  obtain ⟨h1, _⟩ := loop_ok hG hB hl (Nat.zero_le _) (inv_init hinf)
  obtain ⟨r, hi⟩ := h1 (by
    cases neg with
    | false => rfl
    | true => exact absurd (hd.1 rfl) hno)
  obtain ⟨h3, h4⟩ := relaxed_le hG hs hB hi
  refine ⟨fun v k x hw => ?_, fun v hv => ?_⟩
  · rw [← hm]
    refine ⟨hi.good v (h3 _ _ _ hw), fun j y hj => ?_⟩
    have hsrc := h4 src (h3 _ _ _ .nil) v j y hj
    have := hi.short src 0 0 .nil (Nat.zero_le _) (by omega)
    omega
  · rw [← hm]
    have := hi.top v
    by_contra hne
    obtain ⟨k, hk⟩ := hi.good v (by omega)
    exact hv ⟨k, _, hk⟩

/-! ### Examples -/

/-- A bound on the weights bounds the walks. -/
theorem walk_le {G : Gr Int} {s : Nat} {B : Int} (hB : ∀ u v w, (v, w) ∈ G.fwd u → w ≤ B) {v k : Nat} {x : Int}
    (h : WWalk G s v k x) : x ≤ k * B := by
  induction h with
  | nil => simp
  | @cons u v k x w _ e ih =>
    have := hB _ _ _ e
    rw [Nat.cast_succ, Int.add_mul]
    omega

/-- 0 → 1 (5), 0 → 2 (2), 2 → 1 (-4), 3 → 0 (1). -/
def exG : Gr Int := Gr.ofLists [[(1, 5), (2, 2)], [], [(1, -4)], [(0, 1)]] [[(3, 1)], [(0, 5), (2, -4)], [(0, 2)], []]

theorem exG_ok : exG.Ok := Gr.ofLists_ok (by decide)

/-- The range hypothesis holds with 32-bit distances. -/
theorem exG_range (v k : Nat) (x : Int) (h : WWalk exG 0 v k x) (hk : k < exG.n) : x < 2147483647 := by
  have := walk_le (B := 5) (fun u v w h => by
    have hu := (exG_ok.bound _ _ _ h).1
    have : ∀ u, u < 4 → ∀ p ∈ exG.fwd u, p.2 ≤ 5 := by decide
    exact this u hu _ h) h
  have : k < 4 := hk
  omega

/-- A run: vertex 1 is first given 5, then improved; vertex 3 is not reached. -/
example : ∃ sp, BellmanFord 1 2147483647 exG 0 sp false ∧ sp 0 = 0 ∧ sp 1 = -2 ∧ sp 2 = 2 ∧ sp 3 = 2147483647 := by
  refine ⟨_, ⟨_, .round (by decide) (by decide) (edgeMap_seq (activeEdges exG _) (mem_activeEdges exG_ok) rfl)
    (.round (by decide) (by decide) (edgeMap_seq (activeEdges exG _) (mem_activeEdges exG_ok) rfl)
    (.round (by decide) (by decide) (edgeMap_seq (activeEdges exG _) (mem_activeEdges exG_ok) rfl) (.done _ _))),
    fun _ => rfl⟩, ?_, ?_, ?_, ?_⟩ <;> decide

/-- 0 → 1 (1), 1 → 0 (-2). -/
def exN : Gr Int := Gr.ofLists [[(1, 1)], [(0, -2)]] [[(1, -2)], [(0, 1)]]

theorem exN_ok : exN.Ok := Gr.ofLists_ok (by decide)

/-- The negative cycle is found after two rounds. -/
example : ∃ sp, BellmanFord 1 2147483647 exN 0 sp true := by
  refine ⟨_, ⟨_, .round (by decide) (by decide) (edgeMap_seq (activeEdges exN _) (mem_activeEdges exN_ok) rfl)
    (.round (by decide) (by decide) (edgeMap_seq (activeEdges exN _) (mem_activeEdges exN_ok) rfl)
    (.neg (by decide))), fun _ => rfl⟩⟩

end Gbbs.BF
