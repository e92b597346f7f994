/-
The other two versions of single-source betweenness centrality, `SSBetweennessCentrality_BFS` and `SSBetweennessCentrality_EM`
(`benchmarks/SSBetweenessCentrality/Brandes/SSBetweennessCentrality.h:160-453`). The models are in `Verif.Algo.Betweenness`.
-/
import Verif.Algo.Betweenness
import Verif.EdgeMap.Claim
import Verif.EdgeMap.Total

namespace Gbbs.Bc

open Gbbs.Em Finset
open Gbbs.PageRank (mult Fl)

variable {W : Type}

/-! ### With a breadth-first search -/

theorem bfs_spec (p0 : Nat → Nat) (Ac : Edge W → Prop) :
    FSpecC (crg 0 p0 Ac fun _ _ _ => 1) bfsF Ac CT (fun g e => g.p e.d ≠ 0) (fun d g => g.p d = 0) where
  keep := (claim_spec 0 p0 Ac (fun _ _ _ => 1) fun _ _ => one_ne_zero).keep
  stable := (claim_spec 0 p0 Ac (fun _ _ _ => 1) fun _ _ => one_ne_zero).stable
  cond may i l g d hT := by
    intro g1 m1 hr1 hi1
    refine ⟨g1, crg_gu_refl _ _, hi1, ?_⟩
    intro g2 hr2
    refine ⟨(hT.stable hr1).stable hr2, fun hb e _ he => ?_, fun hb hx => ?_⟩
    · subst he
      have hne : g1.p e.d ≠ 0 := by
        rw [← hi1.mem]
        simpa using hb
      rw [hr2.2.1 _ hne]; exact hne
    · rw [hr2.2.2 _ hx, ← hi1.mem]
      simpa using hb
  updA := (claim_spec 0 p0 Ac (fun _ _ _ => 1) fun _ _ => one_ne_zero).updA
  upd may i l g e he hm hx hc hT := by
    intro g2 m2 hr2 hi2
    have hu2 : m2 e.d = 0 := by rw [hi2.mem, hr2.2.2 _ hx]; exact hc
    obtain ⟨h1, h2, h3, h4⟩ := claim_ok (fun _ _ => one_ne_zero) hi2 he hm hu2 (hT.stable hr2)
    refine ⟨_, h1, h2, fun g3 hr3 => ⟨h3.stable hr3, ?_⟩⟩
    rw [hr3.2.1 _ h4]; exact h4

/-- Between rounds `Visited` is 0 or 2. -/
def BfsInv (G : Gr W) (s r : Nat) (m : Nat → ℚ) (vis : Nat → Nat) (fr : List Nat) : Prop :=
  FwdInv G s r m (fun v => decide (vis v = 2)) fr ∧ ∀ v, vis v = 0 ∨ vis v = 2

theorem fwdBFS_ok {G : Gr W} (hG : G.Ok) (hO : G.Once) {s r : Nat} {m m' : Nat → ℚ} {vis vis' : Nat → Nat} {fr o : List Nat}
    (hi : BfsInv G s r m vis fr) (h : fwdBFS G vis fr m vis' m' o) : BfsInv G s (r + 1) m' vis' o := by
  obtain ⟨hi, hz⟩ := hi
  obtain ⟨v1, o', h, rfl, hm', hv'⟩ := h
  obtain ⟨-, h2, h3, h4⟩ := claim_round_of _ _ G hG _ (bfs_spec vis (Active G fun v => decide (v ∈ fr))) h
  have hseen : ∀ v, decide (vis v = 2) = false ↔ vis v = 0 := fun v => by
    rcases hz v with h | h <;> simp [h]
  have hfv : ∀ v, decide (v ∈ fr) = true → decide (vis v = 2) = true := fun v hv =>
    (hi.seen v).2 ⟨r, le_refl _, (hi.cur v).1 (of_decide_eq_true hv)⟩
  have hout : ∀ v, v ∈ o'.map Prod.fst ↔ dist G s v = some (r + 1) := by
    intro v
    rw [h2]
    constructor
    · rintro ⟨h0, ⟨s', d', w⟩, ⟨ha, hb⟩, rfl⟩
      have hm : 0 < mult G s' d' := List.countP_pos_iff.2 ⟨(d', w), hb, by simp⟩
      exact (hi.pred hG ((hseen d').2 h0) (hfv _ ha) hm).2
    · intro hd
      refine ⟨(hseen v).1 (hi.unseen (by omega) hd), ?_⟩
      obtain ⟨u, _, h5, h6⟩ := dist_pred hG hd
      obtain ⟨x, hx, hxv⟩ := List.countP_pos_iff.1 h6
      simp only [decide_eq_true_eq] at hxv
      exact ⟨⟨u, x.1, x.2⟩, ⟨decide_eq_true ((hi.cur u).2 h5), hx⟩, hxv⟩
  have hv1 : ∀ v, (v1 v == 2) = decide (vis v = 2) := by
    intro v
    by_cases hv : v ∈ o'.map Prod.fst
    · obtain ⟨e, _, _, h5⟩ := h3 v hv
      rw [h5, ((h2 v).1 hv).1]; rfl
    · rw [h4 v hv]; rfl
  have hok : FOk G s r (fun v => decide (vis v = 2)) m m' (o'.map Prod.fst) := by
    refine ⟨hout, fun v hv => by rw [hm', if_neg fun hc => hv ((hout v).1 hc)], fun v hv => ?_⟩
    rw [hm', if_pos ((hout v).2 hv), finSum_bwd hG hO]
    refine sum_congr rfl fun u _ => ?_
    rw [hv1]
    by_cases hm : mult G u v = 0
    · simp [hm]
    · by_cases hu : decide (vis u = 2) = true
      · rw [if_pos hu, if_pos (hi.pred hG (hi.unseen (by omega) hv) hu (Nat.pos_of_ne_zero hm)).1]
      · rw [if_neg hu, if_neg fun hc => hu ((hi.seen u).2 ⟨r, le_refl _, hc⟩)]
  have hmark : (fun v => decide (vis' v = 2)) = mark (fun v => decide (vis v = 2)) (o'.map Prod.fst) := by
    funext v
    rw [hv', mark]
    by_cases hv : v ∈ o'.map Prod.fst
    · rw [if_pos hv, decide_eq_true hv, Bool.or_true]; rfl
    · rw [if_neg hv, decide_eq_false hv, Bool.or_false, h4 v hv]
  refine ⟨?_, fun v => ?_⟩
  · rw [hmark]; exact fwd_round hG hi hok
  · rw [hv']
    split
    · exact Or.inr rfl
    · rename_i hv; rw [h4 v hv]; exact hz v

theorem bwdBFS_ok {G : Gr W} (hG : G.Ok) (hO : G.Once) {s r : Nat} {dp dp' : Nat → ℚ} {vis : Nat → Bool} {fr fr' : List Nat}
    (hi : BwdInv G s (r + 1) dp vis fr) (hfr : ∀ v, v ∈ fr' ↔ dist G s v = some r) (h : bwdBFS G vis fr fr' dp dp') : BOk G s r dp dp' := by
  refine ⟨fun v d hd hdv => ?_, fun v hv => ?_⟩
  · rw [h v, if_neg]
    intro hc
    have := (hfr v).1 hc
    rw [hdv] at this; cases this; exact hd rfl
  · rw [h v, if_pos ((hfr v).2 hv), finSum_fwd hG hO]
    refine sum_congr rfl fun u _ => ?_
    by_cases hm : mult G v u = 0
    · simp [hm]
    · obtain ⟨e, he, h5⟩ := dist_edge hG hv (Nat.pos_of_ne_zero hm)
      by_cases hu : dist G s u = some (r + 1)
      · rw [if_pos ((hi.seen u).2 ⟨r + 1, le_refl _, hu⟩), if_pos hu]
      · rw [if_neg hu, if_neg]
        intro hc
        obtain ⟨e', he', h6⟩ := (hi.seen u).1 hc
        rw [h5] at h6; cases h6
        have : e = r + 1 := by omega
        exact hu (this ▸ h5)

theorem bfs_start (G : Gr W) (s : Nat) : BfsInv G s 0 (fun v => if v = s then 1 else 0) (fun v => if v = s then 2 else 0) [s] := by
  refine ⟨?_, fun v => by dsimp only; split <;> simp⟩
  have : (fun v => decide ((if v = s then 2 else 0) = 2)) = fun v => decide (v = s) := by
    funext v
    by_cases h : v = s <;> simp [h]
  rw [this]
  exact fwd_start G s

/-- C80, the part that holds: every run of the version with a breadth-first search returns the dependency for every reachable vertex, and
not a number for the others. -/
theorem bcBFS_partial {G : Gr W} (hG : G.Ok) (hO : G.Once) {start : Nat} (hs : start < G.n) {r : Nat → Fl} (h : SSBCbfs G start r) :
    (∀ v, (∃ d, dist G start v = some d) → r v = some (dependency G start v)) ∧ ∀ v, dist G start v = none → r v = none :=
  run_correct hG hs (BfsInv G start) (fun vis v => decide (vis v = 2)) (fun _ _ _ _ h => h.1)
    (fun _ _ _ _ _ _ _ hi h => fwdBFS_ok hG hO hi h) (fun _ _ _ _ _ _ hi hfr h => bwdBFS_ok hG hO hi hfr h) (bfs_start G start) h

theorem bcBFS_exists {G : Gr W} (hG : G.Ok) (hO : G.Once) {start : Nat} (hs : start < G.n) : ∃ r, SSBCbfs G start r := by
  refine run_exists hG hs (BfsInv G start) (fun vis v => decide (vis v = 2)) (fun _ _ _ _ h => h.1)
    (fun _ _ _ _ _ _ _ hi h => fwdBFS_ok hG hO hi h) (fun vis fr m => ?_) (fun vis fr fr' dp => ⟨_, fun _ => rfl⟩) (bfs_start G start)
  obtain ⟨v1, o, h⟩ := edgeMap_exists (F := bfsF (W := W)) (fun d m => ⟨_, rfl⟩)
    (fun s d w m => by
      by_cases h : m d = 0
      · exact ⟨_, by simp only [bfsF, exec, h, if_true]; rfl⟩
      · exact ⟨_, by simp only [bfsF, exec, h, if_false]; rfl⟩) hG (fun v => decide (v ∈ fr)) vis
  exact ⟨_, _, _, v1, o, h, rfl, fun _ => rfl, fun _ => rfl⟩

/-- C80 fails on two vertices without edges. -/
theorem bcBFS_refuted : two.Ok ∧ two.Once ∧ (∃ r, SSBCbfs two 0 r) ∧ dependency two 0 1 = 0 ∧ ∀ r, SSBCbfs two 0 r → r 1 = none :=
  ⟨two_ok, two_once, bcBFS_exists two_ok two_once (by decide), dependency_unreachable two_dist,
    fun _ h => (bcBFS_partial two_ok two_once (by decide) h).2 1 two_dist⟩

/-- The first two versions agree. -/
theorem bc_agree {G : Gr W} (hG : G.Ok) (hO : G.Once) {f start : Nat} (hs : start < G.n) {r r' : Nat → Fl} (h : SSBC G f start r)
    (h' : SSBCbfs G start r') : r = r' := by
  funext v
  obtain ⟨h1, h2⟩ := bc_partial hG hO hs h
  obtain ⟨h3, h4⟩ := bcBFS_partial hG hO hs h'
  cases hd : dist G start v with
  | none => rw [h2 v hd, h4 v hd]
  | some d => rw [h1 v ⟨d, hd⟩, h3 v ⟨d, hd⟩]

/-! ### With `edgeMapReduce_dense` -/

theorem denseFwd_ok {G : Gr W} (hG : G.Ok) (hO : G.Once) {s r : Nat} {m m' : Nat → ℚ} {vis : Nat → Bool} {fr o : List Nat}
    (hi : FwdInv G s r m vis fr) (h : denseEM G G.bwd vis m m' o) : FOk G s r vis m m' o := by
  obtain ⟨h1, h2⟩ := h
  have hsum : ∀ v, vis v = false → finSum (fun _ => true) m (G.bwd v) =
      ∑ u ∈ range G.n, if dist G s u = some r then m u * mult G u v else 0 := by
    intro v hv
    rw [finSum_bwd hG hO]
    refine sum_congr rfl fun u _ => ?_
    rw [if_pos rfl]
    by_cases hm : mult G u v = 0
    · simp [hm]
    · cases hu : vis u with
      | true => rw [if_pos (hi.pred hG hv hu (Nat.pos_of_ne_zero hm)).1]
      | false => rw [hi.zero u hu]; simp
  have hpos : ∀ v, (v < G.n ∧ vis v = false ∧ 0 < finSum (fun _ => true) m (G.bwd v)) ↔ dist G s v = some (r + 1) := by
    intro v
    constructor
    · rintro ⟨-, hv, hp⟩
      rw [hsum v hv] at hp
      obtain ⟨u, _, hu⟩ := exists_ne_zero_of_sum_ne_zero hp.ne'
      split at hu
      · rename_i hd
        have hm : mult G u v ≠ 0 := fun hc => hu (by rw [hc]; simp)
        exact (hi.pred hG hv ((hi.seen u).2 ⟨r, le_refl _, hd⟩) (Nat.pos_of_ne_zero hm)).2
      · exact absurd rfl hu
    · intro hd
      have hv := hi.unseen (by omega) hd
      obtain ⟨u, hu, h5, h6⟩ := dist_pred hG hd
      refine ⟨(mult_lt hG h6).2, hv, ?_⟩
      rw [hsum v hv]
      refine sum_pos' (fun w _ => ?_) ⟨u, mem_range.2 hu, ?_⟩
      · split
        · exact mul_nonneg (hi.nonneg w) (Nat.cast_nonneg _)
        · exact le_refl _
      · rw [if_pos h5, hi.num u r (le_refl _) h5]
        have := (dist_some.1 h5).1
        positivity
  refine ⟨fun v => by rw [h1, hpos], fun v hv => by rw [h2, if_neg fun hc => hv ((hpos v).1 hc)], fun v hv => ?_⟩
  rw [h2, if_pos ((hpos v).2 hv), hsum v (hi.unseen (by omega) hv)]

/-- The accumulated values are not negative. -/
theorem hh_nonneg (G : Gr W) (s d v : Nat) : 0 ≤ hh G s d v := by
  unfold hh
  refine sum_nonneg fun t _ => ?_
  split
  · split
    · positivity
    · exact le_refl _
  · exact le_refl _

theorem denseBwd_ok {G : Gr W} (hG : G.Ok) (hO : G.Once) {s r : Nat} {dp dp' : Nat → ℚ} {vis : Nat → Bool} {fr o : List Nat}
    (hs : s < G.n) (hi : BwdInv G s (r + 1) dp vis fr) (h : denseEM G G.fwd vis dp dp' o) : BOk G s r dp dp' := by
  obtain ⟨-, h2⟩ := h
  have hsum : ∀ v d, d ≤ r → dist G s v = some d → finSum (fun _ => true) dp (G.fwd v) =
      ∑ w ∈ range G.n, if dist G s w = some (r + 1) then dp w * mult G v w else 0 := by
    intro v d hd hv
    rw [finSum_fwd hG hO]
    refine sum_congr rfl fun u _ => ?_
    rw [if_pos rfl]
    by_cases hm : mult G v u = 0
    · simp [hm]
    · obtain ⟨e, he, h5⟩ := dist_edge hG hv (Nat.pos_of_ne_zero hm)
      by_cases hu : dist G s u = some (r + 1)
      · rw [if_pos hu]
      · rw [if_neg hu]
        have : e ≠ r + 1 := fun hc => hu (hc ▸ h5)
        rw [hi.low u e (by omega) h5, zero_mul]
  refine ⟨fun v d hd hdv => ?_, fun v hv => ?_⟩
  · rw [h2]
    by_cases hle : r + 1 ≤ d
    · rw [if_neg fun hc => ?_]
      have := (hi.seen v).2 ⟨d, hle, hdv⟩
      rw [hc.2.1] at this; cases this
    · have h0 : finSum (fun _ => true) dp (G.fwd v) = 0 := by
        rw [hsum v d (by omega) hdv]
        refine sum_eq_zero fun w _ => ?_
        split
        · rename_i hw
          by_cases hm : mult G v w = 0
          · rw [hm]; simp
          · obtain ⟨e, he, h5⟩ := dist_edge hG hdv (Nat.pos_of_ne_zero hm)
            rw [hw] at h5; cases h5; omega
        · rfl
      rw [h0]; simp
  · rw [h2, hsum v r (le_refl _) hv]
    split
    · rfl
    · rename_i hn
      have hge : 0 ≤ ∑ w ∈ range G.n, if dist G s w = some (r + 1) then dp w * mult G v w else 0 := by
        refine sum_nonneg fun w _ => ?_
        split
        · rename_i hw
          rw [hi.high w (r + 1) (le_refl _) hw]
          exact mul_nonneg (hh_nonneg _ _ _ _) (Nat.cast_nonneg _)
        · exact le_refl _
      rw [hi.low v r (by omega) hv]
      by_contra hc
      exact hn ⟨walks_lt hG hs (dist_some.1 hv).1, hi.unseen (by omega) hv, lt_of_le_of_ne hge hc⟩

theorem fwdEMD_ok {G : Gr W} (hG : G.Ok) (hO : G.Once) {f s r : Nat} {m m' : Nat → ℚ} {vis vis' : Nat → Bool} {fr o : List Nat}
    (hi : FwdInv G s r m vis fr) (h : fwdEMD G f vis fr m vis' m' o) : FwdInv G s (r + 1) m' vis' o := by
  have h1 : FOk G s r vis m m' o ∧ vis' = mark vis o := by
    rcases h with h | h
    · exact fwdEM_ok hG hO hi h
    · exact ⟨denseFwd_ok hG hO hi h.1, h.2⟩
  rw [h1.2]; exact fwd_round hG hi h1.1

/-- C81, the part that holds: with at least 100 vertices, every run of the version with `edgeMapReduce_dense`, whichever branch it takes
in each round, returns the dependency for every reachable vertex, and not a number for the others. -/
theorem bcEM_partial {G : Gr W} (hG : G.Ok) (hO : G.Once) {f start : Nat} (hs : start < G.n) (hn : 100 ≤ G.n) {r : Option (Nat → Fl)}
    (h : SSBCem G f start r) : ∃ r', r = some r' ∧
      (∀ v, (∃ d, dist G start v = some d) → r' v = some (dependency G start v)) ∧ ∀ v, dist G start v = none → r' v = none := by
  unfold SSBCem at h
  rw [if_pos hn] at h
  obtain ⟨r', h1, h2⟩ := h
  refine ⟨r', h1, run_correct hG hs (FwdInv G start) id (fun _ _ _ _ h => h) (fun _ _ _ _ _ _ _ hi h => fwdEMD_ok hG hO hi h)
    (fun _ _ _ _ _ _ hi _ h => ?_) (fwd_start G start) h2⟩
  rcases h with h | ⟨o, h⟩
  · exact bwdEM_ok hG hO hi h
  · exact denseBwd_ok hG hO hs hi h

/-- Runs exist. -/
theorem bcEM_exists {G : Gr W} (hG : G.Ok) (hO : G.Once) (f : Nat) {start : Nat} (hs : start < G.n) : ∃ r, SSBCem G (f + 1) start r := by
  obtain ⟨r, hr⟩ := run_exists (Rf := fwdEMD G (f + 1)) (Rb := bwdEMD G (f + 1)) hG hs (FwdInv G start) id (fun _ _ _ _ h => h)
    (fun _ _ _ _ _ _ _ hi h => fwdEMD_ok hG hO hi h)
    (fun vis fr m => by
      obtain ⟨a, b, c, h⟩ := fwdEM_exists hG hO f vis fr m
      exact ⟨a, b, c, Or.inl h⟩)
    (fun vis fr fr' dp => by
      obtain ⟨a, h⟩ := bwdEM_exists hG hO f vis fr fr' dp
      exact ⟨a, Or.inl h⟩) (fwd_start G start)
  by_cases hn : 100 ≤ G.n
  · exact ⟨some r, by unfold SSBCem; rw [if_pos hn]; exact ⟨r, rfl, hr⟩⟩
  · obtain ⟨lv, np, _, _, _, h, _⟩ := hr
    exact ⟨none, by unfold SSBCem; rw [if_neg hn]; exact ⟨rfl, lv, np, h⟩⟩

/-- C81 fails for every graph with fewer than 100 vertices: every run reads out of bounds. -/
theorem bcEM_small {G : Gr W} (hn : G.n < 100) {f start : Nat} {r : Option (Nat → Fl)} (h : SSBCem G f start r) : r = none := by
  unfold SSBCem at h
  rw [if_neg (by omega)] at h
  exact h.1

/-- Such runs exist on the path with three vertices, where everything is reachable. -/
theorem bcEM_refuted : PageRank.path3.Ok ∧ PageRank.path3.Once ∧ (∃ r, SSBCem PageRank.path3 1 0 r) ∧
    ∀ f r, SSBCem PageRank.path3 f 0 r → r = none :=
  ⟨PageRank.path3_ok, PageRank.path3_once, bcEM_exists PageRank.path3_ok PageRank.path3_once 0 (by decide),
    fun _ _ h => bcEM_small (by decide) h⟩

/-- A graph with 100 vertices and one edge: `bcEM_partial` applies. -/
def big : Gr Unit := Gr.ofLists ([(1, ())] :: List.replicate 99 []) ([] :: [(0, ())] :: List.replicate 98 [])

theorem big_ok : big.Ok := Gr.ofLists_ok (by decide +kernel)

theorem big_once : big.Once := by
  have h : ∀ (l : List (List (Nat × Unit))), (∀ x ∈ l, x.Nodup) → ∀ v, (l.getD v []).Nodup := by
    intro l hl v
    rw [List.getD_eq_getElem?_getD]
    cases hv : l[v]? with
    | none => exact List.nodup_nil
    | some x => exact hl x (List.mem_of_getElem? hv)
  exact ⟨h _ (by decide +kernel), h _ (by decide +kernel)⟩

example : ∃ r, SSBCem big 1 0 (some r) ∧ r 1 = some (dependency big 0 1) := by
  obtain ⟨r, hr⟩ := bcEM_exists big_ok big_once 0 (start := 0) (by decide)
  obtain ⟨r', rfl, h1, -⟩ := bcEM_partial big_ok big_once (by decide) (by decide) hr
  refine ⟨r', hr, h1 1 ?_⟩
  obtain ⟨e, _, h⟩ := dist_edge big_ok (dist_self big 0) (show 0 < mult big 0 1 by decide)
  exact ⟨e, h⟩

/-- On the path 0 - 1 - 2 everything is reachable from 0. -/
example : ∃ r, SSBCbfs PageRank.path3 0 r ∧ r 1 = some (dependency PageRank.path3 0 1) := by
  obtain ⟨r, hr⟩ := bcBFS_exists PageRank.path3_ok PageRank.path3_once (start := 0) (by decide)
  exact ⟨r, hr, (bcBFS_partial PageRank.path3_ok PageRank.path3_once (by decide) hr).1 1 ⟨1, dist_some.2 (by decide)⟩⟩

end Gbbs.Bc
