/-
C112: `Count5Cycle_experiment`, `benchmarks/CycleCounting/Parallel5Cycle/FiveCycle.h:586-705`.
-/
import Verif.Cycle.Escape
import Mathlib.Data.List.TakeWhile


namespace Gbbs.Cyc

/-! ### Model -/

/-- `w_vi_neighbors`, `:679-682`: the list is scanned from its greatest entry down to `w`. -/
def scanNgb (l : List Nat) (w : Nat) : Bool := (l.takeWhile fun x => decide (w ≤ x)).any fun x => x == w

/-- `:684-690`; `cycleCounts` has `72 * eltsPerCacheLine` entries (`:634-636`), and `worker_id()` is `j`. -/
def tallyE (j : Nat) (a : Wk) (nw : Bool) (u : Nat) (t : Int) (x : Nat) : Option Int :=
  if x = u then some t
  else if x < a.k ∧ j < 576 then some ((t + (a.U x - if nw then 1 else 0) % 2 ^ 32) % 2 ^ 64) else none

/-- The body of the second loop, `:658-696`; `t` is `cycleCounts[j]`. -/
def sweepE (gd dg : Nat → List Nat) (j i : Nat) (p : Wk × Int) (u : Nat) : Option (Wk × Int) :=
  ((up i (gd u)).foldlM (Wk.add (-1)) p.1).bind fun a =>
  ((up i (gd u)).foldlM (fun t w => (dg w).foldlM (tallyE j a (scanNgb (dg i) w) u) t) p.2).bind fun t =>
  ((up i (gd u)).foldlM (Wk.add 1) a).map fun c => (c, t)

/-- One iteration of the parallel loop, `:638-698`, run by worker `j`, with the new value of `cycleCounts[j]`; `U` is
allocated anew (`:639`). -/
def vertexE (n : Nat) (gd dg : Nat → List Nat) (j i : Nat) (t : Int) : Option Int :=
  if gd i = [] then some t
  else (((dg i).foldlM (fun s u => (up i (gd u)).foldlM (Wk.add 1) s) (Wk.fresh n)).bind fun s =>
    (dg i).foldlM (sweepE gd dg j i) (s, t)).map Prod.snd

/-- The loop and `parlay::reduce`, `:634-700`. `sched`: the vertices in the order in which the iterations are executed, each with
its worker. An iteration runs on one worker and the counters are not shared. -/
def loopE (n : Nat) (gd dg : Nat → List Nat) (sched : List (Nat × Nat)) (c : Nat → Int) : Option (Nat → Int) :=
  sched.foldlM (fun c p => (vertexE n gd dg p.2 p.1 (c p.2)).map fun t j => if j = p.2 then t else c j) c

/-- `Count5Cycle_experiment`, `:586-705`, after the relabelling; edges are directed to the greater vertex (`:624-628`). -/
def countExperiment (H : CG) (sched : List (Nat × Nat)) : Option Int :=
  (loopE H.n H.nb (H.dir id) sched fun _ => 0).map fun c => (∑ j ∈ Finset.range 576, c j) % 2 ^ 64

/-! ### Proof -/

theorem dir_up {H : CG} (hH : H.Sorted) (i : Nat) : H.dir id i = up i (H.nb i) := by
  have h := hH.desc i
  show (H.nb i).filter (fun v => decide (i < v)) = (H.nb i).takeWhile fun u => decide (i < u)
  generalize H.nb i = l at h
  induction l with
  | nil => rfl
  | cons a l ih =>
    rw [List.pairwise_cons] at h
    by_cases ha : i < a
    · simp only [List.filter_cons, List.takeWhile_cons, decide_eq_true ha, if_true, ih h.2]
    · have : ∀ b ∈ l, ¬ i < b := fun b hb => by have := h.1 b hb; omega
      simp only [List.filter_cons, List.takeWhile_cons, decide_eq_false ha, Bool.false_eq_true, if_false]
      exact List.filter_eq_nil_iff.2 fun b hb => by simpa using this b hb

theorem scanNgb_iff {l : List Nat} (h : l.Pairwise (· > ·)) (w : Nat) : scanNgb l w = decide (w ∈ l) := by
  unfold scanNgb
  induction l with
  | nil => rfl
  | cons a l ih =>
    rw [List.pairwise_cons] at h
    by_cases ha : w ≤ a
    · rw [List.takeWhile_cons, if_pos (by simpa using ha), List.any_cons, ih h.2]
      by_cases e : a = w
      · subst e; simp
      · have e' : ¬ w = a := fun h => e h.symm
        simp [e, e']
    · rw [List.takeWhile_cons, if_neg (by simpa using ha)]
      have : w ∉ a :: l := by
        rintro hm
        rcases List.mem_cons.1 hm with rfl | hm
        · exact ha (Nat.le_refl _)
        · have := h.1 w hm; omega
      simp [this]

theorem foldlM_congr {α σ : Type} {f g : σ → α → Option σ} {l : List α} (h : ∀ a ∈ l, ∀ s, f s a = g s a) (s : σ) :
    l.foldlM f s = l.foldlM g s := by
  induction l generalizing s with
  | nil => rfl
  | cons a l ih =>
    rw [List.foldlM_cons, List.foldlM_cons, h a List.mem_cons_self]
    congr 1
    funext s'
    exact ih (fun b hb => h b (List.mem_cons_of_mem _ hb)) s'

theorem sweepE_eq {H : CG} (hH : H.Sorted) {j i : Nat} (hj : j < 576) (p : Wk × Int) (u : Nat) :
    sweepE H.nb (H.dir id) j i p u = sweep H.nb (H.dir id) i p u := by
  unfold sweepE sweep
  congr 1
  funext a
  congr 1
  refine foldlM_congr (fun w hw t => ?_) _
  have hw' := (mem_up (hH.desc u)).1 hw
  have e1 : up i (H.dir id w) = H.dir id w := by
    have : ∀ x ∈ H.dir id w, i < x := fun x hx => by
      have := (mem_dir.1 hx).2
      simp only [id] at this
      omega
    unfold up
    generalize H.dir id w = l at this
    induction l with
    | nil => rfl
    | cons a l ih =>
      rw [List.takeWhile_cons, if_pos (by simpa using this a List.mem_cons_self),
        ih fun x hx => this x (List.mem_cons_of_mem _ hx)]
  have e2 : scanNgb (H.dir id i) w = isNgb (H.nb i) w := by
    rw [scanNgb_iff (dir_desc hH i), isNgb_iff (hH.desc i)]
    refine decide_eq_decide.2 ?_
    rw [mem_dir]
    exact ⟨fun h => h.1, fun h => ⟨h, hw'.2⟩⟩
  rw [e1, e2]
  refine foldlM_congr (fun x _ t => ?_) _
  simp only [tallyE, tally, hj, and_true]

theorem vertexE_spec {H : CG} (hH : H.Sorted) (hn : H.n < 2 ^ 32) {j : Nat} (hj : j < 576) (i : Nat) {t : Int}
    (ht : t % 2 ^ 64 = t) : vertexE H.n H.nb (H.dir id) j i t = some ((t + countAt H id i) % 2 ^ 64) := by
  unfold vertexE
  by_cases h0 : H.nb i = []
  · rw [if_pos h0, countAt, h0]
    show some t = some ((t + 0) % 2 ^ 64)
    rw [Int.add_zero, ht]
  rw [if_neg h0, foldlM_flat, dir_up hH]
  show (((paths H i).foldlM (Wk.add 1) (Wk.fresh H.n)).bind _).map _ = _
  rw [add_all 1 _ (Wk.fresh H.n) (fun x hx => paths_lt hH hx) (fun _ => rfl), Option.bind_some]
  have hU : (fun x => ((Wk.fresh H.n).U x + 1 * ((paths H i).count x : Nat) : Int) % 2 ^ 32) =
      fun x => ((paths H i).count x : Int) := by
    funext x
    have := paths_count_le hH i x
    show ((0 : Int) + 1 * ((paths H i).count x : Nat)) % 2 ^ 32 = _
    rw [zero_add, one_mul]
    exact Int.emod_eq_of_lt (by omega) (by omega)
  rw [hU, foldlM_congr (fun u _ p => sweepE_eq hH hj p u)]
  have := sweep_all (rank := id) hH hn (Nat.le_refl _) [] i ht
  exact congrArg (Option.map Prod.snd) this

theorem loopE_spec {H : CG} (hH : H.Sorted) (hn : H.n < 2 ^ 32) (sched : List (Nat × Nat)) (hw : ∀ p ∈ sched, p.2 < 576)
    (c : Nat → Int) (hc : ∀ j, c j % 2 ^ 64 = c j) : ∃ c', loopE H.n H.nb (H.dir id) sched c = some c' ∧
      (∑ j ∈ Finset.range 576, c' j) % 2 ^ 64 =
        (∑ j ∈ Finset.range 576, c j + ((sched.map fun p => countAt H id p.1).sum : Nat)) % 2 ^ 64 := by
  induction sched generalizing c with
  | nil => exact ⟨c, rfl, by simp⟩
  | cons p l ih =>
    have hp := hw p List.mem_cons_self
    obtain ⟨c', h1, h2⟩ := ih (fun q hq => hw q (List.mem_cons_of_mem _ hq))
      (fun j => if j = p.2 then (c p.2 + countAt H id p.1) % 2 ^ 64 else c j) (fun j => by
        split
        · exact Int.emod_emod_of_dvd _ (dvd_refl _)
        · exact hc j)
    refine ⟨c', ?_, ?_⟩
    · rw [loopE, List.foldlM_cons, vertexE_spec hH hn hp _ (hc _), Option.map_some]
      exact h1
    · rw [h2]
      have e : (fun j => if j = p.2 then (c p.2 + countAt H id p.1) % 2 ^ 64 else c j) =
          fun j => c j + if j = p.2 then (c p.2 + countAt H id p.1 : Int) % 2 ^ 64 - c p.2 else 0 := by
        funext j
        by_cases hj : j = p.2
        · subst hj; simp
        · simp [hj]
      rw [e, Finset.sum_add_distrib, Finset.sum_ite_eq' (Finset.range 576), if_pos (Finset.mem_range.2 hp),
        List.map_cons, List.sum_cons, Nat.cast_add]
      omega

/-- **C112.** `Count5Cycle_experiment` returns the number of five-cycles (modulo 2^64), for every order of the vertices and every
distribution of the iterations to at most 576 workers. -/
theorem five_experiment {G : CG} {o : List Nat} (hG : G.Ok) (hn : G.n < 2 ^ 32) (ho : o.Perm (List.range G.n)) {H : CG}
    (hr : relabel G o = some H) {sched : List (Nat × Nat)} (hs : (sched.map Prod.fst).Perm (List.range G.n))
    (hw : ∀ p ∈ sched, p.2 < 576) : countExperiment H sched = some ((G.cycles : Int) % 2 ^ 64) := by
  obtain ⟨hH, e1, e2, -⟩ := relabel_spec hG ho hr
  have hn' : H.n < 2 ^ 32 := by omega
  obtain ⟨c, h1, h2⟩ := loopE_spec hH hn' sched hw (fun _ => 0) (fun _ => rfl)
  unfold countExperiment
  rw [h1, Option.map_some, h2]
  have e : (sched.map fun p => countAt H id p.1) = (sched.map Prod.fst).map (countAt H id) := by rw [List.map_map]; rfl
  rw [e, (hs.map _).sum_eq, ← e1, (countAt_total (rank := id) hH fun a b h e => hH.loop a (by have e : a = b := e; rw [← e] at h; exact h)).1, e2]
  simp

/-! ### Examples -/

/-- A wheel: six five-cycles, counted by two workers. -/
example : ∃ H, relabel wheel (List.range 6) = some H ∧ countExperiment H ((List.range 6).map fun b => (b, b % 2)) = some 6 := by
  obtain ⟨H, hr⟩ := relabel_some (G := wheel) (by decide) (List.range 6)
  have h := five_experiment wheel_ok.toOk (by decide) wheel_order.1 hr (sched := (List.range 6).map fun b => (b, b % 2))
    (by decide) (by decide)
  have hc : ((wheel.cycles : Int) % 2 ^ 64) = 6 := by rw [← escAt_total wheel_ok]; decide +kernel
  rw [hc] at h
  exact ⟨H, hr, h⟩

/-- **C112, refuted.** The counters are indexed by workers, but there are only 576 of them: on a worker with a greater
number, counting one cycle writes outside of the array. -/
theorem five_experiment_workers (j : Nat) (hj : 576 ≤ j) :
    countExperiment (ring 5) ((List.range 5).map fun i => (i, j)) = none ∧
    countExperiment (ring 5) ((List.range 5).map fun i => (i, i)) = some 1 := by
  have hj' : ¬ j < 576 := by omega
  constructor
  · have h : vertexE 5 (ring 5).nb ((ring 5).dir id) j 0 0 = none := by
      simp [vertexE, sweepE, tallyE, ring, up, CG.dir, hj', Wk.add, Wk.fresh, scanNgb]
    unfold countExperiment loopE
    rw [show (List.range 5).map (fun i => (i, j)) = (0, j) :: (List.range 4).map (fun i => (i + 1, j)) from rfl, List.foldlM_cons]
    show Option.map _ (((vertexE 5 (ring 5).nb ((ring 5).dir id) j 0 0).map _).bind _) = none
    rw [h]; rfl
  · decide +kernel

end Gbbs.Cyc
