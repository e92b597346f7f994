/-
C107: every query has a run; the limits of the deterministic variant and of the index.
-/
import Verif.Scan.Main
import Verif.Bicc.Exists

namespace Gbbs.Scan

open UF Conc Conc.Prog Relation Em
open Atomics (Steps)
open Bicc (Chain chain_root chain_next all_run)

set_option linter.unusedSectionVars false

/-! ### Union-find on the cores -/

/-- Parents of cores are smaller cores. -/
def Desc (C : Nat → Prop) (m : Loc → Nat) : Prop := ∀ x, C x → C (m (.par x)) ∧ m (.par x) ≤ x

section
variable {C : Nat → Prop}

theorem chain_put {m : Loc → Nat} (hD : Desc C m) {t j i v : Nat} (ht : C t) (h : Chain m t j) (hlt : t < i) : Chain (put m (.par i) v) t j := by
  obtain ⟨k, hk⟩ := h
  induction k generalizing t with
  | zero => exact ⟨0, hk⟩
  | succ k ih =>
    obtain ⟨k', hk'⟩ := ih (t := m (.par t)) (hD t ht).1 (Nat.lt_of_le_of_lt (hD t ht).2 hlt) hk
    refine ⟨k' + 1, ?_⟩
    rw [Function.iterate_succ_apply]
    rw [put_ne _ _ (by intro e; injection e; omega)]
    exact hk'

theorem climb_ok {m : Loc → Nat} (hD : Desc C m) (f j : Nat) (hj : j < f) (hc : C j) :
    ∃ r, exec (climb f j) m = some (r, m) ∧ m (.par r) = r ∧ r ≤ j ∧ Chain m j r ∧ C r := by
  induction f generalizing j with
  | zero => omega
  | succ f ih =>
    have h1 := hD j hc
    show ∃ r, exec (if m (.par (m (.par j))) ≠ m (.par j) then climb f (m (.par j)) else ret (m (.par j))) m = _ ∧ _
    by_cases h : m (.par (m (.par j))) ≠ m (.par j)
    · rw [if_pos h]
      have h2 : m (.par j) ≠ j := fun e => h (by rw [e, e])
      obtain ⟨r, h3, h4, h5, ⟨k, hk⟩, h6⟩ := ih (m (.par j)) (by omega) h1.1
      exact ⟨r, h3, h4, by omega, ⟨k + 1, hk⟩, h6⟩
    · rw [if_neg h]
      exact ⟨_, rfl, by simpa using h, h1.2, ⟨1, rfl⟩, h1.1⟩

theorem desc_put {m : Loc → Nat} (hD : Desc C m) {i j : Nat} (hj : C j) (hij : j ≤ i) : Desc C (put m (.par i) j) := by
  intro x hx
  by_cases h : x = i
  · subst h; rw [put_same]; exact ⟨hj, hij⟩
  · rw [put_ne _ _ (by intro e; injection e; omega)]; exact hD x hx

theorem compress_ok (f : Nat) (i j : Nat) (hi : i < f) (m : Loc → Nat) (hD : Desc C m) (hci : C i) (hcj : C j) (hj : m (.par j) = j) (hc : Chain m i j) :
    ∃ m', exec (compressLoop f i j) m = some ((), m') ∧ Desc C m' ∧ ∀ r, m (.par r) = r → m' (.par r) = r := by
  induction f generalizing i m with
  | zero => omega
  | succ f ih =>
    show ∃ m', exec (if m (.par i) > j then write (.par i) j (compressLoop f (m (.par i)) j) else ret ()) m = _ ∧ _
    by_cases h : m (.par i) > j
    · rw [if_pos h]
      have h1 := hD i hci
      have hne : m (.par i) ≠ i := fun e => by have := chain_root hc e; omega
      have hij : i ≠ j := fun e => by subst e; exact hne hj
      have hr : ∀ r, m (.par r) = r → put m (.par i) j (.par r) = r := by
        intro r h2
        rw [put_ne _ _ (by intro e; injection e with e; subst e; exact hne h2), h2]
      obtain ⟨m', h2, h3, h4⟩ := ih (m (.par i)) (by omega) (put m (.par i) j) (desc_put hD hcj (by omega)) h1.1 (hr j hj)
        (chain_put hD h1.1 (chain_next hc hij) (by omega))
      exact ⟨m', h2, h3, fun r h5 => h4 r (hr r h5)⟩
    · rw [if_neg h]
      exact ⟨m, rfl, hD, fun _ h => h⟩

theorem find_ok (f i : Nat) (hi : i < f) (m : Loc → Nat) (hD : Desc C m) (hc : C i) :
    ∃ r m', exec (findCompress f i) m = some (r, m') ∧ Desc C m' ∧ m' (.par r) = r ∧ (∀ r, m (.par r) = r → m' (.par r) = r) ∧ C r ∧ r ≤ i := by
  show ∃ r m', exec (if m (.par i) = i then ret i else (climb f i).bind fun j => (compressLoop f i j).bind fun _ => ret j) m = _ ∧ _
  by_cases h : m (.par i) = i
  · rw [if_pos h]; exact ⟨i, m, rfl, hD, h, fun _ h => h, hc, Nat.le_refl _⟩
  · rw [if_neg h]
    obtain ⟨r, h1, h2, h3, h4, h4'⟩ := climb_ok hD f i hi hc
    obtain ⟨m', h5, h6, h7⟩ := compress_ok f i r hi m hD hc h4' h2 h4
    refine ⟨r, m', ?_, h6, h7 r h2, h7, h4', h3⟩
    rw [exec_bind, h1]
    show exec ((compressLoop f i r).bind fun _ => ret r) m = _
    rw [exec_bind, h5]; rfl

theorem unite_ok (f u v : Nat) (hu : u < f) (hv : v < f) (m : Loc → Nat) (hD : Desc C m) (hcu : C u) (hcv : C v) :
    ∃ a m', exec (unite (findCompress f) 1 u v) m = some (a, m') ∧ Desc C m' := by
  rw [unite]
  obtain ⟨r, m1, h1, h2, h3, h4, hcr, -⟩ := find_ok f u hu m hD hcu
  obtain ⟨s, m2, h5, h6, h7, h8, hcs, -⟩ := find_ok f v hv m1 h2 hcv
  have hr := h8 r h3
  rw [exec_bind, h1]
  show ∃ a m', exec ((findCompress f v).bind fun v => _) m1 = some (a, m') ∧ _
  rw [exec_bind, h5]
  show ∃ a m', exec (if r = s then _ else if r > s then _ else _) m2 = some (a, m') ∧ _
  by_cases c0 : r = s
  · rw [if_pos c0]; exact ⟨_, _, rfl, h6⟩
  · rw [if_neg c0]
    by_cases c1 : r > s
    · rw [if_pos c1]
      refine ⟨some r, put m2 (.par r) s, ?_, desc_put h6 hcs (by omega)⟩
      simp only [exec]
      rw [if_pos hr]
      simp only [exec]
      rw [if_pos hr]
      rfl
    · rw [if_neg c1]
      refine ⟨some s, put m2 (.par s) r, ?_, desc_put h6 hcr (by omega)⟩
      simp only [exec]
      rw [if_pos h7]
      simp only [exec]
      rw [if_pos h7]
      rfl

/-- The calls and the last loop terminate when run one after the other. -/
theorem unites_exists {n : Nat} {P0 : Nat → Nat} (h : Pre n C P0) {calls : List (Nat × Nat)} (hcalls : ∀ e ∈ calls, C e.1 ∧ C e.2)
    {cores : List Nat} (hcores : ∀ x, x ∈ cores ↔ C x) : ∃ lab, Unites P0 calls cores lab := by
  obtain ⟨c1, h1, h2, h3⟩ := all_run (n := calls.length) (fun i => unite (findCompress (calls[i].1 + calls[i].2 + 1)) 1 calls[i].1 calls[i].2) (Desc C)
    (fun i m hm => unite_ok _ _ _ (by omega) (by omega) m hm (hcalls _ (List.getElem_mem _)).1 (hcalls _ (List.getElem_mem _)).2)
    (m := memS P0 0) (fun x hx => ⟨h.core x hx, h.le x hx⟩)
  obtain ⟨c2, h4, h5, h6⟩ := all_run (n := cores.length) (fun i => finalStep (findCompress (cores[i] + 1)) cores[i]) (Desc C)
    (fun i m hm => by
      obtain ⟨r, m', h1, h2, -, -, h3, h4⟩ := find_ok (cores[i] + 1) cores[i] (by omega) m hm ((hcores _).1 (List.getElem_mem _))
      refine ⟨(), put m' (.par cores[i]) r, ?_, desc_put h2 h3 h4⟩
      rw [finalStep, exec_bind, h1]; rfl) (m := c1.mem) h3
  exact ⟨_, fun _ => 1, fun i => calls[i].1 + calls[i].2 + 1, fun i => cores[i] + 1, c1, c2, h1, h2, h4, fun i => (h5 i).elim fun _ h => h, rfl⟩

end

/-! ### Attaching -/

section
variable {S : Type} [LinearOrder S] {G : SG S} {nbr : Nat → List (Es S)} {ord : List (List (Nat × S))} {mu : Nat} {eps : S}

theorem attachLoop_ok (k : Nat) (l : List (Es S)) (m : Nat → Nat) : ∃ m', exec (attachLoop k l) m = some ((), m') := by
  induction l generalizing m with
  | nil => exact ⟨m, rfl⟩
  | cons e l ih =>
    show ∃ m', exec (if m e.ngh = uMax then cas e.ngh uMax k fun _ => attachLoop k l else attachLoop k l) m = _
    by_cases h : m e.ngh = uMax
    · rw [if_pos h]
      obtain ⟨m', h'⟩ := ih (put m e.ngh k)
      exact ⟨m', by rw [exec, if_pos h]; exact h'⟩
    · rw [if_neg h]; exact ih m

theorem offerLoop_ok (cl : Nat → Nat) (core : Nat) (l : List (Es S)) (m : Nat → S × Nat) : ∃ m', exec (offerLoop cl core 1 l) m = some ((), m') := by
  induction l generalizing m with
  | nil => exact ⟨m, rfl⟩
  | cons e l ih =>
    rw [offerLoop]
    split
    · show ∃ m', exec (if (m e.ngh).1 < e.sim ∨ e.sim = (m e.ngh).1 ∧ core < (m e.ngh).2 then
          cas e.ngh (m e.ngh) (e.sim, core) fun b => if b then offerLoop cl core 1 l else offer e.ngh e.sim core 0 (offerLoop cl core 1 l) else offerLoop cl core 1 l) m = _
      split
      · obtain ⟨m', h'⟩ := ih (put m e.ngh (e.sim, core))
        exact ⟨m', by rw [exec, if_pos rfl]; exact h'⟩
      · exact ih m
    · exact ih m

theorem attachAny_exists (det : Bool) (m1 z : S) (n : Nat) (nbr : Nat → List (Es S)) (eps : S) (cores : List Nat) (cl : Nat → Nat) :
    ∃ cl', AttachAny det m1 z n nbr eps cores cl cl' := by
  cases det with
  | false =>
    obtain ⟨c, h1, h2, -⟩ := all_run (n := cores.length) (fun i => attach nbr eps cores[i]) (fun _ => True) (fun i m _ => by
      obtain ⟨m', h⟩ := attachLoop_ok (m cores[i]) ((nbr cores[i]).take (simCount nbr eps cores[i])) m
      exact ⟨(), m', h, trivial⟩) (m := cl) trivial
    exact ⟨_, c, h1, fun i => (h2 i).elim fun _ h => h, rfl⟩
  | true =>
    obtain ⟨c, h1, h2, -⟩ := all_run (n := cores.length) (fun i => offerLoop cl cores[i] 1 ((nbr cores[i]).take (simCount nbr eps cores[i]))) (fun _ => True) (fun i m _ => by
      obtain ⟨m', h⟩ := offerLoop_ok cl cores[i] ((nbr cores[i]).take (simCount nbr eps cores[i])) m
      exact ⟨(), m', h, trivial⟩) (m := fun _ => (m1, uMax)) trivial
    exact ⟨_, fun _ => 1, c, h1, fun i => (h2 i).elim fun _ h => h, rfl⟩

/-- Every query has a run. -/
theorem cluster_exists (hG : G.Ok) (X : Ix G nbr ord) (det : Bool) (m1 z : S) (mu : Nat) (eps : S) : ∃ cl, ClusterQ det m1 z G.n nbr ord mu eps cl := by
  by_cases h : getCores G.n ord mu eps = []
  · exact ⟨blank, by rw [ClusterQ, if_pos h]⟩
  · obtain ⟨h1, h2, -⟩ := one_facts hG X (mu := mu) (eps := eps)
    obtain ⟨lab, h3⟩ := unites_exists h1 h2 (X.cores mu eps).2
    obtain ⟨cl, h4⟩ := attachAny_exists det m1 z G.n nbr eps (getCores G.n ord mu eps) lab
    exact ⟨cl, by rw [ClusterQ, if_neg h]; exact ⟨lab, h3, h4⟩⟩

theorem clusterMany_exists (hG : G.Ok) (X : Ix G nbr ord) (det : Bool) (m1 z : S) (mu : Nat) (epss : List S) :
    ∃ outs, ClusterMany det m1 z G.n nbr ord mu epss outs := by
  have aux : ∀ (se : List (S × Nat)) (labels : Nat → Nat) (prev : List Nat) (pcnt : Nat → Nat), se.Pairwise (fun a b => b.1 ≤ a.1) →
      (∀ e ∈ se, St G nbr ord mu labels prev pcnt e.1) → ∃ outs, ClusterLoop det m1 z G.n nbr ord mu labels prev pcnt se outs := by
    intro se
    induction se with
    | nil => intro labels prev pcnt _ _; exact ⟨[], .nil _ _ _⟩
    | cons e se ih =>
      intro labels prev pcnt hs hst
      rw [List.pairwise_cons] at hs
      obtain ⟨h1, h2, -⟩ := inc_facts hG X (hst e List.mem_cons_self)
      obtain ⟨lab, h3⟩ := unites_exists h1 h2 (X.cores mu e.1).2
      obtain ⟨cl, h4⟩ := attachAny_exists det m1 z G.n nbr e.1 (getCores G.n ord mu e.1) lab
      obtain ⟨outs, h5⟩ := ih lab (getCores G.n ord mu e.1) (fun j => simCount nbr e.1 ((getCores G.n ord mu e.1).getD j 0)) hs.2 (fun d hd =>
        .inr ⟨e.1, hs.1 d hd, rfl, clusterInc_spec hG X (hst e List.mem_cons_self) h3, fun _ _ => rfl⟩)
      exact ⟨_, .cons (eps := e.1) (idx := e.2) _ rfl h3 h4 h5⟩
  let se := epss.zipIdx.mergeSort fun a b => decide (b.1 ≤ a.1)
  have hs : se.Pairwise fun a b => b.1 ≤ a.1 := (List.pairwise_mergeSort (le := fun a b : S × Nat => decide (b.1 ≤ a.1))
      (fun a b c h1 h2 => by rw [decide_eq_true_eq] at *; exact le_trans h2 h1) (fun a b => by
        rw [Bool.or_eq_true, decide_eq_true_eq, decide_eq_true_eq]; exact le_total _ _) _).imp fun h => by rwa [decide_eq_true_eq] at h
  obtain ⟨outs, h⟩ := aux se blank [] (fun _ => 0) hs fun _ _ => .inl ⟨rfl, rfl⟩
  exact ⟨outs, se, List.mergeSort_perm _ _, hs, h⟩

end

/-! ### An example -/

/-- Two cliques 0 1 2 3 and 4 5 6 7, joined through the vertex 8, which is closer to the second; 9 is alone. -/
def exG : SG Int where
  n := 10
  nb u := match u with
    | 0 => [1, 2, 3] | 1 => [0, 2, 3] | 2 => [0, 1, 3] | 3 => [0, 1, 2, 8]
    | 4 => [5, 6, 7, 8] | 5 => [4, 6, 7] | 6 => [4, 5, 7] | 7 => [4, 5, 6] | 8 => [3, 4] | _ => []
  sim u v := if u = 8 ∨ v = 8 then (if u = 4 ∨ v = 4 then 5 else 4) else 9

theorem exG_ok : exG.Ok := by
  refine ⟨by decide +kernel, ?_, ?_⟩
  · have : ∀ u < 10, ∀ v ∈ exG.nb u, v < 10 := by decide +kernel
    exact fun u v hu hv => this u hu v hv
  · have : ∀ u < 10, ∀ v ∈ exG.nb u, u ∈ exG.nb v ∧ exG.sim v u = exG.sim u v := by decide +kernel
    exact fun u v hu hv => this u hu v hv

/-- The hypotheses of `cluster_correct` are met, in both variants. -/
example (det : Bool) : ∃ nbr ord, exG.Ok ∧ Ix exG nbr ord ∧ (-1 : Int) ≤ 0 ∧ Pos 0 exG 4 ∧ ∃ cl, ClusterQ det (-1) 0 exG.n nbr ord 4 4 cl := by
  obtain ⟨nbr, ord, h1, h2⟩ := index_exists exG
  exact ⟨nbr, ord, exG_ok, .of (.refl _) h1 h2, by decide, .of_lt (by decide), cluster_exists exG_ok (.of (.refl _) h1 h2) det _ _ 4 4⟩

/-- The hypotheses of `clusterMany_correct` are met, for thresholds in any order. -/
example (det : Bool) : ∃ nbr ord, exG.Ok ∧ Ix exG nbr ord ∧ (∀ e ∈ [4, 9, 5, 9], Pos 0 exG e) ∧
    ∃ outs, ClusterMany det (-1) 0 exG.n nbr ord 4 [4, 9, 5, 9] outs := by
  obtain ⟨nbr, ord, h1, h2⟩ := index_exists exG
  refine ⟨nbr, ord, exG_ok, .of (.refl _) h1 h2, fun e he => .of_lt ?_, clusterMany_exists exG_ok (.of (.refl _) h1 h2) det _ _ 4 _⟩
  have : ∀ e ∈ [(4 : Int), 9, 5, 9], 0 < e := by decide
  exact this e he

theorem ex_core (u : Nat) (hu : u < 10) : Core exG 4 4 u ↔ u < 8 := by
  have : ∀ u < 10, (4 ≤ ((exG.nb u).filter fun v => decide (4 ≤ exG.sim u v)).length + 1) ↔ u < 8 := by decide +kernel
  exact ⟨fun h => (this u hu).1 h.2, fun h => ⟨hu, (this u hu).2 h⟩⟩

/-- With `mu = 4` and the threshold 4 there are two clusters, the deterministic variant puts 8 into the second, and 9 is in none. -/
theorem ex_result {cl : Nat → Nat} (h : Result true exG 4 4 cl) : (∀ u < 4, cl u = 0) ∧ (∀ u < 8, 4 ≤ u → cl u = 4) ∧ cl 8 = 4 ∧ cl 9 = uMax := by
  have hadj : ∀ u < 8, ∀ v ∈ exG.nb u, v < 8 → (u < 4 ↔ v < 4) := by decide +kernel
  have hside : ∀ u v, Linked exG 4 4 u v → u = v ∨ (u < 8 ∧ v < 8 ∧ (u < 4 ↔ v < 4)) := by
    intro u v hl
    induction hl with
    | rel u v h =>
      have hu := (ex_core u h.1.1.1).1 h.1.1
      have hv := (ex_core v h.2.1).1 h.2
      exact .inr ⟨hu, hv, hadj u hu v h.1.2.1 hv⟩
    | refl => exact .inl rfl
    | symm u v _ ih => omega
    | trans u v w _ _ ih1 ih2 => omega
  have hnear : ∀ u < 8, ∀ v < 8, ((u < 4 ↔ v < 4) ∧ u ≠ v) → (v ∈ exG.nb u ∧ 4 ≤ exG.sim u v) := by decide +kernel
  have hlink : ∀ u v, u < 8 → v < 8 → (u < 4 ↔ v < 4) → Linked exG 4 4 u v := by
    intro u v hu hv huv
    by_cases he : u = v
    · subst he; exact .refl _
    · obtain ⟨h1, h2⟩ := hnear u hu v hv ⟨huv, he⟩
      exact .rel _ _ ⟨⟨(ex_core u (by omega)).2 hu, h1, h2⟩, (ex_core v (by omega)).2 hv⟩
  have hlab : ∀ u < 8, cl u = if u < 4 then 0 else 4 := by
    intro u hu
    obtain ⟨h1, h2, h3⟩ := h.1.core u ((ex_core u (by omega)).2 hu)
    have := hside _ _ h2
    split
    · have := h3 0 ((ex_core 0 (by omega)).2 (by omega)) (hlink _ _ hu (by omega) (by omega))
      omega
    · have := h3 4 ((ex_core 4 (by omega)).2 (by omega)) (hlink _ _ hu (by omega) (by omega))
      omega
  refine ⟨fun u hu => by rw [hlab u (by omega), if_pos hu], fun u hu h4 => by rw [hlab u hu, if_neg (by omega)], ?_, ?_⟩
  · rw [h.2 rfl 4 8 (by decide) (fun hc => absurd ((ex_core 8 (by omega)).1 hc) (by omega)) ⟨⟨(ex_core 4 (by omega)).2 (by omega), by decide, by decide⟩, fun w hw => ?_⟩,
      hlab 4 (by omega), if_neg (by omega)]
    have hw8 := (ex_core w hw.1.1).1 hw.1
    have : ∀ w < 8, 8 ∈ exG.nb w → exG.sim w 8 < exG.sim 4 8 ∨ exG.sim w 8 = exG.sim 4 8 ∧ 4 ≤ w := by decide +kernel
    exact this w hw8 hw.2.1
  · refine h.1.none 9 (by decide) (fun hc => absurd ((ex_core 9 (by omega)).1 hc) (by omega)) ?_
    rintro ⟨u, hu⟩
    have : ∀ u < 10, 9 ∉ exG.nb u := by decide +kernel
    exact this u hu.1.1 hu.2.1

/-! ### The limit of the deterministic variant -/

/-- The path 0 1 2, where neighbours have the similarity 0, as with `ApproxCosineSimilarity` (`similarity_measure.h:549-551`). -/
def zeroG : SG Int where
  n := 3
  nb u := match u with | 0 => [1] | 1 => [0, 2] | 2 => [1] | _ => []
  sim _ _ := 0

theorem zeroG_ok : zeroG.Ok := by
  refine ⟨by decide +kernel, ?_, ?_⟩
  · have : ∀ u < 3, ∀ v ∈ zeroG.nb u, v < 3 := by decide +kernel
    exact fun u v hu hv => this u hu v hv
  · have : ∀ u < 3, ∀ v ∈ zeroG.nb u, u ∈ zeroG.nb v ∧ zeroG.sim v u = zeroG.sim u v := by decide +kernel
    exact fun u v hu hv => this u hu v hv

theorem zeroG_near : Near zeroG 3 0 1 0 ∧ ¬ Core zeroG 3 0 0 := by
  refine ⟨⟨⟨by decide, by decide⟩, by decide, by decide⟩, fun h => absurd h.2 (by decide)⟩

/-- With `mu = 3` and the threshold 0, vertex 1 is a core and 0 is a similar neighbour; the deterministic variant leaves 0 without a cluster,
the other one puts it into the cluster of 1. -/
theorem det_zero : ∃ nbr ord, Ix zeroG nbr ord ∧
    (∃ cl, ClusterQ true (-1) 0 zeroG.n nbr ord 3 0 cl) ∧
    (∀ cl, ClusterQ true (-1) 0 zeroG.n nbr ord 3 0 cl → cl 0 = uMax ∧ ¬ IsScan zeroG 3 0 cl) ∧
    (∀ cl, ClusterQ false (-1) 0 zeroG.n nbr ord 3 0 cl → cl 0 = 1) := by
  obtain ⟨nbr, ord, h1, h2⟩ := index_exists zeroG
  have X : Ix zeroG nbr ord := .of (.refl _) h1 h2
  have hcore : ∀ u, Core zeroG 3 0 u → u = 1 := by
    intro u hu
    have : ∀ u < 3, (3 ≤ ((zeroG.nb u).filter fun v => decide (0 ≤ zeroG.sim u v)).length + 1) → u = 1 := by decide +kernel
    exact this u hu.1 hu.2
  refine ⟨nbr, ord, X, cluster_exists zeroG_ok X _ _ _ _ _, fun cl h => ?_, fun cl h => ?_⟩
  · rw [ClusterQ, if_neg (by
      intro h0
      have := ((X.cores 3 0).2 1).2 zeroG_near.1.1
      rw [h0] at this; cases this)] at h
    obtain ⟨lab, h3, h4⟩ := h
    have hl := clusterCores_spec zeroG_ok X h3
    have h5 := (attachDet_spec (by decide) h4).2.2 0 (hl.none 0 (by decide) zeroG_near.2) (by
      rintro ⟨u, s, hs, h0⟩
      have := ((offers_iff X).1 hs).2
      subst this
      exact absurd h0 (lt_irrefl _))
    refine ⟨h5, fun hs => ?_⟩
    obtain ⟨u, hu, he⟩ := hs.border 0 (by decide) zeroG_near.2 ⟨1, zeroG_near.1⟩
    have := (hs.core u hu.1).1.1
    rw [← he, h5] at this
    exact absurd this (by decide)
  · have hs := (cluster_correct zeroG_ok X (z := 0) (by decide) (by intro h; cases h) h).1
    obtain ⟨u, hu, he⟩ := hs.border 0 (by decide) zeroG_near.2 ⟨1, zeroG_near.1⟩
    rw [he]
    exact hcore _ (hs.core u hu.1).1

end Gbbs.Scan
