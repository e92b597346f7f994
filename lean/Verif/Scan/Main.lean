/-
C107: the queries return SCAN clusterings.
-/
import Verif.Scan.Attach

namespace Gbbs.Scan

open UF Conc Conc.Prog Relation
open Atomics (Steps)

set_option linter.unusedSectionVars false

variable {S : Type} [LinearOrder S] {G : SG S} {nbr : Nat → List (Es S)} {ord : List (List (Nat × S))} {mu : Nat} {eps : S}

/-! ### Cores -/

theorem Core.mono {eps eps' : S} (h : eps' ≤ eps) {u : Nat} (hu : Core G mu eps u) : Core G mu eps' u := by
  refine ⟨hu.1, Nat.le_trans hu.2 (Nat.add_le_add_right (List.Sublist.length_le (List.monotone_filter_right _ fun v hv => ?_)) 1)⟩
  rw [decide_eq_true_eq] at hv ⊢
  exact le_trans h hv

theorem Near.mono {eps eps' : S} (h : eps' ≤ eps) {u v : Nat} (hu : Near G mu eps u v) : Near G mu eps' u v :=
  ⟨hu.1.mono h, hu.2.1, le_trans h hu.2.2⟩

theorem Linked.mono {eps eps' : S} (h : eps' ≤ eps) {u v : Nat} (hu : Linked G mu eps u v) : Linked G mu eps' u v :=
  EqvGen.mono (fun _ _ hab => ⟨hab.1.mono h, hab.2.mono h⟩) _ _ hu

theorem Near.symm (hG : G.Ok) {u v : Nat} (h : Near G mu eps u v) (hv : Core G mu eps v) : Near G mu eps v u := by
  have := hG.symm u v h.1.1 h.2.1
  exact ⟨hv, this.1, by rw [this.2]; exact h.2.2⟩

/-- The labels of the cores before the other vertices are attached. -/
structure CoreLab (G : SG S) (mu : Nat) (eps : S) (lab : Nat → Nat) : Prop where
  core : ∀ u, Core G mu eps u → Core G mu eps (lab u) ∧ Linked G mu eps u (lab u) ∧ ∀ v, Core G mu eps v → Linked G mu eps u v → lab u ≤ v
  none : ∀ v, v < G.n → ¬ Core G mu eps v → lab v = uMax

theorem CoreLab.of_unites (X : Ix G nbr ord) {P0 : Nat → Nat} (h : Pre G.n (Core G mu eps) P0) {calls : List (Nat × Nat)} (hcalls : ∀ e ∈ calls, Core G mu eps e.1 ∧ Core G mu eps e.2)
    (hj : ∀ x y, Joined (Core G mu eps) P0 calls x y ↔ Linked G mu eps x y) {lab : Nat → Nat} (hr : Unites P0 calls (getCores G.n ord mu eps) lab) :
    CoreLab G mu eps lab := by
  obtain ⟨h1, h2⟩ := unites_spec h hcalls (X.cores mu eps).2 hr
  refine ⟨fun u hu => ?_, h1⟩
  obtain ⟨h3, h4, h5⟩ := h2 u hu
  exact ⟨h3, (hj _ _).1 h4, fun v hv hl => h5 v hv ((hj _ _).2 hl)⟩

theorem CoreLab.ne (hG : G.Ok) {lab : Nat → Nat} (h : CoreLab G mu eps lab) {u : Nat} (hu : Core G mu eps u) : lab u ≠ uMax := by
  have h1 := (h.core u hu).1.1
  have h2 := hG.fits
  omega

theorem CoreLab.idem {lab : Nat → Nat} (h : CoreLab G mu eps lab) {u : Nat} (hu : Core G mu eps u) : lab (lab u) = lab u := by
  obtain ⟨h1, h2, h3⟩ := h.core u hu
  obtain ⟨h4, h5, h6⟩ := h.core (lab u) h1
  exact Nat.le_antisymm (h6 _ h1 (.refl _)) (h3 _ h4 (h2.trans _ _ _ h5))

/-- Two cores have the same label exactly if they are linked. -/
theorem CoreLab.eq_iff {lab : Nat → Nat} (h : CoreLab G mu eps lab) {u v : Nat} (hu : Core G mu eps u) (hv : Core G mu eps v) :
    lab u = lab v ↔ Linked G mu eps u v := by
  obtain ⟨h1, h2, h3⟩ := h.core u hu
  obtain ⟨h4, h5, h6⟩ := h.core v hv
  constructor
  · exact fun he => h2.trans _ _ _ (he ▸ h5.symm)
  · exact fun hl => Nat.le_antisymm (h3 _ h4 (hl.trans _ _ _ h5)) (h6 _ h1 (hl.symm.trans _ _ _ h2))

/-! ### One threshold -/

theorem mem_callsOne (X : Ix G nbr ord) {a b : Nat} :
    (a, b) ∈ callsOne nbr eps (getCores G.n ord mu eps) ↔ Near G mu eps a b ∧ Core G mu eps b ∧ b < a := by
  have hc := (X.cores mu eps).2
  rw [callsOne, List.mem_flatMap]
  constructor
  · rintro ⟨c, h1, h2⟩
    obtain ⟨e, h3, h4⟩ := List.mem_filterMap.1 h2
    split at h4
    · rename_i h5
      cases h4
      have h6 := (hc _).1 h1
      have h7 := (X.take eps h6.1 e).1 h3
      exact ⟨⟨h6, h7.2.1, h7.2.2.2⟩, (hc _).1 h5.2, h5.1⟩
    · cases h4
  · rintro ⟨h1, h2, h3⟩
    refine ⟨a, (hc _).2 h1.1, List.mem_filterMap.2 ⟨⟨a, b, G.sim a b⟩, (X.take eps h1.1.1 _).2 ⟨rfl, h1.2.1, rfl, h1.2.2⟩, ?_⟩⟩
    dsimp only
    rw [if_pos ⟨h3, (hc _).2 h2⟩]

theorem one_facts (hG : G.Ok) (X : Ix G nbr ord) : Pre G.n (Core G mu eps) (start G.n blank (getCores G.n ord mu eps)) ∧
    (∀ e ∈ callsOne nbr eps (getCores G.n ord mu eps), Core G mu eps e.1 ∧ Core G mu eps e.2) ∧
    ∀ x y, Joined (Core G mu eps) (start G.n blank (getCores G.n ord mu eps)) (callsOne nbr eps (getCores G.n ord mu eps)) x y ↔ Linked G mu eps x y := by
  have hc := (X.cores mu eps).2
  have hP : ∀ x, Core G mu eps x → start G.n blank (getCores G.n ord mu eps) x = x := fun x hx => by
    rw [start, if_pos ((hc x).2 hx)]; split <;> rfl
  refine ⟨⟨hG.fits, fun x hx => hx.1, fun x hx => ?_, fun x hx hxc => ?_, fun x hx => ?_, fun x hx => ?_, fun x hx => ?_⟩,
    fun e he => ?_, fun x y => ⟨fun h => ?_, fun h => ?_⟩⟩
  · rw [start, if_pos hx]
  · rw [start, if_neg (by omega), if_neg (fun h => hxc ((hc x).1 h))]; rfl
  · rw [hP x hx]; exact hx
  · rw [hP x hx, hP x hx]
  · rw [hP x hx]
  · have := (mem_callsOne X (a := e.1) (b := e.2)).1 he
    exact ⟨this.1.1, this.2.1⟩
  · refine eqvGen_le (EqvGen.is_equivalence _) (fun a b hab => ?_) h
    rcases hab with hab | ⟨ha, rfl⟩
    · have := (mem_callsOne X).1 hab
      exact .rel _ _ ⟨this.1, this.2.1⟩
    · rw [hP a ha]; exact .refl _
  · refine eqvGen_le (EqvGen.is_equivalence _) (fun a b hab => ?_) h
    rcases Nat.lt_trichotomy a b with hlt | rfl | hlt
    · exact (EqvGen.rel _ _ (.inl ((mem_callsOne X).2 ⟨hab.1.symm hG hab.2, hab.1.1, hlt⟩))).symm
    · exact .refl _
    · exact .rel _ _ (.inl ((mem_callsOne X).2 ⟨hab.1, hab.2, hlt⟩))

theorem clusterCores_spec (hG : G.Ok) (X : Ix G nbr ord) {lab : Nat → Nat}
    (hr : Unites (start G.n blank (getCores G.n ord mu eps)) (callsOne nbr eps (getCores G.n ord mu eps)) (getCores G.n ord mu eps) lab) :
    CoreLab G mu eps lab := by
  obtain ⟨h1, h2, h3⟩ := one_facts hG X (mu := mu) (eps := eps)
  exact .of_unites X h1 h2 h3 hr

theorem offers_iff (X : Ix G nbr ord) {u x : Nat} {s : S} :
    Offers nbr eps (getCores G.n ord mu eps) u x s ↔ Near G mu eps u x ∧ s = G.sim u x := by
  rw [Offers, (X.cores mu eps).2]
  constructor
  · rintro ⟨h1, e, h2, rfl, rfl⟩
    have := (X.take eps h1.1 e).1 h2
    exact ⟨⟨h1, this.2.1, this.2.2.2⟩, this.2.2.1⟩
  · rintro ⟨h1, rfl⟩
    exact ⟨h1.1, ⟨u, x, G.sim u x⟩, (X.take eps h1.1.1 _).2 ⟨rfl, h1.2.1, rfl, h1.2.2⟩, rfl, rfl⟩

/-- The result that is asked for; for the deterministic variant also the choice of the cluster of a vertex that is not a core. -/
def Result (det : Bool) (G : SG S) (mu : Nat) (eps : S) (cl : Nat → Nat) : Prop :=
  IsScan G mu eps cl ∧ (det = true → ∀ u v, v < G.n → ¬ Core G mu eps v → Best G mu eps u v → cl v = cl u)

theorem CoreLab.ne_iff (hG : G.Ok) {lab : Nat → Nat} (h : CoreLab G mu eps lab) {v : Nat} (hv : v < G.n) : lab v = uMax ↔ ¬ Core G mu eps v :=
  ⟨fun he hc => h.ne hG hc he, h.none v hv⟩

theorem near_lt (hG : G.Ok) {u v : Nat} (h : Near G mu eps u v) : v < G.n := hG.lt u v h.1.1 h.2.1

theorem isScan_of (hG : G.Ok) {lab cl : Nat → Nat} (h : CoreLab G mu eps lab) (hc : ∀ x, lab x ≠ uMax → cl x = lab x)
    (hb : ∀ v, v < G.n → ¬ Core G mu eps v → (∃ u, Near G mu eps u v) → ∃ u, Near G mu eps u v ∧ cl v = lab u)
    (hn : ∀ v, v < G.n → ¬ Core G mu eps v → (¬ ∃ u, Near G mu eps u v) → cl v = uMax) : IsScan G mu eps cl := by
  have hcore : ∀ u, Core G mu eps u → cl u = lab u := fun u hu => hc u (h.ne hG hu)
  refine ⟨fun u hu => by rw [hcore u hu]; exact h.core u hu, fun v hv hvc hu => ?_, hn⟩
  obtain ⟨u, h1, h2⟩ := hb v hv hvc hu
  exact ⟨u, h1, by rw [h2, hcore u h1.1]⟩

/-- The similarities from the threshold on are positive. -/
def Pos (z : S) (G : SG S) (eps : S) : Prop := ∀ u v, u < G.n → v ∈ G.nb u → eps ≤ G.sim u v → z < G.sim u v

theorem Pos.of_lt {z : S} (h : z < eps) : Pos z G eps := fun _ _ _ _ he => lt_of_lt_of_le h he

/-- The two ways to attach. The deterministic one needs positive similarities. -/
theorem attachAny_spec (hG : G.Ok) (X : Ix G nbr ord) {m1 z : S} (hz : m1 ≤ z) {det : Bool} (hdet : det = true → Pos z G eps) {lab cl : Nat → Nat}
    (h : CoreLab G mu eps lab) (ha : AttachAny det m1 z G.n nbr eps (getCores G.n ord mu eps) lab cl) : Result det G mu eps cl := by
  cases det with
  | false =>
    obtain ⟨h1, h2, h3⟩ := attach_spec (fun u hu => h.ne hG (((X.cores mu eps).2 u).1 hu)) ha
    refine ⟨isScan_of hG h h1 (fun v hv hvc hu => ?_) (fun v hv hvc hu => ?_), fun h => by cases h⟩
    · obtain ⟨u, hu⟩ := hu
      obtain ⟨w, s, h4, h5⟩ := h2 v (h.none v hv hvc) ⟨u, _, (offers_iff X).2 ⟨hu, rfl⟩⟩
      exact ⟨w, ((offers_iff X).1 h4).1, h5⟩
    · refine h3 v (h.none v hv hvc) ?_
      rintro ⟨u, s, hs⟩
      exact hu ⟨u, ((offers_iff X).1 hs).1⟩
  | true =>
    obtain ⟨h1, h2, h3⟩ := attachDet_spec hz ha
    have hpos : ∀ {u v}, Near G mu eps u v → z < G.sim u v := fun {u v} hn => hdet rfl u v hn.1.1 hn.2.1 hn.2.2
    have hbest : ∀ v, v < G.n → ¬ Core G mu eps v → (∃ u, Near G mu eps u v) → ∃ u, Best G mu eps u v ∧ cl v = lab u := by
      rintro v hv hvc ⟨u, hu⟩
      obtain ⟨w, s, h4, h5, h6⟩ := h2 v hv (h.none v hv hvc) ⟨u, _, (offers_iff X).2 ⟨hu, rfl⟩, hpos hu⟩
      obtain ⟨h4', rfl⟩ := (offers_iff X).1 h4
      refine ⟨w, ⟨h4', fun y hy => ?_⟩, h6⟩
      rcases h5 y _ ((offers_iff X).2 ⟨hy, rfl⟩) with h7 | h7
      · exact .inl h7
      · exact .inr ⟨h7.1.symm, h7.2⟩
    refine ⟨isScan_of hG h h1 (fun v hv hvc hu => ?_) (fun v hv hvc hu => ?_), fun _ u v hv hvc hu => ?_⟩
    · obtain ⟨u, hu, he⟩ := hbest v hv hvc hu
      exact ⟨u, hu.1, he⟩
    · refine h3 v (h.none v hv hvc) ?_
      rintro ⟨u, s, hs, -⟩
      exact hu ⟨u, ((offers_iff X).1 hs).1⟩
    · obtain ⟨w, hw, he⟩ := hbest v hv hvc ⟨u, hu.1⟩
      have : u = w := by
        have e1 := hu.2 w hw.1
        have e2 := hw.2 u hu.1
        rcases e1 with e1 | ⟨e1, e1'⟩ <;> rcases e2 with e2 | ⟨e2, e2'⟩
        · exact absurd e1 (lt_asymm e2)
        · exact absurd (e2 ▸ e1) (lt_irrefl _)
        · exact absurd (e1 ▸ e2) (lt_irrefl _)
        · omega
      rw [he, this, h1 w (h.ne hG hw.1.1)]

/-- C107, one threshold: in every interleaving, `Cluster(mu, epsilon)` returns a SCAN clustering; the deterministic variant does if
the similarities from the threshold on are positive, in particular for a positive threshold, and attaches to the most similar core. -/
theorem cluster_correct (hG : G.Ok) (X : Ix G nbr ord) {m1 z : S} (hz : m1 ≤ z) {det : Bool} (hdet : det = true → Pos z G eps) {cl : Nat → Nat}
    (h : ClusterQ det m1 z G.n nbr ord mu eps cl) : Result det G mu eps cl := by
  rw [ClusterQ] at h
  split at h
  · rename_i h0
    subst h
    have hno : ∀ u, ¬ Core G mu eps u := fun u hu => by
      have := ((X.cores mu eps).2 u).2 hu
      rw [h0] at this; cases this
    exact ⟨⟨fun u hu => absurd hu (hno u), fun v _ _ ⟨u, hu⟩ => absurd hu.1 (hno u), fun _ _ _ _ => rfl⟩, fun _ u v _ _ hb => absurd hb.1.1 (hno u)⟩
  · obtain ⟨lab, h1, h2⟩ := h
    exact attachAny_spec hG X hz hdet (clusterCores_spec hG X h1) h2

/-- Two cores are in the same cluster exactly if they are linked. -/
theorem IsScan.eq_iff {cl : Nat → Nat} (h : IsScan G mu eps cl) {u v : Nat} (hu : Core G mu eps u) (hv : Core G mu eps v) :
    cl u = cl v ↔ Linked G mu eps u v := by
  obtain ⟨h1, h2, h3⟩ := h.core u hu
  obtain ⟨h4, h5, h6⟩ := h.core v hv
  constructor
  · exact fun he => h2.trans _ _ _ (he ▸ h5.symm)
  · exact fun hl => Nat.le_antisymm (h3 _ h4 (hl.trans _ _ _ h5)) (h6 _ h1 (hl.symm.trans _ _ _ h2))

theorem best_exists {v : Nat} (h : ∃ u, Near G mu eps u v) : ∃ u, Best G mu eps u v := by
  classical
  -- among the finitely many cores below `G.n`
  have aux : ∀ k, (∃ u, u < k ∧ Near G mu eps u v) → ∃ u, u < k ∧ Near G mu eps u v ∧ ∀ w, w < k → Near G mu eps w v → G.sim w v < G.sim u v ∨ G.sim w v = G.sim u v ∧ u ≤ w := by
    intro k
    induction k with
    | zero => rintro ⟨u, hu, -⟩; omega
    | succ k ih =>
      rintro ⟨u, hu, hn⟩
      by_cases hex : ∃ u, u < k ∧ Near G mu eps u v
      · obtain ⟨w, h1, h2, h3⟩ := ih hex
        by_cases hk : Near G mu eps k v ∧ G.sim w v < G.sim k v
        · refine ⟨k, by omega, hk.1, fun y hy hyn => ?_⟩
          rcases Nat.lt_succ_iff_lt_or_eq.1 hy with hy | rfl
          · rcases h3 y hy hyn with h4 | h4
            · exact .inl (lt_trans h4 hk.2)
            · exact .inl (h4.1 ▸ hk.2)
          · exact .inr ⟨rfl, Nat.le_refl _⟩
        · refine ⟨w, by omega, h2, fun y hy hyn => ?_⟩
          rcases Nat.lt_succ_iff_lt_or_eq.1 hy with hy | rfl
          · exact h3 y hy hyn
          · have : G.sim y v ≤ G.sim w v := le_of_not_gt fun h => hk ⟨hyn, h⟩
            rcases lt_or_eq_of_le this with h | h
            · exact .inl h
            · exact .inr ⟨h, by omega⟩
      · have : u = k := by
          by_contra hne
          exact hex ⟨u, by omega, hn⟩
        subst this
        refine ⟨u, hu, hn, fun y hy hyn => ?_⟩
        rcases Nat.lt_succ_iff_lt_or_eq.1 hy with hy | rfl
        · exact absurd ⟨y, hy, hyn⟩ hex
        · exact .inr ⟨rfl, Nat.le_refl _⟩
  obtain ⟨u, hu⟩ := h
  obtain ⟨w, h1, h2, h3⟩ := aux G.n ⟨u, hu.1.1, hu⟩
  exact ⟨w, h2, fun y hy => h3 y hy.1.1 hy⟩

/-- The deterministic results are determined: two runs return the same array. -/
theorem det_unique {cl cl' : Nat → Nat} (h : Result true G mu eps cl) (h' : Result true G mu eps cl') {v : Nat} (hv : v < G.n) : cl v = cl' v := by
  have hcore : ∀ u, Core G mu eps u → cl u = cl' u := fun u hu => by
    obtain ⟨h1, h2, h3⟩ := h.1.core u hu
    obtain ⟨h4, h5, h6⟩ := h'.1.core u hu
    exact Nat.le_antisymm (h3 _ h4 h5) (h6 _ h1 h2)
  by_cases hc : Core G mu eps v
  · exact hcore v hc
  · by_cases hn : ∃ u, Near G mu eps u v
    · obtain ⟨u, hu⟩ := best_exists hn
      rw [h.2 rfl u v hv hc hu, h'.2 rfl u v hv hc hu, hcore u hu.1.1]
    · rw [h.1.none v hv hc hn, h'.1.none v hv hc hn]

/-! ### Several thresholds -/

/-- The state between two thresholds: nothing done, or the labels of the last one, which was not smaller. -/
def St (G : SG S) (nbr : Nat → List (Es S)) (ord : List (List (Nat × S))) (mu : Nat) (labels : Nat → Nat) (prev : List Nat) (pcnt : Nat → Nat) (eps : S) : Prop :=
  prev = [] ∧ labels = blank ∨ ∃ e0, eps ≤ e0 ∧ prev = getCores G.n ord mu e0 ∧ CoreLab G mu e0 labels ∧
    ∀ j < prev.length, pcnt j = simCount nbr e0 (prev.getD j 0)

theorem mem_drop_of {α : Type} {l : List α} {a b : Nat} {e : α} (h1 : e ∈ l.take b) (h2 : e ∉ l.take a) : e ∈ (l.take b).drop a := by
  rw [← List.take_append_drop a (l.take b), List.mem_append] at h1
  rcases h1 with h1 | h1
  · rw [List.take_take] at h1
    exact absurd (List.take_subset_take_left _ (Nat.min_le_left _ _) h1) h2
  · exact h1

theorem inc_facts (hG : G.Ok) (X : Ix G nbr ord) {labels : Nat → Nat} {prev : List Nat} {pcnt : Nat → Nat} (hst : St G nbr ord mu labels prev pcnt eps)
    : Pre G.n (Core G mu eps) (start G.n labels ((getCores G.n ord mu eps).drop prev.length)) ∧
    (∀ e ∈ callsInc nbr eps (getCores G.n ord mu eps) prev pcnt, Core G mu eps e.1 ∧ Core G mu eps e.2) ∧
    ∀ x y, Joined (Core G mu eps) (start G.n labels ((getCores G.n ord mu eps).drop prev.length)) (callsInc nbr eps (getCores G.n ord mu eps) prev pcnt) x y ↔
      Linked G mu eps x y := by
  obtain ⟨hnd, hc⟩ := X.cores mu eps
  -- the cores so far are a prefix
  have hpre : prev <+: getCores G.n ord mu eps := by
    rcases hst with ⟨rfl, -⟩ | ⟨e0, h0, rfl, -⟩
    · exact List.nil_prefix
    · exact X.prefix mu h0
  obtain ⟨new, hnew⟩ := hpre
  have hdrop : (getCores G.n ord mu eps).drop prev.length = new := by rw [← hnew, List.drop_left]
  rw [hdrop]
  have hmem : ∀ x, x ∈ getCores G.n ord mu eps ↔ x ∈ prev ∨ x ∈ new := fun x => by rw [← hnew, List.mem_append]
  have hdis : ∀ x, x ∈ prev → x ∉ new := fun x h1 h2 => by
    rw [← hnew, List.nodup_append] at hnd
    exact hnd.2.2 x h1 x h2 rfl
  have hold : ∀ x, x ∈ prev → ∃ e0, eps ≤ e0 ∧ prev = getCores G.n ord mu e0 ∧ CoreLab G mu e0 labels ∧ Core G mu e0 x ∧
      ∀ j < prev.length, pcnt j = simCount nbr e0 (prev.getD j 0) := by
    intro x hx
    rcases hst with ⟨rfl, -⟩ | ⟨e0, h0, h1, h2, h3⟩
    · cases hx
    · exact ⟨e0, h0, h1, h2, ((X.cores mu e0).2 x).1 (h1 ▸ hx), h3⟩
  have hPn : ∀ x, x ∈ new → start G.n labels new x = x := fun x hx => by
    rw [start, if_pos hx]; split <;> rfl
  have hPo : ∀ x, x ∈ prev → start G.n labels new x = labels x := fun x hx => by
    have := ((hc x).1 ((hmem x).2 (.inl hx))).1
    rw [start, if_neg (by omega), if_neg (hdis x hx)]
  have hlabmem : ∀ x, x ∈ prev → labels x ∈ prev := fun x hx => by
    obtain ⟨e0, h0, h1, h2, h3, -⟩ := hold x hx
    rw [h1]
    exact ((X.cores mu e0).2 _).2 (h2.core x h3).1
  have hPre : Pre G.n (Core G mu eps) (start G.n labels new) := by
    refine ⟨hG.fits, fun x hx => hx.1, fun x hx => ?_, fun x hx hxc => ?_, fun x hx => ?_, fun x hx => ?_, fun x hx => ?_⟩
    · rw [start, if_pos hx]
    · have hxm : x ∉ getCores G.n ord mu eps := fun h => hxc ((hc x).1 h)
      rw [start, if_neg (by omega), if_neg (fun h => hxm ((hmem x).2 (.inr h)))]
      rcases hst with ⟨-, rfl⟩ | ⟨e0, h0, h1, h2, -⟩
      · rfl
      · exact h2.none x hx fun h => hxc (h.mono h0)
    · rcases (hmem x).1 ((hc x).2 hx) with h | h
      · rw [hPo x h]; exact (hc _).1 ((hmem _).2 (.inl (hlabmem x h)))
      · rw [hPn x h]; exact hx
    · rcases (hmem x).1 ((hc x).2 hx) with h | h
      · rw [hPo x h, hPo _ (hlabmem x h)]
        obtain ⟨e0, h0, h1, h2, h3, -⟩ := hold x h
        exact h2.idem h3
      · rw [hPn x h, hPn x h]
    · rcases (hmem x).1 ((hc x).2 hx) with h | h
      · rw [hPo x h]
        obtain ⟨e0, h0, h1, h2, h3, -⟩ := hold x h
        exact (h2.core x h3).2.2 x h3 (.refl _)
      · rw [hPn x h]
  -- the calls
  have hsound : ∀ a b, (a, b) ∈ callsInc nbr eps (getCores G.n ord mu eps) prev pcnt → Near G mu eps a b ∧ Core G mu eps b := by
    intro a b hab
    rw [callsInc, List.mem_flatMap] at hab
    obtain ⟨⟨c, j⟩, h1, h2⟩ := hab
    obtain ⟨e, h3, h4⟩ := List.mem_filterMap.1 h2
    split at h4
    · rename_i h5
      cases h4
      have h6 := (hc _).1 (List.mem_of_getElem? (List.mem_zipIdx_iff_getElem?.1 h1))
      have h7 := (X.take eps h6.1 e).1 (List.mem_of_mem_drop h3)
      exact ⟨⟨h6, h7.2.1, h7.2.2.2⟩, (hc _).1 h5.2⟩
    · cases h4
  have hcallnew : ∀ a b, Near G mu eps a b → Core G mu eps b → a ∈ new → (a, b) ∈ callsInc nbr eps (getCores G.n ord mu eps) prev pcnt := by
    intro a b hab hb ha
    obtain ⟨i, hi, rfl⟩ := List.mem_iff_getElem.1 ha
    rw [callsInc, List.mem_flatMap]
    refine ⟨(new[i], prev.length + i), List.mem_zipIdx_iff_getElem?.2 (by
      dsimp only
      rw [← hnew, List.getElem?_append_right (by omega), Nat.add_sub_cancel_left, List.getElem?_eq_getElem hi]), List.mem_filterMap.2 ⟨⟨new[i], b, G.sim new[i] b⟩, ?_, ?_⟩⟩
    · dsimp only
      rw [if_neg (by omega), List.drop_zero]
      exact (X.take eps hab.1.1 _).2 ⟨rfl, hab.2.1, rfl, hab.2.2⟩
    · dsimp only
      rw [if_pos ⟨.inl (by omega), (hc _).2 hb⟩]
  have hcallold : ∀ a b e0, Near G mu eps a b → Core G mu eps b → a ∈ prev → b < a → prev = getCores G.n ord mu e0 →
      (∀ j < prev.length, pcnt j = simCount nbr e0 (prev.getD j 0)) → ¬ e0 ≤ G.sim a b →
      (a, b) ∈ callsInc nbr eps (getCores G.n ord mu eps) prev pcnt := by
    intro a b e0 hab hb ha hlt hp hcnt hns
    obtain ⟨i, hi, rfl⟩ := List.mem_iff_getElem.1 ha
    rw [callsInc, List.mem_flatMap]
    refine ⟨(prev[i], i), List.mem_zipIdx_iff_getElem?.2 (by
      dsimp only
      rw [← hnew, List.getElem?_append_left hi, List.getElem?_eq_getElem hi]), List.mem_filterMap.2 ⟨⟨prev[i], b, G.sim prev[i] b⟩, ?_, ?_⟩⟩
    · dsimp only
      rw [if_pos hi, hcnt i hi, getD_lt _ hi]
      refine mem_drop_of ((X.take eps hab.1.1 _).2 ⟨rfl, hab.2.1, rfl, hab.2.2⟩) fun h => ?_
      exact hns ((X.take e0 hab.1.1 _).1 h).2.2.2
    · dsimp only
      rw [if_pos ⟨.inr hlt, (hc _).2 hb⟩]
  refine ⟨hPre, fun e he => ⟨(hsound e.1 e.2 he).1.1, (hsound e.1 e.2 he).2⟩, fun x y => ⟨fun h => ?_, fun h => ?_⟩⟩
  · refine eqvGen_le (EqvGen.is_equivalence _) (fun a b hab => ?_) h
    rcases hab with hab | ⟨ha, rfl⟩
    · exact .rel _ _ (hsound a b hab)
    · rcases (hmem a).1 ((hc a).2 ha) with h | h
      · obtain ⟨e0, h0, h1, h2, h3, -⟩ := hold a h
        rw [hPo a h]
        exact (h2.core a h3).2.1.mono h0
      · rw [hPn a h]; exact .refl _
  · refine eqvGen_le (EqvGen.is_equivalence _) (fun a b hab => ?_) h
    rcases (hmem a).1 ((hc a).2 hab.1.1) with ha | ha
    · rcases (hmem b).1 ((hc b).2 hab.2) with hb | hb
      · obtain ⟨e0, h0, h1, h2, h3, h4⟩ := hold a ha
        have h5 : Core G mu e0 b := ((X.cores mu e0).2 b).1 (h1 ▸ hb)
        by_cases hs : e0 ≤ G.sim a b
        · have h6 : labels a = labels b := (h2.eq_iff h3 h5).2 (.rel _ _ ⟨⟨h3, hab.1.2.1, hs⟩, h5⟩)
          refine (EqvGen.rel _ _ (.inr ⟨hab.1.1, rfl⟩)).trans _ _ _ ?_
          rw [hPo a ha, h6, ← hPo b hb]
          exact (EqvGen.rel _ _ (.inr ⟨hab.2, rfl⟩)).symm
        · rcases Nat.lt_trichotomy a b with hlt | rfl | hlt
          · have hsym := hab.1.symm hG hab.2
            refine (EqvGen.rel _ _ (.inl (hcallold b a e0 hsym hab.1.1 hb hlt h1 h4 ?_))).symm
            rw [(hG.symm a b hab.1.1.1 hab.1.2.1).2]; exact hs
          · exact .refl _
          · exact .rel _ _ (.inl (hcallold a b e0 hab.1 hab.2 ha hlt h1 h4 hs))
      · exact (EqvGen.rel _ _ (.inl (hcallnew b a (hab.1.symm hG hab.2) hab.1.1 hb))).symm
    · exact .rel _ _ (.inl (hcallnew a b hab.1 hab.2 ha))

theorem clusterInc_spec (hG : G.Ok) (X : Ix G nbr ord) {labels : Nat → Nat} {prev : List Nat} {pcnt : Nat → Nat} (hst : St G nbr ord mu labels prev pcnt eps)
    {lab : Nat → Nat} (hr : Unites (start G.n labels ((getCores G.n ord mu eps).drop prev.length)) (callsInc nbr eps (getCores G.n ord mu eps) prev pcnt)
      (getCores G.n ord mu eps) lab) : CoreLab G mu eps lab := by
  obtain ⟨h1, h2, h3⟩ := inc_facts hG X hst
  exact .of_unites X h1 h2 h3 hr

theorem clusterLoop_spec (hG : G.Ok) (X : Ix G nbr ord) {m1 z : S} (hz : m1 ≤ z) {det : Bool} {labels : Nat → Nat} {prev : List Nat} {pcnt : Nat → Nat}
    {se : List (S × Nat)} {outs : List ((Nat → Nat) × Nat)} (hdet : det = true → ∀ e ∈ se, Pos z G e.1) (hs : se.Pairwise fun a b => b.1 ≤ a.1)
    (hst : ∀ e ∈ se, St G nbr ord mu labels prev pcnt e.1) (h : ClusterLoop det m1 z G.n nbr ord mu labels prev pcnt se outs) :
    List.Forall₂ (fun e o => o.2 = e.2 ∧ Result det G mu e.1 o.1) se outs := by
  induction h with
  | nil => exact .nil
  | @cons labels prev pcnt eps idx rest lab cl outs cores hcores huf hat _ ih =>
    subst hcores
    rw [List.pairwise_cons] at hs
    have hlab := clusterInc_spec hG X (hst _ List.mem_cons_self) huf
    refine .cons ⟨rfl, attachAny_spec hG X hz (fun h => hdet h _ List.mem_cons_self) hlab hat⟩ (ih (fun h e he => hdet h e (List.mem_cons_of_mem _ he)) hs.2 fun e he => ?_)
    exact .inr ⟨eps, hs.1 e he, rfl, hlab, fun _ _ => rfl⟩

/-- C107, several thresholds: `f` is called once for every index, with a result for the threshold at this index. -/
theorem clusterMany_correct (hG : G.Ok) (X : Ix G nbr ord) {m1 z : S} (hz : m1 ≤ z) {det : Bool} {epss : List S} (hdet : det = true → ∀ e ∈ epss, Pos z G e)
    {outs : List ((Nat → Nat) × Nat)} (h : ClusterMany det m1 z G.n nbr ord mu epss outs) :
    (outs.map (·.2)).Perm (List.range epss.length) ∧ ∀ cl i, (cl, i) ∈ outs → ∃ eps, epss[i]? = some eps ∧ Result det G mu eps cl := by
  obtain ⟨se, h1, h2, h3⟩ := h
  have hmem : ∀ e ∈ se, epss[e.2]? = some e.1 := fun e he => List.mem_zipIdx_iff_getElem?.1 (h1.mem_iff.1 he)
  have hf := clusterLoop_spec hG X hz (fun h e he => hdet h _ (List.mem_of_getElem? (hmem e he))) h2 (fun _ _ => .inl ⟨rfl, rfl⟩) h3
  constructor
  · have : outs.map (·.2) = se.map (·.2) := by
      clear h1 h2 h3 hmem
      induction hf with
      | nil => rfl
      | cons hab _ ih => rw [List.map_cons, List.map_cons, ih, hab.1]
    rw [this, List.range_eq_range', ← List.zipIdx_map_snd 0 epss]
    exact h1.map _
  · intro cl i hi
    have : ∃ e ∈ se, i = e.2 ∧ Result det G mu e.1 cl := by
      clear h1 h2 h3 hmem
      induction hf with
      | nil => cases hi
      | cons hab _ ih =>
        rcases List.mem_cons.1 hi with he | hi
        · subst he; exact ⟨_, List.mem_cons_self, hab.1, hab.2⟩
        · obtain ⟨e, he, he'⟩ := ih hi
          exact ⟨e, List.mem_cons_of_mem _ he, he'⟩
    obtain ⟨e, he, rfl, hres⟩ := this
    exact ⟨e.1, hmem e he, hres⟩

/-- From the construction of the index on. -/
theorem Ix.of {sims : List (Es S)} (hs : sims.Perm G.arcs) (h1 : NeighborOrder G.n (fun u => (G.nb u).length) sims nbr) (h2 : CoreOrder G.n nbr ord) :
    Ix G nbr ord := ⟨Rows.of hs h1, h2⟩

end Gbbs.Scan
