/-
The find variants return ancestors and keep the forest invariant.
-/
import Verif.Conc.UFLogic

namespace Gbbs.UF

open Conc Conc.Prog Relation

variable {ι : Type} {o : Ord} {call : ι → Nat × Nat} {md : Mode} {free : Nat}

/-! ### Rules for accesses without ghost effect -/

theorem safe_read {α : Type} {i : ι} {Post : Gh ι → α → Prop} {x : Loc} {k : Nat → P α} {g : Gh ι}
    (h : ∀ g' m, UR md i g g' → UInv o call md free g' m →
      Safe (rg o call md free) i Post (k (m x)) g') :
    Safe (rg o call md free) i Post (read x k) g :=
  fun g' m hr hi => ⟨g', UGu.refl _ _ _, hi, h g' m hr hi⟩

theorem safe_write {α : Type} {i : ι} {Post : Gh ι → α → Prop} {x : Loc} {v : Nat} {k : P α} {g : Gh ι}
    (h : ∀ g' m, UR md i g g' → UInv o call md free g' m →
      UInv o call md free g' (put m x v) ∧ Safe (rg o call md free) i Post k g') :
    Safe (rg o call md free) i Post (write x v k) g :=
  fun g' m hr hi => ⟨g', UGu.refl _ _ _, (h g' m hr hi).1, (h g' m hr hi).2⟩

theorem safe_cas {α : Type} {i : ι} {Post : Gh ι → α → Prop} {x : Loc} {e n : Nat} {k : Bool → P α}
    {g : Gh ι}
    (h : ∀ g' m, UR md i g g' → UInv o call md free g' m →
      (m x = e → UInv o call md free g' (put m x n)) ∧
        ∀ b, Safe (rg o call md free) i Post (k b) g') :
    Safe (rg o call md free) i Post (cas x e n k) g :=
  fun g' m hr hi => ⟨fun he => ⟨g', UGu.refl _ _ _, (h g' m hr hi).1 he, (h g' m hr hi).2 _⟩,
    fun _ => ⟨g', UGu.refl _ _ _, hi, (h g' m hr hi).2 _⟩⟩

/-- Facts about the ghost state that other threads do not invalidate. -/
def Stable (md : Mode) (i : ι) (Q : Gh ι → Prop) : Prop := ∀ g g', UR md i g g' → Q g → Q g'

theorem stable_anc (i : ι) (a b : Nat) : Stable md i fun g => Anc g a b :=
  fun _ _ h ha => ha.mono h.1

theorem stable_same (i : ι) (a b : Nat) : Stable md i fun g => Same g a b :=
  fun _ _ h ha => ha.mono h.1

theorem stable_noown (i : ι) : Stable md i fun g => ∀ x, g.own x ≠ some i :=
  fun _ _ h ha x hx => ha x (h.2.1 x hx)

theorem stable_own (i : ι) (u : Nat) {g0 : Gh ι} {m : Loc → Nat} (h0 : UInv o call md free g0 m)
    (h : g0.own u = some i) {g' : Gh ι} (hr : UR md i g0 g') : g'.own u = some i := by
  have : g0.link u ≠ u := fun e => by rw [(h0.own_iff u).2 e] at h; cases h
  rw [(hr.1 u this).2]; exact h

theorem Stable.and {i : ι} {Q Q' : Gh ι → Prop} (h : Stable md i Q) (h' : Stable md i Q') :
    Stable md i fun g => Q g ∧ Q' g :=
  fun g g' hr hq => ⟨h g g' hr hq.1, h' g g' hr hq.2⟩

/-- What a find variant has to satisfy: the result is an ancestor of the argument, at any later time, and a centre;
no hooks are made (`Q`: any fact that others do not invalidate). -/
def FindSpec (o : Ord) (call : ι → Nat × Nat) (md : Mode) (free : Nat) (find : Nat → P Nat) : Prop :=
  ∀ (i : ι) (Q : Gh ι → Prop), Stable md i Q → ∀ x g, Q g →
    Safe (rg o call md free) i (fun g r => (Anc g x r ∧ o.cn r) ∧ Q g) (find x) g

theorem findNaive_spec (f : Nat) : FindSpec o call md free (findNaive f) := by
  intro i Q hQ x0 g hq
  have : ∀ f x g, Anc g x0 x → Q g →
      Safe (rg o call md free) i (fun g r => (Anc g x0 r ∧ o.cn r) ∧ Q g) (findNaive f x) g := by
    intro f
    induction f with
    | zero => intro x g _ _; trivial
    | succ f ih =>
      intro x g ha hq
      refine safe_read fun g1 m1 hr1 hi1 => ?_
      have ha1 := ha.mono hr1.1
      have hq1 := hQ _ _ hr1 hq
      have hc1 := hi1.par_cn x
      split
      · rename_i he
        exact fun g2 hr2 => ⟨⟨ha1.mono hr2.1, he ▸ hc1⟩, hQ _ _ hr2 hq1⟩
      · refine safe_read fun g2 m2 hr2 hi2 => ?_
        exact ih _ _ ((ha1.mono hr2.1).trans (hi2.anc x)) (hQ _ _ hr2 hq1)
  exact this f x0 g ReflTransGen.refl hq

theorem climb_spec (f : Nat) {i : ι} {Q : Gh ι → Prop} (hQ : Stable md i Q) {x0 : Nat} :
    ∀ x g, Anc g x0 x → Q g →
      Safe (rg o call md free) i (fun g r => (Anc g x0 r ∧ o.cn r) ∧ Q g) (climb f x) g := by
  induction f with
  | zero => intro x g _ _; trivial
  | succ f ih =>
    intro x g ha hq
    refine safe_read fun g1 m1 hr1 hi1 => ?_
    have ha1 := (ha.mono hr1.1).trans (hi1.anc x)
    have hq1 := hQ _ _ hr1 hq
    refine safe_read fun g2 m2 hr2 hi2 => ?_
    have ha2 := ha1.mono hr2.1
    have hq2 := hQ _ _ hr2 hq1
    split
    · exact ih _ _ ha2 hq2
    · exact fun g3 hr3 => ⟨⟨ha2.mono hr3.1, hi1.par_cn x⟩, hQ _ _ hr3 hq2⟩

theorem compressLoop_spec (f : Nat) {i : ι} {Q : Gh ι → Prop} (hQ : Stable md i Q) {j : Nat} (hj : o.cn j) :
    ∀ x g, Anc g x j → Q g →
      Safe (rg o call md free) i (fun g _ => Q g) (compressLoop f x j) g := by
  induction f with
  | zero => intro x g _ _; trivial
  | succ f ih =>
    intro x g ha hq
    refine safe_read fun g1 m1 hr1 hi1 => ?_
    have ha1 := ha.mono hr1.1
    have hq1 := hQ _ _ hr1 hq
    split
    · rename_i hgt
      have hx := hi1.anc x
      have hrk := o.mono _ _ (hi1.par_cn x) hj hgt
      have htj := anc_of_lt hi1.lt hx ha1 (Nat.le_of_lt hrk)
      have hne : j ≠ x := fun e => by
        rcases anc_lt hi1.lt hx with h | h
        · rw [h, e] at hgt; exact Nat.lt_irrefl _ hgt
        · rw [e] at hrk; omega
      refine safe_write fun g2 m2 hr2 hi2 => ⟨hi2.compress (ha1.mono hr2.1) hne, ?_⟩
      exact ih _ _ (htj.mono hr2.1) (hQ _ _ hr2 hq1)
    · exact fun g3 hr3 => hQ _ _ hr3 hq1

theorem compressLoopA_spec (f : Nat) {i : ι} {Q : Gh ι → Prop} (hQ : Stable md i Q) {j : Nat} (hj : o.cn j) :
    ∀ x g, Anc g x j → Q g →
      Safe (rg o call md free) i (fun g _ => Q g) (compressLoopA f x j) g := by
  induction f with
  | zero => intro x g _ _; trivial
  | succ f ih =>
    intro x g ha hq
    refine safe_read fun g1 m1 hr1 hi1 => ?_
    have ha1 := ha.mono hr1.1
    have hq1 := hQ _ _ hr1 hq
    split
    · rename_i hgt
      have hx := hi1.anc x
      have hrk := o.mono _ _ (hi1.par_cn x) hj hgt
      have htj := anc_of_lt hi1.lt hx ha1 (Nat.le_of_lt hrk)
      have hne : j ≠ x := fun e => by
        rcases anc_lt hi1.lt hx with h | h
        · rw [h, e] at hgt; exact Nat.lt_irrefl _ hgt
        · rw [e] at hrk; omega
      refine safe_cas fun g2 m2 hr2 hi2 => ⟨fun _ => hi2.compress (ha1.mono hr2.1) hne, ?_⟩
      intro b
      cases b with
      | true => exact ih _ _ (htj.mono hr2.1) (hQ _ _ hr2 hq1)
      | false => exact fun g3 hr3 => hQ _ _ hr3 (hQ _ _ hr2 hq1)
    · exact fun g3 hr3 => hQ _ _ hr3 hq1

theorem findCompress_spec (f : Nat) : FindSpec o call md free (findCompress f) := by
  intro i Q hQ x g hq
  refine safe_read fun g1 m1 hr1 hi1 => ?_
  have hq1 := hQ _ _ hr1 hq
  have hc1 := hi1.par_cn x
  split
  · rename_i he
    exact fun g2 hr2 => ⟨⟨ReflTransGen.refl, he ▸ hc1⟩, hQ _ _ hr2 hq1⟩
  · refine Safe.bind (climb_spec f hQ x g1 (x0 := x) ReflTransGen.refl hq1) ?_
    rintro j g2 ⟨⟨ha, hj⟩, hq2⟩
    have hst : Stable md i fun g => (Anc g x j ∧ o.cn j) ∧ Q g :=
      ((stable_anc i x j).and fun _ _ _ h => h).and hQ
    refine Safe.bind (compressLoop_spec f hst hj x g2 ha ⟨⟨ha, hj⟩, hq2⟩) ?_
    intro _ g3 h3 g4 hr4
    exact hst _ _ hr4 h3

theorem findCompressAtomic_spec (f : Nat) : FindSpec o call md free (findCompressAtomic f) := by
  intro i Q hQ x g hq
  refine safe_read fun g1 m1 hr1 hi1 => ?_
  have hq1 := hQ _ _ hr1 hq
  have hc1 := hi1.par_cn x
  split
  · rename_i he
    exact fun g2 hr2 => ⟨⟨ReflTransGen.refl, he ▸ hc1⟩, hQ _ _ hr2 hq1⟩
  · refine Safe.bind (climb_spec f hQ x g1 (x0 := x) ReflTransGen.refl hq1) ?_
    rintro j g2 ⟨⟨ha, hj⟩, hq2⟩
    have hst : Stable md i fun g => (Anc g x j ∧ o.cn j) ∧ Q g :=
      ((stable_anc i x j).and fun _ _ _ h => h).and hQ
    refine Safe.bind (compressLoopA_spec f hst hj x g2 ha ⟨⟨ha, hj⟩, hq2⟩) ?_
    intro _ g3 h3 g4 hr4
    exact hst _ _ hr4 h3

/-- The common part of splitting and halving: `v = parents[i]`, `w = parents[v]`, and if they differ a
CAS of `parents[i]` from `v` to `w`. -/
theorem splitStep_spec {α : Type} {i : ι} {Q : Gh ι → Prop} (hQ : Stable md i Q)
    {Post : Gh ι → α → Prop} {x : Nat} {k1 : Nat → P α} {k2 : Nat → Nat → P α} {g : Gh ι} (hq : Q g)
    (h1 : ∀ v g, Anc g x v → o.cn v → Q g → Safe (rg o call md free) i Post (k1 v) g)
    (h2 : ∀ v w g, Anc g x v → Anc g v w → Q g → Safe (rg o call md free) i Post (k2 v w) g) :
    Safe (rg o call md free) i Post
      (read (.par x) fun v => read (.par v) fun w => if v = w then k1 v else cas (.par x) v w fun _ => k2 v w)
      g := by
  refine safe_read fun g1 m1 hr1 hi1 => ?_
  have hxv := hi1.anc x
  have hcv := hi1.par_cn x
  have hq1 := hQ _ _ hr1 hq
  refine safe_read fun g2 m2 hr2 hi2 => ?_
  have hvw := hi2.anc (m1 (.par x))
  have hxv2 := hxv.mono hr2.1
  have hq2 := hQ _ _ hr2 hq1
  generalize m1 (.par x) = v at *
  generalize m2 (.par v) = w at *
  split
  · exact h1 _ _ hxv2 hcv hq2
  · rename_i hne
    have hwx : w ≠ x := fun e => by
      subst e
      rcases anc_lt hi2.lt hvw with h | h
      · exact hne h.symm
      · rcases anc_lt hi2.lt hxv2 with h' | h'
        · exact hne h'
        · omega
    refine safe_cas fun g3 m3 hr3 hi3 =>
      ⟨fun _ => hi3.compress ((hxv2.trans hvw).mono hr3.1) hwx, fun _ => ?_⟩
    exact h2 _ _ _ (hxv2.mono hr3.1) (hvw.mono hr3.1) (hQ _ _ hr3 hq2)

theorem findSplit_spec (f : Nat) : FindSpec o call md free (findSplit f) := by
  intro i Q hQ x0 g hq
  have : ∀ f x g, Anc g x0 x ∧ Q g →
      Safe (rg o call md free) i (fun g r => (Anc g x0 r ∧ o.cn r) ∧ Q g) (findSplit f x) g := by
    intro f
    induction f with
    | zero => intro x g _; trivial
    | succ f ih =>
      intro x g hq
      have hst : Stable md i fun g => Anc g x0 x ∧ Q g := (stable_anc i x0 x).and hQ
      refine splitStep_spec hst hq ?_ ?_
      · intro v g ha hc hq g' hr'
        exact ⟨⟨(hq.1.trans ha).mono hr'.1, hc⟩, hQ _ _ hr' hq.2⟩
      · intro v w g ha _ hq
        exact ih v g ⟨hq.1.trans ha, hq.2⟩
  exact this f x0 g ⟨ReflTransGen.refl, hq⟩

theorem findHalve_spec (f : Nat) : FindSpec o call md free (findHalve f) := by
  intro i Q hQ x0 g hq
  have : ∀ f x g, Anc g x0 x ∧ Q g →
      Safe (rg o call md free) i (fun g r => (Anc g x0 r ∧ o.cn r) ∧ Q g) (findHalve f x) g := by
    intro f
    induction f with
    | zero => intro x g _; trivial
    | succ f ih =>
      intro x g hq
      have hst : Stable md i fun g => Anc g x0 x ∧ Q g := (stable_anc i x0 x).and hQ
      refine splitStep_spec hst hq ?_ ?_
      · intro v g ha hc hq g' hr'
        exact ⟨⟨(hq.1.trans ha).mono hr'.1, hc⟩, hQ _ _ hr' hq.2⟩
      · intro v w g ha _ hq
        refine safe_read fun g1 m1 hr1 hi1 => ?_
        exact ih _ g1 ⟨(hq.1.mono hr1.1).trans (hi1.anc x), hQ _ _ hr1 hq.2⟩
  exact this f x0 g ⟨ReflTransGen.refl, hq⟩

/-- What a splice variant has to satisfy. -/
def SpliceSpec (o : Ord) (call : ι → Nat × Nat) (md : Mode) (free : Nat) (splice : Nat → Nat → P Nat) : Prop :=
  ∀ (i : ι) (Q : Gh ι → Prop), Stable md i Q → ∀ x y g, Q g →
    Safe (rg o call md free) i (fun g r => Anc g x r ∧ Q g) (splice x y) g

theorem splitOne_spec : SpliceSpec o call md free splitOne := by
  intro i Q hQ x y g hq
  refine splitStep_spec hQ hq ?_ ?_
  · intro v g ha _ hq g' hr'
    exact ⟨ha.mono hr'.1, hQ _ _ hr' hq⟩
  · intro v w g ha _ hq g' hr'
    exact ⟨ha.mono hr'.1, hQ _ _ hr' hq⟩

theorem halveOne_spec : SpliceSpec o call md free halveOne := by
  intro i Q hQ x y g hq
  refine splitStep_spec hQ hq ?_ ?_
  · intro v g ha _ hq g' hr'
    exact ⟨ha.mono hr'.1, hQ _ _ hr' hq⟩
  · intro v w g ha hb hq g' hr'
    exact ⟨(ha.trans hb).mono hr'.1, hQ _ _ hr' hq⟩

end Gbbs.UF
