/-
Ghost state and rely-guarantee conditions for the union-find rules.

The ghost state is the forest of all hooks made so far (`link`), with the call that made each of them
(`own`) and, for the variants with hooks or locks, the call that claimed a vertex (`claim`). `parents[x]`
is always an ancestor of `x` in this forest and is `x` exactly for roots.
-/
import Verif.Conc.UFModel
import Mathlib.Logic.Relation
import Mathlib.Data.Nat.Basic

namespace Gbbs.UF

open Conc Conc.Prog Relation

variable {ι : Type}

structure Gh (ι : Type) where
  link : Nat → Nat
  own : Nat → Option ι
  claim : Nat → Option ι

/-- A proper link. -/
def Lk (g : Gh ι) (a b : Nat) : Prop := g.link a = b ∧ a ≠ b

/-- Ancestors in the forest of hooks. -/
def Anc (g : Gh ι) : Nat → Nat → Prop := ReflTransGen (Lk g)

/-- Same tree. -/
def Same (g : Gh ι) (x y : Nat) : Prop := ∃ r, Anc g x r ∧ Anc g y r

/-- Pairs of the calls that hooked something. -/
def Rec (call : ι → Nat × Nat) (g : Gh ι) (a b : Nat) : Prop :=
  ∃ x i, g.own x = some i ∧ call i = (a, b)

/-- How a vertex may be hooked: by a CAS on `parents`, after claiming it in `hooks` (for ever), or while
holding its lock. -/
inductive Mode
  | cas | hook | lock
  deriving DecidableEq

/-- The order of the links. The programs compare vertices by number; on the centres (`cn`), which are the
only values of `parents`, this agrees with the rank `rk`, and links go to centres of smaller rank. Without
sampling all vertices are centres and ranked by number (`Ord.nat`); after sampling the centres are the
roots of the sample. `dom` is a set of vertices that links do not leave. -/
structure Ord where
  rk : Nat → Nat
  cn : Nat → Prop
  dom : Nat → Prop
  mono : ∀ u v, cn u → cn v → v < u → rk v < rk u

/-- All vertices, by number. -/
def Ord.nat (dom : Nat → Prop) : Ord := ⟨id, fun _ => True, dom, fun _ _ _ _ h => h⟩

structure UInv (o : Ord) (call : ι → Nat × Nat) (md : Mode) (free : Nat) (g : Gh ι) (m : Loc → Nat) : Prop where
  lt : ∀ x, g.link x ≠ x → o.rk (g.link x) < o.rk x
  cen : ∀ x, o.cn (g.link x)
  dom : ∀ x, o.dom x → o.dom (g.link x)
  call_dom : ∀ i, o.dom (call i).1 ∧ o.dom (call i).2
  own_iff : ∀ x, g.own x = none ↔ g.link x = x
  own_inj : ∀ x y i, g.own x = some i → g.own y = some i → x = y
  own_anc : ∀ x i, g.own x = some i → Anc g (call i).1 x ∨ Anc g (call i).2 x
  recd : ∀ x, EqvGen (Rec call g) x (g.link x)
  anc : ∀ x, Anc g x (m (.par x))
  root : ∀ x, m (.par x) = x ↔ g.link x = x
  aux : md ≠ .cas → ∀ x, m (.aux x) = free ↔ g.claim x = none
  hk : md = .hook → ∀ x, o.cn x → g.claim x = none → g.link x = x

/-- Links are never changed. -/
def Ext (g g' : Gh ι) : Prop := ∀ x, g.link x ≠ x → g'.link x = g.link x ∧ g'.own x = g.own x

theorem Ext.refl (g : Gh ι) : Ext g g := fun _ _ => ⟨rfl, rfl⟩

theorem Ext.trans {g g' g'' : Gh ι} (h1 : Ext g g') (h2 : Ext g' g'') : Ext g g'' := fun x hx => by
  obtain ⟨a, b⟩ := h1 x hx
  obtain ⟨c, d⟩ := h2 x (by rw [a]; exact hx)
  exact ⟨c.trans a, d.trans b⟩

def UR (md : Mode) (i : ι) (g g' : Gh ι) : Prop :=
  Ext g g' ∧ (∀ x, g'.own x = some i → g.own x = some i) ∧
    (∀ x, g.claim x = some i ↔ g'.claim x = some i) ∧
    (md ≠ .cas → ∀ x, g.claim x = some i → g'.link x = g.link x)

def UGu (md : Mode) (i : ι) (g g' : Gh ι) : Prop :=
  Ext g g' ∧ (∀ x, g'.own x = g.own x ∨ g'.own x = some i) ∧
    (∀ x j, j ≠ i → (g.claim x = some j ↔ g'.claim x = some j)) ∧
    (md ≠ .cas → ∀ x, g'.link x ≠ g.link x → g.claim x = some i)

theorem UGu.refl (md : Mode) (i : ι) (g : Gh ι) : UGu md i g g :=
  ⟨Ext.refl g, fun _ => Or.inl rfl, fun _ _ _ => Iff.rfl, fun _ _ h => absurd rfl h⟩

/-- The conditions. Unless `md` is `cas`, hooking a vertex needs a claim on it. `free`: value of an unclaimed
`hooks`/`locks` entry. -/
def rg (o : Ord) (call : ι → Nat × Nat) (md : Mode) (free : Nat) : RG ι (Gh ι) Loc Nat where
  Inv := UInv o call md free
  R := UR md
  Gu := UGu md
  refl _ g := ⟨Ext.refl g, fun _ h => h, fun _ => Iff.rfl, fun _ _ _ => rfl⟩
  trans _ _ _ _ h1 h2 := ⟨h1.1.trans h2.1, fun x h => h1.2.1 x (h2.2.1 x h),
    fun x => (h1.2.2.1 x).trans (h2.2.2.1 x),
    fun he x h => (h2.2.2.2 he x ((h1.2.2.1 x).1 h)).trans (h1.2.2.2 he x h)⟩
  compat i j g g' hne h := ⟨h.1, fun x hx => by
      rcases h.2.1 x with h1 | h1
      · rw [← h1]; exact hx
      · rw [h1] at hx; exact absurd (Option.some.inj hx) hne,
    fun x => h.2.2.1 x j (Ne.symm hne), fun he x hx => by
      by_contra hc
      have := h.2.2.2 he x hc
      rw [this] at hx; exact hne (Option.some.inj hx)⟩

/-! ### The forest -/

theorem Lk.mono {g g' : Gh ι} (h : Ext g g') {a b : Nat} (hl : Lk g a b) : Lk g' a b :=
  ⟨by rw [(h a (by rw [hl.1]; exact Ne.symm hl.2)).1]; exact hl.1, hl.2⟩

theorem Anc.mono {g g' : Gh ι} (h : Ext g g') {a b : Nat} (ha : Anc g a b) : Anc g' a b :=
  ReflTransGen.mono (fun _ _ hl => Lk.mono h hl) _ _ ha

protected theorem Anc.trans {g : Gh ι} {a b c : Nat} (h1 : Anc g a b) (h2 : Anc g b c) : Anc g a c :=
  ReflTransGen.trans h1 h2

theorem Same.mono {g g' : Gh ι} (h : Ext g g') {a b : Nat} (ha : Same g a b) : Same g' a b :=
  ⟨_, ha.choose_spec.1.mono h, ha.choose_spec.2.mono h⟩

theorem Same.symm {g : Gh ι} {a b : Nat} (h : Same g a b) : Same g b a :=
  ⟨_, h.choose_spec.2, h.choose_spec.1⟩

theorem anc_lt {rk : Nat → Nat} {g : Gh ι} (hlt : ∀ x, g.link x ≠ x → rk (g.link x) < rk x) {a b : Nat}
    (h : Anc g a b) : b = a ∨ rk b < rk a := by
  induction h with
  | refl => exact .inl rfl
  | tail _ h ih =>
    have := hlt _ (by rw [h.1]; exact Ne.symm h.2)
    rw [h.1] at this
    rcases ih with rfl | ih
    · exact .inr this
    · exact .inr (Nat.lt_trans this ih)

theorem anc_total {g : Gh ι} {a b c : Nat} (h1 : Anc g a b) (h2 : Anc g a c) :
    Anc g b c ∨ Anc g c b :=
  ReflTransGen.total_of_right_unique (fun _ _ _ h h' => h.1.symm.trans h'.1) h1 h2

theorem anc_of_lt {rk : Nat → Nat} {g : Gh ι} (hlt : ∀ x, g.link x ≠ x → rk (g.link x) < rk x) {a b c : Nat}
    (h1 : Anc g a b) (h2 : Anc g a c) (h : rk c ≤ rk b) : Anc g b c := by
  rcases anc_total h1 h2 with h3 | h3
  · exact h3
  · rcases anc_lt hlt h3 with rfl | h4
    · exact ReflTransGen.refl
    · omega

theorem nonroot_of_anc {g : Gh ι} {a b : Nat} (h : Anc g a b) (hne : b ≠ a) : g.link a ≠ a := by
  rcases ReflTransGen.cases_head h with h1 | ⟨c, h1, _⟩
  · exact absurd h1.symm hne
  · rw [h1.1]; exact Ne.symm h1.2

/-- The root of a tree is unique. -/
theorem anc_root {g : Gh ι} {a r s : Nat} (h1 : Anc g a r) (h2 : Anc g a s) (hr : g.link r = r)
    (hs : g.link s = s) : r = s := by
  rcases anc_total h1 h2 with h3 | h3
  · rcases ReflTransGen.cases_head h3 with h4 | ⟨c, h4, _⟩
    · exact h4
    · exact absurd (hr.symm.trans h4.1) h4.2
  · rcases ReflTransGen.cases_head h3 with h4 | ⟨c, h4, _⟩
    · exact h4.symm
    · exact absurd (hs.symm.trans h4.1) h4.2

theorem same_trans {g : Gh ι} {a b c : Nat} (h1 : Same g a b) (h2 : Same g b c) : Same g a c := by
  obtain ⟨r, ha, hb⟩ := h1
  obtain ⟨s, hb', hc⟩ := h2
  rcases anc_total hb hb' with h | h
  · exact ⟨s, ha.trans h, hc⟩
  · exact ⟨r, ha, hc.trans h⟩

theorem same_of_anc {g : Gh ι} {a b : Nat} (h : Anc g a b) : Same g a b := ⟨b, h, ReflTransGen.refl⟩

/-- From the pieces reached to the arguments. -/
theorem same_of_anc2 {g : Gh ι} {a b x y : Nat} (h1 : Anc g a x) (h2 : Anc g b y) (h : Same g x y) :
    Same g a b :=
  same_trans (same_of_anc h1) (same_trans h (same_of_anc h2).symm)

theorem anc_rec {call : ι → Nat × Nat} {g : Gh ι} (hrec : ∀ x, EqvGen (Rec call g) x (g.link x))
    {a b : Nat} (h : Anc g a b) : EqvGen (Rec call g) a b := by
  induction h with
  | refl => exact EqvGen.refl _
  | tail _ h ih => exact EqvGen.trans _ _ _ ih (h.1 ▸ hrec _)

/-! ### Memory updates -/

variable {o : Ord} {call : ι → Nat × Nat} {md : Mode} {free : Nat}

theorem UInv.anc_cn {g : Gh ι} {m : Loc → Nat} (h : UInv o call md free g m) {a b : Nat} (ha : Anc g a b) :
    b = a ∨ o.cn b := by
  rcases ReflTransGen.cases_tail ha with h1 | ⟨c, _, h1⟩
  · exact .inl h1
  · exact .inr (h1.1 ▸ h.cen c)

/-- Entries of `parents` are centres. -/
theorem UInv.par_cn {g : Gh ι} {m : Loc → Nat} (h : UInv o call md free g m) (x : Nat) : o.cn (m (.par x)) := by
  rcases h.anc_cn (h.anc x) with h1 | h1
  · rw [h1, ← (h.root x).1 h1]; exact h.cen x
  · exact h1

theorem UInv.anc_dom {g : Gh ι} {m : Loc → Nat} (h : UInv o call md free g m) {a b : Nat} (ha : Anc g a b)
    (hd : o.dom a) : o.dom b := by
  induction ha with
  | refl => exact hd
  | tail _ h1 ih => exact h1.1 ▸ h.dom _ ih

/-- Redirecting a vertex to a proper ancestor. -/
theorem UInv.compress {g : Gh ι} {m : Loc → Nat} (h : UInv o call md free g m) {x w : Nat}
    (ha : Anc g x w) (hne : w ≠ x) : UInv o call md free g (put m (.par x) w) := by
  refine ⟨h.lt, h.cen, h.dom, h.call_dom, h.own_iff, h.own_inj, h.own_anc, h.recd, fun y => ?_, fun y => ?_,
    fun he y => ?_, h.hk⟩
  · by_cases hy : y = x
    · subst hy; rw [put_same]; exact ha
    · rw [put_ne _ _ (by simpa using hy)]; exact h.anc y
  · by_cases hy : y = x
    · subst hy; rw [put_same]
      exact ⟨fun e => absurd e hne, fun e => absurd e (nonroot_of_anc ha hne)⟩
    · rw [put_ne _ _ (by simpa using hy)]; exact h.root y
  · rw [put_ne _ _ (by simp)]; exact h.aux he y

/-- The ghost state after hooking `u` to `v` by call `i`. -/
def Gh.hook [DecidableEq ι] (g : Gh ι) (i : ι) (u v : Nat) : Gh ι :=
  ⟨fun x => if x = u then v else g.link x, fun x => if x = u then some i else g.own x, g.claim⟩

theorem hook_ext [DecidableEq ι] {g : Gh ι} {i : ι} {u v : Nat} (hu : g.link u = u) :
    Ext g (g.hook i u v) := fun x hx => by
  have : x ≠ u := fun e => hx (e ▸ hu)
  simp [Gh.hook, this]

theorem hook_gu [DecidableEq ι] {g : Gh ι} {i : ι} {u v : Nat} (hu : g.link u = u)
    (hc : md ≠ .cas → g.claim u = some i) : UGu md i g (g.hook i u v) := by
  refine ⟨hook_ext hu, fun x => ?_, fun _ _ _ => Iff.rfl, fun he x hx => ?_⟩
  · simp only [Gh.hook]; split
    · exact Or.inr rfl
    · exact Or.inl rfl
  · by_cases h : x = u
    · subst h; exact hc he
    · simp [Gh.hook, h] at hx

/-- Hooking a root to a smaller centre on the other side of the call. -/
theorem UInv.hook [DecidableEq ι] {g : Gh ι} {m : Loc → Nat} (h : UInv o call md free g m) {i : ι}
    {u v : Nat} (hu : m (.par u) = u) (hvu : o.rk v < o.rk u) (hv : o.cn v) (hno : ∀ x, g.own x ≠ some i)
    (hc : md ≠ .cas → g.claim u = some i)
    (hab : (Anc g (call i).1 u ∧ Anc g (call i).2 v) ∨ (Anc g (call i).2 u ∧ Anc g (call i).1 v)) :
    UInv o call md free (g.hook i u v) (put m (.par u) v) := by
  have hru : g.link u = u := (h.root u).1 hu
  have hne : v ≠ u := fun e => by rw [e] at hvu; exact Nat.lt_irrefl _ hvu
  have hext := hook_ext (i := i) (v := v) hru
  have hownu : (g.hook i u v).own u = some i := by simp [Gh.hook]
  have hlinku : (g.hook i u v).link u = v := by simp [Gh.hook]
  have hlink : ∀ x, x ≠ u → (g.hook i u v).link x = g.link x := fun x hx => by simp [Gh.hook, hx]
  have hown : ∀ x, x ≠ u → (g.hook i u v).own x = g.own x := fun x hx => by simp [Gh.hook, hx]
  have hrecm : ∀ a b, Rec call g a b → Rec call (g.hook i u v) a b := by
    rintro a b ⟨x, j, h1, h2⟩
    refine ⟨x, j, ?_, h2⟩
    rw [hown x ?_, h1]
    intro hx
    rw [hx, (h.own_iff u).2 hru] at h1; cases h1
  refine ⟨fun x => ?_, fun x => ?_, fun x hx => ?_, h.call_dom, fun x => ?_, fun x y j hx hy => ?_, fun x j hx => ?_,
    fun x => ?_, fun x => ?_, fun x => ?_, fun he x => ?_, fun hm x hcx hx => ?_⟩
  · by_cases hx : x = u
    · subst hx; rw [hlinku]; exact fun _ => hvu
    · rw [hlink x hx]; exact h.lt x
  · by_cases hx : x = u
    · subst hx; rw [hlinku]; exact hv
    · rw [hlink x hx]; exact h.cen x
  · by_cases hxu : x = u
    · subst hxu; rw [hlinku]
      rcases hab with ⟨_, h1⟩ | ⟨_, h1⟩
      · exact h.anc_dom h1 (h.call_dom i).2
      · exact h.anc_dom h1 (h.call_dom i).1
    · rw [hlink x hxu]; exact h.dom x hx
  · by_cases hx : x = u
    · subst hx; rw [hlinku, hownu]; simpa using hne
    · rw [hlink x hx, hown x hx]; exact h.own_iff x
  · by_cases hxu : x = u
    · by_cases hyu : y = u
      · rw [hxu, hyu]
      · rw [hown y hyu] at hy; rw [hxu, hownu] at hx
        rw [← hx] at hy; exact absurd hy (hno y)
    · rw [hown x hxu] at hx
      by_cases hyu : y = u
      · rw [hyu, hownu] at hy; rw [← hy] at hx; exact absurd hx (hno x)
      · rw [hown y hyu] at hy; exact h.own_inj x y j hx hy
  · by_cases hxu : x = u
    · rw [hxu, hownu] at hx
      injection hx with hx; subst hx
      rw [hxu]
      rcases hab with ⟨h1, _⟩ | ⟨h1, _⟩
      · exact .inl (h1.mono hext)
      · exact .inr (h1.mono hext)
    · rw [hown x hxu] at hx; exact (h.own_anc x j hx).imp (Anc.mono hext) (Anc.mono hext)
  · by_cases hxu : x = u
    · subst hxu
      rw [hlinku]
      have key : ∀ {a b : Nat}, Anc g a b → EqvGen (Rec call (g.hook i x v)) a b :=
        fun hab => EqvGen.mono hrecm _ _ (anc_rec h.recd hab)
      have own' : EqvGen (Rec call (g.hook i x v)) (call i).1 (call i).2 :=
        EqvGen.rel _ _ ⟨x, i, hownu, rfl⟩
      rcases hab with ⟨h1, h2⟩ | ⟨h1, h2⟩
      · exact (((key h1).symm).trans _ _ _ own').trans _ _ _ (key h2)
      · exact (((key h1).symm).trans _ _ _ own'.symm).trans _ _ _ (key h2)
    · rw [hlink x hxu]; exact EqvGen.mono hrecm _ _ (h.recd x)
  · by_cases hxu : x = u
    · subst hxu; rw [put_same]
      exact ReflTransGen.single ⟨hlinku, hne.symm⟩
    · rw [put_ne _ _ (by simpa using hxu)]; exact (h.anc x).mono hext
  · by_cases hxu : x = u
    · subst hxu; rw [put_same, hlinku]
    · rw [put_ne _ _ (by simpa using hxu), hlink x hxu]; exact h.root x
  · rw [put_ne _ _ (by simp)]; exact h.aux he x
  · have hxu : x ≠ u := fun e => by
      have := hc (by rw [hm]; decide)
      subst e
      change g.claim x = none at hx
      rw [hx] at this; cases this
    rw [hlink x hxu]; exact h.hk hm x hcx hx

end Gbbs.UF
