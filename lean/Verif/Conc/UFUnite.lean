/-
The unite variants keep the forest invariant and connect their arguments.
-/
import Verif.Conc.UFFind

namespace Gbbs.UF

open Conc Conc.Prog Relation

set_option linter.unusedSectionVars false

variable {ι : Type} [DecidableEq ι] {o : Ord} {call : ι → Nat × Nat} {md : Mode} {free : Nat}

/-- The call's arguments lead to `u` and `v`, in either order. -/
def Ends (call : ι → Nat × Nat) (i : ι) (g : Gh ι) (u v : Nat) : Prop :=
  (Anc g (call i).1 u ∧ Anc g (call i).2 v) ∨ (Anc g (call i).2 u ∧ Anc g (call i).1 v)

theorem Ends.mono {i : ι} {g g' : Gh ι} {u v : Nat} (h : Ends call i g u v) (he : Ext g g') :
    Ends call i g' u v :=
  h.imp (fun h => ⟨h.1.mono he, h.2.mono he⟩) (fun h => ⟨h.1.mono he, h.2.mono he⟩)

theorem Ends.swap {i : ι} {g : Gh ι} {u v : Nat} (h : Ends call i g u v) : Ends call i g v u :=
  h.elim (fun h => Or.inr ⟨h.2, h.1⟩) (fun h => Or.inl ⟨h.2, h.1⟩)

theorem Ends.left {i : ι} {g : Gh ι} {u v w : Nat} (h : Ends call i g u v) (ha : Anc g u w) :
    Ends call i g w v :=
  h.imp (fun h => ⟨h.1.trans ha, h.2⟩) (fun h => ⟨h.1.trans ha, h.2⟩)

theorem Ends.same {i : ι} {g : Gh ι} {u v : Nat} (h : Ends call i g u v) (hs : Same g u v) :
    Same g (call i).1 (call i).2 :=
  h.elim (fun h => same_of_anc2 h.1 h.2 hs) (fun h => (same_of_anc2 h.1 h.2 hs).symm)

/-- Call `i` made the hook of `u`. -/
def Owned (i : ι) (u : Nat) (g : Gh ι) : Prop := g.own u = some i ∧ g.link u ≠ u

theorem stable_owned (i : ι) (u : Nat) : Stable md i (Owned i u) := fun g g' hr h => by
  obtain ⟨h1, h2⟩ := hr.1 u h.2
  exact ⟨h2.trans h.1, by rw [h1]; exact h.2⟩

/-- Result of a call: its arguments are connected; a reported vertex was hooked by this call, and
nothing was hooked otherwise. -/
def UPost (call : ι → Nat × Nat) (i : ι) (g : Gh ι) (r : Option Nat) : Prop :=
  Same g (call i).1 (call i).2 ∧ (∀ u, r = some u → Owned i u g) ∧
    (r = none → ∀ x, g.own x ≠ some i)

theorem stable_upost (i : ι) (r : Option Nat) : Stable md i fun g => UPost call i g r :=
  fun g g' hr h => ⟨h.1.mono hr.1, fun u hu => stable_owned i u g g' hr (h.2.1 u hu),
    fun hn => stable_noown i g g' hr (h.2.2 hn)⟩

/-- A CAS hooking the root `u` to `v`. -/
theorem hookCas_spec {α : Type} {i : ι} {Post : Gh ι → α → Prop} {u v : Nat} {k : Bool → P α} {g : Gh ι}
    (hx : md = .cas) (hvu : o.rk v < o.rk u) (hv : o.cn v) (he : Ends call i g u v) (hno : ∀ x, g.own x ≠ some i)
    {Q : Gh ι → Prop} (hQ : Stable md i Q) (hq : Q g)
    (hs : ∀ g, Same g (call i).1 (call i).2 → Owned i u g →
      Safe (rg o call md free) i Post (k true) g)
    (hf : ∀ g, Q g → Ends call i g u v → (∀ x, g.own x ≠ some i) → g.link u ≠ u →
      Safe (rg o call md free) i Post (k false) g) :
    Safe (rg o call md free) i Post (cas (.par u) u v k) g := by
  intro g' m hr hi
  have hne : v ≠ u := fun e => by rw [e] at hvu; exact Nat.lt_irrefl _ hvu
  have he' := he.mono hr.1
  have hno' := stable_noown i _ _ hr hno
  refine ⟨fun hm => ?_, fun hm => ⟨g', UGu.refl _ _ _, hi, ?_⟩⟩
  · have hroot := (hi.root u).1 hm
    have hext := hook_ext (i := i) (v := v) hroot
    refine ⟨g'.hook i u v, hook_gu hroot (fun h => absurd hx h),
      hi.hook hm hvu hv hno' (fun h => absurd hx h) he', hs _ ?_ ?_⟩
    · refine (he'.mono hext).same ⟨v, ReflTransGen.single ⟨by simp [Gh.hook], hne.symm⟩, ReflTransGen.refl⟩
    · exact ⟨by simp [Gh.hook], by simpa [Gh.hook] using hne⟩
  · exact hf g' (hQ _ _ hr hq) he' hno' (fun hl => hm ((hi.root u).2 hl))

/-- `parents[u] == u && CAS(&parents[u], u, v)`. -/
theorem tryHook_spec {α : Type} {i : ι} {Post : Gh ι → α → Prop} {u v : Nat} {k1 k2 : P α}
    {g : Gh ι} (hx : md = .cas) (hvu : o.rk v < o.rk u) (hv : o.cn v) (he : Ends call i g u v)
    (hno : ∀ x, g.own x ≠ some i) {Q : Gh ι → Prop} (hQ : Stable md i Q) (hq : Q g)
    (hs : ∀ g, Same g (call i).1 (call i).2 → Owned i u g →
      Safe (rg o call md free) i Post k1 g)
    (hf : ∀ g, Q g → Ends call i g u v → (∀ x, g.own x ≠ some i) → g.link u ≠ u →
      Safe (rg o call md free) i Post k2 g) :
    Safe (rg o call md free) i Post (read (.par u) fun p => if p = u then
      cas (.par u) u v fun b => if b then k1 else k2 else k2) g := by
  refine safe_read fun g' m hr hi => ?_
  have he' := he.mono hr.1
  have hno' := stable_noown i _ _ hr hno
  split
  · exact hookCas_spec hx hvu hv he' hno' hQ (hQ _ _ hr hq) (fun g h1 h2 => hs g h1 h2)
      (fun g h0 h1 h2 h3 => hf g h0 h1 h2 h3)
  · rename_i h
    exact hf g' (hQ _ _ hr hq) he' hno' (fun hl => h ((hi.root u).2 hl))

theorem ret_owned {i : ι} {u : Nat} {g : Gh ι} (h1 : Same g (call i).1 (call i).2) (h2 : Owned i u g) :
    Safe (rg o call md free) i (UPost call i) (ret (some u)) g := fun g' hr =>
  stable_upost i (some u) g g' hr ⟨h1, fun u' h => by cases h; exact h2, fun h => by cases h⟩

theorem ret_none {i : ι} {g : Gh ι} (h1 : Same g (call i).1 (call i).2)
    (h2 : ∀ x, g.own x ≠ some i) :
    Safe (rg o call md free) i (UPost call i) (ret none) g := fun g' hr =>
  stable_upost i none g g' hr ⟨h1, fun u' h => (by cases h), fun _ => h2⟩

theorem stable_ends (i : ι) (u v : Nat) : Stable md i fun g => Ends call i g u v :=
  fun _ _ hr h => h.mono hr.1

theorem unite_spec {find : Nat → P Nat} (hfind : FindSpec o call .cas free find) (i : ι) (f : Nat) :
    ∀ u v g, Ends call i g u v → (∀ x, g.own x ≠ some i) →
      Safe (rg o call .cas free) i (UPost call i) (unite find f u v) g := by
  induction f with
  | zero => intro u v g _ _; trivial
  | succ f ih =>
    intro u v g he hno
    have st : ∀ u v, Stable .cas i fun g => Ends call i g u v ∧ ∀ x, g.own x ≠ some i :=
      fun u v => (stable_ends i u v).and (stable_noown i)
    refine Safe.bind (hfind i _ (st u v) u g ⟨he, hno⟩) ?_
    rintro u' g1 ⟨⟨hu, hcu⟩, he1, hno1⟩
    have he1' := he1.left hu
    refine Safe.bind (hfind i _ (st u' v) v g1 ⟨he1', hno1⟩) ?_
    rintro v' g2 ⟨⟨hv, hcv⟩, he2, hno2⟩
    have he2' := (he2.swap.left hv).swap
    split
    · rename_i h; subst h
      exact ret_none (he2'.same ⟨u', ReflTransGen.refl, ReflTransGen.refl⟩) hno2
    · rename_i hne
      split
      · rename_i hgt
        exact tryHook_spec rfl (o.mono _ _ hcu hcv hgt) hcv he2' hno2 (fun _ _ _ _ => trivial) (Q := fun _ => True) trivial (fun g h1 h2 => ret_owned h1 h2)
          (fun g _ h1 h2 _ => ih _ _ _ h1 h2)
      · rename_i hgt
        exact tryHook_spec rfl (o.mono _ _ hcv hcu (by omega)) hcu he2'.swap hno2 (fun _ _ _ _ => trivial) (Q := fun _ => True) trivial (fun g h1 h2 => ret_owned h1 h2)
          (fun g _ h1 h2 _ => ih _ _ _ h1.swap h2)

theorem uniteImpl_spec {find : Nat → P Nat} (hfind : FindSpec o call .cas free find) (i : ι) (f : Nat) :
    ∀ u v g, Ends call i g u v → (∀ x, g.own x ≠ some i) →
      Safe (rg o call .cas free) i (UPost call i) (uniteImpl find f u v) g := by
  induction f with
  | zero => intro u v g _ _; trivial
  | succ f ih =>
    intro u v g he hno
    rw [uniteImpl]
    split
    · rename_i h; subst h
      exact ret_none (he.same ⟨u, ReflTransGen.refl, ReflTransGen.refl⟩) hno
    have st : ∀ u v, Stable .cas i fun g => Ends call i g u v ∧ ∀ x, g.own x ≠ some i :=
      fun u v => (stable_ends i u v).and (stable_noown i)
    refine Safe.bind (hfind i _ (st u v) u g ⟨he, hno⟩) ?_
    rintro u' g1 ⟨⟨hu, hcu⟩, he1, hno1⟩
    have he1' := he1.left hu
    refine Safe.bind (hfind i _ (st u' v) v g1 ⟨he1', hno1⟩) ?_
    rintro v' g2 ⟨⟨hv, hcv⟩, he2, hno2⟩
    have he2' := (he2.swap.left hv).swap
    split
    · rename_i hgt
      exact tryHook_spec rfl (o.mono _ _ hcu hcv hgt) hcv he2' hno2 (fun _ _ _ _ => trivial) (Q := fun _ => True) trivial (fun g h1 h2 => ret_owned h1 h2)
        (fun g _ h1 h2 _ => ih _ _ _ h1 h2)
    · split
      · rename_i hgt
        exact tryHook_spec rfl (o.mono _ _ hcv hcu hgt) hcu he2'.swap hno2 (fun _ _ _ _ => trivial) (Q := fun _ => True) trivial (fun g h1 h2 => ret_owned h1 h2)
          (fun g _ h1 h2 _ => ih _ _ _ h1.swap h2)
      · exact ih _ _ _ he2' hno2

/-- `UniteEarly` compares its arguments, so all vertices have to be centres. -/
theorem uniteEarly_spec (hcn : ∀ x, o.cn x) (i : ι) (f : Nat) :
    ∀ u v g, Ends call i g u v → (∀ x, g.own x ≠ some i) →
      Safe (rg o call .cas free) i (UPost call i) (uniteEarly f u v) g := by
  induction f with
  | zero => intro u v g _ _; trivial
  | succ f ih =>
    intro u v g he hno
    rw [uniteEarly]
    split
    · rename_i h; subst h
      exact ret_none (he.same ⟨u, ReflTransGen.refl, ReflTransGen.refl⟩) hno
    rename_i hne
    have key : ∀ a b, b < a → Ends call i g a b →
        Safe (rg o call .cas free) i (UPost call i)
          (read (.par a) fun p => if p = a then cas (.par a) a b fun ok => if ok then ret (some a) else
            (read (.par a) fun z => read (.par z) fun w => cas (.par a) z w fun _ => uniteEarly f w b)
            else (read (.par a) fun z => read (.par z) fun w => cas (.par a) z w fun _ =>
              uniteEarly f w b)) g := by
      intro a b hba he
      refine tryHook_spec rfl (o.mono _ _ (hcn a) (hcn b) hba) (hcn b) he hno (fun _ _ _ _ => trivial) (Q := fun _ => True) trivial (fun g h1 h2 => ret_owned h1 h2) ?_
      intro g1 _ he1 hno1 hnr
      refine safe_read fun g2 m2 hr2 hi2 => ?_
      have hza := hi2.anc a
      have hzne : m2 (.par a) ≠ a := fun hz => by
        have := (hi2.root a).1 hz
        rw [(hr2.1 a hnr).1] at this; exact hnr this
      have he2 := he1.mono hr2.1
      have hno2 := stable_noown i _ _ hr2 hno1
      generalize m2 (.par a) = z at *
      refine safe_read fun g3 m3 hr3 hi3 => ?_
      have hw := hi3.anc z
      have hza3 := hza.mono hr3.1
      have he3 := he2.mono hr3.1
      have hno3 := stable_noown i _ _ hr3 hno2
      generalize m3 (.par z) = w at *
      have hwa : w ≠ a := fun e => by
        subst e
        rcases anc_lt hi3.lt hza3 with h | h
        · exact hzne h
        · rcases anc_lt hi3.lt hw with h' | h'
          · exact hzne h'.symm
          · omega
      refine safe_cas fun g4 m4 hr4 hi4 =>
        ⟨fun _ => hi4.compress ((hza3.trans hw).mono hr4.1) hwa, fun _ => ?_⟩
      exact ih _ _ _ ((he3.left (hza3.trans hw)).mono hr4.1) (stable_noown i _ _ hr4 hno3)
    by_cases hvu : v > u
    · simp only [if_pos hvu]
      exact key v u hvu he.swap
    · simp only [if_neg hvu]
      exact key u v (by omega) he

theorem uniteEarlyForce_spec (hcn : ∀ x, o.cn x) {find : Nat → P Nat} (hfind : FindSpec o call .cas free find) (i : ι)
    (f : Nat) (u v : Nat) (g : Gh ι) (he : Ends call i g u v) (hno : ∀ x, g.own x ≠ some i) :
    Safe (rg o call .cas free) i (UPost call i) (uniteEarlyForce find f u v) g := by
  refine Safe.bind (uniteEarly_spec hcn i f u v g he hno) ?_
  intro r g1 h1
  refine Safe.bind (hfind i _ (stable_upost i r) u g1 h1) ?_
  rintro _ g2 ⟨_, h2⟩
  refine Safe.bind (hfind i _ (stable_upost i r) v g2 h2) ?_
  rintro _ g3 ⟨_, h3⟩ g4 hr4
  exact stable_upost i r _ _ hr4 h3

/-! ### Linking with `hooks` -/

/-- The ghost state after claiming `u`. -/
def Gh.take (g : Gh ι) (i : ι) (u : Nat) : Gh ι :=
  ⟨g.link, g.own, fun x => if x = u then some i else g.claim x⟩

theorem UInv.takeClaim {g : Gh ι} {m : Loc → Nat} (h : UInv o call md free g m) {i : ι} {u val : Nat}
    (hv : val ≠ free) : UInv o call md free (g.take i u) (put m (.aux u) val) := by
  refine ⟨h.lt, h.cen, h.dom, h.call_dom, h.own_iff, h.own_inj, h.own_anc, h.recd, fun x => ?_, fun x => ?_,
    fun he x => ?_, fun hm x hcx hx => ?_⟩
  · rw [put_ne _ _ (by simp)]
    exact h.anc x
  · rw [put_ne _ _ (by simp)]; exact h.root x
  · by_cases hx : x = u
    · subst hx; simp [Gh.take, hv]
    · rw [put_ne _ _ (by simpa using hx)]
      simp only [Gh.take, hx, if_false]; exact h.aux he x
  · by_cases hxu : x = u
    · simp [Gh.take, hxu] at hx
    · simp only [Gh.take, hxu, if_false] at hx; exact h.hk hm x hcx hx

theorem take_gu {g : Gh ι} {i : ι} {u : Nat} (h : g.claim u = none) : UGu md i g (g.take i u) := by
  refine ⟨fun x hx => ⟨rfl, rfl⟩, fun x => Or.inl rfl, fun x j hj => ?_, fun _ x hx => absurd rfl hx⟩
  by_cases hx : x = u
  · subst hx
    simp only [Gh.take, if_true, h]
    exact ⟨fun e => (by cases e), fun e => absurd (Option.some.inj e).symm hj⟩
  · simp [Gh.take, hx]

/-- `u` is claimed by `i` and still a root. -/
def Held (i : ι) (u : Nat) (g : Gh ι) : Prop := g.claim u = some i ∧ g.link u = u

theorem stable_held (hm : md ≠ .cas) (i : ι) (u : Nat) : Stable md i (Held i u) := fun _ _ hr h =>
  ⟨(hr.2.2.1 u).1 h.1, (hr.2.2.2 hm u h.1).trans h.2⟩

/-- A plain store hooking a claimed root. -/
theorem hookWrite_spec {α : Type} {i : ι} {Post : Gh ι → α → Prop} {u v : Nat} {k : P α} {g : Gh ι}
    (hm : md ≠ .cas) (hvu : o.rk v < o.rk u) (hv : o.cn v) (he : Ends call i g u v) (hno : ∀ x, g.own x ≠ some i)
    (hh : Held i u g)
    (hs : ∀ g', Ext g g' → Same g' (call i).1 (call i).2 → Owned i u g' → g'.claim u = some i →
      Safe (rg o call md free) i Post k g') :
    Safe (rg o call md free) i Post (write (.par u) v k) g := by
  intro g' m hr hi
  have hne : v ≠ u := fun e => by rw [e] at hvu; exact Nat.lt_irrefl _ hvu
  have he' := he.mono hr.1
  have hno' := stable_noown i _ _ hr hno
  obtain ⟨hcl, hroot⟩ := stable_held hm i u _ _ hr hh
  have hext := hook_ext (i := i) (v := v) hroot
  have hsame : Same (g'.hook i u v) u v :=
    ⟨v, ReflTransGen.single ⟨by simp [Gh.hook], hne.symm⟩, ReflTransGen.refl⟩
  refine ⟨g'.hook i u v, hook_gu hroot (fun _ => hcl), hi.hook ((hi.root u).2 hroot) hvu hv hno' (fun _ => hcl) he',
    hs _ (hr.1.trans hext) ((he'.mono hext).same hsame) ⟨by simp [Gh.hook], by simpa [Gh.hook] using hne⟩ hcl⟩

theorem uniteND_spec (hdom : ∀ x, o.dom x → x < uMax) {find : Nat → P Nat} (hfind : FindSpec o call .hook uMax find) (i : ι) (f : Nat) :
    ∀ u v g, Ends call i g u v → (∀ x, g.own x ≠ some i) → o.dom u → o.dom v →
      Safe (rg o call .hook uMax) i (UPost call i) (uniteND find f u v) g := by
  induction f with
  | zero => intro u v g _ _ _ _; trivial
  | succ f ih =>
    intro u v g he hno hub hvb
    have st : ∀ u v, Stable .hook i fun g => Ends call i g u v ∧ ∀ x, g.own x ≠ some i :=
      fun u v => (stable_ends i u v).and (stable_noown i)
    refine Safe.bind (hfind i _ (st u v) u g ⟨he, hno⟩) ?_
    rintro u' g1 ⟨⟨hu, hcu⟩, he1, hno1⟩
    have he1' := he1.left hu
    refine Safe.bind (hfind i _ ((st u' v).and (stable_anc i u u')) v g1 ⟨⟨he1', hno1⟩, hu⟩) ?_
    rintro v' g2 ⟨⟨hv, hcv⟩, ⟨he2, hno2⟩, hu2⟩
    have he2' := (he2.swap.left hv).swap
    split
    · rename_i h; subst h
      exact ret_none (he2'.same ⟨u', ReflTransGen.refl, ReflTransGen.refl⟩) hno2
    rename_i hne
    have key : ∀ a b, b < a → o.cn a → o.cn b → Ends call i g2 a b → (Anc g2 u a ∨ Anc g2 v a) → (Anc g2 u b ∨ Anc g2 v b) →
        Safe (rg o call .hook uMax) i (UPost call i)
        (read (.aux a) fun h => if h = uMax then
          cas (.aux a) uMax b fun ok =>
            if ok then write (.par a) b (ret (some a)) else uniteND find f a b
        else uniteND find f a b) g2 := by
      intro a b hba hca hcb he hA hB
      have bound : ∀ {g : Gh ι} {m : Loc → Nat} (_ : UInv o call .hook uMax g m) {x},
          (Anc g u x ∨ Anc g v x) → o.dom x := by
        intro g m hi x h
        rcases h with h | h
        · exact hi.anc_dom h hub
        · exact hi.anc_dom h hvb
      have mono : ∀ {g g' : Gh ι} (_ : Ext g g') {x}, (Anc g u x ∨ Anc g v x) → (Anc g' u x ∨ Anc g' v x) :=
        fun he _ h => h.imp (Anc.mono he) (Anc.mono he)
      refine safe_read fun g3 m3 hr3 hi3 => ?_
      have he3 := he.mono hr3.1
      have hno3 := stable_noown i _ _ hr3 hno2
      have hA3 := mono hr3.1 hA
      have hB3 := mono hr3.1 hB
      have hab := bound hi3 hA3
      have hbb := bound hi3 hB3
      split
      · intro g4 m4 hr4 hi4
        have he4 := he3.mono hr4.1
        have hno4 := stable_noown i _ _ hr4 hno3
        refine ⟨fun hm => ?_, fun _ => ⟨g4, UGu.refl _ _ _, hi4, ih _ _ _ he4 hno4 hab hbb⟩⟩
        have hcl := (hi4.aux (by decide) a).1 hm
        have hroot := hi4.hk rfl a hca hcl
        refine ⟨g4.take i a, take_gu hcl, hi4.takeClaim (Nat.ne_of_lt (hdom b hbb)), ?_⟩
        have hext : Ext g4 (g4.take i a) := fun x hx => ⟨rfl, rfl⟩
        refine hookWrite_spec (by decide) (o.mono _ _ hca hcb hba) hcb (he4.mono hext) (fun x => hno4 x)
          ⟨by simp [Gh.take], hroot⟩ (fun g _ h1 h2 _ => ret_owned h1 h2)
      · exact ih _ _ _ he3 hno3 hab hbb
    by_cases hlt : u' < v'
    · simp only [if_pos hlt]
      exact key v' u' hlt hcv hcu he2'.swap (Or.inr hv) (Or.inl hu2)
    · simp only [if_neg hlt]
      exact key u' v' (by omega) hcu hcv he2' (Or.inl hu2) (Or.inr hv)

/-! ### Rem's algorithm

Only connectivity is claimed for these (see `C31` for the return values). -/

/-- The arguments of the call are connected. -/
def CPost (call : ι → Nat × Nat) (i : ι) (g : Gh ι) (_ : Option Nat) : Prop :=
  Same g (call i).1 (call i).2

/-- The final compression: any number of finds. -/
def FinSpec (o : Ord) (call : ι → Nat × Nat) (md : Mode) (free : Nat) (fin : P Unit) : Prop :=
  ∀ (i : ι) (Q : Gh ι → Prop), Stable md i Q → ∀ g, Q g →
    Safe (rg o call md free) i (fun g _ => Q g) fin g

theorem fin_nothing : FinSpec o call md free (ret ()) := fun _ _ hQ _ hq g' hr => hQ _ g' hr hq

theorem fin_compress {find : Nat → P Nat} (hfind : FindSpec o call md free find) (x y : Nat) :
    FinSpec o call md free ((find x).bind fun _ => (find y).bind fun _ => ret ()) := by
  intro i Q hQ g hq
  refine Safe.bind (hfind i Q hQ x g hq) ?_
  rintro _ g1 ⟨_, h1⟩
  refine Safe.bind (hfind i Q hQ y g1 h1) ?_
  rintro _ g2 ⟨_, h2⟩ g3 hr3
  exact hQ _ _ hr3 h2

theorem ret_cpost {i : ι} {g : Gh ι} {r : Option Nat} (h : Same g (call i).1 (call i).2) :
    Safe (rg o call md free) i (CPost call i) (ret r) g := fun _ hr => h.mono hr.1

theorem uniteRemCAS_spec {splice : Nat → Nat → P Nat} (hsp : SpliceSpec o call .cas free splice)
    {fin : P Unit} (hfin : FinSpec o call .cas free fin) (i : ι) (f : Nat) :
    ∀ rx ry g, Ends call i g rx ry → (∀ x, g.own x ≠ some i) →
      Safe (rg o call .cas free) i (CPost call i) (uniteRemCAS splice fin f rx ry) g := by
  induction f with
  | zero => intro rx ry g _ _; trivial
  | succ f ih =>
    intro rx ry g he hno
    refine safe_read fun g1 m1 hr1 hi1 => ?_
    have ha := hi1.anc rx
    have he1 := he.mono hr1.1
    have hno1 := stable_noown i _ _ hr1 hno
    generalize m1 (.par rx) = a at *
    refine safe_read fun g2 m2 hr2 hi2 => ?_
    have hb := hi2.anc ry
    have he2 := he1.mono hr2.1
    have hno2 := stable_noown i _ _ hr2 hno1
    have ha2 := ha.mono hr2.1
    generalize m2 (.par ry) = b at *
    split
    · rename_i h; subst h
      exact ret_cpost (he2.same ⟨a, ha2, hb⟩)
    refine safe_read fun g3 m3 hr3 hi3 => ?_
    have hpy := hi3.anc ry
    have hcy := hi3.par_cn ry
    have he3 := he2.mono hr3.1
    have hno3 := stable_noown i _ _ hr3 hno2
    generalize m3 (.par ry) = pry at *
    refine safe_read fun g4 m4 hr4 hi4 => ?_
    have hpx := hi4.anc rx
    have hpy := hpy.mono hr4.1
    have he4 := he3.mono hr4.1
    have hno4 := stable_noown i _ _ hr4 hno3
    have hpxle := anc_lt hi4.lt hpx
    have hpyle := anc_lt hi4.lt hpy
    have hcx := hi4.par_cn rx
    generalize m4 (.par rx) = prx at *
    -- after the swap: hook `x` to the parent `p` of `y`
    have key : ∀ x y p, Ends call i g4 x y → Anc g4 y p → o.cn p → p = x ∨ o.rk p < o.rk x →
        Safe (rg o call .cas free) i (CPost call i)
          (read (.par x) fun q => if q = x then
            cas (.par x) x p fun ok => if ok then fin.bind fun _ => ret (some x) else
              (splice x y).bind fun z => uniteRemCAS splice fin f z y
            else (splice x y).bind fun z => uniteRemCAS splice fin f z y) g4 := by
      intro x y p he hyp hcp hpx
      have other : ∀ g, Ends call i g x y → (∀ x, g.own x ≠ some i) →
          Safe (rg o call .cas free) i (CPost call i)
            ((splice x y).bind fun z => uniteRemCAS splice fin f z y) g := by
        intro g he hno
        refine Safe.bind (hsp i (fun g => Ends call i g x y ∧ ∀ x, g.own x ≠ some i)
          ((stable_ends i x y).and (stable_noown i)) x y g ⟨he, hno⟩) ?_
        rintro z g' ⟨hz, he', hno'⟩
        exact ih _ _ _ (he'.left hz) hno'
      have done : ∀ g, Same g (call i).1 (call i).2 →
          Safe (rg o call .cas free) i (CPost call i) (fin.bind fun _ => ret (some x)) g := by
        intro g hs
        refine Safe.bind (hfin i _ (stable_same i _ _) g hs) ?_
        intro _ g' h'
        exact ret_cpost h'
      rcases hpx.symm with hlt | heq
      · exact tryHook_spec rfl hlt hcp (he.swap.left hyp).swap hno4 (stable_ends i x y) he
          (fun g h1 _ => done g h1) (fun g h0 _ h2 _ => other g h0 h2)
      · subst heq
        refine safe_read fun g5 m5 hr5 hi5 => ?_
        have he5 := he.mono hr5.1
        have hno5 := stable_noown i _ _ hr5 hno4
        have hyp5 := hyp.mono hr5.1
        split
        · intro g6 m6 hr6 hi6
          refine ⟨fun hm => ⟨g6, UGu.refl _ _ _, ?_, ?_⟩, fun hm => ⟨g6, UGu.refl _ _ _, hi6,
            other g6 (he5.mono hr6.1) (stable_noown i _ _ hr6 hno5)⟩⟩
          · have : put m6 (.par p) p = m6 := by
              funext l
              by_cases hl : l = .par p
              · rw [hl, put_same, hm]
              · rw [put_ne _ _ hl]
            rw [this]; exact hi6
          · exact done g6 ((he5.mono hr6.1).same ⟨p, ReflTransGen.refl, hyp5.mono hr6.1⟩)
        · exact other g5 he5 hno5
    by_cases hsw : prx < pry
    · simp only [if_pos hsw]
      have := o.mono _ _ hcy hcx hsw
      refine key ry rx prx he4.swap hpx hcx (.inr ?_)
      rcases hpyle with rfl | h <;> omega
    · simp only [if_neg hsw]
      refine key rx ry pry he4 hpy hcy ?_
      rcases Nat.lt_or_eq_of_le (Nat.not_lt.1 hsw) with h | h
      · have := o.mono _ _ hcx hcy h
        refine .inr ?_
        rcases hpxle with rfl | h' <;> omega
      · rw [h]; exact hpxle

/-! ### Locks -/

/-- The ghost state after releasing `u`. -/
def Gh.drop (g : Gh ι) (u : Nat) : Gh ι :=
  ⟨g.link, g.own, fun x => if x = u then none else g.claim x⟩

/-- Releasing the lock of `u`. -/
theorem release_spec {α : Type} {i : ι} {Post : Gh ι → α → Prop} {u : Nat} {k : P α} {g : Gh ι}
    {Q : Gh ι → Prop} (hQ : Stable .lock i Q) (hq : Q g) (hQd : ∀ g u, Q g → Q (Gh.drop g u))
    (hc : g.claim u = some i) (hs : ∀ g, Q g → Safe (rg o call .lock free) i Post k g) :
    Safe (rg o call .lock free) i Post (write (.aux u) free k) g := by
  intro g' m hr hi
  have hc' := (hr.2.2.1 u).1 hc
  refine ⟨g'.drop u, ⟨fun x hx => ⟨rfl, rfl⟩, fun x => Or.inl rfl, fun x j hj => ?_,
    fun _ x hx => absurd rfl hx⟩, ⟨hi.lt, hi.cen, hi.dom, hi.call_dom, hi.own_iff, hi.own_inj, hi.own_anc, hi.recd, fun x => ?_, fun x => ?_,
    fun he x => ?_, fun hm => by cases hm⟩, hs _ (hQd _ _ (hQ _ _ hr hq))⟩
  · by_cases hx : x = u
    · subst hx
      rw [hc']
      simp only [Gh.drop, if_true]
      exact ⟨fun e => absurd (Option.some.inj e).symm hj, fun e => (by cases e)⟩
    · simp [Gh.drop, hx]
  · rw [put_ne _ _ (by simp)]; exact hi.anc x
  · rw [put_ne _ _ (by simp)]; exact hi.root x
  · by_cases hx : x = u
    · subst hx; simp [Gh.drop]
    · rw [put_ne _ _ (by simpa using hx)]
      simp only [Gh.drop, hx, if_false]; exact hi.aux he x

theorem ends_drop {i : ι} {g : Gh ι} {u v w : Nat} (h : Ends call i g u v) :
    Ends call i (g.drop w) u v :=
  h.mono (fun _ _ => ⟨rfl, rfl⟩)

theorem uniteRemLock_spec {splice : Nat → Nat → P Nat} (hsp : SpliceSpec o call .lock 0 splice)
    {fin : P Unit} (hfin : FinSpec o call .lock 0 fin) (i : ι) (f : Nat) :
    ∀ rx ry g, Ends call i g rx ry → ((∀ x, g.own x ≠ some i) ∨ Same g (call i).1 (call i).2) →
      Safe (rg o call .lock 0) i (CPost call i) (uniteRemLock splice fin f rx ry) g := by
  induction f with
  | zero => intro rx ry g _ _; trivial
  | succ f ih =>
    intro rx ry g he hno
    have hstate : Stable .lock i fun g => (∀ x, g.own x ≠ some i) ∨ Same g (call i).1 (call i).2 :=
      fun g g' hr h => h.imp (stable_noown i g g' hr) (stable_same i _ _ g g' hr)
    refine safe_read fun g1 m1 hr1 hi1 => ?_
    have ha := hi1.anc rx
    have he1 := he.mono hr1.1
    have hno1 := hstate _ _ hr1 hno
    generalize m1 (.par rx) = a at *
    refine safe_read fun g2 m2 hr2 hi2 => ?_
    have hb := hi2.anc ry
    have he2 := he1.mono hr2.1
    have hno2 := hstate _ _ hr2 hno1
    have ha2 := ha.mono hr2.1
    generalize m2 (.par ry) = b at *
    split
    · rename_i h; subst h
      refine Safe.bind (hfin i _ (stable_same i _ _) g2 (he2.same ⟨a, ha2, hb⟩)) ?_
      intro _ g' h'
      exact ret_cpost h'
    refine safe_read fun g3 m3 hr3 hi3 => ?_
    have he3 := he2.mono hr3.1
    have hno3 := hstate _ _ hr3 hno2
    generalize m3 (.par rx) = prx at *
    refine safe_read fun g4 m4 hr4 hi4 => ?_
    have he4 := he3.mono hr4.1
    have hno4 := hstate _ _ hr4 hno3
    generalize m4 (.par ry) = pry at *
    have key : ∀ x y, Ends call i g4 x y → Safe (rg o call .lock 0) i (CPost call i)
        (read (.par x) fun p =>
          if x = p then
            read (.aux x) fun l =>
              if l = 0 then
                cas (.aux x) 0 1 fun ok =>
                  if ok then
                    read (.par y) fun py => read (.par x) fun q =>
                      if x = q ∧ x > py then
                        write (.par x) py (write (.aux x) 0 (uniteRemLock splice fin f x y))
                      else write (.aux x) 0 (uniteRemLock splice fin f x y)
                  else uniteRemLock splice fin f x y
              else uniteRemLock splice fin f x y
          else (splice x y).bind fun z => uniteRemLock splice fin f z y) g4 := by
      intro x y he4
      have hfull : Stable .lock i fun g => Ends call i g x y ∧
          ((∀ x, g.own x ≠ some i) ∨ Same g (call i).1 (call i).2) := (stable_ends i x y).and hstate
      have hdrop : ∀ (g : Gh ι) (u : Nat), (Ends call i g x y ∧
          ((∀ x, g.own x ≠ some i) ∨ Same g (call i).1 (call i).2)) → (Ends call i (g.drop u) x y ∧
          ((∀ x, (g.drop u).own x ≠ some i) ∨ Same (g.drop u) (call i).1 (call i).2)) :=
        fun g u h => ⟨ends_drop h.1, h.2.imp id (fun h => h.mono (fun _ _ => ⟨rfl, rfl⟩))⟩
      refine safe_read fun g5 m5 hr5 hi5 => ?_
      have h5 := hfull _ _ hr5 ⟨he4, hno4⟩
      split
      · refine safe_read fun g6 m6 hr6 hi6 => ?_
        have h6 := hfull _ _ hr6 h5
        split
        · intro g7 m7 hr7 hi7
          have h7 := hfull _ _ hr7 h6
          refine ⟨fun hm => ?_, fun _ => ⟨g7, UGu.refl _ _ _, hi7, ih _ _ _ h7.1 h7.2⟩⟩
          have hcl := (hi7.aux (by decide) x).1 hm
          have hext : Ext g7 (g7.take i x) := fun x hx => ⟨rfl, rfl⟩
          refine ⟨g7.take i x, take_gu hcl, hi7.takeClaim (by decide), ?_⟩
          have h7' : Ends call i (g7.take i x) x y ∧ ((∀ z, (g7.take i x).own z ≠ some i) ∨
              Same (g7.take i x) (call i).1 (call i).2) :=
            ⟨h7.1.mono hext, h7.2.imp id (fun h => h.mono hext)⟩
          have hc7 : (g7.take i x).claim x = some i := by simp [Gh.take]
          generalize g7.take i x = g7 at h7' hc7
          refine safe_read fun g8 m8 hr8 hi8 => ?_
          have h8 := hfull _ _ hr8 h7'
          have hc8 := (hr8.2.2.1 x).1 hc7
          have hpy := hi8.anc y
          have hcy := hi8.par_cn y
          generalize m8 (.par y) = py at *
          refine safe_read fun g9 m9 hr9 hi9 => ?_
          have h9 := hfull _ _ hr9 h8
          have hc9 := (hr9.2.2.1 x).1 hc8
          have hpy9 := hpy.mono hr9.1
          split
          · rename_i hcond
            have hroot := (hi9.root x).1 hcond.1.symm
            have hcx : o.cn x := hroot ▸ hi9.cen x
            have hrk := o.mono _ _ hcx hcy hcond.2
            -- not yet connected: otherwise `x` would be the root of `y`
            have hno9 : ∀ z, g9.own z ≠ some i := by
              rcases h9.2 with h | h
              · exact h
              · exfalso
                have hxy : Same g9 x y := by
                  rcases h9.1 with ⟨e1, e2⟩ | ⟨e1, e2⟩
                  · exact same_trans (same_of_anc e1).symm (same_trans h (same_of_anc e2))
                  · exact same_trans (same_of_anc e1).symm (same_trans h.symm (same_of_anc e2))
                obtain ⟨r, hx, hy⟩ := hxy
                have hrx : r = x := by
                  by_contra hne
                  exact nonroot_of_anc hx hne hroot
                subst hrx
                have := anc_of_lt hi9.lt hy hpy9 (Nat.le_of_lt hrk)
                exact nonroot_of_anc this (Nat.ne_of_lt hcond.2) hroot
            refine hookWrite_spec (by decide) hrk hcy (h9.1.swap.left hpy9).swap hno9 ⟨hc9, hroot⟩ ?_
            intro g10 hext10 hs10 _ hc10
            exact release_spec hfull ⟨h9.1.mono hext10, Or.inr hs10⟩ hdrop hc10 (fun g h => ih _ _ _ h.1 h.2)
          · exact release_spec hfull h9 hdrop hc9 (fun g h => ih _ _ _ h.1 h.2)
        · exact ih _ _ _ h6.1 h6.2
      · refine Safe.bind (hsp i _ hfull x y g5 h5) ?_
        rintro z g6 ⟨hz, h6⟩
        exact ih _ _ _ (h6.1.left hz) h6.2
    by_cases hsw : prx < pry
    · simp only [if_pos hsw]
      exact key ry rx he4.swap
    · simp only [if_neg hsw]
      exact key rx ry he4

/-- What a call has done so far: nothing hooked, or the vertex `r`. -/
def Hooked (call : ι → Nat × Nat) (i : ι) (r : Option Nat) (g : Gh ι) : Prop :=
  (r = none ∧ ∀ x, g.own x ≠ some i) ∨ (∃ u, r = some u ∧ Owned i u g) ∧ Same g (call i).1 (call i).2

theorem stable_hooked (i : ι) (r : Option Nat) : Stable md i (Hooked call i r) := fun g g' hr h =>
  h.imp (fun h => ⟨h.1, stable_noown i g g' hr h.2⟩)
    fun ⟨⟨u, h1, h2⟩, h3⟩ => ⟨⟨u, h1, stable_owned i u g g' hr h2⟩, stable_same i _ _ g g' hr h3⟩

theorem Hooked.post {i : ι} {r : Option Nat} {g : Gh ι} (h : Hooked call i r g) (hs : Same g (call i).1 (call i).2) :
    UPost call i g r := by
  refine ⟨hs, fun u hu => ?_, fun hn => ?_⟩
  · rcases h with ⟨h, -⟩ | ⟨⟨u', h, h2⟩, -⟩
    · rw [h] at hu; cases hu
    · rw [h] at hu; cases hu; exact h2
  · rcases h with ⟨-, h⟩ | ⟨⟨u', h, -⟩, -⟩
    · exact h
    · rw [h] at hn; cases hn

theorem uniteRemLockSF_spec {splice : Nat → Nat → P Nat} (hsp : SpliceSpec o call .lock 0 splice)
    {fin : P Unit} (hfin : FinSpec o call .lock 0 fin) (i : ι) (f : Nat) :
    ∀ r rx ry g, Ends call i g rx ry → Hooked call i r g →
      Safe (rg o call .lock 0) i (UPost call i) (uniteRemLockSF splice fin f r rx ry) g := by
  induction f with
  | zero => intro r rx ry g _ _; trivial
  | succ f ih =>
    intro r rx ry g he hno
    have hstate : Stable .lock i (Hooked call i r) := stable_hooked i r
    refine safe_read fun g1 m1 hr1 hi1 => ?_
    have ha := hi1.anc rx
    have he1 := he.mono hr1.1
    have hno1 := hstate _ _ hr1 hno
    generalize m1 (.par rx) = a at *
    refine safe_read fun g2 m2 hr2 hi2 => ?_
    have hb := hi2.anc ry
    have he2 := he1.mono hr2.1
    have hno2 := hstate _ _ hr2 hno1
    have ha2 := ha.mono hr2.1
    generalize m2 (.par ry) = b at *
    split
    · rename_i h; subst h
      refine Safe.bind (hfin i _ (stable_upost i r) g2 (hno2.post (he2.same ⟨a, ha2, hb⟩))) ?_
      intro _ g' h' g'' hr''
      exact stable_upost i r _ _ hr'' h'
    refine safe_read fun g3 m3 hr3 hi3 => ?_
    have he3 := he2.mono hr3.1
    have hno3 := hstate _ _ hr3 hno2
    generalize m3 (.par rx) = prx at *
    refine safe_read fun g4 m4 hr4 hi4 => ?_
    have he4 := he3.mono hr4.1
    have hno4 := hstate _ _ hr4 hno3
    generalize m4 (.par ry) = pry at *
    have key : ∀ x y, Ends call i g4 x y → Safe (rg o call .lock 0) i (UPost call i)
        (read (.par x) fun p =>
          if x = p then
            read (.aux x) fun l =>
              if l = 0 then
                cas (.aux x) 0 1 fun ok =>
                  if ok then
                    read (.par y) fun py => read (.par x) fun q =>
                      if x = q ∧ x > py then
                        write (.par x) py (write (.aux x) 0 (uniteRemLockSF splice fin f (some x) x y))
                      else write (.aux x) 0 (uniteRemLockSF splice fin f r x y)
                  else uniteRemLockSF splice fin f r x y
              else uniteRemLockSF splice fin f r x y
          else (splice x y).bind fun z => uniteRemLockSF splice fin f r z y) g4 := by
      intro x y he4
      have hfull : ∀ r, Stable .lock i fun g => Ends call i g x y ∧ Hooked call i r g :=
        fun r => (stable_ends i x y).and (stable_hooked i r)
      have hdrop : ∀ (r : Option Nat) (g : Gh ι) (u : Nat), (Ends call i g x y ∧ Hooked call i r g) →
          (Ends call i (g.drop u) x y ∧ Hooked call i r (g.drop u)) :=
        fun r g u h => ⟨ends_drop h.1, h.2.imp id (fun h => ⟨h.1, h.2.mono (fun _ _ => ⟨rfl, rfl⟩)⟩)⟩
      refine safe_read fun g5 m5 hr5 hi5 => ?_
      have h5 := hfull r _ _ hr5 ⟨he4, hno4⟩
      split
      · refine safe_read fun g6 m6 hr6 hi6 => ?_
        have h6 := hfull r _ _ hr6 h5
        split
        · intro g7 m7 hr7 hi7
          have h7 := hfull r _ _ hr7 h6
          refine ⟨fun hm => ?_, fun _ => ⟨g7, UGu.refl _ _ _, hi7, ih _ _ _ _ h7.1 h7.2⟩⟩
          have hcl := (hi7.aux (by decide) x).1 hm
          have hext : Ext g7 (g7.take i x) := fun x hx => ⟨rfl, rfl⟩
          refine ⟨g7.take i x, take_gu hcl, hi7.takeClaim (by decide), ?_⟩
          have h7' : Ends call i (g7.take i x) x y ∧ Hooked call i r (g7.take i x) :=
            ⟨h7.1.mono hext, h7.2.imp id (fun h => ⟨h.1, h.2.mono hext⟩)⟩
          have hc7 : (g7.take i x).claim x = some i := by simp [Gh.take]
          generalize g7.take i x = g7 at h7' hc7
          refine safe_read fun g8 m8 hr8 hi8 => ?_
          have h8 := hfull r _ _ hr8 h7'
          have hc8 := (hr8.2.2.1 x).1 hc7
          have hpy := hi8.anc y
          have hcy := hi8.par_cn y
          generalize m8 (.par y) = py at *
          refine safe_read fun g9 m9 hr9 hi9 => ?_
          have h9 := hfull r _ _ hr9 h8
          have hc9 := (hr9.2.2.1 x).1 hc8
          have hpy9 := hpy.mono hr9.1
          split
          · rename_i hcond
            have hroot := (hi9.root x).1 hcond.1.symm
            have hcx : o.cn x := hroot ▸ hi9.cen x
            have hrk := o.mono _ _ hcx hcy hcond.2
            -- not yet connected: otherwise `x` would be the root of `y`
            have hno9 : ∀ z, g9.own z ≠ some i := by
              rcases h9.2 with h | ⟨-, h⟩
              · exact h.2
              · exfalso
                have hxy : Same g9 x y := by
                  rcases h9.1 with ⟨e1, e2⟩ | ⟨e1, e2⟩
                  · exact same_trans (same_of_anc e1).symm (same_trans h (same_of_anc e2))
                  · exact same_trans (same_of_anc e1).symm (same_trans h.symm (same_of_anc e2))
                obtain ⟨r, hx, hy⟩ := hxy
                have hrx : r = x := by
                  by_contra hne
                  exact nonroot_of_anc hx hne hroot
                subst hrx
                have := anc_of_lt hi9.lt hy hpy9 (Nat.le_of_lt hrk)
                exact nonroot_of_anc this (Nat.ne_of_lt hcond.2) hroot
            refine hookWrite_spec (by decide) hrk hcy (h9.1.swap.left hpy9).swap hno9 ⟨hc9, hroot⟩ ?_
            intro g10 hext10 hs10 ho10 hc10
            exact release_spec (hfull (some x)) ⟨h9.1.mono hext10, Or.inr ⟨⟨x, rfl, ho10⟩, hs10⟩⟩ (hdrop _) hc10 (fun g h => ih _ _ _ _ h.1 h.2)
          · exact release_spec (hfull r) h9 (hdrop r) hc9 (fun g h => ih _ _ _ _ h.1 h.2)
        · exact ih _ _ _ _ h6.1 h6.2
      · refine Safe.bind (hsp i _ (hfull r) x y g5 h5) ?_
        rintro z g6 ⟨hz, h6⟩
        exact ih _ _ _ _ (h6.1.left hz) h6.2
    by_cases hsw : prx < pry
    · simp only [if_pos hsw]
      exact key ry rx he4.swap
    · simp only [if_neg hsw]
      exact key rx ry he4

end Gbbs.UF
