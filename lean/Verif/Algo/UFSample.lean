/-
C95, C96: union-find after sampling, `UFAlgorithm::compute_components` (`benchmarks/Connectivity/UnionFind/Connectivity.h:46-110`)
and `UFAlgorithm::compute_spanning_forest` (`benchmarks/SpanningForest/UnionFind/SpanningForest.h:48-112`).
-/
import Verif.Conc.UFFinal
import Verif.Algo.SVSF
import Mathlib.Tactic.IntervalCases

namespace Gbbs.UF

open Conc Conc.Prog Relation Comp SF
open Atomics (Steps)

set_option linter.unusedSectionVars false

variable {ι : Type} [DecidableEq ι]

/-! ### Model -/

/-- The memory after sampling: `parents` is `P0`, `hooks` or `locks` are free. -/
def memS (P0 : Nat → Nat) (free : Nat) : Loc → Nat
  | .par x => P0 x
  | .aux _ => free

/-- The calls of the first loop: with sampling (`frq = some frequent_comp`), `Connectivity.h:84-95`, all edges of the vertices
outside of the frequent component; without sampling, `unite(u, v)` for `v < u`. -/
def Calls (G : UG) (frq : Option Nat) (P0 : Nat → Nat) (call : ι → Nat × Nat) : Prop :=
  ∀ e, (∃ i, call i = e) ↔ e.1 < G.n ∧ e.2 ∈ G.nb e.1 ∧
    match frq with
    | some c => P0 e.1 ≠ c
    | none => e.2 < e.1

/-- The rules that report the vertex they hooked, with the mode of linking and the value of a free `hooks` or `locks` entry. -/
inductive IsRep (u v : Nat) : Mode → Nat → P (Option Nat) → Prop
  | unite {find} (h : IsFind find) (f) : IsRep u v .cas 0 (unite find f u v)
  | nd {find} (h : IsFind find) (f) : IsRep u v .hook uMax (uniteND find f u v)
  | remLock {splice fin} (hs : splice = splitOne ∨ splice = halveOne) (hf : IsFin u v fin) (f) :
      IsRep u v .lock 0 (uniteRemLockSF splice fin f none u v)

/-- The rules of the connectivity code. -/
inductive IsCon (u v : Nat) : Mode → Nat → P (Option Nat) → Prop
  | rep {md free p} (h : IsRep u v md free p) : IsCon u v md free p
  | remCAS {splice fin} (hs : splice = splitOne ∨ splice = halveOne) (hf : IsFin u v fin) (f) :
      IsCon u v .cas 0 (uniteRemCAS splice fin f u v)
  | remLock {splice fin} (hs : splice = splitOne ∨ splice = halveOne) (hf : IsFin u v fin) (f) :
      IsCon u v .lock 0 (uniteRemLock splice fin f u v)

/-- `UniteEarly`, whose calls compare their arguments. -/
inductive IsEarly (u v : Nat) : P (Option Nat) → Prop
  | early (f) : IsEarly u v (uniteEarly f u v)
  | force {find} (h : IsFind find) (f) : IsEarly u v (uniteEarlyForce find f u v)

/-- The array `Edges` after the first loop, when the calls have recorded their edges at `res`: at a vertex reported by some
calls, the edge of one of them. (`Edges` is not read in that loop.) -/
def EdgesOf (call : ι → Nat × Nat) (res : ι → Option Nat) (Ed0 Ed : Nat → Nat × Nat) : Prop :=
  ∀ u, (∃ i, res i = some u ∧ Ed u = call i) ∨ (∀ i, res i ≠ some u) ∧ Ed u = Ed0 u

/-! ### The sample as finished calls

The links of the sample are treated as the work of further calls `unite(x, P0 x)`, one for each leaf, that have returned. -/

/-- The leaves of the sample. -/
abbrev Lf (P0 : Nat → Nat) : Type := {x : Nat // P0 x ≠ x}

def callS (call : ι → Nat × Nat) (P0 : Nat → Nat) : ι ⊕ Lf P0 → Nat × Nat := Sum.elim call fun x => (x.1, P0 x.1)

def confS (P0 : Nat → Nat) (c : Conf ι Loc Nat (Option Nat)) : Conf (ι ⊕ Lf P0) Loc Nat (Option Nat) :=
  ⟨c.mem, Sum.elim c.th fun x => ret (some x.1)⟩

theorem steps_lift (P0 : Nat → Nat) {c c' : Conf ι Loc Nat (Option Nat)} (h : Steps Step c c') :
    Steps Step (confS P0 c) (confS P0 c') := by
  induction h with
  | refl => exact .refl _
  | tail _ hs ih =>
    obtain ⟨i, m', p', h1, rfl⟩ := hs
    refine ih.tail ⟨.inl i, m', p', h1, ?_⟩
    rw [confS]
    congr 1
    funext j
    cases j with
    | inl j => by_cases h : j = i <;> simp [h, confS]
    | inr j => simp [confS]

def gS (P0 : Nat → Nat) : Gh (ι ⊕ Lf P0) := ⟨P0, fun x => if h : P0 x = x then none else some (.inr ⟨x, h⟩), fun _ => none⟩

/-- The order after sampling: the centres by number, every other vertex just above its centre. -/
def ordS (P0 : Nat → Nat) (dom : Nat → Prop) : Ord where
  rk x := if P0 x = x then 2 * x else 2 * P0 x + 1
  cn x := P0 x = x
  dom := dom
  mono u v hu hv h := by
    show (if P0 v = v then 2 * v else 2 * P0 v + 1) < (if P0 u = u then 2 * u else 2 * P0 u + 1)
    rw [if_pos hu, if_pos hv]; omega

theorem invS_of {o : Ord} {call : ι → Nat × Nat} {P0 : Nat → Nat} {md : Mode} {free : Nat}
    (hlt : ∀ x, P0 x ≠ x → o.rk (P0 x) < o.rk x) (hcn : ∀ x, o.cn (P0 x)) (hdom : ∀ x, o.dom x → o.dom (P0 x))
    (hcall : ∀ i, o.dom (callS call P0 i).1 ∧ o.dom (callS call P0 i).2) (hk : md = .hook → ∀ x, o.cn x → P0 x = x) :
    UInv o (callS call P0) md free (gS P0) (memS P0 free) := by
  have hone : ∀ x, P0 x ≠ x → Anc (gS P0 : Gh (ι ⊕ Lf P0)) x (P0 x) := fun x h => .single ⟨rfl, fun e => h e.symm⟩
  refine ⟨hlt, hcn, hdom, hcall, fun x => ?_, fun x y i hx hy => ?_, fun x i hx => ?_, fun x => ?_, fun x => ?_,
    fun x => Iff.rfl, fun _ _ => ⟨fun _ => rfl, fun _ => rfl⟩, fun h x hx _ => hk h x hx⟩
  · simp only [gS]
    split <;> simp_all
  · simp only [gS] at hx hy
    split at hx
    · cases hx
    · split at hy
      · cases hy
      · cases hx; cases hy; rfl
  · simp only [gS] at hx
    split at hx
    · cases hx
    · cases hx; exact .inl .refl
  · show EqvGen _ x (P0 x)
    by_cases h : P0 x = x
    · rw [h]; exact .refl _
    · exact .rel _ _ ⟨x, .inr ⟨x, h⟩, by simp [gS, h], rfl⟩
  · show Anc _ x (P0 x)
    by_cases h : P0 x = x
    · rw [h]; exact .refl
    · exact hone x h

theorem postS {call : ι → Nat × Nat} {P0 : Nat → Nat} {o : Ord} {md : Mode} {free : Nat} (x : Lf P0) :
    Safe (rg o (callS call P0) md free) (.inr x) (UPost (callS call P0) (.inr x)) (ret (some x.1)) (gS P0 : Gh (ι ⊕ Lf P0)) := by
  intro g' hr
  refine stable_upost _ _ _ _ hr ⟨⟨P0 x.1, .single ⟨rfl, fun e => x.2 e.symm⟩, .refl⟩, fun u hu => ?_, fun hn => by cases hn⟩
  cases hu
  exact ⟨by simp [gS, x.2], x.2⟩

theorem noownS {P0 : Nat → Nat} (i : ι) : ∀ x, (gS P0 : Gh (ι ⊕ Lf P0)).own x ≠ some (.inl i) := by
  intro x hx
  simp only [gS] at hx
  split at hx <;> cases hx

theorem endsS {call : ι → Nat × Nat} {P0 : Nat → Nat} (i : ι) :
    Ends (callS call P0) (.inl i) (gS P0) (call i).1 (call i).2 := .inl ⟨.refl, .refl⟩

theorem IsRep.safe {o : Ord} {call : ι → Nat × Nat} {P0 : Nat → Nat} {md : Mode} {free : Nat}
    (hdom : md = .hook → ∀ x, o.dom x → x < uMax) (hcall : ∀ i, o.dom (call i).1 ∧ o.dom (call i).2) {i : ι}
    {p : P (Option Nat)} (h : IsRep (call i).1 (call i).2 md free p) :
    Safe (rg o (callS call P0) md free) (.inl i) (UPost (callS call P0) (.inl i)) p (gS P0) := by
  cases h with
  | unite h f => exact unite_spec h.spec _ f _ _ _ (endsS i) (noownS i)
  | nd h f => exact uniteND_spec (hdom rfl) h.spec _ f _ _ _ (endsS i) (noownS i) (hcall i).1 (hcall i).2
  | remLock hs hf f =>
    refine uniteRemLockSF_spec ?_ hf.spec _ f _ _ _ _ (endsS i) (.inl ⟨rfl, noownS i⟩)
    rcases hs with rfl | rfl
    · exact splitOne_spec
    · exact halveOne_spec

theorem IsCon.safe {o : Ord} {call : ι → Nat × Nat} {P0 : Nat → Nat} {md : Mode} {free : Nat}
    (hdom : md = .hook → ∀ x, o.dom x → x < uMax) (hcall : ∀ i, o.dom (call i).1 ∧ o.dom (call i).2) {i : ι}
    {p : P (Option Nat)} (h : IsCon (call i).1 (call i).2 md free p) :
    Safe (rg o (callS call P0) md free) (.inl i) (CPost (callS call P0) (.inl i)) p (gS P0) := by
  cases h with
  | rep h => exact (h.safe hdom hcall).weaken fun _ _ h => h.1
  | remCAS hs hf f =>
    refine uniteRemCAS_spec ?_ hf.spec _ f _ _ _ (endsS i) (noownS i)
    rcases hs with rfl | rfl
    · exact splitOne_spec
    · exact halveOne_spec
  | remLock hs hf f =>
    refine uniteRemLock_spec ?_ hf.spec _ f _ _ _ (endsS i) (.inl (noownS i))
    rcases hs with rfl | rfl
    · exact splitOne_spec
    · exact halveOne_spec

theorem IsEarly.safe {dom : Nat → Prop} {call : ι → Nat × Nat} {P0 : Nat → Nat} {i : ι} {p : P (Option Nat)}
    (h : IsEarly (call i).1 (call i).2 p) :
    Safe (rg (.nat dom) (callS call P0) .cas 0) (.inl i) (UPost (callS call P0) (.inl i)) p (gS P0) := by
  cases h with
  | early f => exact uniteEarly_spec (fun _ => trivial) _ f _ _ _ (endsS i) (noownS i)
  | force h f => exact uniteEarlyForce_spec (fun _ => trivial) h.spec _ f _ _ _ (endsS i) (noownS i)

/-! ### The last phase -/

theorem rootOf_unique {p : Nat → Nat} {x r s : Nat} (hr : RootOf p x r) (hs : RootOf p x s) : r = s := by
  obtain ⟨h1, k, h2⟩ := hr
  obtain ⟨h3, l, h4⟩ := hs
  have fix : ∀ (y : Nat), p y = y → ∀ t, p^[t] y = y := fun y hy t => Function.iterate_fixed hy t
  rcases Nat.le_total k l with hkl | hkl
  · have : p^[l] x = p^[l - k] (p^[k] x) := by rw [← Function.iterate_add_apply]; congr 1; omega
    rw [h2, fix r h1, h4] at this; exact this.symm
  · have : p^[k] x = p^[k - l] (p^[l] x) := by rw [← Function.iterate_add_apply]; congr 1; omega
    rw [h4, fix s h3, h2] at this; exact this

/-- After the first phase, the last one stores the roots. -/
theorem roots_of_inv {o : Ord} {κ : Type} [DecidableEq κ] {call : κ → Nat × Nat} {md : Mode} {free : Nat} {g : Gh κ} {m : Loc → Nat}
    (hi : UInv o call md free g m) (find : Nat → Nat → P Nat) (hf : ∀ i, IsFind (find i)) (n : Nat) {c2 : Conf (Fin n) Loc Nat Unit}
    (hr : Steps Step ⟨m, fun i : Fin n => finalStep (find i) i⟩ c2) (hd : ∀ i, c2.th i = .ret ()) :
    ∀ x, x < n → RootOf (par m) x (par c2.mem x) := by
  choose rt hrt using exists_root hi
  have hstep : ∀ x, RootOf (par m) x (rt (par m x)) := fun x => by
    obtain ⟨h1, k, h2⟩ := hrt (par m x)
    exact ⟨h1, k + 1, h2⟩
  have heq : ∀ x, rt (par m x) = rt x := fun x => rootOf_unique (hstep x) (hrt x)
  have hanc : ∀ x, Anc g x (rt x) := fun x => ((rootOf_iff hi).1 (hrt x)).1
  have hle : ∀ {a b : Nat}, Anc g a b → o.le b a := fun h => anc_lt hi.lt h
  have hF : Fr o rt (par m) := by
    refine ⟨heq, fun x => ?_, fun x => hle (hi.anc x), fun x => hi.par_cn x, fun x hx => rootOf_unique (hrt x) ⟨hx, 0, rfl⟩⟩
    rw [← heq x]
    exact hle (hanc _)
  intro x hx
  have := final_roots (fun x => rootOf_unique (hrt (rt x)) ⟨(hrt x).1, 0, rfl⟩)
    (fun x => by
      have h := hi.par_cn (rt x)
      have h' : m (.par (rt x)) = rt x := (hrt x).1
      rwa [h'] at h) hF find hf n hr hd ⟨x, hx⟩
  have this : par c2.mem x = rt x := this
  rw [this]; exact hrt x

theorem labels_iff {m : Loc → Nat}
    {lab : Nat → Nat} {n : Nat} (hlab : ∀ x, x < n → RootOf (par m) x (lab x)) {x y : Nat}
    (hx : x < n) (hy : y < n) : lab x = lab y ↔ SameRoot (par m) x y := by
  constructor
  · intro h
    exact ⟨lab x, hlab x hx, h ▸ hlab y hy⟩
  · rintro ⟨r, h1, h2⟩
    rw [rootOf_unique (hlab x hx) h1, rootOf_unique (hlab y hy) h2]

/-! ### Calls and connectivity -/

/-- Every edge is handled by a call, or has both ends in the frequent component. -/
theorem calls_cover {G : UG} (hG : G.Sym) {frq : Option Nat} {P0 : Nat → Nat} {call : ι → Nat × Nat} (hc : Calls G frq P0 call)
    {u v : Nat} (h : SV.Adj G u v) : (∃ i, call i = (u, v)) ∨ (∃ i, call i = (v, u)) ∨ P0 u = P0 v := by
  have hb := hG.bound u v h
  have hvu := SV.UG_symm hG h
  cases frq with
  | none =>
    rcases Nat.lt_trichotomy v u with hlt | rfl | hlt
    · exact .inl ((hc (u, v)).2 ⟨hb.1, h, hlt⟩)
    · exact .inr (.inr rfl)
    · exact .inr (.inl ((hc (v, u)).2 ⟨hb.2, hvu, hlt⟩))
  | some c =>
    by_cases hu : P0 u = c
    · by_cases hv : P0 v = c
      · exact .inr (.inr (hu.trans hv.symm))
      · exact .inr (.inl ((hc (v, u)).2 ⟨hb.2, hvu, hv⟩))
    · exact .inl ((hc (u, v)).2 ⟨hb.1, h, hu⟩)

theorem calls_adj {G : UG} {frq : Option Nat} {P0 : Nat → Nat} {call : ι → Nat × Nat} (hc : Calls G frq P0 call) (i : ι) :
    SV.Adj G (call i).1 (call i).2 := ((hc (call i)).1 ⟨i, rfl⟩).2.1

theorem dom_call {G : UG} (hG : G.Sym) {frq : Option Nat} {P0 : Nat → Nat} {call : ι → Nat × Nat} (hc : Calls G frq P0 call) (i : ι) :
    (call i).1 < G.n ∧ (call i).2 < G.n := hG.bound _ _ (calls_adj hc i)

/-- Connectivity after the first phase, in terms of the invariant. -/
theorem conn_of_inv {G : UG} (hG : G.Sym) {frq : Option Nat} {P0 : Nat → Nat} {call : ι → Nat × Nat} (hc : Calls G frq P0 call)
    (hst : SV.Start G P0) {o : Ord} {md : Mode} {free : Nat} {g : Gh (ι ⊕ Lf P0)} {m : Loc → Nat}
    (hi : UInv o (callS call P0) md free g m) (hsame : ∀ i, Same g (callS call P0 i).1 (callS call P0 i).2) (x y : Nat) :
    SameRoot (par m) x y ↔ Conn (SV.Adj G) x y := by
  constructor
  · intro h
    refine eqvGen_le (conn_equiv _) ?_ (sameRoot_rec hi h)
    rintro a b ⟨_, i, -, hab⟩
    cases i with
    | inl i =>
      have := calls_adj hc i
      have h' : call i = (a, b) := hab
      rw [h'] at this
      exact .rel _ _ this
    | inr z =>
      cases hab
      exact hst.sound _
  · have heq := sameRoot_equiv hi
    have hs : ∀ i, SameRoot (par m) (callS call P0 i).1 (callS call P0 i).2 := fun i => sameRoot_of_same hi (hsame i)
    have hP : ∀ z, SameRoot (par m) z (P0 z) := fun z => by
      by_cases h : P0 z = z
      · rw [h]; exact heq.refl z
      · exact hs (.inr ⟨z, h⟩)
    refine conn_le heq fun a b hab => ?_
    rcases calls_cover hG hc hab with ⟨i, h⟩ | ⟨i, h⟩ | h
    · have := hs (.inl i)
      rw [callS, Sum.elim_inl, h] at this; exact this
    · have := hs (.inl i)
      rw [callS, Sum.elim_inl, h] at this; exact heq.symm this
    · exact heq.trans (hP a) (h ▸ heq.symm (hP b))

theorem domS {G : UG} (hG : G.Sym) {frq : Option Nat} {P0 : Nat → Nat} {call : ι → Nat × Nat} (hc : Calls G frq P0 call)
    (hst : SV.Start G P0) (i : ι ⊕ Lf P0) : (callS call P0 i).1 < G.n ∧ (callS call P0 i).2 < G.n := by
  cases i with
  | inl i => exact dom_call hG hc i
  | inr x =>
    have hx : x.1 < G.n := Nat.lt_of_not_le fun h => x.2 (hst.out _ h)
    exact ⟨hx, hst.lt _ hx⟩

theorem invS {G : UG} (hG : G.Sym) {frq : Option Nat} {P0 : Nat → Nat} {call : ι → Nat × Nat} (hc : Calls G frq P0 call)
    (hst : SV.Start G P0) (md : Mode) (free : Nat) :
    UInv (ordS P0 (· < G.n)) (callS call P0) md free (gS P0) (memS P0 free) := by
  refine invS_of (fun x hx => ?_) hst.flat hst.lt (domS hG hc hst) fun _ _ h => h
  show (if P0 (P0 x) = P0 x then 2 * P0 x else 2 * P0 (P0 x) + 1) < (if P0 x = x then 2 * x else 2 * P0 x + 1)
  rw [if_pos (hst.flat x), if_neg hx]; omega

theorem invE {G : UG} (hG : G.Sym) {frq : Option Nat} {P0 : Nat → Nat} {call : ι → Nat × Nat} (hc : Calls G frq P0 call)
    (hst : SV.Start G P0) (hle : ∀ x, P0 x ≤ x) :
    UInv (.nat (· < G.n)) (callS call P0) .cas 0 (gS P0) (memS P0 0) :=
  invS_of (fun x hx => Nat.lt_of_le_of_ne (hle x) hx) (fun _ => trivial) hst.lt (domS hG hc hst) fun h => by cases h

/-! ### C95 -/

/-- Both phases of `compute_components`: the calls `call` run as `th` on the memory left by the sampling, then
`parents[i] = find(i)`. All threads have finished; `lab` is the result. -/
structure Phases (n : Nat) (P0 : Nat → Nat) (free : Nat) (th : ι → P (Option Nat)) (res : ι → Option Nat) (lab : Nat → Nat) where
  c1 : Conf ι Loc Nat (Option Nat)
  run1 : Steps Step ⟨memS P0 free, th⟩ c1
  done1 : ∀ i, c1.th i = .ret (res i)
  find : Nat → Nat → P Nat
  isFind : ∀ i, IsFind (find i)
  c2 : Conf (Fin n) Loc Nat Unit
  run2 : Steps Step ⟨c1.mem, fun i : Fin n => finalStep (find i) i⟩ c2
  done2 : ∀ i, c2.th i = .ret ()
  lab_eq : ∀ x, lab x = par c2.mem x

/-- From safety of the calls to the state after the first phase. -/
theorem Phases.reach {n : Nat} {P0 : Nat → Nat} {free : Nat} {th : ι → P (Option Nat)} {res : ι → Option Nat} {lab : Nat → Nat}
    (h : Phases n P0 free th res lab) {call : ι → Nat × Nat} {o : Ord} {md : Mode}
    (hi : UInv o (callS call P0) md free (gS P0) (memS P0 free))
    (Post : ∀ _ : ι ⊕ Lf P0, Gh (ι ⊕ Lf P0) → Option Nat → Prop) (hw : ∀ i g r, UPost (callS call P0) i g r → Post i g r)
    (hs : ∀ i, Safe (rg o (callS call P0) md free) (.inl i) (Post (.inl i)) (th i) (gS P0)) :
    ∃ g, UInv o (callS call P0) md free g h.c1.mem ∧ (∀ i, Post (.inl i) g (res i)) ∧ ∀ x : Lf P0, Post (.inr x) g (some x.1) := by
  obtain ⟨g, h1, -, h2⟩ := safe_reach (rg o (callS call P0) md free) Post (steps_lift P0 h.run1) (gS P0) hi (fun i => by
    cases i with
    | inl i => exact hs i
    | inr x => exact (postS x).weaken fun r g h => hw _ g r h)
  exact ⟨g, h1, fun i => h2 (.inl i) _ (h.done1 i), fun x => h2 (.inr x) _ rfl⟩

theorem Phases.isCC {G : UG} (hG : G.Sym) {frq : Option Nat} {P0 : Nat → Nat} {call : ι → Nat × Nat} (hc : Calls G frq P0 call)
    (hst : SV.Start G P0) {free : Nat} {th : ι → P (Option Nat)} {res : ι → Option Nat} {lab : Nat → Nat}
    (h : Phases G.n P0 free th res lab) {o : Ord} {md : Mode} (hi : UInv o (callS call P0) md free (gS P0) (memS P0 free))
    (hs : ∀ i, Safe (rg o (callS call P0) md free) (.inl i) (CPost (callS call P0) (.inl i)) (th i) (gS P0)) :
    IsCC G.n (SV.Adj G) lab := by
  obtain ⟨g, h1, h2, h3⟩ := h.reach hi (CPost (callS call P0)) (fun _ _ _ h => h.1) hs
  have hlab := roots_of_inv h1 h.find h.isFind G.n h.run2 h.done2
  intro u v hu hv
  rw [h.lab_eq, h.lab_eq, labels_iff hlab hu hv]
  exact conn_of_inv hG hc hst h1 (fun i => by
    cases i with
    | inl i => exact h2 i
    | inr x => exact h3 x) u v

/-- C95: from any sampling that meets `Start`, with any choice of the frequent component, any mixture of finds and every
interleaving, the labels are those of the components. -/
theorem uf_sampled {G : UG} (hG : G.Sym) (hn : G.n ≤ uMax) {frq : Option Nat} {P0 : Nat → Nat} (hst : SV.Start G P0)
    {call : ι → Nat × Nat} (hc : Calls G frq P0 call) {md : Mode} {free : Nat} {th : ι → P (Option Nat)}
    (hth : ∀ i, IsCon (call i).1 (call i).2 md free (th i)) {res : ι → Option Nat} {lab : Nat → Nat}
    (h : Phases G.n P0 free th res lab) : IsCC G.n (SV.Adj G) lab :=
  h.isCC hG hc hst (invS hG hc hst md free) fun i =>
    (hth i).safe (fun _ _ hx => Nat.lt_of_lt_of_le hx hn) fun i => dom_call hG hc i

/-- C95 for `UniteEarly` (`_partial`: for samplings whose labels do not exceed the vertices, such as k-out; it fails for others,
see `early_refuted`). -/
theorem early_sampled_partial {G : UG} (hG : G.Sym) {frq : Option Nat} {P0 : Nat → Nat} (hst : SV.Start G P0) (hle : ∀ x, P0 x ≤ x)
    {call : ι → Nat × Nat} (hc : Calls G frq P0 call) {th : ι → P (Option Nat)}
    (hth : ∀ i, IsEarly (call i).1 (call i).2 (th i)) {res : ι → Option Nat} {lab : Nat → Nat}
    (h : Phases G.n P0 0 th res lab) : IsCC G.n (SV.Adj G) lab :=
  h.isCC hG hc hst (invE hG hc hst hle) fun i => (hth i).safe.weaken fun _ _ h => h.1

/-! ### C96 -/

theorem Phases.isSF {G : UG} (hG : G.Sym) (hn : G.n ≤ uMax) {frq : Option Nat} {P0 : Nat → Nat} {Ed0 Ed : Nat → Nat × Nat}
    {call : ι → Nat × Nat} (hc : Calls G frq P0 call)
    (hst : SVSF.FStart G P0 Ed0) {free : Nat} {th : ι → P (Option Nat)} {res : ι → Option Nat} {lab : Nat → Nat}
    (h : Phases G.n P0 free th res lab) (hE : EdgesOf call res Ed0 Ed) {o : Ord} (ho : ∀ x, o.dom x → x < G.n) {md : Mode}
    (hi : UInv o (callS call P0) md free (gS P0) (memS P0 free))
    (hs : ∀ i, Safe (rg o (callS call P0) md free) (.inl i) (UPost (callS call P0) (.inl i)) (th i) (gS P0)) :
    IsSF (SV.Adj G) (SVSF.edges G.n Ed) := by
  have hcc := h.isCC hG hc hst.start hi fun i => (hs i).weaken fun _ _ h => h.1
  obtain ⟨g, h1, h2, h3⟩ := h.reach hi (UPost (callS call P0)) (fun _ _ _ h => h) hs
  have hlab := roots_of_inv h1 h.find h.isFind G.n h.run2 h.done2
  obtain ⟨hf, hanc⟩ := forest_of_post h1 (res := Sum.elim res fun x => some x.1) fun i => by
    cases i with
    | inl i => exact h2 i
    | inr x => exact h3 x
  have hlt : ∀ i u, Sum.elim res (fun x : Lf P0 => some x.1) i = some u → u < G.n := fun i u hu =>
    ho _ ((hanc i u hu).elim (fun h => h1.anc_dom h (h1.call_dom i).1) fun h => h1.anc_dom h (h1.call_dom i).2)
  have hne : ∀ i, call i ≠ SVSF.empty := fun i he => by
    have := (dom_call hG hc i).1
    rw [he] at this
    have : 4294967295 < G.n := this
    simp only [uMax] at hn; omega
  -- the edges of the sample are kept
  have hkeep : ∀ u, P0 u ≠ u → Ed u = Ed0 u := fun u hu => by
    rcases hE u with ⟨i, hr, -⟩ | ⟨-, hr⟩
    · have := hf.distinct (.inl i) (.inr ⟨u, hu⟩) u hr rfl
      cases this
    · exact hr
  have hsub : ∀ e ∈ SVSF.edges G.n Ed0, e ∈ SVSF.edges G.n Ed := by
    intro e he
    obtain ⟨k1, x, hx, rfl⟩ := SVSF.mem_edges.1 he
    exact SVSF.mem_edges.2 ⟨k1, x, hx, hkeep x (hst.edge x hx k1).2⟩
  have hmem : ∀ i u, res i = some u → call i ∈ SVSF.edges G.n Ed := by
    intro i u hu
    rcases hE u with ⟨j, hj, hEd⟩ | ⟨hr, -⟩
    · have : (Sum.inl j : ι ⊕ Lf P0) = .inl i := hf.distinct _ _ u hj hu
      cases this
      exact SVSF.mem_edges.2 ⟨hne _, u, hlt (.inl i) u hu, hEd⟩
    · exact absurd hu (hr i)
  have q := lconn_equiv (SVSF.edges G.n Ed)
  have hroot : ∀ x, x < G.n → par h.c1.mem (lab x) = lab x := fun x hx => by
    rw [h.lab_eq]; exact (hlab x hx).1
  have hlablt : ∀ x, x < G.n → lab x < G.n := by
    intro x hx
    have hx' := ((rootOf_iff h1).1 (hlab x hx)).1
    rw [← h.lab_eq] at hx'
    by_cases he : lab x = x
    · rw [he]; exact hx
    · obtain ⟨i, hi⟩ := (hf.hooked x).2 fun hp => he (by
        rw [h.lab_eq]; exact rootOf_unique (hlab x hx) ⟨hp, 0, rfl⟩)
      rcases hanc i x hi with h' | h'
      · exact ho _ (h1.anc_dom (h'.trans hx') (h1.call_dom i).1)
      · exact ho _ (h1.anc_dom (h'.trans hx') (h1.call_dom i).2)
  refine isSF_of_count (fun x y hxy => hG.bound x y hxy) (fun e he => ?_) lab (fun x hx => ⟨hlablt x hx, ?_⟩) (fun x hx => ?_)
    (fun x y hxy => (hcc x y (hG.bound x y hxy).1 (hG.bound x y hxy).2).2 (.rel _ _ hxy)) ?_
  · obtain ⟨k1, x, hx, rfl⟩ := SVSF.mem_edges.1 he
    rcases hE x with ⟨i, -, hEd⟩ | ⟨-, hEd⟩
    · rw [hEd]; exact calls_adj hc i
    · rw [hEd] at k1 ⊢; exact (hst.edge x hx k1).1
  · have := hlab (lab x) (hlablt x hx)
    rw [← h.lab_eq] at this
    exact rootOf_unique this ⟨hroot x hx, 0, rfl⟩
  · have hsr : SameRoot (par h.c1.mem) x (lab x) := by
      refine (labels_iff hlab hx (hlablt x hx)).1 ?_
      rw [← h.lab_eq, ← h.lab_eq]
      have := hlab (lab x) (hlablt x hx)
      rw [← h.lab_eq] at this
      exact (rootOf_unique this ⟨hroot x hx, 0, rfl⟩).symm
    have := (hf.spans x (lab x)).2 (EqvGen.mono (fun _ _ => rec_issued) _ _ (sameRoot_rec h1 hsr))
    refine eqvGen_le q ?_ this
    rintro a b ⟨i, u, k1, k2⟩
    cases i with
    | inl i =>
      have k2 : call i = (a, b) := k2
      exact .rel _ _ (k2 ▸ hmem i u k1)
    | inr z =>
      cases k2
      exact lconn_mono hsub (hst.conn z.1 (Nat.lt_of_not_le fun h => z.2 (hst.start.out _ h)))
  · rw [SVSF.edges_eq]
    refine count_le _ lab fun x hx hne hl => hne ?_
    have hp : par h.c1.mem x = x := by rw [← hl]; exact hroot x hx
    rcases hE x with ⟨i, hr, -⟩ | ⟨-, hEd⟩
    · exact absurd hp ((hf.hooked x).1 ⟨.inl i, hr⟩)
    · rw [if_neg fun hc => ?_]
      rw [hEd] at hc
      exact (hf.hooked x).1 ⟨.inr ⟨x, (hst.edge x hx hc).2⟩, rfl⟩ hp

/-- C96: from any sampling that meets `FStart`, the recorded edges (without the empty entries) are a spanning forest. -/
theorem uf_sf_sampled {G : UG} (hG : G.Sym) (hn : G.n ≤ uMax) {frq : Option Nat} {P0 : Nat → Nat} {Ed0 Ed : Nat → Nat × Nat}
    (hst : SVSF.FStart G P0 Ed0) {call : ι → Nat × Nat} (hc : Calls G frq P0 call) {md : Mode} {free : Nat} {th : ι → P (Option Nat)}
    (hth : ∀ i, IsRep (call i).1 (call i).2 md free (th i)) {res : ι → Option Nat} {lab : Nat → Nat}
    (h : Phases G.n P0 free th res lab) (hE : EdgesOf call res Ed0 Ed) :
    IsSF (SV.Adj G) (SVSF.edges G.n Ed) ∧ IsCC G.n (SV.Adj G) lab :=
  ⟨h.isSF hG hn hc hst hE (fun _ h => h) (invS hG hc hst.start md free) fun i =>
    (hth i).safe (fun _ _ hx => Nat.lt_of_lt_of_le hx hn) fun i => dom_call hG hc i,
    uf_sampled hG hn hst.start hc (fun i => .rep (hth i)) h⟩

/-- C96 for `UniteEarly` (`_partial`: as `early_sampled_partial`). -/
theorem early_sf_sampled_partial {G : UG} (hG : G.Sym) (hn : G.n ≤ uMax) {frq : Option Nat} {P0 : Nat → Nat}
    {Ed0 Ed : Nat → Nat × Nat} (hst : SVSF.FStart G P0 Ed0) (hle : ∀ x, P0 x ≤ x) {call : ι → Nat × Nat} (hc : Calls G frq P0 call)
    {th : ι → P (Option Nat)} (hth : ∀ i, IsEarly (call i).1 (call i).2 (th i)) {res : ι → Option Nat} {lab : Nat → Nat}
    (h : Phases G.n P0 0 th res lab) (hE : EdgesOf call res Ed0 Ed) : IsSF (SV.Adj G) (SVSF.edges G.n Ed) :=
  h.isSF hG hn hc hst hE (fun _ h => h) (invE hG hc hst.start hle) fun i => (hth i).safe

/-! ### `UniteEarly` on other samples -/

/-- The edges `0 - 1`, `0 - 2`, `2 - 3`, `3 - 5`. -/
def sG : UG := UG.ofLists [[1, 2], [0], [0, 3], [2, 5], [], [3]]

theorem sG_sym : sG.Sym := UG.ofLists_sym (by decide)

/-- The clusters `{0, 1, 2}` with centre 0 and `{3, 5}` with centre 5. -/
def sP (x : Nat) : Nat := if x = 1 ∨ x = 2 then 0 else if x = 3 then 5 else x

/-- The edges by which they were built. -/
def sEd (x : Nat) : Nat × Nat := if x = 1 then (0, 1) else if x = 2 then (0, 2) else if x = 3 then (5, 3) else SVSF.empty

theorem sStart_of {G : UG} (hn : G.n = 6) (ha : ∀ e ∈ [(0, 1), (1, 0), (0, 2), (2, 0), (5, 3), (3, 5)], SV.Adj G e.1 e.2) :
    SVSF.FStart G sP sEd := by
  have hcase : ∀ x, x < 6 → x = 0 ∨ x = 1 ∨ x = 2 ∨ x = 3 ∨ x = 4 ∨ x = 5 := by omega
  refine ⟨⟨fun x hx => ?_, fun x => ?_, fun x => ?_, fun x hx => ?_⟩, fun x hx => ?_, fun x hx => ?_⟩
  · rw [hn] at hx ⊢
    have : x < 6 := hx
    rcases hcase x this with rfl | rfl | rfl | rfl | rfl | rfl <;> decide
  · simp only [sP]; split <;> [rfl; split <;> simp_all]
  · by_cases h : x < 6
    · rcases hcase x h with rfl | rfl | rfl | rfl | rfl | rfl
      · exact .refl _
      · exact .rel _ _ (ha (1, 0) (by decide))
      · exact .rel _ _ (ha (2, 0) (by decide))
      · exact .rel _ _ (ha (3, 5) (by decide))
      · exact .refl _
      · exact .refl _
    · have : sP x = x := by simp only [sP]; rw [if_neg (by omega), if_neg (by omega)]
      rw [this]; exact .refl _
  · rw [hn] at hx
    simp only [sP]; rw [if_neg (by omega), if_neg (by omega)]
  · rw [hn] at hx
    rcases hcase x hx with rfl | rfl | rfl | rfl | rfl | rfl
    · exact fun h => absurd rfl h
    · exact fun _ => ⟨ha (0, 1) (by decide), by decide⟩
    · exact fun _ => ⟨ha (0, 2) (by decide), by decide⟩
    · exact fun _ => ⟨ha (5, 3) (by decide), by decide⟩
    · exact fun h => absurd rfl h
    · exact fun h => absurd rfl h
  · rw [hn] at hx ⊢
    have this := hx
    have hm : ∀ e, e ∈ [(0, 1), (0, 2), (5, 3)] → e ∈ SVSF.edges 6 sEd := by decide
    rcases hcase x this with rfl | rfl | rfl | rfl | rfl | rfl
    · exact .refl _
    · exact .symm _ _ (.rel _ _ (hm (0, 1) (by decide)))
    · exact .symm _ _ (.rel _ _ (hm (0, 2) (by decide)))
    · exact .symm _ _ (.rel _ _ (hm (5, 3) (by decide)))
    · exact .refl _
    · exact .refl _

theorem sStart : SVSF.FStart sG sP sEd := sStart_of rfl (by simp [SV.Adj, sG, UG.ofLists])

/-- The calls when 0 is the frequent component. -/
def sCall : Fin 3 → Nat × Nat := ![(3, 2), (3, 5), (5, 3)]

theorem sCalls : Calls sG (some 0) sP sCall := by
  rintro ⟨u, v⟩
  constructor
  · rintro ⟨i, hi⟩
    match i with
    | 0 => cases hi; decide
    | 1 => cases hi; decide
    | 2 => cases hi; decide
  · rintro ⟨h1, h2, h3⟩
    have h1 : u < 6 := h1
    have hv : v < 6 := SV.UG_lt sG_sym h2
    have : (u, v) = (3, 2) ∨ (u, v) = (3, 5) ∨ (u, v) = (5, 3) := by
      revert h2 h3
      interval_cases u <;> interval_cases v <;> decide
    rcases this with h | h | h
    · exact ⟨0, h.symm⟩
    · exact ⟨1, h.symm⟩
    · exact ⟨2, h.symm⟩

/-- The run of `uf_sampled` and `uf_sf_sampled` on that sample. -/
example : ∃ (res : Fin 3 → Option Nat) (lab : Nat → Nat) (Ed : Nat → Nat × Nat),
    Nonempty (Phases sG.n sP 0 (fun i : Fin 3 => unite (findCompress 9) 9 (sCall i).1 (sCall i).2) res lab) ∧
    EdgesOf sCall res sEd Ed ∧ (List.range 6).map lab = [0, 0, 0, 0, 4, 0] ∧
    SVSF.edges sG.n Ed = [(0, 1), (0, 2), (5, 3), (3, 2)] := by
  refine ⟨![some 5, none, none], _, fun x => if x = 5 then (3, 2) else sEd x,
    ⟨⟨run _ (List.replicate 20 0 ++ List.replicate 20 1 ++ List.replicate 20 2), run_steps _ _, ?_, fun _ => findNaive 9, fun _ => .naive 9,
      run _ ((List.range 6).flatMap fun i => List.replicate 20 (Fin.ofNat 6 i : Fin 6)), run_steps _ _, ?_, fun _ => rfl⟩⟩, ?_, ?_, by decide⟩
  · intro i
    match i with
    | 0 => rfl
    | 1 => rfl
    | 2 => rfl
  · show ∀ i : Fin 6, _
    intro i
    match i with
    | 0 => rfl
    | 1 => rfl
    | 2 => rfl
    | 3 => rfl
    | 4 => rfl
    | 5 => rfl
  · intro u
    by_cases hu : u = 5
    · exact .inl ⟨0, by rw [hu]; rfl, by rw [hu]; rfl⟩
    · refine .inr ⟨fun i hi => ?_, if_neg hu⟩
      match i with
      | 0 => exact hu (Option.some.inj hi).symm
      | 1 => cases hi
      | 2 => cases hi
  · rfl

/-- Two of the parents form a cycle. -/
def cycRG (ι : Type) : RG ι Unit Loc Nat where
  Inv _ m := m (.par 3) = 5 ∧ m (.par 5) = 3
  R _ _ _ := True
  Gu _ _ _ := True
  refl _ _ := trivial
  trans _ _ _ _ _ _ := trivial
  compat _ _ _ _ _ _ := trivial

theorem naive_cycle {i : ι} (f x : Nat) (hx : x = 3 ∨ x = 5) :
    Safe (cycRG ι) i (fun _ _ => False) (findNaive f x) () := by
  induction f generalizing x with
  | zero => trivial
  | succ f ih =>
    rintro ⟨⟩ m - hi
    refine ⟨(), trivial, hi, ?_⟩
    have hne : x ≠ m (.par x) := by
      rcases hx with rfl | rfl
      · rw [hi.1]; decide
      · rw [hi.2]; decide
    beta_reduce
    rw [if_neg hne]
    rintro ⟨⟩ m' - hi'
    refine ⟨(), trivial, hi', ih _ ?_⟩
    rcases hx with rfl | rfl
    · exact .inr hi'.1
    · exact .inl hi'.2

theorem naive_any {i : ι} (f x : Nat) : Safe (cycRG ι) i (fun _ _ => True) (findNaive f x) () := by
  induction f generalizing x with
  | zero => trivial
  | succ f ih =>
    rintro ⟨⟩ m - hi
    refine ⟨(), trivial, hi, ?_⟩
    beta_reduce
    split
    · exact fun _ _ => trivial
    · rintro ⟨⟩ m' - hi'
      exact ⟨(), trivial, hi', ih _⟩

/-- The edges `0 - 1`, `0 - 2`, `3 - 5`. -/
def eG : UG := UG.ofLists [[1, 2], [0], [0], [5], [], [3]]

/-- The calls when 0 is the frequent component. -/
def eCall : Fin 2 → Nat × Nat := ![(3, 5), (5, 3)]

theorem eCalls : Calls eG (some 0) sP eCall := by
  rintro ⟨u, v⟩
  constructor
  · rintro ⟨i, hi⟩
    match i with
    | 0 => cases hi; decide
    | 1 => cases hi; decide
  · rintro ⟨h1, h2, h3⟩
    have h1 : u < 6 := h1
    have hv : v < 6 := SV.UG_lt (UG.ofLists_sym (by decide)) h2
    have : (u, v) = (3, 5) ∨ (u, v) = (5, 3) := by
      revert h2 h3
      interval_cases u <;> interval_cases v <;> decide
    rcases this with h | h
    · exact ⟨0, h.symm⟩
    · exact ⟨1, h.symm⟩

/-- The calls of `UniteEarly` on the sample. -/
def earlyInit : Conf (Fin 2) Loc Nat (Option Nat) :=
  ⟨memS sP 0, fun i => uniteEarly 9 (eCall i).1 (eCall i).2⟩

/-- C95 and C96 fail for `UniteEarly`: on a sample with the clusters `{0, 1, 2}` and `{3, 5}`, the latter with centre 5 (as
`LDD` produces them), the calls one after the other leave `parents[3] = 5` and `parents[5] = 3`; in the last loop, the finds for 3
and 5 then never return. -/
theorem early_refuted : eG.Sym ∧ SVSF.FStart eG sP sEd ∧ Calls eG (some 0) sP eCall ∧
    ∃ c1, Steps Step earlyInit c1 ∧ (∀ i, ∃ r, c1.th i = .ret r) ∧
    ∀ (f : Nat) (c2 : Conf (Fin 6) Loc Nat Unit), Steps Step ⟨c1.mem, fun i : Fin 6 => finalStep (findNaive f) i⟩ c2 →
      c2.th 3 ≠ .ret () ∧ c2.th 5 ≠ .ret () := by
  refine ⟨UG.ofLists_sym (by decide), sStart_of rfl (by simp [SV.Adj, eG, UG.ofLists]), eCalls,
    run earlyInit (List.replicate 40 1 ++ List.replicate 40 0), run_steps _ _, ?_, fun f c2 h => ?_⟩
  · intro i
    match i with
    | 0 => exact ⟨_, rfl⟩
    | 1 => exact ⟨_, rfl⟩
  · obtain ⟨-, -, -, hp⟩ := safe_reach (cycRG (Fin 6)) (fun i _ _ => i ≠ 3 ∧ i ≠ 5) h () ⟨rfl, rfl⟩ (fun i => by
      by_cases hi : i = 3 ∨ i = 5
      · refine (naive_cycle f i.1 ?_).bind fun _ _ h => h.elim
        rcases hi with rfl | rfl
        · exact .inl rfl
        · exact .inr rfl
      · refine (naive_any f i.1).bind fun r g _ => ?_
        rintro ⟨⟩ m - hm
        refine ⟨(), trivial, ⟨?_, ?_⟩, fun _ _ => not_or.1 hi⟩
        · rw [put_ne _ _ fun h => hi (.inl (Fin.ext (by injection h with h; exact h.symm)))]; exact hm.1
        · rw [put_ne _ _ fun h => hi (.inr (Fin.ext (by injection h with h; exact h.symm)))]; exact hm.2)
    exact ⟨fun h3 => (hp 3 () h3).1 rfl, fun h5 => (hp 5 () h5).2 rfl⟩

end Gbbs.UF
