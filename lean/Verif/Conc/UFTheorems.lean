/-
C30, C31: the concurrent union-find rules, stated on the `parents` array only.
-/
import Verif.Conc.UFUnite
import Mathlib.Data.Finset.Card
import Mathlib.Data.Fintype.Card
import Mathlib.Data.Fin.VecNotation

namespace Gbbs.UF

open Conc Conc.Prog Relation
open Atomics (Steps)

set_option linter.unusedSectionVars false

variable {ι : Type} [DecidableEq ι]

/-! ### Specification -/

/-- The parent array of a memory. -/
def par (m : Loc → Nat) (x : Nat) : Nat := m (.par x)

/-- Following parents from `x` ends at the root `r`. -/
def RootOf (p : Nat → Nat) (x r : Nat) : Prop := p r = r ∧ ∃ k, p^[k] x = r

/-- The two vertices have the same root. -/
def SameRoot (p : Nat → Nat) (x y : Nat) : Prop := ∃ r, RootOf p x r ∧ RootOf p y r

/-- The pairs of all calls. -/
def Issued (call : ι → Nat × Nat) (a b : Nat) : Prop := ∃ i, call i = (a, b)

/-- What C30 asks of a configuration: no cycles (parents decrease), every vertex has a root, a common
root only for vertices connected by the calls, finished calls have connected their arguments. -/
structure Components {α : Type} (call : ι → Nat × Nat) (c : Conf ι Loc Nat α) : Prop where
  acyclic : ∀ x, par c.mem x ≤ x
  rooted : ∀ x, ∃ r, RootOf (par c.mem) x r
  sound : ∀ x y, SameRoot (par c.mem) x y → EqvGen (Issued call) x y
  complete : ∀ i a, c.th i = .ret a → SameRoot (par c.mem) (call i).1 (call i).2

/-- C31 for a configuration in which all calls have returned `res`: the reporting calls are in
bijection with the vertices that are no longer roots, and their pairs connect as much as all pairs. -/
structure SpanningForest (call : ι → Nat × Nat) (res : ι → Option Nat) (p : Nat → Nat) : Prop where
  distinct : ∀ i j u, res i = some u → res j = some u → i = j
  hooked : ∀ x, (∃ i, res i = some x) ↔ p x ≠ x
  spans : ∀ x y, EqvGen (fun a b => ∃ i u, res i = some u ∧ call i = (a, b)) x y ↔
    EqvGen (Issued call) x y

/-! ### From the invariant to the parents array -/

variable {o : Ord} {call : ι → Nat × Nat} {md : Mode} {free : Nat} {g : Gh ι} {m : Loc → Nat}

theorem rootOf_iff (h : UInv o call md free g m) {x r : Nat} :
    RootOf (par m) x r ↔ Anc g x r ∧ g.link r = r := by
  have iter : ∀ k x, Anc g x ((par m)^[k] x) := by
    intro k
    induction k with
    | zero => intro x; exact ReflTransGen.refl
    | succ k ih => intro x; exact Anc.trans (h.anc x) (ih (par m x))
  constructor
  · rintro ⟨h1, k, h2⟩
    exact ⟨h2 ▸ iter k x, (h.root r).1 h1⟩
  · rintro ⟨h1, h2⟩
    refine ⟨(h.root r).2 h2, ?_⟩
    generalize hk : o.rk x = k
    induction k using Nat.strongRecOn generalizing x with
    | ind k ih =>
      by_cases hx : par m x = x
      · refine ⟨0, ?_⟩
        by_contra hne
        exact nonroot_of_anc h1 (fun e => hne e.symm) ((h.root x).1 hx)
      · have hlt : o.rk (par m x) < o.rk x := (anc_lt h.lt (h.anc x)).resolve_left hx
        have hpr : Anc g (par m x) r := by
          rcases anc_total (h.anc x) h1 with h3 | h3
          · exact h3
          · have : m (.par x) = r := by
              by_contra hne
              exact nonroot_of_anc h3 hne h2
            exact this ▸ ReflTransGen.refl
        obtain ⟨k, hk⟩ := ih _ (hk ▸ hlt) hpr rfl
        exact ⟨k + 1, hk⟩

theorem exists_root (h : UInv o call md free g m) (x : Nat) : ∃ r, RootOf (par m) x r := by
  generalize hk : o.rk x = k
  induction k using Nat.strongRecOn generalizing x with
  | ind k ih =>
    by_cases hx : par m x = x
    · exact ⟨x, hx, 0, rfl⟩
    · have hlt : o.rk (par m x) < o.rk x := (anc_lt h.lt (h.anc x)).resolve_left hx
      obtain ⟨r, h1, k, h2⟩ := ih _ (hk ▸ hlt) (par m x) rfl
      exact ⟨r, h1, k + 1, h2⟩

theorem sameRoot_of_same (h : UInv o call md free g m) {x y : Nat} (hs : Same g x y) :
    SameRoot (par m) x y := by
  obtain ⟨a, hx, hy⟩ := hs
  obtain ⟨r, hr⟩ := exists_root h a
  have hr' := (rootOf_iff h).1 hr
  exact ⟨r, (rootOf_iff h).2 ⟨hx.trans hr'.1, hr'.2⟩, (rootOf_iff h).2 ⟨hy.trans hr'.1, hr'.2⟩⟩

theorem sameRoot_rec (h : UInv o call md free g m) {x y : Nat} (hs : SameRoot (par m) x y) :
    EqvGen (Rec call g) x y := by
  obtain ⟨r, hx, hy⟩ := hs
  exact (anc_rec h.recd ((rootOf_iff h).1 hx).1).trans _ _ _
    (anc_rec h.recd ((rootOf_iff h).1 hy).1).symm

theorem rec_issued {x y : Nat} (h : Rec call g x y) : Issued call x y := by
  obtain ⟨_, i, _, h⟩ := h; exact ⟨i, h⟩

theorem sameRoot_equiv (h : UInv o call md free g m) : Equivalence (SameRoot (par m)) := by
  refine ⟨fun x => sameRoot_of_same h ⟨x, ReflTransGen.refl, ReflTransGen.refl⟩,
    fun hxy => ⟨_, hxy.choose_spec.2, hxy.choose_spec.1⟩, ?_⟩
  rintro x y z ⟨r, h1, h2⟩ ⟨s, h3, h4⟩
  have e : r = s := anc_root ((rootOf_iff h).1 h2).1 ((rootOf_iff h).1 h3).1
    ((rootOf_iff h).1 h2).2 ((rootOf_iff h).1 h3).2
  subst e
  exact ⟨r, h1, h4⟩

theorem eqvGen_le {r : Nat → Nat → Prop} {s : Nat → Nat → Prop} (hs : Equivalence s)
    (h : ∀ x y, r x y → s x y) {x y : Nat} (hxy : EqvGen r x y) : s x y := by
  induction hxy with
  | rel _ _ h' => exact h _ _ h'
  | refl _ => exact hs.refl _
  | symm _ _ _ ih => exact hs.symm ih
  | trans _ _ _ _ _ ih1 ih2 => exact hs.trans ih1 ih2

/-- The initial ghost state: no hooks. -/
def g0 : Gh ι := ⟨id, fun _ => none, fun _ => none⟩

/-- The initial memory: `parents[i] = i`. -/
def mem0 (free : Nat) : Loc → Nat
  | .par x => x
  | .aux _ => free

theorem inv0 (call : ι → Nat × Nat) (md : Mode) (free : Nat) {dom : Nat → Prop}
    (hdom : ∀ i, dom (call i).1 ∧ dom (call i).2) :
    UInv (.nat dom) call md free (g0 : Gh ι) (mem0 free) :=
  ⟨fun _ h => absurd rfl h, fun _ => trivial, fun _ h => h, hdom, fun x => ⟨fun _ => rfl, fun _ => rfl⟩, fun _ _ _ h => (by cases h),
    fun _ _ h => (by cases h), fun _ => EqvGen.refl _, fun _ => ReflTransGen.refl,
    fun _ => ⟨fun _ => rfl, fun _ => rfl⟩, fun _ _ => ⟨fun _ => rfl, fun _ => rfl⟩, fun _ _ _ _ => rfl⟩

theorem ends0 (call : ι → Nat × Nat) (i : ι) : Ends call i g0 (call i).1 (call i).2 :=
  Or.inl ⟨ReflTransGen.refl, ReflTransGen.refl⟩

theorem components_of_safe {dom : Nat → Prop} (hdom : ∀ i, dom (call i).1 ∧ dom (call i).2) (th : ι → P (Option Nat))
    (hs : ∀ i, Safe (rg (.nat dom) call md free) i (CPost call i) (th i) g0) {c : Conf ι Loc Nat (Option Nat)}
    (hr : Steps Step ⟨mem0 free, th⟩ c) : Components call c := by
  obtain ⟨g, hi, _, hpost⟩ := safe_reach (rg (.nat dom) call md free) (CPost call) hr g0 (inv0 call md free hdom) hs
  have hi : UInv (.nat dom) call md free g c.mem := hi
  exact ⟨fun x => (anc_lt hi.lt (hi.anc x)).elim Nat.le_of_eq Nat.le_of_lt, exists_root hi,
    fun x y hxy => EqvGen.mono (fun _ _ => rec_issued) _ _ (sameRoot_rec hi hxy),
    fun i a ha => sameRoot_of_same hi (hpost i a ha)⟩

theorem upost_cpost {th : ι → P (Option Nat)}
    (hs : ∀ i, Safe (rg o call md free) i (UPost call i) (th i) g0) (i : ι) :
    Safe (rg o call md free) i (CPost call i) (th i) g0 := (hs i).weaken fun _ _ h => h.1

/-- The reports, from the invariant at the end. -/
theorem forest_of_post (hi : UInv o call md free g m) {res : ι → Option Nat} (hpost : ∀ i, UPost call i g (res i)) :
    SpanningForest call res (par m) ∧
      ∀ i u, res i = some u → Anc g (call i).1 u ∨ Anc g (call i).2 u := by
  have hown : ∀ i u, res i = some u → g.own u = some i := fun i u h => ((hpost i).2.1 u h).1
  have hback : ∀ i u, g.own u = some i → res i = some u := by
    intro i u h
    cases hri : res i with
    | none => exact absurd h ((hpost i).2.2 hri u)
    | some w =>
      have := hi.own_inj w u i (hown i w hri) h
      rw [this]
  refine ⟨⟨?_, ?_, ?_⟩, fun i u h => hi.own_anc u i (hown i u h)⟩
  · intro i j u h1 h2
    have := (hown i u h1).symm.trans (hown j u h2)
    exact Option.some.inj this
  · intro x
    constructor
    · rintro ⟨i, h⟩ hx
      have := (hi.own_iff x).2 ((hi.root x).1 hx)
      rw [hown i x h] at this; cases this
    · intro hx
      have : g.own x ≠ none := fun h => hx ((hi.root x).2 ((hi.own_iff x).1 h))
      obtain ⟨i, h⟩ := Option.ne_none_iff_exists'.1 this
      exact ⟨i, hback i x h⟩
  · intro x y
    constructor
    · refine fun h => EqvGen.mono ?_ _ _ h
      rintro a b ⟨i, u, _, h⟩
      exact ⟨i, h⟩
    · intro h
      have h1 : SameRoot (par m) x y := by
        refine eqvGen_le (sameRoot_equiv hi) ?_ h
        rintro a b ⟨i, hi'⟩
        have := sameRoot_of_same hi (hpost i).1
        rw [hi'] at this; exact this
      refine EqvGen.mono ?_ _ _ (sameRoot_rec hi h1)
      rintro a b ⟨u, i, h2, h3⟩
      exact ⟨i, u, hback i u h2, h3⟩

theorem forest_of_safe {dom : Nat → Prop} (hdom : ∀ i, dom (call i).1 ∧ dom (call i).2) (th : ι → P (Option Nat))
    (hs : ∀ i, Safe (rg (.nat dom) call md free) i (UPost call i) (th i) g0) {c : Conf ι Loc Nat (Option Nat)}
    (hr : Steps Step ⟨mem0 free, th⟩ c) (res : ι → Option Nat) (hd : ∀ i, c.th i = .ret (res i)) :
    SpanningForest call res (par c.mem) ∧
      ∀ i u, res i = some u → u ≤ max (call i).1 (call i).2 := by
  obtain ⟨g, hi, _, hpost⟩ := safe_reach (rg (.nat dom) call md free) (UPost call) hr g0 (inv0 call md free hdom) hs
  have hi : UInv (.nat dom) call md free g c.mem := hi
  obtain ⟨h1, h2⟩ := forest_of_post hi fun i => hpost i _ (hd i)
  refine ⟨h1, fun i u h => ?_⟩
  rcases h2 i u h with h | h
  · exact Nat.le_trans ((anc_lt hi.lt h).elim Nat.le_of_eq Nat.le_of_lt) (Nat.le_max_left _ _)
  · exact Nat.le_trans ((anc_lt hi.lt h).elim Nat.le_of_eq Nat.le_of_lt) (Nat.le_max_right _ _)

/-! ### Theorems -/

/-- The find variants, with any bound on the iterations. -/
inductive IsFind : (Nat → P Nat) → Prop
  | naive (f) : IsFind (findNaive f)
  | compress (f) : IsFind (findCompress f)
  | split (f) : IsFind (findSplit f)
  | halve (f) : IsFind (findHalve f)
  | compressAtomic (f) : IsFind (findCompressAtomic f)

theorem IsFind.spec {find : Nat → P Nat} (h : IsFind find) : FindSpec o call md free find := by
  cases h
  · exact findNaive_spec _
  · exact findCompress_spec _
  · exact findSplit_spec _
  · exact findHalve_spec _
  · exact findCompressAtomic_spec _

/-- The programs of C30 and C31, for the call `(u, v)`: `Unite`, the one of SimpleUnionAsync, and
`UniteEarly` with and without the final finds. -/
inductive IsUnite (u v : Nat) : P (Option Nat) → Prop
  | unite {find} (h : IsFind find) (f) : IsUnite u v (unite find f u v)
  | impl {find} (h : IsFind find) (f) : IsUnite u v (uniteImpl find f u v)
  | early (f) : IsUnite u v (uniteEarly f u v)
  | earlyForce {find} (h : IsFind find) (f) : IsUnite u v (uniteEarlyForce find f u v)

theorem IsUnite.safe {dom : Nat → Prop} {i : ι} {p : P (Option Nat)} (h : IsUnite (call i).1 (call i).2 p) :
    Safe (rg (.nat dom) call .cas free) i (UPost call i) p g0 := by
  have hno : ∀ x, (g0 : Gh ι).own x ≠ some i := fun _ h => (by cases h)
  cases h with
  | unite h f => exact unite_spec h.spec i f _ _ _ (ends0 call i) hno
  | impl h f => exact uniteImpl_spec h.spec i f _ _ _ (ends0 call i) hno
  | early f => exact uniteEarly_spec (fun _ => trivial) i f _ _ _ (ends0 call i) hno
  | earlyForce h f => exact uniteEarlyForce_spec (fun _ => trivial) h.spec i f _ _ _ (ends0 call i) hno

/-- C30: any number of concurrent calls, any mixture of the variants, every interleaving of the
accesses. -/
theorem unite_components (th : ι → P (Option Nat)) (hth : ∀ i, IsUnite (call i).1 (call i).2 (th i))
    {c : Conf ι Loc Nat (Option Nat)} (hr : Steps Step ⟨mem0 0, th⟩ c) : Components call c :=
  components_of_safe (md := .cas) (dom := fun _ => True) (fun _ => ⟨trivial, trivial⟩) th (upost_cpost fun i => (hth i).safe) hr

/-- C30, at the end: two vertices have the same root iff the calls connect them. -/
theorem unite_final (th : ι → P (Option Nat)) (hth : ∀ i, IsUnite (call i).1 (call i).2 (th i))
    {c : Conf ι Loc Nat (Option Nat)} (hr : Steps Step ⟨mem0 0, th⟩ c)
    (hd : ∀ i, ∃ a, c.th i = .ret a) (x y : Nat) :
    SameRoot (par c.mem) x y ↔ EqvGen (Issued call) x y := by
  have hc := unite_components th hth hr
  refine ⟨hc.sound x y, fun h => ?_⟩
  obtain ⟨g, hi, _⟩ := safe_reach (rg (.nat fun _ => True) call .cas 0) (UPost call) hr g0
    (inv0 call .cas 0 fun _ => ⟨trivial, trivial⟩)
    (fun i => (hth i).safe)
  refine eqvGen_le (sameRoot_equiv hi) ?_ h
  rintro a b ⟨i, hab⟩
  obtain ⟨r, hri⟩ := hd i
  have := hc.complete i r hri
  rw [hab] at this; exact this

/-- C30 for `UniteND` (arguments below `UINT_E_MAX`). -/
theorem uniteND_components (th : ι → P (Option Nat))
    (hth : ∀ i, (call i).1 < uMax ∧ (call i).2 < uMax ∧
      ∃ find f, IsFind find ∧ th i = uniteND find f (call i).1 (call i).2)
    {c : Conf ι Loc Nat (Option Nat)} (hr : Steps Step ⟨mem0 uMax, th⟩ c) : Components call c := by
  refine components_of_safe (md := .hook) (dom := (· < uMax)) (fun i => ⟨(hth i).1, (hth i).2.1⟩) th (upost_cpost fun i => ?_) hr
  obtain ⟨h1, h2, find, f, hf, he⟩ := hth i
  rw [he]
  exact uniteND_spec (fun _ h => h) hf.spec i f _ _ _ (ends0 call i) (fun _ h => (by cases h)) h1 h2

/-- Compression after success in Rem's algorithm. -/
inductive IsFin (x y : Nat) : P Unit → Prop
  | none : IsFin x y (ret ())
  | both {find} (h : IsFind find) : IsFin x y ((find x).bind fun _ => (find y).bind fun _ => ret ())

theorem IsFin.spec {x y : Nat} {p : P Unit} (h : IsFin x y p) : FinSpec o call md free p := by
  cases h with
  | none => exact fin_nothing
  | both h => exact fin_compress h.spec x y

/-- C30 for `UniteRemCAS` with splitting or halving. -/
theorem uniteRemCAS_components (th : ι → P (Option Nat))
    (hth : ∀ i, ∃ splice fin f, (splice = splitOne ∨ splice = halveOne) ∧
      IsFin (call i).1 (call i).2 fin ∧ th i = uniteRemCAS splice fin f (call i).1 (call i).2)
    {c : Conf ι Loc Nat (Option Nat)} (hr : Steps Step ⟨mem0 0, th⟩ c) : Components call c := by
  refine components_of_safe (md := .cas) (dom := fun _ => True) (fun _ => ⟨trivial, trivial⟩) th (fun i => ?_) hr
  obtain ⟨splice, fin, f, hsp, hf, he⟩ := hth i
  rw [he]
  refine uniteRemCAS_spec ?_ hf.spec i f _ _ _ (ends0 call i) (fun _ h => (by cases h))
  rcases hsp with rfl | rfl
  · exact splitOne_spec
  · exact halveOne_spec

/-- C30 for `UniteRemLock` with splitting or halving. -/
theorem uniteRemLock_components (th : ι → P (Option Nat))
    (hth : ∀ i, ∃ splice fin f, (splice = splitOne ∨ splice = halveOne) ∧
      IsFin (call i).1 (call i).2 fin ∧ th i = uniteRemLock splice fin f (call i).1 (call i).2)
    {c : Conf ι Loc Nat (Option Nat)} (hr : Steps Step ⟨mem0 0, th⟩ c) : Components call c := by
  refine components_of_safe (md := .lock) (dom := fun _ => True) (fun _ => ⟨trivial, trivial⟩) th (fun i => ?_) hr
  obtain ⟨splice, fin, f, hsp, hf, he⟩ := hth i
  rw [he]
  refine uniteRemLock_spec ?_ hf.spec i f _ _ _ (ends0 call i) (Or.inl fun _ h => (by cases h))
  rcases hsp with rfl | rfl
  · exact splitOne_spec
  · exact halveOne_spec

/-- C31: when all calls have returned, the reports describe a spanning forest. -/
theorem unite_forest (th : ι → P (Option Nat)) (hth : ∀ i, IsUnite (call i).1 (call i).2 (th i))
    {c : Conf ι Loc Nat (Option Nat)} (hr : Steps Step ⟨mem0 0, th⟩ c) (res : ι → Option Nat)
    (hd : ∀ i, c.th i = .ret (res i)) : SpanningForest call res (par c.mem) :=
  (forest_of_safe (md := .cas) (dom := fun _ => True) (fun _ => ⟨trivial, trivial⟩) th (fun i => (hth i).safe) hr res hd).1

/-- C31 for `UniteND`. -/
theorem uniteND_forest (th : ι → P (Option Nat))
    (hth : ∀ i, (call i).1 < uMax ∧ (call i).2 < uMax ∧
      ∃ find f, IsFind find ∧ th i = uniteND find f (call i).1 (call i).2)
    {c : Conf ι Loc Nat (Option Nat)} (hr : Steps Step ⟨mem0 uMax, th⟩ c) (res : ι → Option Nat)
    (hd : ∀ i, c.th i = .ret (res i)) : SpanningForest call res (par c.mem) := by
  refine (forest_of_safe (md := .hook) (dom := (· < uMax)) (fun i => ⟨(hth i).1, (hth i).2.1⟩) th (fun i => ?_) hr res hd).1
  obtain ⟨h1, h2, find, f, hf, he⟩ := hth i
  rw [he]
  exact uniteND_spec (fun _ h => h) hf.spec i f _ _ _ (ends0 call i) (fun _ h => (by cases h)) h1 h2

/-- C31, counting: with finitely many calls on vertices below `n`, the number of reports is `n` minus
the number of roots, which is the number of components. -/
theorem unite_count [Fintype ι] (th : ι → P (Option Nat))
    (hth : ∀ i, IsUnite (call i).1 (call i).2 (th i)) {c : Conf ι Loc Nat (Option Nat)}
    (hr : Steps Step ⟨mem0 0, th⟩ c) (res : ι → Option Nat) (hd : ∀ i, c.th i = .ret (res i)) (n : Nat)
    (hn : ∀ i, (call i).1 < n ∧ (call i).2 < n) :
    (Finset.univ.filter fun i => res i ≠ none).card +
      ((Finset.range n).filter fun x => par c.mem x = x).card = n := by
  obtain ⟨hf, hle⟩ := forest_of_safe (md := .cas) (dom := fun _ => True) (fun _ => ⟨trivial, trivial⟩) th (fun i => (hth i).safe) hr res hd
  have hcard : (Finset.univ.filter fun i => res i ≠ none).card =
      ((Finset.range n).filter fun x => ¬ par c.mem x = x).card := by
    refine Finset.card_bij (fun i _ => (res i).getD 0) ?_ ?_ ?_
    · intro i hi
      obtain ⟨u, hu⟩ := Option.ne_none_iff_exists'.1 (Finset.mem_filter.1 hi).2
      rw [hu, Option.getD_some, Finset.mem_filter, Finset.mem_range]
      have := hle i u hu
      have := hn i
      exact ⟨by omega, (hf.hooked u).1 ⟨i, hu⟩⟩
    · intro i hi j hj h
      obtain ⟨u, hu⟩ := Option.ne_none_iff_exists'.1 (Finset.mem_filter.1 hi).2
      obtain ⟨w, hw⟩ := Option.ne_none_iff_exists'.1 (Finset.mem_filter.1 hj).2
      rw [hu, hw, Option.getD_some, Option.getD_some] at h
      subst h
      exact hf.distinct i j u hu hw
    · intro x hx
      obtain ⟨i, hi⟩ := (hf.hooked x).2 (Finset.mem_filter.1 hx).2
      exact ⟨i, by simp [hi], by simp [hi]⟩
  rw [hcard, Nat.add_comm]
  have := Finset.card_filter_add_card_filter_not (s := Finset.range n) (fun x => par c.mem x = x)
  rw [Finset.card_range] at this
  exact this

/-! ### Failures -/

/-- Two calls `unite(0, 1)` of `UniteRemCAS` (with splitting). -/
def rem2 : Conf (Fin 2) Loc Nat (Option Nat) :=
  ⟨mem0 0, fun _ => uniteRemCAS splitOne (ret ()) 5 0 1⟩

/-- C31 fails for `UniteRemCAS`: thread 0 passes the loop test, thread 1 hooks 1 to 0, then thread 0
"hooks" 0 to itself; both calls report although only one merge took place. -/
theorem remCAS_phantom : ∃ c, Steps Step rem2 c ∧ c.th 0 = .ret (some 0) ∧ c.th 1 = .ret (some 1) ∧
    par c.mem 0 = 0 ∧ ¬ SpanningForest (fun _ : Fin 2 => ((0, 1) : Nat × Nat)) ![some 0, some 1] (par c.mem) := by
  refine ⟨run rem2 [0, 0, 1, 1, 1, 1, 1, 1, 0, 0, 0, 0], run_steps _ _, rfl, rfl, rfl, fun h => ?_⟩
  exact (h.hooked 0).1 ⟨0, rfl⟩ rfl

/-- C31 fails for `UniteRemCAS` of the spanning forest code without any concurrency: the single call
`unite(0, 1)` reports vertex 1, but `parents` does not change, since `p_ry` is not swapped. -/
theorem remCASsf_no_union : ∃ c, Steps Step
      (⟨mem0 0, fun _ : Fin 1 => uniteRemCASsf splitOne (ret ()) 5 0 1⟩ : Conf (Fin 1) Loc Nat (Option Nat)) c ∧
    c.th 0 = .ret (some 1) ∧ (∀ x, par c.mem x = x) ∧
    ¬ Components (fun _ : Fin 1 => ((0, 1) : Nat × Nat)) c := by
  refine ⟨run _ [0, 0, 0, 0, 0, 0], run_steps _ _, rfl, ?_, ?_⟩
  · intro x
    show put (mem0 0) (.par 1) 1 (.par x) = x
    by_cases hx : x = 1
    · subst hx; rfl
    · rw [put_ne _ _ (by simpa using hx)]; rfl
  · intro h
    obtain ⟨r, ⟨_, k, hk⟩, ⟨_, l, hl⟩⟩ := h.complete 0 _ rfl
    have hpar : ∀ x, par (put (mem0 0) (.par 1) 1) x = x := by
      intro x
      by_cases hx : x = 1
      · subst hx; rfl
      · show put (mem0 0) (.par 1) 1 (.par x) = x
        rw [put_ne _ _ (by simpa using hx)]; rfl
    have hid : ∀ k x, (par (put (mem0 0) (.par 1) 1))^[k] x = x := by
      intro k
      induction k with
      | zero => intro x; rfl
      | succ k ih => intro x; rw [Function.iterate_succ_apply, hpar, ih]
    have h0 : (0 : Nat) = r := (hid k 0).symm.trans hk
    have h1 : (1 : Nat) = r := (hid l 1).symm.trans hl
    omega

/-! ### Example -/

/-- Two calls racing to hook vertex 2, with `find_compress`. -/
example : let call : Fin 2 → Nat × Nat := ![(2, 0), (1, 2)]
    let th : Fin 2 → P (Option Nat) := fun i => unite (findCompress 5) 5 (call i).1 (call i).2
    (∀ i, IsUnite (call i).1 (call i).2 (th i)) ∧
    let c := run ⟨mem0 0, th⟩ [0, 0, 1, 1, 0, 1, 0, 1, 1, 1, 1, 1, 1, 1, 1, 1, 1, 1, 1]
    c.th 0 = .ret (some 2) ∧ c.th 1 = .ret (some 1) ∧ par c.mem 1 = 0 ∧ par c.mem 2 = 0 := by
  refine ⟨fun i => .unite (.compress 5) 5, rfl, rfl, rfl, rfl⟩

end Gbbs.UF
