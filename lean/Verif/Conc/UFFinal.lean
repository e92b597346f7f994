/-
C58: connected components by union-find: the unite phase followed by the phase `parents[i] = find(i)`
(`Connectivity/UnionFind/Connectivity.h:46-110`, `Connectivity/SimpleUnionAsync/Connectivity.h`).
-/
import Verif.Conc.UFTheorems

namespace Gbbs.UF

open Conc Conc.Prog Relation
open Atomics (Steps)

set_option linter.unusedSectionVars false

variable {ι : Type} [DecidableEq ι]

/-! ### Model -/

/-- One iteration of the last loop, `UnionFind/Connectivity.h:107`: `parents[i] = find(i, parents)`. -/
def finalStep (find : Nat → P Nat) (i : Nat) : P Unit :=
  (find i).bind fun r => write (.par i) r (ret ())

/-! ### The invariant: the roots (`rt`) are fixed and parents only decrease (in rank) -/

/-- The same vertex, or one of smaller rank. -/
def Ord.le (o : Ord) (a b : Nat) : Prop := a = b ∨ o.rk a < o.rk b

theorem Ord.le_refl (o : Ord) (a : Nat) : o.le a a := .inl rfl

theorem Ord.le_trans {o : Ord} {a b c : Nat} (h1 : o.le a b) (h2 : o.le b c) : o.le a c := by
  rcases h1 with rfl | h1
  · exact h2
  · rcases h2 with rfl | h2
    · exact .inr h1
    · exact .inr (Nat.lt_trans h1 h2)

structure Fr (o : Ord) (rt v : Nat → Nat) : Prop where
  rt_eq : ∀ x, rt (v x) = rt x
  ge : ∀ x, o.le (rt x) (v x)
  le : ∀ x, o.le (v x) x
  cen : ∀ x, o.cn (v x)
  root : ∀ x, v x = x → rt x = x

/-- The conditions of the last phase; the ghost state is the parents array. -/
def rgF (ι : Type) (o : Ord) (rt : Nat → Nat) : RG ι (Nat → Nat) Loc Nat where
  Inv v m := (∀ x, m (.par x) = v x) ∧ Fr o rt v
  R _ v v' := ∀ x, o.le (v' x) (v x)
  Gu _ v v' := ∀ x, o.le (v' x) (v x)
  refl _ _ _ := o.le_refl _
  trans _ _ _ _ h1 h2 x := Ord.le_trans (h2 x) (h1 x)
  compat _ _ _ _ _ h := h

variable {o : Ord} {rt : Nat → Nat} {i : ι} {α : Type} {Post : (Nat → Nat) → α → Prop}

theorem fr_read {x : Nat} {k : Nat → P α} {g : Nat → Nat}
    (h : ∀ v, Fr o rt v → (∀ y, o.le (v y) (g y)) → Safe (rgF ι o rt) i Post (k (v x)) v) :
    Safe (rgF ι o rt) i Post (read (.par x) k) g := by
  intro v m hr hi
  refine ⟨v, fun _ => o.le_refl _, hi, ?_⟩
  rw [hi.1 x]
  exact h v hi.2 hr

theorem Fr.set {v : Nat → Nat} (h : Fr o rt v) {x w : Nat} (h1 : rt w = rt x) (h2 : o.le (rt x) w) (h3 : o.le w (v x))
    (hc : o.cn w) (h4 : w = x → rt x = x) : Fr o rt (fun y => if y = x then w else v y) := by
  refine ⟨fun y => ?_, fun y => ?_, fun y => ?_, fun y => ?_, fun y => ?_⟩ <;> by_cases hy : y = x <;>
    simp only [hy, if_true, if_false]
  · exact h1
  · exact h.rt_eq y
  · exact h2
  · exact h.ge y
  · exact Ord.le_trans h3 (h.le x)
  · exact h.le y
  · exact hc
  · exact h.cen y
  · exact h4
  · exact h.root y

theorem put_par {m : Loc → Nat} {v : Nat → Nat} (h : ∀ x, m (.par x) = v x) (x w : Nat) :
    ∀ y, put m (.par x) w (.par y) = if y = x then w else v y := by
  intro y
  by_cases hy : y = x
  · subst hy; rw [put_same]; simp
  · rw [put_ne _ _ (by simpa using hy), if_neg hy]; exact h y

/-- Writing the root. -/
theorem fr_write {x w : Nat} {k : P α} {g : Nat → Nat} (hid : ∀ x, rt (rt x) = rt x) (hrc : ∀ x, o.cn (rt x)) (hw : w = rt x)
    (h : ∀ v, Fr o rt v → v x = w → Safe (rgF ι o rt) i Post k v) :
    Safe (rgF ι o rt) i Post (write (.par x) w k) g := by
  intro v m hr hi
  subst hw
  have hf : Fr o rt (fun y => if y = x then rt x else v y) :=
    hi.2.set (hid x) (o.le_refl _) (hi.2.ge x) (hrc x) id
  refine ⟨_, fun y => ?_, ⟨put_par hi.1 x (rt x), hf⟩, h _ hf (by simp)⟩
  by_cases hy : y = x
  · subst hy; simp only [if_true]; exact hi.2.ge y
  · simp only [hy, if_false]; exact o.le_refl _

/-- A CAS to a vertex between the expected value and the root. -/
theorem fr_cas {x e w : Nat} {k : Bool → P α} {g : Nat → Nat} (h1 : rt w = rt x) (h2 : o.le (rt x) w)
    (h3 : o.rk w < o.rk e) (hc : o.cn w)
    (h : ∀ v b, Fr o rt v → Safe (rgF ι o rt) i Post (k b) v) :
    Safe (rgF ι o rt) i Post (cas (.par x) e w k) g := by
  intro v m hr hi
  refine ⟨fun he => ?_, fun _ => ⟨v, fun _ => o.le_refl _, hi, h v _ hi.2⟩⟩
  have hvo : v x = e := (hi.1 x).symm.trans he
  have hx := hi.2.le x
  rw [hvo] at hx
  have hf : Fr o rt (fun y => if y = x then w else v y) :=
    hi.2.set h1 h2 (.inr (hvo ▸ h3)) hc (fun hwx => by
      subst hwx
      rcases hx with rfl | hx <;> omega)
  refine ⟨_, fun y => ?_, ⟨put_par hi.1 x w, hf⟩, h _ _ hf⟩
  by_cases hy : y = x
  · subst hy; simp only [if_true]; exact .inr (hvo ▸ h3)
  · simp only [hy, if_false]; exact o.le_refl _

theorem fr_climb (f : Nat) (x : Nat) (g : Nat → Nat) :
    Safe (rgF ι o rt) i (fun _ r => r = rt x) (climb f x) g := by
  induction f generalizing x g with
  | zero => trivial
  | succ f ih =>
    refine fr_read fun v hv _ => fr_read fun v' hv' _ => ?_
    split
    · rw [← hv.rt_eq x]; exact ih _ _
    · rename_i h
      intro _ _
      rw [← hv.rt_eq x]
      exact (hv'.root _ (not_not.1 h)).symm

theorem fr_compressLoop (hid : ∀ x, rt (rt x) = rt x) (hrc : ∀ x, o.cn (rt x)) (f : Nat) (x j : Nat) (hj : j = rt x) (g : Nat → Nat) :
    Safe (rgF ι o rt) i (fun _ _ => True) (compressLoop f x j) g := by
  induction f generalizing x g with
  | zero => trivial
  | succ f ih =>
    refine fr_read fun v hv _ => ?_
    split
    · exact fr_write hid hrc hj fun v' _ _ => ih _ (hj.trans (hv.rt_eq x).symm) _
    · exact fun _ _ => trivial

theorem fr_compressLoopA (hid : ∀ x, rt (rt x) = rt x) (hrc : ∀ x, o.cn (rt x)) (f : Nat) (x j : Nat) (hj : j = rt x) (g : Nat → Nat) :
    Safe (rgF ι o rt) i (fun _ _ => True) (compressLoopA f x j) g := by
  induction f generalizing x g with
  | zero => trivial
  | succ f ih =>
    refine fr_read fun v hv _ => ?_
    split
    · rename_i h
      refine fr_cas (by rw [hj, hid]) (.inl hj.symm) (o.mono _ _ (hv.cen x) (hj ▸ hrc x) h) (hj ▸ hrc x) fun v' b _ => ?_
      cases b
      · exact fun _ _ => trivial
      · exact ih _ (hj.trans (hv.rt_eq x).symm) _
    · exact fun _ _ => trivial

/-- In the last phase every find returns the root. -/
theorem fr_find (hid : ∀ x, rt (rt x) = rt x) (hrc : ∀ x, o.cn (rt x)) {find : Nat → P Nat} (h : IsFind find) (x : Nat) (g : Nat → Nat) :
    Safe (rgF ι o rt) i (fun _ r => r = rt x) (find x) g := by
  cases h with
  | naive f =>
    induction f generalizing x g with
    | zero => trivial
    | succ f ih =>
      refine fr_read fun v hv _ => ?_
      split
      · rename_i h
        exact fun _ _ => (hv.root x h.symm).symm
      · refine fr_read fun v' hv' _ => ?_
        rw [← hv'.rt_eq x]; exact ih _ _
  | compress f =>
    refine fr_read fun v hv _ => ?_
    split
    · rename_i h
      exact fun _ _ => (hv.root x h).symm
    · refine (fr_climb f x v).bind fun j g' hj => ?_
      exact (fr_compressLoop hid hrc f x j hj g').bind fun _ g'' _ _ _ => hj
  | split f =>
    induction f generalizing x g with
    | zero => trivial
    | succ f ih =>
      refine fr_read fun v hv _ => fr_read fun v' hv' _ => ?_
      split
      · rename_i h
        intro _ _
        rw [← hv.rt_eq x]; exact (hv'.root _ h.symm).symm
      · rename_i h
        have h1 := (hv'.le (v x)).resolve_left fun e => h e.symm
        have h2 := hv'.rt_eq (v x)
        have h3 := hv'.ge (v x)
        refine fr_cas (h2.trans (hv.rt_eq x)) (by rw [← hv.rt_eq x]; exact h3) h1 (hv'.cen _) fun w b _ => ?_
        rw [← hv.rt_eq x]; exact ih _ _
  | halve f =>
    induction f generalizing x g with
    | zero => trivial
    | succ f ih =>
      refine fr_read fun v hv _ => fr_read fun v' hv' _ => ?_
      split
      · rename_i h
        intro _ _
        rw [← hv.rt_eq x]; exact (hv'.root _ h.symm).symm
      · rename_i h
        have h1 := (hv'.le (v x)).resolve_left fun e => h e.symm
        have h2 := hv'.rt_eq (v x)
        have h3 := hv'.ge (v x)
        refine fr_cas (h2.trans (hv.rt_eq x)) (by rw [← hv.rt_eq x]; exact h3) h1 (hv'.cen _) fun w b _ => ?_
        refine fr_read fun u hu _ => ?_
        rw [← hu.rt_eq x]; exact ih _ _
  | compressAtomic f =>
    refine fr_read fun v hv _ => ?_
    split
    · rename_i h
      exact fun _ _ => (hv.root x h).symm
    · refine (fr_climb f x v).bind fun j g' hj => ?_
      exact (fr_compressLoopA hid hrc f x j hj g').bind fun _ g'' _ _ _ => hj

/-- The last phase on any forest with decreasing parents: every processed vertex ends with its root. -/
theorem final_roots (hid : ∀ x, rt (rt x) = rt x) (hrc : ∀ x, o.cn (rt x)) {m : Loc → Nat} (hm : Fr o rt (par m))
    (find : Nat → Nat → P Nat) (hf : ∀ i, IsFind (find i)) (n : Nat) {c : Conf (Fin n) Loc Nat Unit}
    (hr : Steps Step ⟨m, fun i : Fin n => finalStep (find i) i⟩ c) (hd : ∀ i, c.th i = .ret ()) (i : Fin n) :
    par c.mem i = rt i := by
  obtain ⟨g, hi, _, hp⟩ := safe_reach (rgF (Fin n) o rt) (fun i v _ => o.le (v i) (rt i)) hr (par m) ⟨fun _ => rfl, hm⟩
    (fun i => by
      refine (fr_find hid hrc (hf i) i.1 _).bind fun r g' hr' => ?_
      refine fr_write hid hrc hr' fun v _ he => ?_
      intro v' hv'
      exact Ord.le_trans (hv' i) (by rw [he, hr']; exact o.le_refl _))
  have h1 := hp i () (hd i)
  have h2 := hi.2.ge i
  refine (hi.1 i).trans ?_
  rcases h1 with h1 | h1
  · exact h1
  · rcases h2 with h2 | h2
    · exact h2.symm
    · omega

/-! ### Specification -/

/-- `comp[i]` is the least vertex connected to `i`. -/
def IsLabelling (r : Nat → Nat → Prop) (n : Nat) (comp : Nat → Nat) : Prop :=
  ∀ i, i < n → EqvGen r i (comp i) ∧ ∀ j, EqvGen r i j → comp i ≤ j

/-- A labelling by least vertices separates exactly the components. -/
theorem IsLabelling.eq_iff {r : Nat → Nat → Prop} {n : Nat} {comp : Nat → Nat} (h : IsLabelling r n comp)
    {i j : Nat} (hi : i < n) (hj : j < n) : comp i = comp j ↔ EqvGen r i j := by
  constructor
  · intro he
    exact ((h i hi).1).trans _ _ _ (he ▸ ((h j hj).1).symm)
  · intro he
    have h1 := (h i hi).2 _ (he.trans _ _ _ (h j hj).1)
    have h2 := (h j hj).2 _ (he.symm.trans _ _ _ (h i hi).1)
    omega

/-- After the first phase there are roots such that any array that holds them is a labelling. -/
theorem labelling_core {call : ι → Nat × Nat} {c1 : Conf ι Loc Nat (Option Nat)} (hc : Components call c1)
    (hfin : ∀ x y, SameRoot (par c1.mem) x y ↔ EqvGen (Issued call) x y) :
    ∃ rt : Nat → Nat, (∀ x, rt (rt x) = rt x) ∧ Fr (.nat fun _ => True) rt (par c1.mem) ∧
      ∀ (n : Nat) (p : Nat → Nat), (∀ i, i < n → p i = rt i) → IsLabelling (Issued call) n p := by
  choose rt hrt using hc.rooted
  have huniq : ∀ (p : Nat → Nat) (x r s : Nat), RootOf p x r → RootOf p x s → r = s := by
    rintro p x r s ⟨h1, k, h2⟩ ⟨h3, l, h4⟩
    have fix : ∀ (y : Nat), p y = y → ∀ t, p^[t] y = y := fun y hy t => Function.iterate_fixed hy t
    rcases Nat.le_total k l with hkl | hkl
    · have : p^[l] x = p^[l - k] (p^[k] x) := by rw [← Function.iterate_add_apply]; congr 1; omega
      rw [h2, fix r h1, h4] at this; exact this.symm
    · have : p^[k] x = p^[k - l] (p^[l] x) := by rw [← Function.iterate_add_apply]; congr 1; omega
      rw [h4, fix s h3, h2] at this; exact this
  have hle : ∀ k x, (par c1.mem)^[k] x ≤ x := by
    intro k
    induction k with
    | zero => intro x; exact Nat.le_refl _
    | succ k ih => intro x; exact (ih _).trans (hc.acyclic x)
  have hrle : ∀ x, rt x ≤ x := fun x => by
    obtain ⟨_, k, h⟩ := hrt x
    rw [← h]; exact hle k x
  have hstep : ∀ x, RootOf (par c1.mem) x (rt (par c1.mem x)) := fun x => by
    obtain ⟨h1, k, h2⟩ := hrt (par c1.mem x)
    exact ⟨h1, k + 1, h2⟩
  have hid : ∀ x, rt (rt x) = rt x := fun x =>
    huniq _ _ _ _ (hrt (rt x)) ⟨(hrt x).1, 0, rfl⟩
  have hFr : Fr (.nat fun _ => True) rt (par c1.mem) := by
    refine ⟨fun x => huniq _ _ _ _ (hstep x) (hrt x), fun x => ?_, fun x => Nat.eq_or_lt_of_le (hc.acyclic x),
      fun _ => trivial, fun x hx => ?_⟩
    · rw [← huniq _ _ _ _ (hstep x) (hrt x)]; exact Nat.eq_or_lt_of_le (hrle _)
    · exact huniq _ _ _ _ (hrt x) ⟨hx, 0, rfl⟩
  refine ⟨rt, hid, hFr, fun n p hp i hi => ?_⟩
  rw [hp i hi]
  refine ⟨(hfin _ _).1 ⟨rt i, hrt i, (hrt i).1, 0, rfl⟩, fun j hj => ?_⟩
  obtain ⟨r, h1, h2⟩ := (hfin i j).2 hj
  have := huniq _ _ _ _ h1 (hrt i)
  subst this
  rw [huniq _ _ _ _ h2 (hrt j)]; exact hrle j

/-- Both phases, for any programs of the first phase that are correct in the sense of C30. -/
theorem labelling_of_components {call : ι → Nat × Nat} {c1 : Conf ι Loc Nat (Option Nat)}
    (hc : Components call c1)
    (hfin : ∀ x y, SameRoot (par c1.mem) x y ↔ EqvGen (Issued call) x y)
    (find : Nat → Nat → P Nat) (hf : ∀ i, IsFind (find i)) (n : Nat) {c2 : Conf (Fin n) Loc Nat Unit}
    (hr : Steps Step ⟨c1.mem, fun i : Fin n => finalStep (find i) i⟩ c2) (hd : ∀ i, c2.th i = .ret ()) :
    IsLabelling (Issued call) n (par c2.mem) := by
  obtain ⟨rt, hid, hFr, h⟩ := labelling_core hc hfin
  exact h n _ fun i hi => final_roots hid (fun _ => trivial) hFr find hf n hr hd ⟨i, hi⟩

/-! ### C58 -/

/-- C58: `compute_components` (no sampling) of a symmetric graph with adjacency `adj`: the calls are
`unite(u, v)` for the neighbours `v < u` of every `u` (`UnionFind/Connectivity.h:78-101`), each by some
thread, in every interleaving; then the last loop. The labels are the least vertices of the components. -/
theorem connectivity_correct (adj : Nat → Nat → Prop) (hsym : ∀ u v, adj u v → adj v u)
    (call : ι → Nat × Nat) (hcall : ∀ u v, (∃ i, call i = (u, v)) ↔ adj u v ∧ v < u)
    (th : ι → P (Option Nat)) (hth : ∀ i, IsUnite (call i).1 (call i).2 (th i))
    {c1 : Conf ι Loc Nat (Option Nat)} (hr1 : Steps Step ⟨mem0 0, th⟩ c1)
    (hd1 : ∀ i, ∃ a, c1.th i = .ret a) (find : Nat → Nat → P Nat) (hf : ∀ i, IsFind (find i)) (n : Nat)
    {c2 : Conf (Fin n) Loc Nat Unit} (hr2 : Steps Step ⟨c1.mem, fun i : Fin n => finalStep (find i) i⟩ c2)
    (hd2 : ∀ i, c2.th i = .ret ()) : IsLabelling adj n (par c2.mem) := by
  have h := labelling_of_components (unite_components th hth hr1) (unite_final th hth hr1 hd1) find hf n hr2 hd2
  have heq : ∀ x y, EqvGen (Issued call) x y ↔ EqvGen adj x y := by
    intro x y
    constructor
    · exact fun h => EqvGen.mono (fun a b hab => ((hcall a b).1 hab).1) _ _ h
    · intro h
      refine eqvGen_le (EqvGen.is_equivalence _) (fun a b hab => ?_) h
      rcases Nat.lt_trichotomy b a with hlt | he | hlt
      · exact EqvGen.rel _ _ ((hcall a b).2 ⟨hab, hlt⟩)
      · subst he; exact EqvGen.refl _
      · exact (EqvGen.rel _ _ ((hcall b a).2 ⟨hsym _ _ hab, hlt⟩)).symm
  exact fun i hi => ⟨(heq _ _).1 (h i hi).1, fun j hj => (h i hi).2 j ((heq _ _).2 hj)⟩

/-- Two calls on the path 1 - 2 - 3, then the last phase on four vertices, with `find_naive` in the
first phase and path splitting in the last one. -/
example : let call : Fin 2 → Nat × Nat := ![(2, 1), (3, 2)]
    let c1 := run (⟨mem0 0, fun i => unite (findNaive 5) 5 (call i).1 (call i).2⟩ : Conf (Fin 2) Loc Nat (Option Nat))
      [1, 1, 0, 1, 0, 1, 0, 0, 0, 0, 0]
    let c2 := run (⟨c1.mem, fun i => finalStep (findSplit 5) i⟩ : Conf (Fin 4) Loc Nat Unit)
      [3, 3, 2, 2, 2, 3, 3, 3, 3, 3, 0, 0, 0, 1, 1, 1]
    c1.th 0 = .ret (some 2) ∧ c1.th 1 = .ret (some 3) ∧ (∀ i, c2.th i = .ret ()) ∧
    par c1.mem 3 = 2 ∧ par c1.mem 2 = 1 ∧
    par c2.mem 0 = 0 ∧ par c2.mem 1 = 1 ∧ par c2.mem 2 = 1 ∧ par c2.mem 3 = 1 := by
  refine ⟨rfl, rfl, ?_, rfl, rfl, rfl, rfl, rfl, rfl⟩
  intro i
  match i with
  | 0 => rfl
  | 1 => rfl
  | 2 => rfl
  | 3 => rfl

/-! ### C59: spanning forest with `UniteRemCAS` -/

/-- The edges 5-0, 5-3, 3-1, in the orientation of `compute_spanning_forest` (`v < u`). -/
def sfCall : Fin 3 → Nat × Nat := ![(5, 0), (5, 3), (3, 1)]

/-- Three calls, to be run one after the other. -/
def sfInit : Conf (Fin 3) Loc Nat (Option Nat) :=
  ⟨mem0 0, fun i => uniteRemCASsf splitOne (ret ()) 9 (sfCall i).1 (sfCall i).2⟩

/-- C59 fails: without any concurrency, `UniteRemCAS` of the spanning forest code reports vertex 3 twice
(the edge of the first report is overwritten in `Edges[3]`), and 0 and 1 stay in different trees although
the edges connect them. -/
theorem remCASsf_not_spanning : ∃ c, Steps Step sfInit c ∧ c.th 0 = .ret (some 5) ∧ c.th 1 = .ret (some 3) ∧
    c.th 2 = .ret (some 3) ∧ ¬ SameRoot (par c.mem) 0 1 ∧ EqvGen (Issued sfCall) 0 1 := by
  refine ⟨run sfInit (List.replicate 12 0 ++ List.replicate 40 1 ++ List.replicate 40 2), run_steps _ _,
    rfl, rfl, rfl, ?_, ?_⟩
  · rintro ⟨r, ⟨_, k, hk⟩, ⟨_, l, hl⟩⟩
    rw [Function.iterate_fixed (show par _ 0 = 0 from rfl)] at hk
    rw [Function.iterate_fixed (show par _ 1 = 1 from rfl)] at hl
    omega
  · have h0 : EqvGen (Issued sfCall) 5 0 := EqvGen.rel _ _ ⟨0, rfl⟩
    have h1 : EqvGen (Issued sfCall) 5 3 := EqvGen.rel _ _ ⟨1, rfl⟩
    have h2 : EqvGen (Issued sfCall) 3 1 := EqvGen.rel _ _ ⟨2, rfl⟩
    exact (h0.symm.trans _ _ _ h1).trans _ _ _ h2

end Gbbs.UF
