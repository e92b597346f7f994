/-
C144: incremental union-find, `UFAlgorithm::process_batch` (`benchmarks/Connectivity/UnionFind/Connectivity.h:112-146`) and
`find_compress_uf` (`Connectivity.h:150-163`).
-/
import Verif.Algo.UFSample

namespace Gbbs.UFBatch

open Conc Conc.Prog Relation UF
open Atomics (Steps)

/-! ### Model -/

/-- An update, `benchmarks/Connectivity/common.h` (`incremental_update`). -/
inductive Op where
  | ins (u v : Nat)
  | query (u v : Nat)
deriving DecidableEq, Repr

def Op.isIns : Op → Bool
  | .ins _ _ => true
  | .query _ _ => false

def Op.pair : Op → Nat × Nat
  | .ins u v => (u, v)
  | .query u v => (u, v)

/-- A query, `Connectivity.h:128-129`, `138-139`: `find(u)`, `find(v)`.  The code drops both results; here the answer they
give, `some 1` if they agree, is the result of the thread. -/
def asks (find : Nat → P Nat) (u v : Nat) : P (Option Nat) :=
  (find u).bind fun a => (find v).bind fun b => ret (if a = b then some 1 else none)

/-- The body of the loops, `Connectivity.h:123`, `127-129`, `133-142`.  `U u v p`: `p` is a call `unite(u, v)`. -/
inductive Runs (U : Nat → Nat → P (Option Nat) → Prop) : Op → P (Option Nat) → Prop
  | ins {u v p} (h : U u v p) : Runs U (.ins u v) p
  | query {find u v} (h : IsFind find) : Runs U (.query u v) (asks find u v)

/-- A `parallel_for` over `ops`, from memory `m` to `m'`, in any interleaving. -/
structure ParRun (U : Nat → Nat → P (Option Nat) → Prop) (ops : List Op) (m m' : Loc → Nat) where
  th : Fin ops.length → P (Option Nat)
  runs : ∀ i, Runs U (ops.get i) (th i)
  res : Fin ops.length → Option Nat
  steps : Steps Step ⟨m, th⟩ ⟨m', fun i => ret (res i)⟩

/-- A call of `process_batch`; `reorder` is its template parameter. -/
structure Batch where
  reorder : Bool
  ops : List Op

/-- The loops of a call, `Connectivity.h:115-144`; `reorder_updates` (`common.h:15-21`) puts the insertions first. -/
def Batch.loops (b : Batch) : List (List Op) :=
  if b.reorder then [b.ops.filter Op.isIns, b.ops.filter fun o => !o.isIns] else [b.ops]

/-- Loops one after the other. -/
inductive SeqRun (U : Nat → Nat → P (Option Nat) → Prop) : (Loc → Nat) → List (List Op) → (Loc → Nat) → Prop
  | nil (m) : SeqRun U m [] m
  | cons {m m1 m2 ops l} (h : ParRun U ops m m1) (h' : SeqRun U m1 l m2) : SeqRun U m (ops :: l) m2

/-- Calls of `process_batch` one after the other. -/
def History (U : Nat → Nat → P (Option Nat) → Prop) (m : Loc → Nat) (bs : List Batch) (m' : Loc → Nat) : Prop :=
  SeqRun U m (bs.flatMap Batch.loops) m'

/-! ### Specification -/

/-- The labels at the start: the identity, or the result of `compute_components`. -/
structure Flat (n : Nat) (P0 : Nat → Nat) : Prop where
  lt : ∀ x, x < n → P0 x < n
  flat : ∀ x, P0 (P0 x) = P0 x
  out : ∀ x, n ≤ x → P0 x = x

/-- Edges known: those of the labels at the start, and all that were inserted. -/
def Known (P0 : Nat → Nat) (bs : List Batch) (a b : Nat) : Prop :=
  P0 a = b ∨ ∃ t ∈ bs, .ins a b ∈ t.ops

/-- All vertices are below `n`. -/
def InRange (n : Nat) (bs : List Batch) : Prop := ∀ t ∈ bs, ∀ o ∈ t.ops, o.pair.1 < n ∧ o.pair.2 < n

/-! ### One execution of all operations -/

theorem lift_left {ι κ : Type} [DecidableEq ι] [DecidableEq κ] {c c' : Conf ι Loc Nat (Option Nat)} (h : Steps Step c c')
    (b : κ → P (Option Nat)) :
    Steps Step (⟨c.mem, Sum.elim c.th b⟩ : Conf (ι ⊕ κ) Loc Nat (Option Nat)) ⟨c'.mem, Sum.elim c'.th b⟩ := by
  induction h with
  | refl => exact .refl _
  | tail _ hs ih =>
    obtain ⟨i, m', p', h1, rfl⟩ := hs
    refine ih.tail ⟨.inl i, m', p', h1, ?_⟩
    congr 1
    funext j
    cases j with
    | inl j => by_cases h : j = i <;> simp [h]
    | inr j => simp

theorem lift_right {ι κ : Type} [DecidableEq ι] [DecidableEq κ] {c c' : Conf κ Loc Nat (Option Nat)} (h : Steps Step c c')
    (a : ι → P (Option Nat)) :
    Steps Step (⟨c.mem, Sum.elim a c.th⟩ : Conf (ι ⊕ κ) Loc Nat (Option Nat)) ⟨c'.mem, Sum.elim a c'.th⟩ := by
  induction h with
  | refl => exact .refl _
  | tail _ hs ih =>
    obtain ⟨i, m', p', h1, rfl⟩ := hs
    refine ih.tail ⟨.inr i, m', p', h1, ?_⟩
    congr 1
    funext j
    cases j with
    | inr j => by_cases h : j = i <;> simp [h]
    | inl j => simp

/-- A finished execution of the operations `op`, all in parallel. -/
structure Whole (U : Nat → Nat → P (Option Nat) → Prop) (ι : Type) [DecidableEq ι] (op : ι → Op) (res : ι → Option Nat)
    (m m' : Loc → Nat) : Prop where
  ex : ∃ th : ι → P (Option Nat), (∀ i, Runs U (op i) (th i)) ∧ Steps Step ⟨m, th⟩ ⟨m', fun i => ret (res i)⟩

theorem steps_trans {κ : Type} [DecidableEq κ] {a b c : Conf κ Loc Nat (Option Nat)} (h : Steps Step a b) (h' : Steps Step b c) :
    Steps Step a c := by
  induction h' with
  | refl => exact h
  | tail _ hs ih => exact ih.tail hs

theorem Whole.append {U : Nat → Nat → P (Option Nat) → Prop} {ι κ : Type} [DecidableEq ι] [DecidableEq κ] {op : ι → Op}
    {res : ι → Option Nat} {op' : κ → Op} {res' : κ → Option Nat} {m m1 m2 : Loc → Nat} (h : Whole U ι op res m m1)
    (h' : Whole U κ op' res' m1 m2) : Whole U (ι ⊕ κ) (Sum.elim op op') (Sum.elim res res') m m2 := by
  obtain ⟨th, r, s⟩ := h.ex
  obtain ⟨th', r', s'⟩ := h'.ex
  refine ⟨Sum.elim th th', fun i => by cases i with | inl i => exact r i | inr i => exact r' i, ?_⟩
  have e : (fun i => ret (Sum.elim res res' i) : ι ⊕ κ → P (Option Nat)) =
      Sum.elim (fun i => ret (res i)) fun i => ret (res' i) := by
    funext i; cases i <;> rfl
  rw [e]
  exact steps_trans (lift_left s th') (lift_right s' _)

theorem ParRun.whole {U : Nat → Nat → P (Option Nat) → Prop} {ops : List Op} {m m' : Loc → Nat} (h : ParRun U ops m m') :
    Whole U (Fin ops.length) ops.get h.res m m' := ⟨h.th, h.runs, h.steps⟩

/-- A sequence of loops is one of the interleavings of all operations. -/
theorem SeqRun.whole {U : Nat → Nat → P (Option Nat) → Prop} {m m' : Loc → Nat} {l : List (List Op)} (h : SeqRun U m l m') :
    ∃ (ι : Type) (_ : DecidableEq ι) (op : ι → Op) (res : ι → Option Nat), Whole U ι op res m m' ∧
      ∀ o, (∃ i, op i = o) ↔ ∃ ops ∈ l, o ∈ ops := by
  induction h with
  | nil m => exact ⟨Empty, inferInstance, fun i => i.elim, fun i => i.elim, ⟨⟨fun i => i.elim, fun i => i.elim, by
      have : (fun i : Empty => (i.elim : P (Option Nat))) = fun i => ret (i.elim) := by funext i; exact i.elim
      rw [this]; exact .refl _⟩⟩, fun o => ⟨fun ⟨i, _⟩ => i.elim, fun ⟨_, h, _⟩ => absurd h (by simp)⟩⟩
  | @cons m m1 m2 ops l h h' ih =>
    obtain ⟨ι, di, op, res, hw, hop⟩ := ih
    refine ⟨Fin ops.length ⊕ ι, inferInstance, _, _, h.whole.append hw, fun o => ?_⟩
    constructor
    · rintro ⟨i | i, hi⟩
      · exact ⟨ops, List.mem_cons_self, hi ▸ List.get_mem ops i⟩
      · obtain ⟨a, h1, h2⟩ := (hop o).1 ⟨i, hi⟩
        exact ⟨a, List.mem_cons_of_mem _ h1, h2⟩
    · rintro ⟨a, h1, h2⟩
      rcases List.mem_cons.1 h1 with rfl | h1
      · obtain ⟨i, hi⟩ := List.get_of_mem h2
        exact ⟨.inl i, hi⟩
      · obtain ⟨i, hi⟩ := (hop o).2 ⟨a, h1, h2⟩
        exact ⟨.inr i, hi⟩

theorem mem_loops (b : Batch) (o : Op) : (∃ l ∈ b.loops, o ∈ l) ↔ o ∈ b.ops := by
  unfold Batch.loops
  cases b.reorder
  · simp
  · simp only [if_true, List.mem_cons, List.not_mem_nil, or_false, exists_eq_or_imp, exists_eq_left, List.mem_filter]
    cases o <;> simp [Op.isIns]

theorem mem_flat (bs : List Batch) (o : Op) : (∃ l ∈ bs.flatMap Batch.loops, o ∈ l) ↔ ∃ b ∈ bs, o ∈ b.ops := by
  simp only [List.mem_flatMap]
  constructor
  · rintro ⟨l, ⟨b, hb, hl⟩, ho⟩
    exact ⟨b, hb, (mem_loops b o).1 ⟨l, hl, ho⟩⟩
  · rintro ⟨b, hb, ho⟩
    obtain ⟨l, hl, ho⟩ := (mem_loops b o).2 ho
    exact ⟨l, ⟨b, hb, hl⟩, ho⟩

/-! ### Safety -/

section
variable {ι : Type} [DecidableEq ι]

/-- What a finished operation guarantees. -/
def OPost (P0 : Nat → Nat) (op : ι → Op) (call : ι ⊕ Lf P0 → Nat × Nat) : ι ⊕ Lf P0 → Gh (ι ⊕ Lf P0) → Option Nat → Prop
  | .inl i, g, r => if (op i).isIns then Same g (call (.inl i)).1 (call (.inl i)).2
      else (∀ x, g.own x ≠ some (.inl i)) ∧ (r = some 1 → Same g (call (.inl i)).1 (call (.inl i)).2)
  | .inr x, g, _ => Same g (call (.inr x)).1 (call (.inr x)).2

theorem asks_safe {o : Ord} {κ : Type} [DecidableEq κ] {call : κ → Nat × Nat} {md : Mode} {free : Nat} {find : Nat → P Nat}
    (hf : IsFind find) {i : κ} {u v : Nat} {g : Gh κ} (hg : ∀ x, g.own x ≠ some i) :
    Safe (rg o call md free) i (fun g r => (∀ x, g.own x ≠ some i) ∧ (r = some 1 → Same g u v)) (asks find u v) g := by
  refine (hf.spec i _ (stable_noown i) u g hg).bind fun a g1 h1 => ?_
  refine (hf.spec i _ ((stable_noown i).and (stable_anc i u a)) v g1 ⟨h1.2, h1.1.1⟩).bind fun b g2 h2 => ?_
  intro g3 hr
  refine ⟨stable_noown i g2 g3 hr h2.2.1, fun hab => ?_⟩
  by_cases h : a = b
  · subst h
    exact Same.mono hr.1 ⟨a, h2.2.2, h2.1.1⟩
  · rw [if_neg h] at hab; cases hab

/-- The core: all operations, in one execution. -/
theorem whole_core {U : Nat → Nat → P (Option Nat) → Prop} {o : Ord} {md : Mode} {free : Nat} {P0 : Nat → Nat} {op : ι → Op}
    {res : ι → Option Nat} {m : Loc → Nat} (hw : Whole U ι op res (memS P0 free) m)
    (hi : UInv o (callS (fun i => (op i).pair) P0) md free (gS P0) (memS P0 free))
    (hU : ∀ i p, U (op i).pair.1 (op i).pair.2 p → Safe (rg o (callS (fun i => (op i).pair) P0) md free) (.inl i)
      (CPost (callS (fun i => (op i).pair) P0) (.inl i)) p (gS P0)) :
    ∃ (κ : Type) (_ : DecidableEq κ) (call : κ → Nat × Nat) (g : Gh κ), UInv o call md free g m ∧
    (∀ x y, SameRoot (par m) x y ↔ EqvGen (fun a b => P0 a = b ∨ ∃ i, op i = .ins a b) x y) ∧
    ∀ i u v, op i = .query u v → res i = some 1 → SameRoot (par m) u v := by
  obtain ⟨th, hr, hs⟩ := hw.ex
  obtain ⟨g, h1, -, h2⟩ := safe_reach (rg o (callS (fun i => (op i).pair) P0) md free)
    (OPost P0 op (callS (fun i => (op i).pair) P0)) (steps_lift P0 hs) (gS P0) hi (fun i => by
      cases i with
      | inl i =>
        show Safe _ _ _ (th i) _
        have := hr i
        cases hop : op i with
        | ins u v =>
          rw [hop] at this
          cases this with
          | ins h =>
            refine (hU i (th i) (by rw [hop]; exact h)).weaken fun a g hp => ?_
            simp only [OPost, hop, Op.isIns, if_true]
            exact hp
        | query u v =>
          rw [hop] at this
          generalize th i = p at this
          cases this with
          | query hf =>
            refine (asks_safe hf (noownS i)).weaken fun a g hp => ?_
            simp only [OPost, hop, Op.isIns, Bool.false_eq_true, if_false]
            refine ⟨hp.1, fun hr => ?_⟩
            have := hp.2 hr
            simpa [callS, hop, Op.pair] using this
      | inr x => exact (postS x).weaken fun r g h => h.1)
  have h1 : UInv o (callS (fun i => (op i).pair) P0) md free g m := h1
  have pi : ∀ i, OPost P0 op (callS (fun i => (op i).pair) P0) (.inl i) g (res i) := fun i => h2 (.inl i) _ rfl
  have px : ∀ x : Lf P0, Same g x.1 (P0 x.1) := fun x => h2 (.inr x) (some x.1) rfl
  refine ⟨_, inferInstance, _, g, h1, fun x y => ⟨fun h => ?_, ?_⟩, fun i u v hop hres => ?_⟩
  · refine EqvGen.mono ?_ _ _ (sameRoot_rec h1 h)
    rintro a b ⟨z, i, hz, hab⟩
    cases i with
    | inl i =>
      refine .inr ⟨i, ?_⟩
      have hab : (op i).pair = (a, b) := hab
      have := pi i
      cases hop : op i with
      | ins u v =>
        rw [hop] at hab
        cases hab; rfl
      | query u v =>
        simp only [OPost, hop, Op.isIns, Bool.false_eq_true, if_false] at this
        exact absurd hz (this.1 z)
    | inr w =>
      cases hab
      exact .inl rfl
  · refine eqvGen_le (sameRoot_equiv h1) ?_
    rintro a b (h | ⟨i, hop⟩)
    · by_cases ha : P0 a = a
      · rw [← h, ha]; exact (sameRoot_equiv h1).refl a
      · rw [← h]; exact sameRoot_of_same h1 (px ⟨a, ha⟩)
    · have := pi i
      simp only [OPost, hop, Op.isIns, if_true] at this
      simp only [callS, Sum.elim_inl, hop, Op.pair] at this
      exact sameRoot_of_same h1 this
  · have := pi i
    simp only [OPost, hop, Op.isIns, Bool.false_eq_true, if_false] at this
    have := this.2 hres
    simp only [callS, Sum.elim_inl, hop, Op.pair] at this
    exact sameRoot_of_same h1 this

end

/-- What a rule needs so that the batches are right. -/
def Good (U : Nat → Nat → P (Option Nat) → Prop) (n : Nat) (P0 : Nat → Nat) (md : Mode) (free : Nat) : Prop :=
  ∃ o : Ord, ∀ (ι : Type) [DecidableEq ι] (call : ι → Nat × Nat), (∀ i, (call i).1 < n ∧ (call i).2 < n) →
    UInv o (callS call P0) md free (gS P0) (memS P0 free) ∧
    ∀ i p, U (call i).1 (call i).2 p → Safe (rg o (callS call P0) md free) (.inl i) (CPost (callS call P0) (.inl i)) p (gS P0)

theorem good_con {n : Nat} (hn : n ≤ uMax) {P0 : Nat → Nat} (hf : Flat n P0) (md : Mode) (free : Nat) :
    Good (fun u v p => IsCon u v md free p) n P0 md free := by
  refine ⟨ordS P0 (· < n), fun ι _ call hc => ⟨invS_of (fun x hx => ?_) hf.flat hf.lt (fun i => ?_) fun _ _ h => h,
    fun i p hp => hp.safe (fun _ _ hx => Nat.lt_of_lt_of_le hx hn) hc⟩⟩
  · show (if P0 (P0 x) = P0 x then 2 * P0 x else 2 * P0 (P0 x) + 1) < (if P0 x = x then 2 * x else 2 * P0 x + 1)
    rw [if_pos (hf.flat x), if_neg hx]; omega
  · cases i with
    | inl i => exact hc i
    | inr x =>
      have hx : x.1 < n := Nat.lt_of_not_le fun h => x.2 (hf.out _ h)
      exact ⟨hx, hf.lt _ hx⟩

theorem good_early {n : Nat} {P0 : Nat → Nat} (hf : Flat n P0) (hle : ∀ x, P0 x ≤ x) : Good IsEarly n P0 .cas 0 := by
  refine ⟨.nat (· < n), fun ι _ call hc => ⟨invS_of (fun x hx => Nat.lt_of_le_of_ne (hle x) hx) (fun _ => trivial) hf.lt
    (fun i => ?_) (fun h => by cases h), fun i p hp => (IsEarly.safe hp).weaken fun _ _ h => h.1⟩⟩
  cases i with
  | inl i => exact hc i
  | inr x =>
    have hx : x.1 < n := Nat.lt_of_not_le fun h => x.2 (hf.out _ h)
    exact ⟨hx, hf.lt _ hx⟩

theorem whole_good {U : Nat → Nat → P (Option Nat) → Prop} {n : Nat} {P0 : Nat → Nat} {md : Mode} {free : Nat}
    (hU : Good U n P0 md free) {ι : Type} [DecidableEq ι] {op : ι → Op} {res : ι → Option Nat} {m : Loc → Nat}
    (hw : Whole U ι op res (memS P0 free) m) (hr : ∀ i, (op i).pair.1 < n ∧ (op i).pair.2 < n) :
    ∃ (o : Ord) (κ : Type) (_ : DecidableEq κ) (call : κ → Nat × Nat) (g : Gh κ), UInv o call md free g m ∧
    (∀ x y, SameRoot (par m) x y ↔ EqvGen (fun a b => P0 a = b ∨ ∃ i, op i = .ins a b) x y) ∧
    ∀ i u v, op i = .query u v → res i = some 1 → SameRoot (par m) u v := by
  obtain ⟨o, h⟩ := hU
  obtain ⟨h1, h2⟩ := h ι (fun i => (op i).pair) hr
  exact ⟨o, whole_core hw h1 h2⟩

theorem history_good {U : Nat → Nat → P (Option Nat) → Prop} {n : Nat} {P0 : Nat → Nat} {md : Mode} {free : Nat}
    (hU : Good U n P0 md free) {bs : List Batch} (hr : InRange n bs) {m : Loc → Nat} (h : History U (memS P0 free) bs m) :
    ∃ (o : Ord) (κ : Type) (_ : DecidableEq κ) (call : κ → Nat × Nat) (g : Gh κ), UInv o call md free g m ∧
    ∀ x y, SameRoot (par m) x y ↔ EqvGen (Known P0 bs) x y := by
  obtain ⟨ι, di, op, res, hw, hop⟩ := SeqRun.whole h
  have hop : ∀ o, (∃ i, op i = o) ↔ ∃ b ∈ bs, o ∈ b.ops := fun o => (hop o).trans (mem_flat bs o)
  obtain ⟨o, κ, dk, call, g, h1, h2, -⟩ := whole_good hU hw (fun i => by
    obtain ⟨b, hb, ho⟩ := (hop (op i)).1 ⟨i, rfl⟩
    exact hr b hb _ ho)
  refine ⟨o, κ, dk, call, g, h1, fun x y => ?_⟩
  rw [h2]
  have : (fun a b => P0 a = b ∨ ∃ i, op i = .ins a b) = Known P0 bs := by
    funext a b
    exact propext (or_congr Iff.rfl (hop (.ins a b)))
  rw [this]

/-- Queries that run without insertions beside them return the exact answer. -/
theorem queries_exact {U : Nat → Nat → P (Option Nat) → Prop} {o : Ord} {κ : Type} [DecidableEq κ] {call : κ → Nat × Nat}
    {md : Mode} {free : Nat} {g : Gh κ} {m m' : Loc → Nat} (hi : UInv o call md free g m) {ops : List Op}
    (hq : ∀ o ∈ ops, o.isIns = false) (h : ParRun U ops m m') (i : Fin ops.length) :
    h.res i = some 1 ↔ SameRoot (par m) (ops.get i).pair.1 (ops.get i).pair.2 := by
  choose rt hrt using exists_root hi
  have hstep : ∀ x, RootOf (par m) x (rt (par m x)) := fun x => by
    obtain ⟨h1, k, h2⟩ := hrt (par m x)
    exact ⟨h1, k + 1, h2⟩
  have heq : ∀ x, rt (par m x) = rt x := fun x => rootOf_unique (hstep x) (hrt x)
  have hanc : ∀ x, Anc g x (rt x) := fun x => ((rootOf_iff hi).1 (hrt x)).1
  have hle : ∀ {a b : Nat}, Anc g a b → o.le b a := fun h => anc_lt hi.lt h
  have hF : Fr o rt (par m) := by
    refine ⟨heq, fun x => ?_, fun x => hle (hi.anc x), fun x => hi.par_cn x, fun x hx => rootOf_unique (hrt x) ⟨hx, 0, rfl⟩⟩
    rw [← heq x]
    exact hle (hanc _)
  have hid : ∀ x, rt (rt x) = rt x := fun x => rootOf_unique (hrt (rt x)) ⟨(hrt x).1, 0, rfl⟩
  have hrc : ∀ x, o.cn (rt x) := fun x => by
    have h := hi.par_cn (rt x)
    have h' : m (.par (rt x)) = rt x := (hrt x).1
    rwa [h'] at h
  obtain ⟨g', -, -, hp⟩ := safe_reach (rgF (Fin ops.length) o rt)
    (fun i _ r => r = if rt (ops.get i).pair.1 = rt (ops.get i).pair.2 then some 1 else none) h.steps (par m)
    ⟨fun _ => rfl, hF⟩ (fun i => by
      show Safe _ _ _ (h.th i) _
      have hr := h.runs i
      have hq := hq _ (List.get_mem ops i)
      generalize ops.get i = oi at hr hq
      generalize h.th i = p at hr
      cases hr with
      | ins _ => cases hq
      | query hf =>
        refine (fr_find hid hrc hf _ _).bind fun a g1 ha => (fr_find hid hrc hf _ _).bind fun b g2 hb => ?_
        intro g3 _
        rw [ha, hb]; rfl)
  rw [hp i _ rfl]
  constructor
  · intro hh
    split at hh
    · rename_i e
      exact ⟨_, hrt _, e ▸ hrt _⟩
    · cases hh
  · rintro ⟨r, h1, h2⟩
    rw [if_pos ((rootOf_unique (hrt _) h1).trans (rootOf_unique (hrt _) h2).symm)]

/-! ### C144 -/

/-- C144: after any calls of `process_batch`, with either template argument, any `unite` rule of the connectivity code, any
finds and any interleaving within the loops, two vertices have the same root exactly if they are connected by the labels at the
start and the insertions so far. -/
theorem C144_batches {n : Nat} (hn : n ≤ uMax) {P0 : Nat → Nat} (hf : Flat n P0) {md : Mode} {free : Nat} {bs : List Batch}
    (hr : InRange n bs) {m : Loc → Nat} (h : History (fun u v p => IsCon u v md free p) (memS P0 free) bs m) (x y : Nat) :
    SameRoot (par m) x y ↔ EqvGen (Known P0 bs) x y := by
  obtain ⟨-, -, -, -, -, -, h2⟩ := history_good (good_con hn hf md free) hr h
  exact h2 x y

/-- C144 for `UniteEarly`, partial: for labels at the start that do not exceed the vertices. -/
theorem C144_batches_early_partial {n : Nat} {P0 : Nat → Nat} (hf : Flat n P0) (hle : ∀ x, P0 x ≤ x) {bs : List Batch}
    (hr : InRange n bs) {m : Loc → Nat} (h : History IsEarly (memS P0 0) bs m) (x y : Nat) :
    SameRoot (par m) x y ↔ EqvGen (Known P0 bs) x y := by
  obtain ⟨-, -, -, -, -, -, h2⟩ := history_good (good_early hf hle) hr h
  exact h2 x y

theorem known_snoc {P0 : Nat → Nat} {bs : List Batch} {b : Batch} :
    Known P0 (bs ++ [⟨false, b.ops.filter Op.isIns⟩]) = Known P0 (bs ++ [b]) := by
  funext x y
  unfold Known
  refine propext (or_congr Iff.rfl ?_)
  simp only [List.mem_append, List.mem_singleton, or_and_right, exists_or, exists_eq_left, List.mem_filter, Op.isIns, and_true]

theorem seq_snoc {U : Nat → Nat → P (Option Nat) → Prop} {m m1 m2 : Loc → Nat} {l : List (List Op)} {ops : List Op}
    (h : SeqRun U m l m1) (h1 : ParRun U ops m1 m2) : SeqRun U m (l ++ [ops]) m2 := by
  induction h with
  | nil m => exact .cons h1 (.nil _)
  | cons h _ ih => exact .cons h (ih h1)

theorem reordered_queries {U : Nat → Nat → P (Option Nat) → Prop} {n : Nat} {P0 : Nat → Nat} {md : Mode} {free : Nat}
    (hU : Good U n P0 md free) {bs : List Batch} {b : Batch} (hr : InRange n (bs ++ [b])) {m m1 m2 : Loc → Nat}
    (h : History U (memS P0 free) bs m) (h1 : ParRun U (b.ops.filter Op.isIns) m m1)
    (h2 : ParRun U (b.ops.filter fun o => !o.isIns) m1 m2) (i : Fin (b.ops.filter fun o => !o.isIns).length) :
    h2.res i = some 1 ↔ EqvGen (Known P0 (bs ++ [b])) ((b.ops.filter fun o => !o.isIns).get i).pair.1
      ((b.ops.filter fun o => !o.isIns).get i).pair.2 := by
  have hh : History U (memS P0 free) (bs ++ [⟨false, b.ops.filter Op.isIns⟩]) m1 := by
    unfold History at h ⊢
    rw [List.flatMap_append]
    exact seq_snoc h h1
  obtain ⟨o, κ, dk, call, g, k1, k2⟩ := history_good hU (fun t ht o ho => by
    rcases List.mem_append.1 ht with ht | ht
    · exact hr t (List.mem_append_left _ ht) o ho
    · rw [List.mem_singleton] at ht
      subst ht
      exact hr b (by simp) o (List.mem_filter.1 ho).1) hh
  rw [← known_snoc, ← k2]
  exact queries_exact k1 (fun o ho => by simpa using (List.mem_filter.1 ho).2) h2 i

theorem mixed_queries {U : Nat → Nat → P (Option Nat) → Prop} {n : Nat} {P0 : Nat → Nat} {md : Mode} {free : Nat}
    (hU : Good U n P0 md free) {bs : List Batch} {ops : List Op} (hr : InRange n (bs ++ [⟨false, ops⟩])) {m m1 : Loc → Nat}
    (h : History U (memS P0 free) bs m) (h1 : ParRun U ops m m1) (i : Fin ops.length) (hq : (ops.get i).isIns = false)
    (hy : h1.res i = some 1) :
    EqvGen (Known P0 (bs ++ [⟨false, ops⟩])) (ops.get i).pair.1 (ops.get i).pair.2 := by
  obtain ⟨ι, di, op, res, hw, hop⟩ := SeqRun.whole h
  have hop : ∀ o, (∃ i, op i = o) ↔ ∃ b ∈ bs, o ∈ b.ops := fun o => (hop o).trans (mem_flat bs o)
  have hall : ∀ o, (∃ i, (Sum.elim op ops.get : ι ⊕ Fin ops.length → Op) i = o) ↔ ∃ b ∈ bs ++ [⟨false, ops⟩], o ∈ b.ops := by
    intro o
    simp only [Sum.exists, Sum.elim_inl, Sum.elim_inr, hop o, List.mem_append, List.mem_singleton, or_and_right, exists_or,
      exists_eq_left]
    exact or_congr Iff.rfl ⟨fun ⟨j, hj⟩ => hj ▸ List.get_mem ops j, fun ho => List.get_of_mem ho⟩
  obtain ⟨-, -, -, -, -, -, h2, h3⟩ := whole_good hU (hw.append h1.whole) (fun j => by
    obtain ⟨b, hb, ho⟩ := (hall _).1 ⟨j, rfl⟩
    exact hr b hb _ ho)
  have he : (fun a b => P0 a = b ∨ ∃ i, (Sum.elim op ops.get : ι ⊕ Fin ops.length → Op) i = .ins a b) =
      Known P0 (bs ++ [⟨false, ops⟩]) := by
    funext a b
    exact propext (or_congr Iff.rfl (hall (.ins a b)))
  rw [he] at h2
  refine (h2 _ _).1 (h3 (.inr i) _ _ ?_ hy)
  show ops.get i = _
  cases hoi : ops.get i with
  | ins u v => rw [hoi] at hq; cases hq
  | query u v => rfl

/-- C144: in a reordered batch, a query is answered "yes" exactly if its vertices are connected by the labels at the start and
the insertions of this and all earlier batches. -/
theorem C144_reordered_queries {n : Nat} (hn : n ≤ uMax) {P0 : Nat → Nat} (hf : Flat n P0) {md : Mode} {free : Nat}
    {bs : List Batch} {b : Batch} (hr : InRange n (bs ++ [b])) {m m1 m2 : Loc → Nat}
    (h : History (fun u v p => IsCon u v md free p) (memS P0 free) bs m)
    (h1 : ParRun (fun u v p => IsCon u v md free p) (b.ops.filter Op.isIns) m m1)
    (h2 : ParRun (fun u v p => IsCon u v md free p) (b.ops.filter fun o => !o.isIns) m1 m2)
    (i : Fin (b.ops.filter fun o => !o.isIns).length) :
    h2.res i = some 1 ↔ EqvGen (Known P0 (bs ++ [b])) ((b.ops.filter fun o => !o.isIns).get i).pair.1
      ((b.ops.filter fun o => !o.isIns).get i).pair.2 :=
  reordered_queries (good_con hn hf md free) hr h h1 h2 i

/-- C144: in any loop, also beside insertions, an answer "yes" is right: the vertices are connected by the labels at the start
and the insertions so far, including those of the loop.  (`_partial`: an answer "no" can be wrong, `C144_mixed_wrong_no`.) -/
theorem C144_mixed_queries_partial {n : Nat} (hn : n ≤ uMax) {P0 : Nat → Nat} (hf : Flat n P0) {md : Mode} {free : Nat}
    {bs : List Batch} {ops : List Op} (hr : InRange n (bs ++ [⟨false, ops⟩])) {m m1 : Loc → Nat}
    (h : History (fun u v p => IsCon u v md free p) (memS P0 free) bs m)
    (h1 : ParRun (fun u v p => IsCon u v md free p) ops m m1) (i : Fin ops.length) (hq : (ops.get i).isIns = false)
    (hy : h1.res i = some 1) :
    EqvGen (Known P0 (bs ++ [⟨false, ops⟩])) (ops.get i).pair.1 (ops.get i).pair.2 :=
  mixed_queries (good_con hn hf md free) hr h h1 i hq hy

/-- The same for `UniteEarly`, for labels at the start that do not exceed the vertices. -/
theorem C144_early_queries_partial {n : Nat} {P0 : Nat → Nat} (hf : Flat n P0) (hle : ∀ x, P0 x ≤ x)
    {bs : List Batch} {b : Batch} (hr : InRange n (bs ++ [b])) {m m1 m2 : Loc → Nat} (h : History IsEarly (memS P0 0) bs m) :
    (∀ (_ : ParRun IsEarly (b.ops.filter Op.isIns) m m1) (h2 : ParRun IsEarly (b.ops.filter fun o => !o.isIns) m1 m2) i,
      h2.res i = some 1 ↔ EqvGen (Known P0 (bs ++ [b])) ((b.ops.filter fun o => !o.isIns).get i).pair.1
        ((b.ops.filter fun o => !o.isIns).get i).pair.2) ∧
    ∀ (h1 : ParRun IsEarly b.ops m m1) (i), (b.ops.get i).isIns = false → h1.res i = some 1 →
      EqvGen (Known P0 (bs ++ [b])) (b.ops.get i).pair.1 (b.ops.get i).pair.2 := by
  refine ⟨fun h1 h2 i => reordered_queries (good_early hf hle) hr h h1 h2 i, fun h1 i hq hy => ?_⟩
  have e : Known P0 (bs ++ [⟨false, b.ops⟩]) = Known P0 (bs ++ [b]) := by
    funext x y
    unfold Known
    simp only [List.mem_append, List.mem_singleton, or_and_right, exists_or, exists_eq_left]
  have := mixed_queries (good_early hf hle) (bs := bs) (ops := b.ops) (fun t ht o ho => by
    rcases List.mem_append.1 ht with ht | ht
    · exact hr t (List.mem_append_left _ ht) o ho
    · rw [List.mem_singleton] at ht
      subst ht
      exact hr b (by simp) o ho) h h1 i hq hy
  rwa [e] at this

/-! ### Failures -/

/-- The edge `3 - 2`, then the query `3, 2` beside the edge `2 - 1`. -/
def run1 : Conf (Fin 1) Loc Nat (Option Nat) := ⟨memS id 0, fun _ => unite (findNaive 9) 9 3 2⟩

def run2 : Conf (Fin 2) Loc Nat (Option Nat) :=
  ⟨(run run1 (List.replicate 20 0)).mem, ![asks (findNaive 9) 3 2, unite (findNaive 9) 9 2 1]⟩

def run3 : Conf (Fin 2) Loc Nat (Option Nat) := run run2 ([0, 0, 0] ++ List.replicate 20 1 ++ List.replicate 20 0)

/-- C144 is false for the answers "no" of batches that are not reordered: the edge `3 - 2` was inserted by an earlier batch; the
query first finds 2 as root of 3, then another thread links 2 to 1, and then the query finds 1 as root of 2. -/
theorem C144_mixed_wrong_no : ∃ m m1, History (fun u v p => IsCon u v .cas 0 p) (memS id 0) [⟨false, [.ins 3 2]⟩] m ∧
    EqvGen (Known id [⟨false, [.ins 3 2]⟩]) 3 2 ∧
    ∃ h : ParRun (fun u v p => IsCon u v .cas 0 p) [.query 3 2, .ins 2 1] m m1, h.res ⟨0, by decide⟩ = none := by
  refine ⟨(run run1 (List.replicate 20 0)).mem, run3.mem, .cons ⟨fun _ => unite (findNaive 9) 9 3 2, fun i => ?_, fun _ => some 3, ?_⟩
    (.nil _), .rel _ _ (.inr ⟨_, List.mem_singleton_self _, List.mem_singleton_self _⟩),
    ⟨![asks (findNaive 9) 3 2, unite (findNaive 9) 9 2 1], fun i => ?_, ![none, some 2], ?_⟩, rfl⟩
  · match i with
    | ⟨0, _⟩ => exact .ins (.rep (.unite (.naive 9) 9))
  · have h := run_steps run1 (List.replicate 20 0)
    have e : run run1 (List.replicate 20 0) = ⟨(run run1 (List.replicate 20 0)).mem, fun _ => ret (some 3)⟩ := by
      refine congrArg (Conf.mk _) (funext fun i => ?_)
      match i with
      | 0 => rfl
    rw [e] at h
    exact h
  · match i with
    | ⟨0, _⟩ => exact .query (.naive 9)
    | ⟨1, _⟩ => exact .ins (.rep (.unite (.naive 9) 9))
  · have h := run_steps run2 ([0, 0, 0] ++ List.replicate 20 1 ++ List.replicate 20 0)
    have e : run run2 ([0, 0, 0] ++ List.replicate 20 1 ++ List.replicate 20 0) =
        ⟨run3.mem, fun i => ret ((![none, some 2] : Fin 2 → Option Nat) i)⟩ := by
      refine congrArg (Conf.mk _) (funext fun i => ?_)
      match i with
      | 0 => rfl
      | 1 => rfl
    rw [e] at h
    exact h

/-- `find_compress_uf(n, updates)`, `Connectivity.h:150-163`: `unite` with `find_compress` for all pairs, from the identity; the
array `parents` is returned without a further find. -/
def FindCompressUF (ops : List Op) (parents : Nat → Nat) : Prop :=
  ∃ m, Nonempty (ParRun (fun u v p => ∃ f f', p = unite (findCompress f) f' u v) ops (memS id 0) m) ∧ parents = par m

theorem flat_id (n : Nat) : Flat n id := ⟨fun _ h => h, fun _ => rfl, fun _ _ => rfl⟩

/-- The roots of the returned array are right. -/
theorem C144_find_compress_uf_partial {n : Nat} (hn : n ≤ uMax) {ops : List Op} (hr : ∀ o ∈ ops, o.pair.1 < n ∧ o.pair.2 < n)
    {parents : Nat → Nat} (h : FindCompressUF ops parents) (x y : Nat) :
    SameRoot parents x y ↔ EqvGen (fun a b => Op.ins a b ∈ ops) x y := by
  obtain ⟨m, ⟨hp⟩, rfl⟩ := h
  have h' : History (fun u v p => IsCon u v .cas 0 p) (memS id 0) [⟨false, ops⟩] m :=
    .cons ⟨hp.th, fun i => by
      have := hp.runs i
      generalize ops.get i = oi at this ⊢
      generalize hp.th i = p at this ⊢
      cases this with
      | ins h =>
        obtain ⟨f, f', rfl⟩ := h
        exact .ins (.rep (.unite (.compress f) f'))
      | query h => exact .query h, hp.res, hp.steps⟩ (.nil _)
  rw [C144_batches hn (flat_id n) (fun t ht o ho => by
    rw [List.mem_singleton] at ht; subst ht; exact hr o ho) h' x y]
  have heq := EqvGen.is_equivalence fun a b => Op.ins a b ∈ ops
  constructor
  · refine eqvGen_le heq ?_
    rintro a b (hab | ⟨t, ht, hab⟩)
    · cases hab; exact heq.refl _
    · rw [List.mem_singleton] at ht; subst ht; exact .rel _ _ hab
  · exact EqvGen.mono (fun a b hab => .inr ⟨_, List.mem_singleton_self _, hab⟩) _ _

def runF : Conf (Fin 2) Loc Nat (Option Nat) :=
  ⟨memS id 0, ![unite (findCompress 9) 9 2 1, unite (findCompress 9) 9 1 0]⟩

/-- But its entries are not labels of the components: with the edges `2 - 1` and `1 - 0`, the entries of 1 and 2 can differ. -/
theorem C144_find_compress_uf_not_labels : ∃ parents, FindCompressUF [.ins 2 1, .ins 1 0] parents ∧ parents 1 ≠ parents 2 ∧
    EqvGen (fun a b => Op.ins a b ∈ [Op.ins 2 1, Op.ins 1 0]) 1 2 := by
  refine ⟨_, ⟨(run runF (List.replicate 40 0 ++ List.replicate 40 1)).mem, ⟨⟨![unite (findCompress 9) 9 2 1,
    unite (findCompress 9) 9 1 0], fun i => ?_, ![some 2, some 1], ?_⟩⟩, rfl⟩, by decide +kernel,
    (EqvGen.rel _ _ (List.mem_cons_self)).symm⟩
  · match i with
    | ⟨0, _⟩ => exact .ins ⟨9, 9, rfl⟩
    | ⟨1, _⟩ => exact .ins ⟨9, 9, rfl⟩
  · have h := run_steps runF (List.replicate 40 0 ++ List.replicate 40 1)
    have e : run runF (List.replicate 40 0 ++ List.replicate 40 1) = ⟨(run runF (List.replicate 40 0 ++ List.replicate 40 1)).mem,
        fun i => ret ((![some 2, some 1] : Fin 2 → Option Nat) i)⟩ := by
      refine congrArg (Conf.mk _) (funext fun i => ?_)
      match i with
      | 0 => rfl
      | 1 => rfl
    rw [e] at h
    exact h

/-! ### The hypotheses are met -/

/-- Labels of earlier components: `{0, 2}` with centre 2. -/
example : Flat 5 (fun x => if x = 0 then 2 else x) := by
  refine ⟨fun x hx => ?_, fun x => ?_, fun x hx => ?_⟩
  · split <;> omega
  · split <;> simp_all
  · rw [if_neg (by omega)]

/-- The history and the loop of `C144_mixed_wrong_no` meet the hypotheses of `C144_mixed_queries_partial`. -/
example : InRange 4 [⟨false, [.ins 3 2]⟩, ⟨false, [.query 3 2, .ins 2 1]⟩] := by
  unfold InRange
  simp [Op.pair]

example : Good (fun u v p => IsCon u v .cas 0 p) 4 id .cas 0 := good_con (by decide) (flat_id 4) _ _

/-- A query after its insertion, in a reordered batch. -/
example : (⟨true, [.query 3 2, .ins 3 2]⟩ : Batch).loops = [[.ins 3 2], [.query 3 2]] := rfl

end Gbbs.UFBatch
