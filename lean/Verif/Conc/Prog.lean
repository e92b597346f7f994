/-
Concurrent programs over shared memory and a rely-guarantee principle for them.

A thread is a tree of memory accesses; the threads of a configuration take steps of one access each in
any order (sequential consistency). Loops are unrolled a bounded number of times (`stuck` afterwards);
theorems hold for every bound, and every finite execution of a loop is an execution of an unrolling.
-/
import Verif.Atomics.Model

namespace Gbbs.Conc

set_option linter.unusedSectionVars false

open Atomics (Steps)

/-- A thread. -/
inductive Prog (L V α : Type) : Type
  | ret (a : α) : Prog L V α
  | stuck : Prog L V α
  | read (x : L) (k : V → Prog L V α) : Prog L V α
  | write (x : L) (v : V) (k : Prog L V α) : Prog L V α
  | cas (x : L) (o n : V) (k : Bool → Prog L V α) : Prog L V α

variable {L V α β ι G : Type}

/-- Sequential composition. -/
def Prog.bind : Prog L V α → (α → Prog L V β) → Prog L V β
  | .ret a, f => f a
  | .stuck, _ => .stuck
  | .read x k, f => .read x fun v => (k v).bind f
  | .write x v k, f => .write x v (k.bind f)
  | .cas x o n k, f => .cas x o n fun b => (k b).bind f

/-- Store to a location. -/
def put [DecidableEq L] (m : L → V) (x : L) (v : V) : L → V := fun y => if y = x then v else m y

@[simp] theorem put_same [DecidableEq L] (m : L → V) (x : L) (v : V) : put m x v x = v := by simp [put]

theorem put_ne [DecidableEq L] (m : L → V) {x y : L} (v : V) (h : y ≠ x) : put m x v y = m y := by
  simp [put, h]

/-- One access of a thread. -/
def Prog.step [DecidableEq L] [DecidableEq V] (m : L → V) : Prog L V α → Option ((L → V) × Prog L V α)
  | .ret _ => none
  | .stuck => none
  | .read x k => some (m, k (m x))
  | .write x v k => some (put m x v, k)
  | .cas x o n k => if m x = o then some (put m x n, k true) else some (m, k false)

/-- Memory and threads. -/
structure Conf (ι L V α : Type) where
  mem : L → V
  th : ι → Prog L V α

/-- Some thread takes a step. -/
def Step [DecidableEq L] [DecidableEq V] [DecidableEq ι] (c c' : Conf ι L V α) : Prop :=
  ∃ i m' p', (c.th i).step c.mem = some (m', p') ∧
    c' = ⟨m', fun j => if j = i then p' else c.th j⟩

/-- Runs the threads in the given order of accesses (for examples). -/
def run [DecidableEq L] [DecidableEq V] [DecidableEq ι] (c : Conf ι L V α) : List ι → Conf ι L V α
  | [] => c
  | i :: l =>
    match (c.th i).step c.mem with
    | none => run c l
    | some (m', p') => run ⟨m', fun j => if j = i then p' else c.th j⟩ l

theorem run_steps [DecidableEq L] [DecidableEq V] [DecidableEq ι] (c : Conf ι L V α) (l : List ι) :
    Steps Step c (run c l) := by
  have trans : ∀ {a b d : Conf ι L V α}, Steps Step a b → Steps Step b d → Steps Step a d := by
    intro a b d h1 h2
    induction h2 with
    | refl => exact h1
    | tail _ hs ih => exact ih.tail hs
  induction l generalizing c with
  | nil => exact Steps.refl _
  | cons i l ih =>
    rw [run]
    split
    · exact ih c
    · rename_i m' p' h
      exact trans ((Steps.refl _).tail ⟨i, m', p', h, rfl⟩) (ih _)

/-- Invariant, rely and guarantee over ghost states. -/
structure RG (ι G L V : Type) where
  Inv : G → (L → V) → Prop
  R : ι → G → G → Prop
  Gu : ι → G → G → Prop
  refl : ∀ i g, R i g g
  trans : ∀ i g g' g'', R i g g' → R i g' g'' → R i g g''
  compat : ∀ i j g g', i ≠ j → Gu i g g' → R j g g'

variable [DecidableEq L] [DecidableEq V]

/-- Every access of the thread keeps the invariant by a guaranteed ghost step, whatever the others do
within the rely; results satisfy `Post`, stably. -/
def Safe (A : RG ι G L V) (i : ι) (Post : G → α → Prop) : Prog L V α → G → Prop
  | .ret a, g => ∀ g', A.R i g g' → Post g' a
  | .stuck, _ => True
  | .read x k, g => ∀ g' m, A.R i g g' → A.Inv g' m →
      ∃ g'', A.Gu i g' g'' ∧ A.Inv g'' m ∧ Safe A i Post (k (m x)) g''
  | .write x v k, g => ∀ g' m, A.R i g g' → A.Inv g' m →
      ∃ g'', A.Gu i g' g'' ∧ A.Inv g'' (put m x v) ∧ Safe A i Post k g''
  | .cas x o n k, g => ∀ g' m, A.R i g g' → A.Inv g' m →
      (m x = o → ∃ g'', A.Gu i g' g'' ∧ A.Inv g'' (put m x n) ∧ Safe A i Post (k true) g'') ∧
      (m x ≠ o → ∃ g'', A.Gu i g' g'' ∧ A.Inv g'' m ∧ Safe A i Post (k false) g'')

theorem Safe.mono {A : RG ι G L V} {i : ι} {Post : G → α → Prop} {p : Prog L V α} {g g' : G}
    (h : Safe A i Post p g) (hr : A.R i g g') : Safe A i Post p g' := by
  cases p with
  | ret a => exact fun g'' h' => h g'' (A.trans _ _ _ _ hr h')
  | stuck => trivial
  | read x k => exact fun g'' m h' hi => h g'' m (A.trans _ _ _ _ hr h') hi
  | write x v k => exact fun g'' m h' hi => h g'' m (A.trans _ _ _ _ hr h') hi
  | cas x o n k => exact fun g'' m h' hi => h g'' m (A.trans _ _ _ _ hr h') hi

/-- Sequential composition. -/
theorem Safe.bind {A : RG ι G L V} {i : ι} {Q : G → α → Prop} {Post : G → β → Prop}
    {p : Prog L V α} {f : α → Prog L V β} {g : G} (h : Safe A i Q p g)
    (hf : ∀ a g, Q g a → Safe A i Post (f a) g) : Safe A i Post (p.bind f) g := by
  induction p generalizing g with
  | ret a => exact hf a g (h g (A.refl _ _))
  | stuck => trivial
  | read x k ih =>
    intro g' m hr hi
    obtain ⟨g'', h1, h2, h3⟩ := h g' m hr hi
    exact ⟨g'', h1, h2, ih _ h3⟩
  | write x v k ih =>
    intro g' m hr hi
    obtain ⟨g'', h1, h2, h3⟩ := h g' m hr hi
    exact ⟨g'', h1, h2, ih h3⟩
  | cas x o n k ih =>
    intro g' m hr hi
    obtain ⟨ha, hb⟩ := h g' m hr hi
    refine ⟨fun he => ?_, fun he => ?_⟩
    · obtain ⟨g'', h1, h2, h3⟩ := ha he
      exact ⟨g'', h1, h2, ih _ h3⟩
    · obtain ⟨g'', h1, h2, h3⟩ := hb he
      exact ⟨g'', h1, h2, ih _ h3⟩

/-- Weakening of the postcondition. -/
theorem Safe.weaken {A : RG ι G L V} {i : ι} {Q Post : G → α → Prop}
    {p : Prog L V α} {g : G} (h : Safe A i Q p g)
    (hf : ∀ a g, Q g a → Post g a) : Safe A i Post p g := by
  induction p generalizing g with
  | ret a => exact fun g' hr => hf _ _ (h g' hr)
  | stuck => trivial
  | read x k ih =>
    intro g' m hr hi
    obtain ⟨g'', h1, h2, h3⟩ := h g' m hr hi
    exact ⟨g'', h1, h2, ih _ h3⟩
  | write x v k ih =>
    intro g' m hr hi
    obtain ⟨g'', h1, h2, h3⟩ := h g' m hr hi
    exact ⟨g'', h1, h2, ih h3⟩
  | cas x o n k ih =>
    intro g' m hr hi
    obtain ⟨ha, hb⟩ := h g' m hr hi
    refine ⟨fun he => ?_, fun he => ?_⟩
    · obtain ⟨g'', h1, h2, h3⟩ := ha he
      exact ⟨g'', h1, h2, ih _ h3⟩
    · obtain ⟨g'', h1, h2, h3⟩ := hb he
      exact ⟨g'', h1, h2, ih _ h3⟩

/-- Soundness: in every reachable configuration the invariant holds for some ghost state for which
all threads are still safe; in particular finished threads satisfy their postconditions. -/
theorem safe_reach [DecidableEq ι] (A : RG ι G L V) (Post : ι → G → α → Prop) {c0 c : Conf ι L V α}
    (hr : Steps Step c0 c) (g0 : G) (h0 : A.Inv g0 c0.mem) (hs : ∀ i, Safe A i (Post i) (c0.th i) g0) :
    ∃ g, A.Inv g c.mem ∧ (∀ i, Safe A i (Post i) (c.th i) g) ∧
      ∀ i a, c.th i = .ret a → Post i g a := by
  have main : ∃ g, A.Inv g c.mem ∧ ∀ i, Safe A i (Post i) (c.th i) g := by
    induction hr with
    | refl => exact ⟨g0, h0, hs⟩
    | @tail b c _ hst ih =>
      obtain ⟨g, hi, hall⟩ := ih
      obtain ⟨i, m', p', hp, rfl⟩ := hst
      have key : ∃ g', A.Gu i g g' ∧ A.Inv g' m' ∧ Safe A i (Post i) p' g' := by
        have hsi := hall i
        cases hth : b.th i with
        | ret a => rw [hth] at hp; cases hp
        | stuck => rw [hth] at hp; cases hp
        | read x k =>
          rw [hth] at hp hsi
          cases hp
          exact hsi g b.mem (A.refl _ _) hi
        | write x v k =>
          rw [hth] at hp hsi
          cases hp
          exact hsi g b.mem (A.refl _ _) hi
        | cas x o n k =>
          rw [hth] at hp hsi
          obtain ⟨h1, h2⟩ := hsi g b.mem (A.refl _ _) hi
          simp only [Prog.step] at hp
          split at hp
          · rename_i he; cases hp; exact h1 he
          · rename_i he; cases hp; exact h2 he
      obtain ⟨g', hgu, hi', hs'⟩ := key
      refine ⟨g', hi', fun j => ?_⟩
      show Safe A j (Post j) (if j = i then p' else b.th j) g'
      split
      · rename_i h; subst h; exact hs'
      · rename_i h; exact (hall j).mono (A.compat i j g g' (Ne.symm h) hgu)
  obtain ⟨g, h1, h2⟩ := main
  refine ⟨g, h1, h2, fun i a ha => ?_⟩
  have := h2 i
  rw [ha] at this
  exact this g (A.refl _ _)

end Gbbs.Conc
