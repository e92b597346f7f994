/-
Running programs on memories given by lists: a tool for concrete executions.
-/
import Verif.Conc.Par

namespace Gbbs.Conc

open Prog
open Atomics (Steps)

variable {V α : Type} [DecidableEq V]

/-- The memory of a list, with default values. -/
def tab (d : Nat → V) (l : List V) (x : Nat) : V := l.getD x (d x)

theorem tab_set {d : Nat → V} {l : List V} {a : Nat} (h : a < l.length) (v : V) : tab d (l.set a v) = put (tab d l) a v := by
  funext x
  unfold tab
  by_cases hx : x = a
  · subst hx
    rw [put_same, List.getD_eq_getElem?_getD, List.getElem?_set_self h]; rfl
  · rw [put_ne _ _ hx, List.getD_eq_getElem?_getD, List.getD_eq_getElem?_getD, List.getElem?_set_ne (Ne.symm hx)]

/-- Run a thread. -/
def execL (d : Nat → V) : Prog Nat V α → List V → Option (α × List V)
  | .ret a, l => some (a, l)
  | .stuck, _ => none
  | .read x k, l => execL d (k (tab d l x)) l
  | .write x v k, l => if x < l.length then execL d k (l.set x v) else none
  | .cas x o n k, l => if tab d l x = o then if x < l.length then execL d (k true) (l.set x n) else none else execL d (k false) l

theorem execL_sound {d : Nat → V} (p : Prog Nat V α) {l l' : List V} {a : α} (h : execL d p l = some (a, l')) :
    Em.exec p (tab d l) = some (a, tab d l') := by
  induction p generalizing l with
  | ret a => cases h; rfl
  | stuck => cases h
  | read x k ih => exact ih _ h
  | write x v k ih =>
    rw [execL] at h
    split at h
    · rename_i hx
      have := ih h
      rw [tab_set hx] at this
      exact this
    · cases h
  | cas x o n k ih =>
    rw [execL] at h
    rw [Em.exec]
    split at h
    · rename_i ho
      split at h
      · rename_i hx
        have := ih true h
        rw [tab_set hx] at this
        rw [if_pos ho]
        exact this
      · cases h
    · rename_i ho
      rw [if_neg ho]
      exact ih false h

/-- Run the threads of the list one after the other. -/
def runL (d : Nat → V) (th : Nat → Prog Nat V α) : List Nat → List V → Option (List V × List (Nat × α))
  | [], l => some (l, [])
  | i :: is, l => match execL d (th i) l with
    | none => none
    | some (a, l1) => match runL d th is l1 with
      | none => none
      | some (l2, o) => some (l2, (i, a) :: o)

/-- The results of the threads. -/
def results (dflt : Nat → α) (o : List (Nat × α)) (i : Nat) : α := match o.lookup i with
  | some a => a
  | none => dflt i

theorem runL_seq {d : Nat → V} {th : Nat → Prog Nat V α} {is : List Nat} {l l' : List V} {o : List (Nat × α)}
    (dflt : Nat → α) (hn : is.Nodup) (h : runL d th is l = some (l', o)) :
    runSeq th dflt is (tab d l) = some (tab d l', results dflt o) ∧ o.map Prod.fst = is := by
  induction is generalizing l o with
  | nil => cases h; exact ⟨rfl, rfl⟩
  | cons i is ih =>
    rw [runL] at h
    split at h
    · cases h
    · rename_i a l1 h1
      split at h
      · cases h
      · rename_i l2 o2 h2
        cases h
        obtain ⟨h3, h4⟩ := ih (List.nodup_cons.1 hn).2 h2
        refine ⟨?_, by rw [List.map_cons, h4]⟩
        rw [runSeq, execL_sound _ h1]
        dsimp only
        rw [h3]
        dsimp only
        congr 2
        funext j
        unfold results
        rw [List.lookup_cons]
        by_cases hj : j = i
        · subst hj; simp
        · have : (j == i) = false := by simpa using hj
          rw [this, if_neg hj]

theorem runL_par {d : Nat → V} {th : Nat → Prog Nat V α} {is : List Nat} {l l' : List V} {o : List (Nat × α)}
    (dflt : Nat → α) (hn : is.Nodup) (hd : ∀ j, j ∉ is → th j = ret (dflt j)) (h : runL d th is l = some (l', o)) :
    Par th (tab d l) (tab d l') (results dflt o) :=
  runSeq_par th dflt is hn hd (runL_seq dflt hn h).1

end Gbbs.Conc
