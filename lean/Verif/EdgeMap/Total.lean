/-
Programs without endless loops have complete runs: `edgeMap` calls of such functions exist. Used to show that hypotheses about complete
runs can be met.
-/
import Verif.EdgeMap.Rounds

namespace Gbbs.Em

open Conc Conc.Prog

variable {W L V D α β : Type} [DecidableEq L] [DecidableEq V]

/-- Run alone, the program ends from any memory. -/
def Total (p : Prog L V α) : Prop := ∀ m, ∃ r, exec p m = some r

omit [DecidableEq L] [DecidableEq V] in
theorem total_ret [DecidableEq L] [DecidableEq V] (a : α) : Total (ret a : Prog L V α) := fun _ => ⟨_, rfl⟩

theorem exec_bind (p : Prog L V α) (f : α → Prog L V β) (m : L → V) :
    exec (p.bind f) m = (exec p m).bind fun r => exec (f r.1) r.2 := by
  induction p generalizing m with
  | ret a => rfl
  | stuck => rfl
  | read x k ih => exact ih _ _
  | write x v k ih => exact ih _
  | cas x o n k ih =>
    show (if m x = o then exec ((k true).bind f) (put m x n) else exec ((k false).bind f) m) =
      (if m x = o then exec (k true) (put m x n) else exec (k false) m).bind _
    split
    · exact ih _ _
    · exact ih _ _

theorem total_bind {p : Prog L V α} {f : α → Prog L V β} (hp : Total p) (hf : ∀ a, Total (f a)) : Total (p.bind f) := by
  intro m
  obtain ⟨r, hr⟩ := hp m
  obtain ⟨r2, hr2⟩ := hf r.1 r.2
  exact ⟨r2, by rw [exec_bind, hr]; exact hr2⟩

theorem sparseRun_total {F : Func W L V D} (hc : ∀ d, Total (F.cond d)) (hu : ∀ s d w, Total (F.updA s d w)) (es : List (Edge W)) :
    ∀ l, Total (sparseRun F es l) := by
  induction es with
  | nil => exact fun l => total_ret l
  | cons e es ih =>
    intro l
    refine total_bind (hc _) fun c => ?_
    split
    · exact total_bind (hu _ _ _) fun x => ih _
    · exact ih _

/-- A call of `edgeMap` exists. -/
theorem edgeMap_exists {F : Func W L V D} (hc : ∀ d, Total (F.cond d)) (hu : ∀ s d w, Total (F.updA s d w)) {G : Gr W} (hG : G.Ok)
    (inF : Nat → Bool) (m : L → V) : ∃ m' o, EdgeMap F G inF m m' o := by
  obtain ⟨⟨o, m'⟩, h⟩ := sparseRun_total hc hu (activeEdges G inF) [] m
  exact ⟨m', o, edgeMap_seq _ (mem_activeEdges hG) h⟩

end Gbbs.Em
