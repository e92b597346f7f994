/-
C106: an example, and inputs on which `MinimumSpanningForest` (Boruvka) goes wrong.
-/
import Verif.Boruvka.Main

namespace Gbbs.Boruvka

open Forest Relation
open Conc (Par compress Ranked IsRoot compress_par)
open Conc.Prog (ret)

/-- Two triangles that share an edge, two components and ties: the hypotheses hold, and there is a run for a splitter of
weight 3 of which some edges are taken. -/
def exA : List E :=
  [(0, 1, 3), (0, 2, 3), (1, 0, 3), (1, 2, 5), (1, 3, -2), (2, 0, 3), (2, 1, 5), (2, 3, 4), (3, 1, -2), (3, 2, 4), (4, 5, 7), (5, 4, 7)]

theorem exA_input : Input 6 exA := ⟨by decide, by decide, by decide, by decide, by decide⟩

example : ∃ F, Run 6 (fun _ => some (3, fun e => decide (e.2.1 = 1))) exA F ∧ IsMSF exA F ∧ F.length < 6 := by
  obtain ⟨F, hF⟩ := run_exists (fun _ => some (3, fun e => decide (e.2.1 = 1))) exA_input
  exact ⟨F, hF, hF.correct exA_input, hF.size exA_input (by decide)⟩

/-- Pointer jumping in a forest that is already flat. -/
theorem jump_flat {p : Nat → Nat} (l : List Nat) (hl : l.Nodup) (h : ∀ x, p (p x) = p x) : Jump (fun u => decide (u ∈ l)) p p := by
  have hk : Ranked (fun x => if p x = x then 0 else 1) p := fun x => by
    by_cases hx : p x = x
    · exact Or.inl hx
    · right; show (if p (p x) = p x then 0 else 1) < (if p x = x then 0 else 1)
      rw [if_pos (h x), if_neg hx]; omega
  have hr : IsRoot p p := ⟨h, h, fun x => ⟨1, rfl⟩⟩
  obtain ⟨p', hp'⟩ := jump_exists l hl hk hr
  obtain ⟨h1, h2, -⟩ := hp'.spec hk hr
  have : p' = p := by
    funext x
    by_cases hx : decide (x ∈ l) = true
    · exact h1 x hx
    · exact h2 x (by simpa using hx)
  rwa [this] at hp'

/-- The first call of `Boruvka`, with all edges. -/
def s0 (n : Nat) (A : List E) : St := start 0 ⟨A, [], fun v => v, List.range n, fun _ => false⟩ A

/-- A run that takes all edges at once and needs one round. -/
theorem run_one {n : Nat} {A : List E} (hA : A ≠ []) (hn : 1 < n) {me : Nat → Nat × Int} {p1 : Nat → Nat}
    (hme : minEdges (s0 n A) (fun _ => (0, 0)) (events (s0 n A)) = me) (hp : hooked (s0 n A) me = p1)
    (hflat : ∀ x, p1 (p1 x) = p1 x)
    (hroots : ((List.range n).filter fun v => decide (mark (edgeAt A) me v = .root)).length ≤ 1) :
    Run n (fun _ => none) A (((List.range n).filterMap (newEdge (s0 n A) me)).map (edgeAt A)) := by
  have hlen : 0 < (List.range A.length).length := by simpa using List.length_pos_iff.2 hA
  have hj := jump_flat (List.range n) List.nodup_range hflat
  have hL : Loop (s0 n A) (finish (s0 n A) me p1) := by
    refine .step ⟨by simpa [s0, start] using hn, hlen⟩ ⟨fun _ => (0, 0), _, p1, List.Perm.refl _, ?_, by rw [hme]⟩ (.done ?_)
    · rw [hme, hp]; exact hj
    · exact fun hc => absurd hc.1 (Nat.not_lt.2 hroots)
  refine .step hA ⟨finish (s0 n A) me p1, p1, hL, ?_, rfl⟩ (.done rfl)
  have e : (fun u => decide (u ∈ List.range n)) = fun u => decide (u < n) := by funext u; simp
  rwa [e] at hj

theorem minEdges_other {n : Nat} {A : List E} {v : Nat} (hv : n ≤ v) (h : ∀ x, (v, x) ∉ events (s0 n A)) :
    minEdges (s0 n A) (fun _ => (0, 0)) (events (s0 n A)) v = (0, 0) := by
  rcases (wmin_fold (events (s0 n A)) (fun v => if v ∈ (s0 n A).vt then (noE, infW) else (0, 0)) v).1 with h1 | h1
  · rw [minEdges, h1, if_neg (by simp [s0, start]; omega)]
  · exact absurd h1 (h _)

theorem hooked_other {n : Nat} {A : List E} {me : Nat → Nat × Int} {v : Nat} (hv : n ≤ v) : hooked (s0 n A) me v = v :=
  hooked_of_not_mem (s := s0 n A) (by simp [s0, start]; omega)

/-- A self-loop that is the lightest edge of its vertex. -/
def loopA : List E := [(0, 0, 1), (0, 1, 2), (1, 0, 2)]

/-- With a self-loop the vertex hooks onto itself: the self-loop is put into the forest. -/
theorem loop_wrong : Run 2 (fun _ => none) loopA [(0, 0, 1), (0, 1, 2)] ∧ ¬ IsMSF loopA [(0, 0, 1), (0, 1, 2)] := by
  constructor
  · refine run_one (me := fun v => if v = 0 then (0, 1) else if v = 1 then (1, 2) else (0, 0)) (p1 := fun v => if v = 1 then 0 else v)
      (by decide) (by decide) ?_ ?_ ?_ (by decide)
    · funext v
      match v with
      | 0 => decide
      | 1 => decide
      | v + 2 =>
        rw [minEdges_other (by omega) (by intro x hx; simp [events, s0, start, loopA, edgeAt, List.range_succ] at hx)]
        simp
    · funext v
      match v with
      | 0 => decide
      | 1 => decide
      | v + 2 => rw [hooked_other (by omega)]; simp
    · intro x; split <;> simp_all
  · rintro ⟨⟨-, h, -⟩, -⟩
    exact h [] (0, 0, 1) [(0, 1, 2)] rfl ((conn_equiv _).refl _)

/-- One edge heavier than the largest `int32_t`, for a wider type of weights. -/
def heavyA : List E := [(0, 1, 2 ^ 31), (1, 0, 2 ^ 31)]

/-- An edge heavier than the initial value of `min_edges` is never chosen: the result does not span. -/
theorem heavy_wrong : Run 2 (fun _ => none) heavyA [] ∧ ¬ IsMSF heavyA [] := by
  constructor
  · refine run_one (me := fun v => if v = 0 ∨ v = 1 then (noE, infW) else (0, 0)) (p1 := fun v => v)
      (by decide) (by decide) ?_ ?_ (fun _ => rfl) (by decide)
    · funext v
      match v with
      | 0 => decide
      | 1 => decide
      | v + 2 =>
        rw [minEdges_other (by omega) (by intro x hx; simp [events, s0, start, heavyA, edgeAt, List.range_succ] at hx)]
        simp
    · funext v
      match v with
      | 0 => decide
      | 1 => decide
      | v + 2 => rw [hooked_other (by omega)]
  · rintro ⟨⟨-, -, h⟩, -⟩
    have h1 := h 0 1 (conn_of_mem (e := (0, 1, 2 ^ 31)) List.mem_cons_self)
    have := conn_le (l := []) (s := fun x y => x = y) ⟨fun _ => rfl, fun h => h.symm, fun h h' => h.trans h'⟩ (fun e he => (by cases he)) h1
    cases this

end Gbbs.Boruvka
