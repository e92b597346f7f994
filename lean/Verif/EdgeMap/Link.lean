/-
C18 + C19: the work assignment computed by `edgeMapChunked` satisfies the hypothesis of the
traversal theorem.
-/
import Verif.EdgeMap.Chunked
import Verif.EdgeMap.Traverse

namespace Gbbs.EdgeMap

open Gbbs.Chunked Gbbs.Filter

/-- The `(source, destination)` pair of edge `k` of frontier position `i`. -/
def edgeAt (G : Gr) (F : List Nat) (p : Nat × Nat) : Nat × Nat :=
  (F.getD p.1 0, (G.fwd (F.getD p.1 0)).getD p.2 0)

/-- Degrees of the frontier positions. -/
def fdeg (G : Gr) (F : List Nat) (i : Nat) : Nat := (G.fwd (F.getD i 0)).length

/-- The edges that group `g` of `edgeMapChunked` (`edge_map_blocked.h:384-430`) processes, in
order. -/
def chunkedWork (G : Gr) (F : List Nat) (B workers : Nat) (order : List Nat)
    (a0 : Nat → (Nat × Nat) × Nat) (g : Nat) : List (Nat × Nat) :=
  let a := fillBlocks B (fdeg G F) order a0
  let nbk := vertexOffs B (fdeg G F) F.length
  let total := inclusive a (nbk - 1)
  let ebs := edgeBlockSize workers total
  let ng := numBlocks total ebs
  if g < ng then
    ((groupWork (inclusive a) nbk ebs ng g).flatMap
      (fun w => blockEdges B (fdeg G F) (a w).1)).map (edgeAt G F)
  else []

/-- The groups of `edgeMapChunked` together process exactly the edges of the frontier. -/
theorem chunkedWork_ok (G : Gr) (F : List Nat) (B workers : Nat) (hB : 0 < B) (order : List Nat)
    (hs : Sched F.length order) (a0 : Nat → (Nat × Nat) × Nat)
    (hdeg : ∃ i, i < F.length ∧ 0 < fdeg G F i) :
    WorkOk G (memF F) (chunkedWork G F B workers order a0) := by
  have h := (chunked_correct_partial (S := Unit) B B workers F.length hB (Nat.le_refl B) (fdeg G F) hdeg
    order hs a0 (fun _ => []) (fun _ _ _ => Nat.zero_le _)).1
  have hall : ∀ e, (∃ g, e ∈ chunkedWork G F B workers order a0 g) ↔
      e ∈ (allEdges F.length (fdeg G F)).map (edgeAt G F) := by
    intro e
    rw [← h]
    simp only [chunkedWork, List.mem_map, List.mem_flatMap, List.mem_range]
    constructor
    · rintro ⟨g, hg⟩
      split at hg
      · rename_i hlt
        simp only [List.mem_map, List.mem_flatMap] at hg
        obtain ⟨p, ⟨w, hw, hp⟩, he⟩ := hg
        exact ⟨p, ⟨w, ⟨g, hlt, hw⟩, hp⟩, he⟩
      · cases hg
    · rintro ⟨p, ⟨w, ⟨g, hlt, hw⟩, hp⟩, he⟩
      refine ⟨g, ?_⟩
      rw [if_pos hlt]
      simp only [List.mem_map, List.mem_flatMap]
      exact ⟨p, ⟨w, hw, hp⟩, he⟩
  rintro ⟨s, d⟩
  rw [hall]
  simp only [allEdges, List.mem_map, List.mem_flatMap, List.mem_range, memF, decide_eq_true_eq]
  constructor
  · rintro ⟨_, ⟨i, hi, k, hk, rfl⟩, he⟩
    simp only [edgeAt, Prod.mk.injEq] at he
    obtain ⟨rfl, rfl⟩ := he
    have h1 : F.getD i 0 = F[i] := by simp [List.getD, hi]
    refine ⟨by rw [h1]; exact List.getElem_mem _, ?_⟩
    unfold fdeg at hk
    have h2 : (G.fwd (F.getD i 0)).getD k 0 = (G.fwd (F.getD i 0))[k] := by
      exact List.getD_eq_getElem _ _ hk
    rw [h2]; exact List.getElem_mem _
  · rintro ⟨h1, h2⟩
    obtain ⟨i, hi, rfl⟩ := List.mem_iff_getElem.1 h1
    have h3 : F.getD i 0 = F[i] := by simp [List.getD, hi]
    obtain ⟨k, hk, rfl⟩ := List.mem_iff_getElem.1 h2
    refine ⟨(i, k), ⟨i, hi, k, by unfold fdeg; rw [h3]; exact hk, rfl⟩, ?_⟩
    unfold edgeAt
    simp only [h3]
    simp only [List.getD]; rw [List.getElem?_eq_getElem hk]; rfl

/-- C18 and C19 together: the sparse traversal with the groups `edgeMapChunked` forms returns the
target set. -/
theorem edgeMapChunked_target (G : Gr) (f : Fn) (F : List Nat) (cl0 : Nat → Bool) (workers : Nat)
    (order : List Nat) (hs : Sched F.length order) (a0 : Nat → (Nat × Nat) × Nat)
    (hdeg : ∃ i, i < F.length ∧ 0 < fdeg G F i) (c : Conf Nat)
    (hc : Complete f cl0 (chunkedOps (chunkedWork G F 1024 workers order a0)) c) :
    c.out.Nodup ∧ ∀ d, d ∈ c.out ↔ Target G f (memF F) cl0 d :=
  chunked_target G f (memF F) cl0 _ (chunkedWork_ok G F 1024 workers (by omega) order hs a0 hdeg) c hc

/-- The frontier `{1, 0}` of `exG` with degrees 1 and 2. -/
example : Sched [1, 0].length [1, 0] ∧ (∃ i, i < [1, 0].length ∧ 0 < fdeg exG [1, 0] i) ∧
    chunkedWork exG [1, 0] 1024 4 [1, 0] (fun _ => ((0, 0), 0)) 0 = [(1, 2), (0, 1), (0, 2)] := by
  refine ⟨⟨by decide, fun i => ?_⟩, ⟨0, by decide, by decide⟩, by decide +kernel⟩
  simp; omega

end Gbbs.EdgeMap
