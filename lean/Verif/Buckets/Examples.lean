/-
Concrete histories of the bucket structure, and the situations in which an identifier is returned
more than once.
-/
import Verif.Buckets.Reach

namespace Gbbs.Buckets

/-- Client mapping given by a list (identifiers beyond it are unmapped). -/
def ofList (null : Nat) (l : List Nat) (v : Nat) : Nat := l.getD v null

/-- A history starting from `d = [3, 0, 9, null]` (increasing order, two open buckets): extract
bucket 0, then move identifier 2 from 9 to 4, then extract bucket 3.  It meets the hypotheses of
`next_bucket_correct` in mode `earlier`. -/
example : ∃ d P lb st, Reach ⟨true, 2, 100⟩ .earlier 4 d P lb st ∧ lb = 3 ∧ d 2 = 4 ∧ P 2 ∧ ¬ P 0 := by
  let c : Cfg := ⟨true, 2, 100⟩
  let d0 := ofList 100 [3, 0, 9, 100]
  have hb : ∀ v, d0 v ≤ 100 := by
    intro v
    rcases v with _ | _ | _ | _ | v <;> simp [d0, ofList]
  have hz : ∀ v, 4 ≤ v → d0 v = 100 := by
    intro v hv
    rcases v with _ | _ | _ | _ | v
    all_goals first | omega | simp [d0, ofList]
  obtain ⟨s0, hs0⟩ := create_ok (c := c) (n := 4) (d := d0) (by decide) (by decide) hb hz
    (by intro h; cases h)
  have r0 := Reach.init (mode := .earlier) d0 s0 (by decide) (by decide) hb hz
    (by intro h; cases h) hs0
  have e1 : ((create c 4 d0).bind fun s => (nextBucket c d0 9 s).map fun r => (r.1, r.2.1)) =
      some (0, [1]) := by decide +kernel
  rw [hs0, Option.bind_some] at e1
  obtain ⟨⟨i1, l1, s1⟩, n1, n1'⟩ := Option.map_eq_some_iff.1 e1
  simp only [Prod.mk.injEq] at n1'
  obtain ⟨rfl, rfl⟩ := n1'
  have r1 := Reach.next d0 _ _ s0 9 0 [1] s1 r0 n1 (by decide)
  have m1 : ∀ mv ∈ [(2, 4)], MoveOK c .earlier d0 (fun v => d0 v ≠ c.null ∧ d0 v ≠ 0) 0 mv := by
    intro mv hmv
    simp only [List.mem_singleton] at hmv
    subst hmv
    refine ⟨by decide, Or.inr (Or.inl ?_)⟩
    show ¬ (if c.inc then d0 2 ≤ 4 else 4 ≤ d0 2)
    decide
  have m2 : ∀ mv ∈ [(2, 4)], mv.2 = c.null ∨ (mv.2 < c.null ∧ notAfter c 0 mv.2) := by
    intro mv hmv
    simp only [List.mem_singleton] at hmv
    subst hmv
    exact Or.inr ⟨by decide, by show 0 ≤ 4; decide⟩
  obtain ⟨s2, hs2⟩ := move2_ok r1 [(2, 4)] (by decide) m2 m1
  have r2 := Reach.move2 d0 _ _ s1 s2 [(2, 4)] r1 (by decide) m2 m1 hs2
  have e2 : ((create c 4 d0).bind fun s => (nextBucket c d0 9 s).bind fun r =>
      (moveTo2 c d0 r.2.2 [(2, 4)]).bind fun s => (nextBucket c (setAll d0 [(2, 4)]) 9 s).map
        fun r => (r.1, r.2.1)) = some (3, [0]) := by decide +kernel
  rw [hs0, Option.bind_some, n1, Option.bind_some] at e2
  simp only at e2
  rw [hs2, Option.bind_some] at e2
  obtain ⟨⟨i2, l2, s3⟩, n2, n2'⟩ := Option.map_eq_some_iff.1 e2
  simp only [Prod.mk.injEq] at n2'
  obtain ⟨rfl, rfl⟩ := n2'
  have r3 := Reach.next _ _ _ s2 9 3 [0] s3 r2 n2 (by decide)
  refine ⟨_, _, _, _, r3, rfl, by decide, ?_, ?_⟩
  · refine ⟨?_, by decide⟩
    unfold presentAfter
    rw [if_pos (by decide)]
    decide
  · rintro ⟨_, h⟩
    exact h (by decide)

/-- A decreasing history meeting the hypotheses in mode `extracted`: `d = [9, 1, 4]`, two open
buckets; extract bucket 9 and reinsert its identifier in bucket 3. -/
example : ∃ d P lb st, Reach ⟨false, 2, 100⟩ .extracted 3 d P lb st ∧ lb = 9 ∧ d 0 = 3 ∧ P 0 := by
  let c : Cfg := ⟨false, 2, 100⟩
  let d0 := ofList 100 [9, 1, 4]
  have hb : ∀ v, d0 v ≤ 100 := by
    intro v
    rcases v with _ | _ | _ | v <;> simp [d0, ofList]
  have hz : ∀ v, 3 ≤ v → d0 v = 100 := by
    intro v hv
    rcases v with _ | _ | _ | v
    all_goals first | omega | simp [d0, ofList]
  have h5 : c.inc = false → ∀ v, d0 v ≠ c.null → d0 v + c.opn ≤ c.null := by
    intro _ v hv
    rcases v with _ | _ | _ | v
    · decide
    · decide
    · decide
    · exact absurd (by simp [d0, ofList, c]) hv
  obtain ⟨s0, hs0⟩ := create_ok (c := c) (n := 3) (d := d0) (by decide) (by decide) hb hz h5
  have r0 := Reach.init (mode := .extracted) d0 s0 (by decide) (by decide) hb hz h5 hs0
  have e1 : ((create c 3 d0).bind fun s => (nextBucket c d0 9 s).map fun r => (r.1, r.2.1)) =
      some (9, [0]) := by decide +kernel
  rw [hs0, Option.bind_some] at e1
  obtain ⟨⟨i1, l1, s1⟩, n1, n1'⟩ := Option.map_eq_some_iff.1 e1
  simp only [Prod.mk.injEq] at n1'
  obtain ⟨rfl, rfl⟩ := n1'
  have r1 := Reach.next d0 _ _ s0 9 9 [0] s1 r0 n1 (by decide)
  have m1 : ∀ mv ∈ [(0, 3)], MoveOK c .extracted d0 (fun v => d0 v ≠ c.null ∧ d0 v ≠ 9) 9 mv := by
    intro mv hmv
    simp only [List.mem_singleton] at hmv
    subst hmv
    exact ⟨fun h => h.2 rfl, fun _ => rfl⟩
  have m2 : ∀ mv ∈ [(0, 3)], mv.2 = c.null ∨ (mv.2 < c.null ∧ notAfter c 9 mv.2) := by
    intro mv hmv
    simp only [List.mem_singleton] at hmv
    subst hmv
    exact Or.inr ⟨by decide, by show 3 ≤ 9; decide⟩
  obtain ⟨s2, hs2⟩ := move1_ok r1 [(0, 3)] (by decide) m2 m1 (by intro h; cases h)
    (by intro h; cases h)
  have r2 := Reach.move1 d0 _ _ s1 s2 [(0, 3)] r1 (by decide) m2 m1 (by intro h; cases h)
    (by intro h; cases h) hs2
  refine ⟨_, _, _, _, r2, rfl, by decide, ?_⟩
  unfold presentAfter
  rw [if_pos (by decide)]
  decide

/-- Without the restriction to moves towards earlier buckets an identifier can be returned twice:
with 8 open buckets an identifier moved from bucket 3 to 5 and back to 3 is in the returned list
two times. -/
theorem duplicate_after_moving_back :
    let c : Cfg := ⟨true, 8, 100⟩
    let d0 := ofList 100 [3]
    let d1 := setAll d0 [(0, 5)]
    let d2 := setAll d1 [(0, 3)]
    ((create c 1 d0).bind fun s => (moveTo2 c d0 s [(0, 5)]).bind fun s =>
      (moveTo2 c d1 s [(0, 3)]).bind fun s => (nextBucket c d2 5 s).map fun r => (r.1, r.2.1)) =
      some (3, [0, 0]) := by decide +kernel

/-- The comment at `bucket.h:163-181` allows `get_bucket(next)` for identifiers already in the
structure whose buckets only decrease.  In a decreasing structure an identifier in the overflow
bucket that moves to another overflow bucket is stored twice, and both copies are returned. -/
theorem duplicate_in_decreasing_overflow :
    let c : Cfg := ⟨false, 2, 100⟩
    let d0 := ofList 100 [9, 1]
    let d1 := setAll d0 [(1, 0)]
    ((create c 2 d0).bind fun s => (moveTo1 c s [(1, 0)]).bind fun s =>
      (nextBucket c d1 9 s).bind fun r => (nextBucket c d1 9 r.2.2).map fun r' =>
        (r.1, r.2.1, r'.1, r'.2.1)) =
      some (9, [0], 0, [1, 1]) := by decide +kernel

/-- An increasing structure created without any mapped identifier has its range beyond every
bucket: an identifier inserted later is dropped. -/
theorem insertion_into_empty_dropped :
    let c : Cfg := ⟨true, 8, 100⟩
    let d0 := ofList 100 []
    ((create c 1 d0).bind fun s => (moveTo2 c d0 s [(0, 5)]).bind fun s =>
      (nextBucket c (setAll d0 [(0, 5)]) 5 s).map fun r => (r.1, r.2.1)) =
      some (100, []) := by decide +kernel

end Gbbs.Buckets
