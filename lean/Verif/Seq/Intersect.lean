/-
Model of `gbbs/intersect.h` (sorted-list intersection) and proofs for C08.

Arrays are modelled as lists (only their elements are read).  The calls made to the user function
`f` are recorded in the second component of the result; a `par_do` may interleave the calls of its
two halves, so the order of that list is one linearisation and only its multiset is observable.
-/
import Mathlib.Data.List.Sort

namespace Gbbs.Isect

/-! ### Model -/

/-- `parlay::binary_search(B, a, less)` (parlay is not in the repository): on a sorted sequence
the first index whose element is not below `a`. -/
def binarySearch (B : List Nat) (a : Nat) : Nat := (B.takeWhile (· < a)).length

/-- `intersect.h:31-46` (`intersect`; the loop of lines 36-44). -/
def intersect : List Nat → List Nat → Nat
  | [], _ => 0
  | _ :: _, [] => 0
  | a :: A, b :: B =>
    if a = b then intersect A B + 1
    else if a < b then intersect A (b :: B)
    else intersect (a :: A) B
termination_by A B => A.length + B.length

/-- `intersect.h:48-66` (`intersect_f`) and `intersect.h:71-92` (`seq_merge_full`), whose loops
are the same.  Result: returned count and the list of elements `f` is called on. -/
def seqMergeFull : List Nat → List Nat → Nat × List Nat
  | [], _ => (0, [])
  | _ :: _, [] => (0, [])
  | a :: A, b :: B =>
    if a = b then
      let r := seqMergeFull A B
      (r.1 + 1, a :: r.2)
    else if a < b then seqMergeFull A (b :: B)
    else seqMergeFull (a :: A) B
termination_by A B => A.length + B.length

/-- `intersect.h:94-108` (`seq_merge`): binary search of every element of `A` in `B`. -/
def seqMerge : List Nat → List Nat → Nat × List Nat
  | [], _ => (0, [])
  | a :: A, B =>
    let mB := binarySearch B a
    let r := seqMerge A B
    if mB < B.length ∧ B[mB]? = some a then (r.1 + 1, a :: r.2) else r

/-- `intersect.h:110-134` (`merge`) with the two thresholds `_seq_merge_thresh` (`t1`) and
`_bs_merge_base` (`t2`) as parameters. -/
def mergeT (t1 t2 : Nat) (ht : 2 ≤ t2) (A B : List Nat) : Nat × List Nat :=
  let nA := A.length
  let nB := B.length
  if nA + nB < t1 then seqMergeFull A B
  else if nB < nA then mergeT t1 t2 ht B A
  else if h : nA < t2 then seqMerge A B
  else
    let mA := nA / 2
    let mB := binarySearch B (A[mA]'(by omega))
    let l := mergeT t1 t2 ht (A.take mA) (B.take mB)
    let r := mergeT t1 t2 ht (A.drop mA) (B.drop mB)
    (l.1 + r.1, l.2 ++ r.2)
termination_by (A.length + B.length, if B.length < A.length then 1 else 0)
decreasing_by
  · have : ¬ A.length < B.length := by omega
    simp only [this, if_false]
    have : B.length < A.length := by omega
    simp only [this, if_true]
    rw [Nat.add_comm]; exact Prod.Lex.right _ (by omega)
  · apply Prod.Lex.left
    simp only [List.length_take]; omega
  · apply Prod.Lex.left
    simp only [List.length_drop]; omega

/-- `intersect.h:68-69` and `110-134`: `merge` with the constants of the code. -/
def merge (A B : List Nat) : Nat × List Nat := mergeT 2048 32 (by decide) A B

/-- `intersect.h:136-150` (`intersect_f_par`) for the unweighted case the comment demands: the
triples on which the client function is called. -/
def intersectFPar (a b : Nat) (A B : List Nat) : Nat × List (Nat × Nat × Nat) :=
  let r := merge A B
  (r.1, r.2.map fun ngh => (a, b, ngh))

/-! ### Specification -/

/-- The common elements, in the order of the first list. -/
def common (A B : List Nat) : List Nat := A.filter (· ∈ B)

/-- Strictly increasing. -/
abbrev SSorted (l : List Nat) : Prop := l.Pairwise (· < ·)

/-! ### Proofs -/

theorem filter_mem_cons_lt {b : Nat} {A B : List Nat} (h : ∀ x ∈ A, b < x) :
    A.filter (· ∈ b :: B) = A.filter (· ∈ B) := by
  apply List.filter_congr
  intro x hx
  have := h x hx
  simp only [List.mem_cons, decide_eq_decide]
  constructor
  · rintro (h1 | h1)
    · omega
    · exact h1
  · exact Or.inr

theorem common_nil_right (A : List Nat) : common A [] = [] := by simp [common]

theorem seqMergeFull_eq (A B : List Nat) (hA : SSorted A) (hB : SSorted B) :
    seqMergeFull A B = ((common A B).length, common A B) := by
  induction A, B using seqMergeFull.induct with
  | case1 B => simp [seqMergeFull, common]
  | case2 a A => simp [seqMergeFull, common]
  | case3 A b B ih =>
    have hA := List.pairwise_cons.1 hA
    have hB := List.pairwise_cons.1 hB
    rw [seqMergeFull, if_pos rfl, ih hA.2 hB.2]
    have : common (b :: A) (b :: B) = b :: common A B := by
      rw [common, List.filter_cons_of_pos (by simp), filter_mem_cons_lt hA.1]; rfl
    rw [this]; rfl
  | case4 a A b B hne hlt ih =>
    rw [seqMergeFull, if_neg hne, if_pos hlt, ih (List.pairwise_cons.1 hA).2 hB]
    have : common (a :: A) (b :: B) = common A (b :: B) := by
      rw [common, List.filter_cons_of_neg]; · rfl
      have hB := List.pairwise_cons.1 hB
      simp only [List.mem_cons, decide_eq_true_eq, not_or]
      exact ⟨hne, fun h => by have := hB.1 a h; omega⟩
    rw [this]
  | case5 a A b B hne hlt ih =>
    rw [seqMergeFull, if_neg hne, if_neg hlt, ih hA (List.pairwise_cons.1 hB).2]
    have : common (a :: A) (b :: B) = common (a :: A) B := by
      apply filter_mem_cons_lt
      have hA := List.pairwise_cons.1 hA
      intro x hx
      rcases List.mem_cons.1 hx with rfl | hx
      · omega
      · have := hA.1 x hx; omega
    rw [this]

theorem intersect_eq_seq (A B : List Nat) : intersect A B = (seqMergeFull A B).1 := by
  induction A, B using seqMergeFull.induct with
  | case1 B => simp [seqMergeFull, intersect]
  | case2 a A => simp [seqMergeFull, intersect]
  | case3 A b B ih => rw [seqMergeFull, intersect, if_pos rfl, if_pos rfl, ih]
  | case4 a A b B hne hlt ih =>
    rw [seqMergeFull, intersect, if_neg hne, if_pos hlt, if_neg hne, if_pos hlt, ih]
  | case5 a A b B hne hlt ih =>
    rw [seqMergeFull, intersect, if_neg hne, if_neg hlt, if_neg hne, if_neg hlt, ih]

theorem take_binarySearch (B : List Nat) (a : Nat) :
    B.take (binarySearch B a) = B.takeWhile (· < a) := by
  induction B with
  | nil => rfl
  | cons b B ih =>
    by_cases h : b < a
    · simp only [binarySearch, List.takeWhile_cons, h, decide_true, if_true, List.length_cons,
        List.take_succ_cons]
      exact congrArg _ ih
    · simp [binarySearch, h]

theorem drop_binarySearch (B : List Nat) (a : Nat) :
    B.drop (binarySearch B a) = B.dropWhile (· < a) := by
  induction B with
  | nil => rfl
  | cons b B ih =>
    by_cases h : b < a
    · simp only [binarySearch, List.takeWhile_cons, List.dropWhile_cons, h, decide_true, if_true,
        List.length_cons, List.drop_succ_cons]
      exact ih
    · simp [binarySearch, h]

theorem lt_of_mem_take {B : List Nat} {a x : Nat} (h : x ∈ B.take (binarySearch B a)) : x < a := by
  rw [take_binarySearch] at h
  induction B with
  | nil => simp at h
  | cons b B ih =>
    by_cases hb : b < a
    · simp only [List.takeWhile_cons, hb, decide_true, if_true, List.mem_cons] at h
      rcases h with rfl | h
      · exact hb
      · exact ih h
    · simp [hb] at h

theorem le_of_mem_drop {B : List Nat} (hB : SSorted B) {a x : Nat}
    (h : x ∈ B.drop (binarySearch B a)) : a ≤ x := by
  rw [drop_binarySearch] at h
  induction B with
  | nil => simp at h
  | cons b B ih =>
    have hB := List.pairwise_cons.1 hB
    by_cases hb : b < a
    · simp only [List.dropWhile_cons, hb, decide_true, if_true] at h
      exact ih hB.2 h
    · simp only [List.dropWhile_cons, hb, decide_false, Bool.false_eq_true, if_false,
        List.mem_cons] at h
      rcases h with rfl | h
      · omega
      · have := hB.1 x h; omega

/-- On a sorted list the binary-search test is exactly membership. -/
theorem binarySearch_hit {B : List Nat} (hB : SSorted B) (a : Nat) :
    (binarySearch B a < B.length ∧ B[binarySearch B a]? = some a) ↔ a ∈ B := by
  constructor
  · rintro ⟨_, h⟩; exact List.mem_of_getElem? h
  · intro h
    induction B with
    | nil => simp at h
    | cons b B ih =>
      have hB := List.pairwise_cons.1 hB
      by_cases hb : b < a
      · have ha : a ∈ B := by
          rcases List.mem_cons.1 h with rfl | h
          · omega
          · exact h
        have := ih hB.2 ha
        have hs : binarySearch (b :: B) a = binarySearch B a + 1 := by
          simp [binarySearch, hb]
        rw [hs]
        simpa using this
      · have : a = b := by
          rcases List.mem_cons.1 h with h | h
          · exact h
          · have := hB.1 a h; omega
        subst this
        have hs : binarySearch (a :: B) a = 0 := by simp [binarySearch]
        rw [hs]; simp

theorem seqMerge_eq (A B : List Nat) (hB : SSorted B) :
    seqMerge A B = ((common A B).length, common A B) := by
  induction A with
  | nil => simp [seqMerge, common]
  | cons a A ih =>
    rw [seqMerge]
    simp only [ih]
    by_cases h : a ∈ B
    · rw [if_pos ((binarySearch_hit hB a).2 h)]
      simp [common, h]
    · rw [if_neg (fun h' => h ((binarySearch_hit hB a).1 h'))]
      simp [common, h]

theorem common_comm {A B : List Nat} (hA : SSorted A) (hB : SSorted B) :
    common A B = common B A := by
  have h1 : SSorted (common A B) := hA.sublist List.filter_sublist
  have h2 : SSorted (common B A) := hB.sublist List.filter_sublist
  refine List.Perm.eq_of_pairwise (le := (· < ·)) ?_ h1 h2 ?_
  · intro a b _ _ h h'; omega
  · rw [List.perm_ext_iff_of_nodup (h1.imp (fun h => by omega)) (h2.imp (fun h => by omega))]
    intro x; simp [common, and_comm]

theorem common_split {A B : List Nat} (hA : SSorted A) (hB : SSorted B) {k : Nat}
    (hk : k < A.length) :
    common A B = common (A.take k) (B.take (binarySearch B A[k])) ++
      common (A.drop k) (B.drop (binarySearch B A[k])) := by
  have hsplit : A = A.take k ++ A.drop k := (List.take_append_drop k A).symm
  have hlt : ∀ x ∈ A.take k, x < A[k] := by
    intro x hx
    have : (A.take k ++ A.drop k).Pairwise (· < ·) := by rw [← hsplit]; exact hA
    refine (List.pairwise_append.1 this).2.2 x hx _ ?_
    rw [List.mem_drop_iff_getElem]
    exact ⟨0, by omega, by simp⟩
  have hge : ∀ x ∈ A.drop k, A[k] ≤ x := by
    intro x hx
    rw [List.drop_eq_getElem_cons hk] at hx
    have hs : (A.drop k).Pairwise (· < ·) := hA.sublist (List.drop_sublist k A)
    rw [List.drop_eq_getElem_cons hk, List.pairwise_cons] at hs
    rcases List.mem_cons.1 hx with rfl | hx
    · exact le_refl _
    · exact (hs.1 x hx).le
  have hBm : ∀ x, x ∈ B ↔ x ∈ B.take (binarySearch B A[k]) ∨ x ∈ B.drop (binarySearch B A[k]) := by
    intro x
    conv_lhs => rw [← List.take_append_drop (binarySearch B A[k]) B]
    exact List.mem_append
  conv_lhs => rw [common, hsplit, List.filter_append]
  congr 1
  · apply List.filter_congr
    intro x hx
    rw [decide_eq_decide, hBm]
    refine ⟨fun h => h.resolve_right fun h' => ?_, Or.inl⟩
    have := le_of_mem_drop hB h'
    have := hlt x hx
    omega
  · apply List.filter_congr
    intro x hx
    rw [decide_eq_decide, hBm]
    refine ⟨fun h => h.resolve_left fun h' => ?_, Or.inr⟩
    have := lt_of_mem_take h'
    have := hge x hx
    omega

/-- C08, for arbitrary thresholds: the recursive merge returns the number of common elements and
calls `f` exactly on them. -/
theorem mergeT_eq (t1 t2 : Nat) (ht : 2 ≤ t2) (A B : List Nat) (hA : SSorted A) (hB : SSorted B) :
    mergeT t1 t2 ht A B = ((common A B).length, common A B) := by
  induction A, B using mergeT.induct (t1 := t1) (t2 := t2) (ht := ht) with
  | case1 A B nA nB h =>
    rw [mergeT]; simp only [nA, nB] at h; simp only [h, if_true]
    exact seqMergeFull_eq A B hA hB
  | case2 A B nA nB h h2 ih =>
    rw [mergeT]; simp only [nA, nB] at h h2; simp only [h, h2, if_true, if_false]
    rw [ih hB hA, common_comm hA hB]
  | case3 A B nA nB h h2 h3 =>
    rw [mergeT]; simp only [nA, nB] at h h2 h3; simp only [h, h2, h3, dif_pos, if_false]
    exact seqMerge_eq A B hB
  | case4 A B nA nB h h2 h3 mA mB ih1 ih2 =>
    rw [mergeT]; simp only [nA, nB, mA, mB] at h h2 h3 ih1 ih2
    have hk : A.length / 2 < A.length := by omega
    simp only [h, h2, h3, dite_false, if_false]
    rw [ih1 (hA.sublist (List.take_sublist _ _)) (hB.sublist (List.take_sublist _ _)),
      ih2 (hA.sublist (List.drop_sublist _ _)) (hB.sublist (List.drop_sublist _ _))]
    rw [common_split hA hB hk, List.length_append]

/-- C08 for the constants of the code.  The three facts a client uses: the count, the multiset of
calls (each common element exactly once, nothing else), and agreement with the sequential
`intersect`. -/
theorem merge_correct (A B : List Nat) (hA : SSorted A) (hB : SSorted B) :
    (merge A B).1 = (common A B).length ∧ (merge A B).2.Nodup ∧
      (∀ x, x ∈ (merge A B).2 ↔ x ∈ A ∧ x ∈ B) ∧ (merge A B).1 = intersect A B := by
  have h := mergeT_eq 2048 32 (by decide) A B hA hB
  rw [merge, h, intersect_eq_seq, seqMergeFull_eq A B hA hB]
  refine ⟨rfl, ?_, ?_, rfl⟩
  · exact (hA.imp (fun h => by omega) : A.Nodup).filter _
  · intro x; simp [common]

/-- C08 for `intersect_f_par`: the client function is called once per common neighbour. -/
theorem intersectFPar_correct (a b : Nat) (A B : List Nat) (hA : SSorted A) (hB : SSorted B) :
    (intersectFPar a b A B).1 = (common A B).length ∧
      (intersectFPar a b A B).2 = (common A B).map (fun w => (a, b, w)) := by
  have h := mergeT_eq 2048 32 (by decide) A B hA hB
  simp [intersectFPar, merge, h]

/-- Strict sortedness is needed: with parallel edges the threshold changes the answer. -/
theorem mergeT_multi_depends_on_threshold :
    (mergeT 100 2 (by decide) [1, 1] [1, 2]).1 = 1 ∧ (mergeT 0 3 (by decide) [1, 1] [1, 2]).1 = 2 := by
  constructor
  · rw [mergeT]; decide +kernel
  · rw [mergeT]; decide +kernel

/-- Hypotheses are met by lists long enough to reach the splitting branch. -/
example : SSorted ((List.range 1500).map (2 * ·)) ∧ SSorted ((List.range 1500).map (3 * ·)) ∧
    ¬ ((List.range 1500).map (2 * ·)).length + ((List.range 1500).map (3 * ·)).length < 2048 := by
  refine ⟨?_, ?_, by simp⟩ <;>
  · rw [SSorted, List.pairwise_map]
    exact List.pairwise_lt_range.imp (fun h => by omega)

end Gbbs.Isect
