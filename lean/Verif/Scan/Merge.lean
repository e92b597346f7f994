/-
C108: `benchmarks/SCAN/IndexBased/intersect.h`, the intersection of sorted neighbour lists that also reports the positions.

A neighbour is a pair of an id and a weight; in the unweighted case all weights are 1 (the returned count is then the sum of products).
Weights and their sums are integers without a bound. The calls of `f` are recorded in the order of one schedule.
-/
import Verif.Scan.Model

namespace Gbbs.Scan

/-- A call of `f`: the common neighbour, its position in the two lists, and the two weights. -/
structure Call where
  c : Nat
  ia : Nat
  ib : Nat
  wa : Int
  wb : Int
  deriving DecidableEq

/-- The call with the two lists exchanged. -/
def Call.swap (x : Call) : Call := ⟨x.c, x.ib, x.ia, x.wb, x.wa⟩

/-- The loop of `seq_merge_full`, `intersect.h:58-90`: the position in the neighbour lists counts up with `i` and `j`. -/
def mergeFull : Nat → Nat → List (Nat × Int) → List (Nat × Int) → Int × List Call
  | _, _, [], _ => (0, [])
  | _, _, _ :: _, [] => (0, [])
  | oA, oB, a :: A, b :: B =>
    if a.1 = b.1 then
      let r := mergeFull (oA + 1) (oB + 1) A B
      (a.2 * b.2 + r.1, ⟨a.1, oA, oB, a.2, b.2⟩ :: r.2)
    else if a.1 < b.1 then mergeFull (oA + 1) oB A (b :: B)
    else mergeFull oA (oB + 1) (a :: A) B
termination_by _ _ A B => A.length + B.length

/-- The loop of `seq_merge`, `intersect.h:103-136`. -/
def mergeSearch (oB : Nat) (sw : Bool) (B : List (Nat × Int)) : Nat → List (Nat × Int) → Int × List Call
  | _, [] => (0, [])
  | oA, a :: A =>
    let mB := bsearch (fun b => decide (b.1 < a.1)) B
    let r := mergeSearch oB sw B (oA + 1) A
    match B[mB]? with
    | none => r
    | some b => if a.1 = b.1 then
        let x : Call := ⟨a.1, oA, oB + mB, a.2, b.2⟩
        (a.2 * b.2 + r.1, (if sw then x.swap else x) :: r.2)
      else r

/-- `merge`, `intersect.h:143-183`, with the two thresholds as parameters. -/
def merge (t1 t2 : Nat) (ht : 2 ≤ t2) (A B : List (Nat × Int)) (oA oB : Nat) (sw : Bool) : Int × List Call :=
  if A.length + B.length < t1 then (if sw then mergeFull oB oA B A else mergeFull oA oB A B)
  else if B.length < A.length then merge t1 t2 ht B A oB oA (!sw)
  else if h : A.length < t2 then mergeSearch oB sw B oA A
  else
    let mA := A.length / 2
    let mB := bsearch (fun b => decide (b.1 < (A[mA]'(by omega)).1)) B
    let l := merge t1 t2 ht (A.take mA) (B.take mB) oA oB sw
    let r := merge t1 t2 ht (A.drop mA) (B.drop mB) (oA + mA) (oB + mB) sw
    (l.1 + r.1, l.2 ++ r.2)
termination_by (A.length + B.length, if B.length < A.length then 1 else 0)
decreasing_by
  · have : ¬ A.length < B.length := by omega
    simp only [this, if_false]
    have : B.length < A.length := by omega
    simp only [this, if_true]
    rw [Nat.add_comm]; exact Prod.Lex.right _ (by omega)
  · apply Prod.Lex.left
    simp only [List.length_take]; omega
  · apply Prod.Lex.left
    simp only [List.length_drop]; omega

/-- `intersect_f_with_index_par`, `intersect.h:213-239`, with the constants of `:20-21`. -/
def intersectIx (A B : List (Nat × Int)) : Int × List Call := merge 2048 32 (by decide) A B 0 0 false

/-! ### Proof -/

abbrev Srt (l : List (Nat × Int)) : Prop := l.Pairwise fun x y => x.1 < y.1

/-- The calls are the common neighbours with their positions, each once; the result is the sum of the products. -/
structure Hits (A B : List (Nat × Int)) (oA oB : Nat) (r : Int × List Call) : Prop where
  srt : r.2.Pairwise fun x y => x.c < y.c
  mem : ∀ x, x ∈ r.2 ↔ ∃ i j, x.ia = oA + i ∧ x.ib = oB + j ∧ A[i]? = some (x.c, x.wa) ∧ B[j]? = some (x.c, x.wb)
  sum : r.1 = (r.2.map fun x => x.wa * x.wb).sum

theorem srt_get {l : List (Nat × Int)} (h : Srt l) {i j : Nat} {a b : Nat × Int} (hi : l[i]? = some a) (hj : l[j]? = some b) : a.1 < b.1 ↔ i < j := by
  obtain ⟨hi', rfl⟩ := List.getElem?_eq_some_iff.1 hi
  obtain ⟨hj', rfl⟩ := List.getElem?_eq_some_iff.1 hj
  have := List.pairwise_iff_getElem.1 h
  rcases Nat.lt_trichotomy i j with hij | hij | hij
  · exact ⟨fun _ => hij, fun _ => this i j hi' hj' hij⟩
  · subst hij; simp
  · have := this j i hj' hi' hij
    constructor <;> intro <;> omega

theorem bs_iff {B : List (Nat × Int)} (h : Srt B) {a j : Nat} {b : Nat × Int} (hj : B[j]? = some b) :
    j < bsearch (fun b => decide (b.1 < a)) B ↔ b.1 < a := by
  induction B generalizing j with
  | nil => cases hj
  | cons c B ih =>
    rw [Srt, List.pairwise_cons] at h
    by_cases hc : c.1 < a
    · have : bsearch (fun b => decide (b.1 < a)) (c :: B) = bsearch (fun b => decide (b.1 < a)) B + 1 := by
        simp [bsearch, List.takeWhile_cons, hc]
      rw [this]
      cases j with
      | zero => cases hj; simp [hc]
      | succ j => rw [Nat.add_lt_add_iff_right]; exact ih h.2 hj
    · have : bsearch (fun b => decide (b.1 < a)) (c :: B) = 0 := by simp [bsearch, List.takeWhile_cons, hc]
      rw [this]
      cases j with
      | zero => cases hj; simp; omega
      | succ j =>
        have := h.1 b (List.mem_of_getElem? hj)
        simp; omega

theorem Hits.nil_left {B : List (Nat × Int)} {oA oB : Nat} : Hits [] B oA oB (0, []) :=
  ⟨.nil, fun x => ⟨fun h => (by cases h), fun ⟨i, j, _, _, h, _⟩ => (by cases h)⟩, rfl⟩

theorem Hits.nil_right {A : List (Nat × Int)} {oA oB : Nat} : Hits A [] oA oB (0, []) :=
  ⟨.nil, fun x => ⟨fun h => (by cases h), fun ⟨i, j, _, _, _, h⟩ => (by cases h)⟩, rfl⟩

theorem mergeFull_good (oA oB : Nat) (A B : List (Nat × Int)) (hA : Srt A) (hB : Srt B) : Hits A B oA oB (mergeFull oA oB A B) := by
  induction oA, oB, A, B using mergeFull.induct with
  | case1 oA oB B => rw [mergeFull]; exact .nil_left
  | case2 oA oB a A => rw [mergeFull]; exact .nil_right
  | case3 oA oB a A b B hab ih =>
    have hA' := List.pairwise_cons.1 hA
    have hB' := List.pairwise_cons.1 hB
    obtain ⟨h1, h2, h3⟩ := ih hA'.2 hB'.2
    rw [mergeFull, if_pos hab]
    refine ⟨List.pairwise_cons.2 ⟨fun x hx => ?_, h1⟩, fun x => ?_, ?_⟩
    · obtain ⟨i, j, -, -, h4, -⟩ := (h2 x).1 hx
      exact hA'.1 _ (List.mem_of_getElem? h4)
    · rw [List.mem_cons]
      constructor
      · rintro (rfl | hx)
        · exact ⟨0, 0, rfl, rfl, rfl, by simp [hab]⟩
        · obtain ⟨i, j, h4, h5, h6, h7⟩ := (h2 x).1 hx
          exact ⟨i + 1, j + 1, by omega, by omega, h6, h7⟩
      · rintro ⟨i, j, h4, h5, h6, h7⟩
        cases i with
        | zero =>
          cases j with
          | zero =>
            left
            simp only [List.getElem?_cons_zero, Option.some.injEq] at h6 h7
            subst h6; subst h7
            obtain ⟨c, ia, ib, wa, wb⟩ := x
            dsimp only at h4 h5
            rw [h4, h5]; rfl
          | succ j =>
            have := hB'.1 _ (List.mem_of_getElem? (by simpa using h7))
            simp only [List.getElem?_cons_zero, Option.some.injEq] at h6
            subst h6
            exact absurd this (by rw [← hab]; exact Nat.lt_irrefl _)
        | succ i =>
          cases j with
          | zero =>
            have := hA'.1 _ (List.mem_of_getElem? (by simpa using h6))
            simp only [List.getElem?_cons_zero, Option.some.injEq] at h7
            subst h7
            exact absurd this (by rw [hab]; exact Nat.lt_irrefl _)
          | succ j => exact .inr ((h2 x).2 ⟨i, j, by omega, by omega, by simpa using h6, by simpa using h7⟩)
    · dsimp only
      rw [List.map_cons, List.sum_cons, h3]
  | case4 oA oB a A b B hne hlt ih =>
    have hA' := List.pairwise_cons.1 hA
    have hB' := List.pairwise_cons.1 hB
    obtain ⟨h1, h2, h3⟩ := ih hA'.2 hB
    rw [mergeFull, if_neg hne, if_pos hlt]
    refine ⟨h1, fun x => (h2 x).trans ⟨?_, ?_⟩, h3⟩
    · rintro ⟨i, j, h4, h5, h6, h7⟩
      exact ⟨i + 1, j, by omega, h5, h6, h7⟩
    · rintro ⟨i, j, h4, h5, h6, h7⟩
      cases i with
      | zero =>
        simp only [List.getElem?_cons_zero, Option.some.injEq] at h6
        subst h6
        cases j with
        | zero => simp only [List.getElem?_cons_zero, Option.some.injEq] at h7; subst h7; exact absurd rfl hne
        | succ j => have := hB'.1 _ (List.mem_of_getElem? (by simpa using h7)); dsimp only at this hlt; omega
      | succ i => exact ⟨i, j, by omega, h5, by simpa using h6, h7⟩
  | case5 oA oB a A b B hne hlt ih =>
    have hA' := List.pairwise_cons.1 hA
    have hB' := List.pairwise_cons.1 hB
    obtain ⟨h1, h2, h3⟩ := ih hA hB'.2
    rw [mergeFull, if_neg hne, if_neg hlt]
    refine ⟨h1, fun x => (h2 x).trans ⟨?_, ?_⟩, h3⟩
    · rintro ⟨i, j, h4, h5, h6, h7⟩
      exact ⟨i, j + 1, h4, by omega, h6, h7⟩
    · rintro ⟨i, j, h4, h5, h6, h7⟩
      cases j with
      | zero =>
        simp only [List.getElem?_cons_zero, Option.some.injEq] at h7
        subst h7
        cases i with
        | zero => simp only [List.getElem?_cons_zero, Option.some.injEq] at h6; subst h6; exact absurd rfl hne
        | succ i => have := hA'.1 _ (List.mem_of_getElem? (by simpa using h6)); dsimp only at this hlt; omega
      | succ j => exact ⟨i, j, h4, by omega, h6, by simpa using h7⟩

/-- Exchange the lists in all calls. -/
def swapR (sw : Bool) (r : Int × List Call) : Int × List Call := if sw then (r.1, r.2.map Call.swap) else r

theorem Hits.swap {A B : List (Nat × Int)} {oA oB : Nat} {r : Int × List Call} (h : Hits A B oA oB r) : Hits B A oB oA (r.1, r.2.map Call.swap) := by
  refine ⟨?_, fun x => ?_, ?_⟩
  · rw [List.pairwise_map]; exact h.srt
  · rw [List.mem_map]
    constructor
    · rintro ⟨y, hy, rfl⟩
      obtain ⟨i, j, h1, h2, h3, h4⟩ := (h.mem y).1 hy
      exact ⟨j, i, h2, h1, h4, h3⟩
    · rintro ⟨i, j, h1, h2, h3, h4⟩
      exact ⟨x.swap, (h.mem _).2 ⟨j, i, h2, h1, h4, h3⟩, rfl⟩
  · dsimp only
    rw [h.sum, List.map_map]
    congr 1
    exact List.map_congr_left fun x _ => Int.mul_comm _ _

theorem mergeSearch_good (oB : Nat) (B : List (Nat × Int)) (hB : Srt B) (oA : Nat) (A : List (Nat × Int)) (hA : Srt A) :
    Hits A B oA oB (mergeSearch oB false B oA A) := by
  induction A generalizing oA with
  | nil => exact .nil_left
  | cons a A ih =>
    have hA' := List.pairwise_cons.1 hA
    obtain ⟨h1, h2, h3⟩ := ih (oA + 1) hA'.2
    rw [mergeSearch]
    -- no position of `B` but the one found can hold the id of `a`
    have hpos : ∀ j w, B[j]? = some (a.1, w) → j = bsearch (fun b => decide (b.1 < a.1)) B := by
      intro j w hj
      have hj' := (bs_iff hB hj (a := a.1))
      have hlen := (List.getElem?_eq_some_iff.1 hj).1
      rcases Nat.lt_or_ge (bsearch (fun b => decide (b.1 < a.1)) B) j with h | h
      · have hm : B[bsearch (fun b => decide (b.1 < a.1)) B]? = some (B[bsearch (fun b => decide (b.1 < a.1)) B]'(by omega)) := List.getElem?_eq_getElem _
        have e1 := (bs_iff hB hm (a := a.1))
        have e2 := (srt_get hB hm hj).2 h
        exact absurd (e1.2 e2) (Nat.lt_irrefl _)
      · simp only [Nat.lt_irrefl, iff_false] at hj'; omega
    have hskip : (∀ w, B[bsearch (fun b => decide (b.1 < a.1)) B]? ≠ some (a.1, w)) → Hits (a :: A) B oA oB (mergeSearch oB false B (oA + 1) A) := by
      intro hno
      refine ⟨h1, fun x => (h2 x).trans ⟨?_, ?_⟩, h3⟩
      · rintro ⟨i, j, h4, h5, h6, h7⟩
        exact ⟨i + 1, j, by omega, h5, h6, h7⟩
      · rintro ⟨i, j, h4, h5, h6, h7⟩
        cases i with
        | zero =>
          simp only [List.getElem?_cons_zero, Option.some.injEq] at h6
          subst h6
          exact absurd (hpos j _ h7 ▸ h7) (hno _)
        | succ i => exact ⟨i, j, by omega, h5, by simpa using h6, h7⟩
    dsimp only
    split
    · rename_i hn
      exact hskip fun w hw => by rw [hn] at hw; cases hw
    · rename_i b hb
      split
      · rename_i hab
        refine ⟨List.pairwise_cons.2 ⟨fun x hx => ?_, h1⟩, fun x => ?_, ?_⟩
        · obtain ⟨i, j, -, -, h4, -⟩ := (h2 x).1 hx
          exact hA'.1 _ (List.mem_of_getElem? h4)
        · rw [if_neg (by decide), List.mem_cons]
          constructor
          · rintro (rfl | hx)
            · exact ⟨0, _, rfl, rfl, rfl, by rw [hb, hab]⟩
            · obtain ⟨i, j, h4, h5, h6, h7⟩ := (h2 x).1 hx
              exact ⟨i + 1, j, by omega, h5, h6, h7⟩
          · rintro ⟨i, j, h4, h5, h6, h7⟩
            cases i with
            | zero =>
              left
              simp only [List.getElem?_cons_zero, Option.some.injEq] at h6
              subst h6
              have := hpos j _ h7
              subst this
              rw [hb] at h7
              cases h7
              obtain ⟨c, ia, ib, wa, wb⟩ := x
              dsimp only at h4 h5
              rw [h4, h5]; rfl
            | succ i => exact .inr ((h2 x).2 ⟨i, j, by omega, h5, by simpa using h6, h7⟩)
        · rw [if_neg (by decide), List.map_cons, List.sum_cons, h3]
      · rename_i hab
        exact hskip fun w hw => by rw [hb] at hw; cases hw; exact hab rfl

theorem mergeSearch_swap (oB : Nat) (B : List (Nat × Int)) (oA : Nat) (A : List (Nat × Int)) :
    mergeSearch oB true B oA A = ((mergeSearch oB false B oA A).1, (mergeSearch oB false B oA A).2.map Call.swap) := by
  induction A generalizing oA with
  | nil => rfl
  | cons a A ih =>
    rw [mergeSearch, mergeSearch]
    dsimp only
    rw [ih]
    split
    · rfl
    · split <;> rfl

theorem Hits.append {A B : List (Nat × Int)} (hA : Srt A) (hB : Srt B) {oA oB mA : Nat} {a : Nat × Int} (ha : A[mA]? = some a) {l r : Int × List Call}
    (hl : Hits (A.take mA) (B.take (bsearch (fun b => decide (b.1 < a.1)) B)) oA oB l)
    (hr : Hits (A.drop mA) (B.drop (bsearch (fun b => decide (b.1 < a.1)) B)) (oA + mA) (oB + bsearch (fun b => decide (b.1 < a.1)) B) r) :
    Hits A B oA oB (l.1 + r.1, l.2 ++ r.2) := by
  have hlow : ∀ x ∈ l.2, x.c < a.1 := by
    intro x hx
    obtain ⟨i, j, -, -, h, -⟩ := (hl.mem x).1 hx
    rw [List.getElem?_take] at h
    split at h
    · exact (srt_get hA h ha).2 (by assumption)
    · cases h
  have hhigh : ∀ x ∈ r.2, a.1 ≤ x.c := by
    intro x hx
    obtain ⟨i, j, -, -, h, -⟩ := (hr.mem x).1 hx
    rw [List.getElem?_drop] at h
    have := srt_get hA h ha
    dsimp only at this
    omega
  refine ⟨List.pairwise_append.2 ⟨hl.srt, hr.srt, fun x hx y hy => Nat.lt_of_lt_of_le (hlow x hx) (hhigh y hy)⟩, fun x => ?_, ?_⟩
  · rw [List.mem_append, hl.mem, hr.mem]
    constructor
    · rintro (⟨i, j, h1, h2, h3, h4⟩ | ⟨i, j, h1, h2, h3, h4⟩)
      · rw [List.getElem?_take] at h3 h4
        split at h3
        · split at h4
          · exact ⟨i, j, h1, h2, h3, h4⟩
          · cases h4
        · cases h3
      · rw [List.getElem?_drop] at h3 h4
        exact ⟨_, _, by omega, by omega, h3, h4⟩
    · rintro ⟨i, j, h1, h2, h3, h4⟩
      have e1 := srt_get hA h3 ha
      have e2 := bs_iff hB h4 (a := a.1)
      dsimp only at e1 e2
      by_cases hi : i < mA
      · have hj := e2.2 (e1.2 hi)
        left
        refine ⟨i, j, h1, h2, ?_, ?_⟩
        · rw [List.getElem?_take, if_pos hi, h3]
        · rw [List.getElem?_take, if_pos hj, h4]
      · have hj : ¬ j < bsearch (fun b => decide (b.1 < a.1)) B := fun h => hi (e1.1 (e2.1 h))
        right
        refine ⟨i - mA, j - bsearch (fun b => decide (b.1 < a.1)) B, by omega, by omega, ?_, ?_⟩
        · rw [List.getElem?_drop, Nat.add_sub_of_le (by omega), h3]
        · rw [List.getElem?_drop, Nat.add_sub_of_le (by omega), h4]
  · dsimp only
    rw [List.map_append, List.sum_append, hl.sum, hr.sum]

theorem merge_good (t1 t2 : Nat) (ht : 2 ≤ t2) (A B : List (Nat × Int)) (oA oB : Nat) (sw : Bool) (hA : Srt A) (hB : Srt B) :
    if sw then Hits B A oB oA (merge t1 t2 ht A B oA oB sw) else Hits A B oA oB (merge t1 t2 ht A B oA oB sw) := by
  induction A, B, oA, oB, sw using merge.induct (t1 := t1) (t2 := t2) (ht := ht) with
  | case1 A B oA oB h =>
    rw [merge, if_pos h]
    exact mergeFull_good _ _ _ _ hB hA
  | case2 A B oA oB sw h hsw =>
    rw [merge, if_pos h, if_neg hsw, if_neg hsw]
    exact mergeFull_good _ _ _ _ hA hB
  | case3 A B oA oB sw h h2 ih =>
    rw [merge, if_neg h, if_pos h2]
    have := ih hB hA
    cases sw <;> simpa using this
  | case4 A B oA oB sw h h2 h3 =>
    rw [merge, if_neg h, if_neg h2, dif_pos h3]
    have := mergeSearch_good oB B hB oA A hA
    cases sw with
    | true => rw [if_pos rfl, mergeSearch_swap]; exact this.swap
    | false => exact this
  | case5 A B oA oB sw h h2 h3 mA mB ih1 ih2 =>
    rw [merge, if_neg h, if_neg h2, dif_neg h3]
    have hk : A.length / 2 < A.length := by omega
    have hg : A[A.length / 2]? = some (A[A.length / 2]) := List.getElem?_eq_getElem hk
    have e1 := ih1 (hA.sublist (List.take_sublist _ _)) (hB.sublist (List.take_sublist _ _))
    have e2 := ih2 (hA.sublist (List.drop_sublist _ _)) (hB.sublist (List.drop_sublist _ _))
    cases sw with
    | false => exact Hits.append hA hB hg e1 e2
    | true =>
      rw [if_pos rfl] at e1 e2 ⊢
      have := (Hits.append hA hB hg e1.swap e2.swap).swap
      simp only [List.map_append, List.map_map] at this
      have hid : Call.swap ∘ Call.swap = id := rfl
      rw [hid, List.map_id, List.map_id] at this
      exact this

/-- The positions reported for every common neighbour are right, on either side, for lists of any length. -/
theorem intersectIx_good {A B : List (Nat × Int)} (hA : Srt A) (hB : Srt B) : Hits A B 0 0 (intersectIx A B) :=
  merge_good 2048 32 (by decide) A B 0 0 false hA hB

/-- The hypotheses are met by lists long enough for every branch. -/
example : Srt ((List.range 1500).map fun i => (2 * i, 1)) ∧ Srt ((List.range 1500).map fun i => (3 * i, (i : Int))) := by
  constructor <;>
  · rw [Srt, List.pairwise_map]
    exact List.pairwise_lt_range.imp fun h => by dsimp only; omega

end Gbbs.Scan
