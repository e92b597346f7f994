/-
Model of `kth_smallest` of `gbbs/bridge.h`, proofs for C137.
-/
import Verif.Common

namespace Gbbs.Kth

variable {T : Type}

/-- `bridge.h:533-549` (`kth_smallest`); `rnd d` is `r[0]` at depth `d` of the recursion.  `none`: the
code computes `r[0] % 0` (undefined), or the recursion is deeper than `fuel`.  `k - n + larger.size()` is
computed modulo `2^64`; the value is `k + larger.size() - n`, which is not negative there. -/
def kthSmallest (less : T → T → Bool) (rnd : Nat → Nat) : (fuel d : Nat) → (s : List T) → (k : Nat) → Option T
  | 0, _, _, _ => none
  | fuel + 1, d, s, k =>
    let n := s.length
    if n = 0 then none
    else
      match s[rnd d % n]? with
      | none => none
      | some pivot =>
        let smaller := s.filter (fun a => less a pivot)
        if k < smaller.length then kthSmallest less rnd fuel (d + 1) smaller k
        else
          let larger := s.filter (fun a => less pivot a)
          if n - larger.length ≤ k then kthSmallest less rnd fuel (d + 1) larger (k + larger.length - n)
          else some pivot

/-! ### Specification -/

/-- `less` is a strict weak order, as `std::sort` demands. -/
structure StrictWeak (less : T → T → Bool) : Prop where
  irrefl : ∀ a, less a a = false
  trans : ∀ a b c, less a b = true → less b c = true → less a c = true
  negTrans : ∀ a b c, less a c = true → less a b = true ∨ less b c = true

/-- `x` is an element of `s` that a sort of `s` may put at position `k`: at most `k` elements come before
it, and fewer than `n - k` after it. -/
def IsKth (less : T → T → Bool) (s : List T) (k : Nat) (x : T) : Prop :=
  x ∈ s ∧ s.countP (fun a => less a x) ≤ k ∧ k + s.countP (fun a => less x a) < s.length

/-! ### Proofs -/

theorem countP_split (p q : T → Bool) (s : List T) :
    s.countP p = (s.filter q).countP p + (s.filter (fun a => !q a)).countP p := by
  induction s with
  | nil => rfl
  | cons a s ih =>
    cases hq : q a <;> cases hp : p a <;> simp [hq, hp] <;> omega

theorem length_split (q : T → Bool) (s : List T) :
    s.length = (s.filter q).length + (s.filter (fun a => !q a)).length := by
  induction s with
  | nil => rfl
  | cons a s ih => cases hq : q a <;> simp [hq] <;> omega

theorem filter_lt (q : T → Bool) {s : List T} {a : T} (ha : a ∈ s) (hq : q a = false) :
    (s.filter q).length < s.length := by
  have h := length_split q s
  have : 0 < (s.filter (fun a => !q a)).length :=
    List.length_pos_of_mem (List.mem_filter.2 ⟨ha, by simp [hq]⟩)
  omega

theorem IsKth.of_smaller {less : T → T → Bool} (hl : StrictWeak less) {s : List T} {k : Nat} {x pivot : T}
    (h : IsKth less (s.filter fun a => less a pivot) k x) : IsKth less s k x := by
  obtain ⟨h1, h2, h3⟩ := h
  obtain ⟨h1, h4⟩ := List.mem_filter.1 h1
  have e1 := countP_split (fun a => less a x) (fun a => less a pivot) s
  have e2 := countP_split (fun a => less x a) (fun a => less a pivot) s
  have e3 := length_split (fun a => less a pivot) s
  have z1 : (s.filter fun a => !less a pivot).countP (fun a => less a x) = 0 := by
    rw [List.countP_eq_zero]
    intro a ha hlt
    have := (List.mem_filter.1 ha).2
    simp [hl.trans a x pivot hlt h4] at this
  have z2 := List.countP_le_length (p := fun a => less x a) (l := s.filter fun a => !less a pivot)
  exact ⟨h1, by omega, by omega⟩

theorem IsKth.of_larger {less : T → T → Bool} (hl : StrictWeak less) {s : List T} {k : Nat} {x pivot : T}
    (hk : s.length ≤ k + (s.filter fun a => less pivot a).length)
    (h : IsKth less (s.filter fun a => less pivot a)
      (k + (s.filter fun a => less pivot a).length - s.length) x) : IsKth less s k x := by
  obtain ⟨h1, h2, h3⟩ := h
  obtain ⟨h1, h4⟩ := List.mem_filter.1 h1
  have e1 := countP_split (fun a => less a x) (fun a => less pivot a) s
  have e2 := countP_split (fun a => less x a) (fun a => less pivot a) s
  have e3 := length_split (fun a => less pivot a) s
  have z1 : (s.filter fun a => !less pivot a).countP (fun a => less x a) = 0 := by
    rw [List.countP_eq_zero]
    intro a ha hlt
    have := (List.mem_filter.1 ha).2
    simp [hl.trans pivot x a h4 hlt] at this
  have z2 := List.countP_le_length (p := fun a => less a x) (l := s.filter fun a => !less pivot a)
  exact ⟨h1, by omega, by omega⟩

/-- C137 (partial): for every strict weak order, every choice of pivots and `k < n`, `kth_smallest` ends
after at most `n` calls and returns an element of rank `k`.  Missing: `k ≥ n` is undefined
(`C137_kth_undefined`). -/
theorem C137_kth_smallest_partial (less : T → T → Bool) (hl : StrictWeak less) (rnd : Nat → Nat)
    (s : List T) (k : Nat) (hk : k < s.length) (fuel d : Nat) (hf : s.length ≤ fuel) :
    ∃ x, kthSmallest less rnd fuel d s k = some x ∧ IsKth less s k x := by
  induction fuel generalizing d s k with
  | zero => omega
  | succ fuel ih =>
    have hn : s.length ≠ 0 := by omega
    have hlt : rnd d % s.length < s.length := Nat.mod_lt _ (by omega)
    rw [kthSmallest]
    simp only [if_neg hn, List.getElem?_eq_getElem hlt]
    generalize hp : s[rnd d % s.length] = pivot
    have hmem : pivot ∈ s := hp ▸ List.getElem_mem hlt
    have f1 := filter_lt (fun a => less a pivot) hmem (hl.irrefl pivot)
    have f2 := filter_lt (fun a => less pivot a) hmem (hl.irrefl pivot)
    by_cases h1 : k < (s.filter fun a => less a pivot).length
    · rw [if_pos h1]
      obtain ⟨x, hx, hx2⟩ := ih _ k h1 (d + 1) (by omega)
      exact ⟨x, hx, hx2.of_smaller hl⟩
    · rw [if_neg h1]
      by_cases h2 : s.length - (s.filter fun a => less pivot a).length ≤ k
      · rw [if_pos h2]
        obtain ⟨x, hx, hx2⟩ := ih (s.filter fun a => less pivot a)
          (k + (s.filter fun a => less pivot a).length - s.length) (by omega) (d + 1) (by omega)
        exact ⟨x, hx, hx2.of_larger hl (by omega)⟩
      · rw [if_neg h2]
        refine ⟨pivot, rfl, hmem, ?_, ?_⟩
        · rw [List.countP_eq_length_filter]; omega
        · rw [List.countP_eq_length_filter]; omega

/-- C137: for `k ≥ n` no call returns: the recursion reaches the empty sequence and computes
`r[0] % 0`.  Nothing checks `k`. -/
theorem C137_kth_undefined (less : T → T → Bool) (rnd : Nat → Nat) (s : List T) (k : Nat)
    (hk : s.length ≤ k) (fuel d : Nat) : kthSmallest less rnd fuel d s k = none := by
  induction fuel generalizing d s k with
  | zero => rfl
  | succ fuel ih =>
    rw [kthSmallest]
    by_cases hn : s.length = 0
    · simp only [if_pos hn]
    · have hlt : rnd d % s.length < s.length := Nat.mod_lt _ (by omega)
      simp only [if_neg hn, List.getElem?_eq_getElem hlt]
      generalize s[rnd d % s.length] = pivot
      have f1 := List.length_filter_le (fun a => less a pivot) s
      have f2 := List.length_filter_le (fun a => less pivot a) s
      rw [if_neg (by omega), if_pos (by omega)]
      exact ih _ _ (by omega) _

/-- Two results of rank `k` are equivalent, so the pivots do not matter. -/
theorem IsKth.unique {less : T → T → Bool} (hl : StrictWeak less) {s : List T} {k : Nat} {x y : T}
    (hx : IsKth less s k x) (hy : IsKth less s k y) : less x y = false ∧ less y x = false := by
  have key : ∀ {x y : T}, IsKth less s k x → IsKth less s k y → less x y = false := by
    intro x y hx hy
    cases h : less x y
    · rfl
    · exfalso
      obtain ⟨-, -, hx3⟩ := hx
      obtain ⟨-, hy2, -⟩ := hy
      have e := length_split (fun a => less a y) s
      have e2 : (s.filter fun a => !less a y).length ≤ s.countP (fun a => less x a) := by
        rw [← List.countP_eq_length_filter]
        apply List.countP_mono_left
        intro a _ ha
        rcases hl.negTrans x a y h with h' | h'
        · exact h'
        · simp [h'] at ha
      rw [← List.countP_eq_length_filter] at e
      omega
  exact ⟨key hx hy, key hy hx⟩

/-- C137: for any two sequences of pivots the results are equivalent. -/
theorem C137_kth_pivots_irrelevant (less : T → T → Bool) (hl : StrictWeak less) (rnd rnd' : Nat → Nat)
    (s : List T) (k : Nat) (hk : k < s.length) (x y : T)
    (hx : kthSmallest less rnd s.length 0 s k = some x)
    (hy : kthSmallest less rnd' s.length 0 s k = some y) : less x y = false ∧ less y x = false := by
  obtain ⟨x', h1, h2⟩ := C137_kth_smallest_partial less hl rnd s k hk s.length 0 (Nat.le_refl _)
  obtain ⟨y', h3, h4⟩ := C137_kth_smallest_partial less hl rnd' s k hk s.length 0 (Nat.le_refl _)
  rw [hx] at h1
  rw [hy] at h3
  cases h1
  cases h3
  exact h2.unique hl h4

/-- The order on numbers is a strict weak order; the third smallest of `5 3 9 3 7 1` is `3`. -/
example : StrictWeak (fun a b : Nat => decide (a < b)) ∧
    kthSmallest (fun a b : Nat => decide (a < b)) (fun d => 2 + d) 6 0 [5, 3, 9, 3, 7, 1] 2 = some 3 := by
  refine ⟨⟨?_, ?_, ?_⟩, by decide +kernel⟩
  · intro a; simp
  · intro a b c; simp only [decide_eq_true_eq]; omega
  · intro a b c; simp only [decide_eq_true_eq]; omega

end Gbbs.Kth
