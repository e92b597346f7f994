/-
C106: the sampled edges of `get_top_k` exist.
-/
import Verif.Common

namespace Gbbs.Boruvka

/-- `vertex_offs` after lines 234-238: inclusive sums of the degrees. -/
def offs (deg : Nat → Nat) (v : Nat) : Nat := exScan deg (v + 1)

/-- `parlay::binary_search(vertex_offs, s, lte)`, line 247 (trusted: the first position whose entry is not `lte s`). -/
def searchV (deg : Nat → Nat) (n s : Nat) : Nat := ((List.range n).find? fun v => decide (¬ offs deg v ≤ s)).getD n

/-- Line 248. -/
def ith (deg : Nat → Nat) (n s : Nat) : Nat := offs deg (searchV deg n s) - s - 1

/-- Line 262, with exact division in place of the one by `double`. -/
def splitInd (k m : Nat) : Nat := k * 2000 / m

/-- Line 252 reads a neighbour that exists, for every sampled number below the number of arcs. -/
theorem sample_ok {deg : Nat → Nat} {n s : Nat} (hs : s < exScan deg n) :
    searchV deg n s < n ∧ ith deg n s < deg (searchV deg n s) := by
  have hn : 0 < n := by
    rcases Nat.eq_zero_or_pos n with rfl | h
    · simp [exScan] at hs
    · exact h
  unfold ith searchV
  cases hf : (List.range n).find? fun v => decide (¬ offs deg v ≤ s) with
  | none =>
    have : offs deg (n - 1) ≤ s := by simpa using List.find?_eq_none.1 hf (n - 1) (List.mem_range.2 (by omega))
    rw [offs, show n - 1 + 1 = n by omega] at this
    omega
  | some v =>
    obtain ⟨hv, as, bs, h1, h2⟩ := List.find?_eq_some_iff_append.1 hf
    have hvn : v < n := List.mem_range.1 (List.mem_of_find?_eq_some hf)
    have hv : s < offs deg v := by simpa using hv
    refine ⟨hvn, ?_⟩
    show offs deg v - s - 1 < deg v
    have hle : exScan deg v ≤ s := by
      rcases Nat.eq_zero_or_pos v with rfl | hp
      · simp [exScan]
      · have hm : v - 1 ∈ as := by
          have hsort : (List.range n).Pairwise (· < ·) := List.pairwise_lt_range
          have hmem : v - 1 ∈ as ++ v :: bs := h1 ▸ List.mem_range.2 (by omega)
          rw [h1] at hsort
          rcases List.mem_append.1 hmem with h | h
          · exact h
          · rcases List.mem_cons.1 h with h | h
            · omega
            · have := List.rel_of_pairwise_cons (List.pairwise_append.1 hsort).2.1 h
              omega
        have : offs deg (v - 1) ≤ s := by simpa using h2 _ hm
        rwa [offs, show v - 1 + 1 = v by omega] at this
    have : offs deg v = exScan deg v + deg v := by simp [offs, exScan]
    omega

/-- The splitter is one of the 2000 samples whenever the branch is reached (`k` is less than the number of arcs). -/
theorem split_ok {k m : Nat} (h : k < m) : splitInd k m < 2000 := by
  unfold splitInd
  rw [Nat.div_lt_iff_lt_mul (by omega)]
  omega

example : searchV (fun v => v) 4 3 = 3 ∧ ith (fun v => v) 4 3 = 2 := by decide

end Gbbs.Boruvka
