/-
C105: the tree as an asymmetric graph, `preorder_number` of `benchmarks/Biconnectivity/TarjanVishkin/Biconnectivity.h:99-163`.
-/
import Verif.Bicc.Number
import Verif.Common
import Mathlib.Data.List.Sort
import Mathlib.Data.Nat.Find

namespace Gbbs.Bicc

/-! ### Model -/

/-- `UINT_E_MAX`. -/
def maxE : Nat := 4294967295

/-- `edges`, `:99-113`, before the sort: the pairs (parent, child). -/
def pairs (n : Nat) (par : Nat → Nat) : List (Nat × Nat) :=
  ((List.range n).map fun i => if par i ≠ i then (par i, i) else (maxE, maxE)).filter fun e => decide (e.1 ≠ maxE)

/-- `l < r` on tuples, or equal. -/
def lexLe (l r : Nat × Nat) : Prop := l.1 < r.1 ∨ l.1 = r.1 ∧ l.2 ≤ r.2

/-- `edges` after `sample_sort`, `:114-115`. -/
def Edges (n : Nat) (par : Nat → Nat) (es : List (Nat × Nat)) : Prop := es.Perm (pairs n par) ∧ es.Pairwise lexLe

/-- The parallel loop that writes `starts`, `:117-123`, in the order `s`; `ks` are the parents of the edges. -/
def heads (ks s : List Nat) : Nat → Nat :=
  s.foldl (fun st i => if i = 0 ∨ ks.getD i 0 ≠ ks.getD (i - 1) 0 then upd st (ks.getD i 0) i else st) fun _ => maxE

/-- The loop that fills the gaps, `:124-132`: `starts[n - d]`. -/
def fill (st : Nat → Nat) (n len : Nat) : Nat → Nat
  | 0 => len
  | d + 1 => if st (n - (d + 1)) = maxE then fill st n len d else st (n - (d + 1))

/-- `starts`. -/
def starts (n : Nat) (es : List (Nat × Nat)) (s : List Nat) (i : Nat) : Nat := fill (heads (es.map Prod.fst) s) n es.length (n - i)

/-- The out-neighbours of `v` in `Tree`, `:137-163`: `nghs` from `starts[v]`, `starts[v + 1] - starts[v]` of them. -/
def outs (n : Nat) (es : List (Nat × Nat)) (s : List Nat) (v : Nat) : List Nat :=
  ((es.map Prod.snd).drop (starts n es s v)).take (starts n es s (v + 1) - starts n es s v)

/-! ### Verification -/

section
variable {ks : List Nat}

theorem getD_eq {l : List Nat} {j : Nat} (h : j < l.length) : l.getD j 0 = l[j] := by
  simp [List.getD, h]

theorem count_split (x k : Nat) (hk : k ≤ ks.length) (h1 : ∀ j < k, ks.getD j 0 < x) (h2 : ∀ j, k ≤ j → j < ks.length → ¬ ks.getD j 0 < x) :
    ks.countP (fun y => decide (y < x)) = k := by
  conv_lhs => rw [← List.take_append_drop k ks]
  rw [List.countP_append, List.countP_eq_length.2, List.countP_eq_zero.2]
  · simp; omega
  · intro y hy
    obtain ⟨j, hj, rfl⟩ := List.mem_iff_getElem.1 hy
    rw [List.length_drop] at hj
    have := h2 (k + j) (by omega) (by omega)
    rw [getD_eq (by omega)] at this
    simpa using this
  · intro y hy
    obtain ⟨j, hj, rfl⟩ := List.mem_iff_getElem.1 hy
    rw [List.length_take] at hj
    have := h1 j (by omega)
    rw [getD_eq (by omega)] at this
    simpa using this

variable (hs : ks.Pairwise (· ≤ ·))
include hs

theorem mono {i j : Nat} (hij : i ≤ j) (hj : j < ks.length) : ks.getD i 0 ≤ ks.getD j 0 := by
  rcases Nat.lt_or_eq_of_le hij with h | rfl
  · rw [getD_eq (by omega), getD_eq hj]
    exact List.pairwise_iff_getElem.1 hs i j (by omega) hj h
  · exact Nat.le_refl _

/-- The first position of a key. -/
theorem head_count {j : Nat} (hj : j < ks.length) (hd : j = 0 ∨ ks.getD j 0 ≠ ks.getD (j - 1) 0) :
    ks.countP (fun y => decide (y < ks.getD j 0)) = j := by
  refine count_split _ j (Nat.le_of_lt hj) (fun i hi => ?_) fun i hi hil => ?_
  · have h1 := mono hs (show i ≤ j - 1 by omega) (by omega)
    have h2 := mono hs (show j - 1 ≤ j by omega) hj
    have h3 := hd.resolve_left (by omega)
    omega
  · have := mono hs hi hil; omega

theorem heads_eq {s : List Nat} (hS : Sched ks.length s) (x : Nat) :
    heads ks s x = if x ∈ ks then ks.countP (fun y => decide (y < x)) else maxE := by
  have aux : ∀ (s : List Nat) (st : Nat → Nat), (∀ j ∈ s, j < ks.length) →
      s.foldl (fun st i => if i = 0 ∨ ks.getD i 0 ≠ ks.getD (i - 1) 0 then upd st (ks.getD i 0) i else st) st x =
        if ∃ j ∈ s, (j = 0 ∨ ks.getD j 0 ≠ ks.getD (j - 1) 0) ∧ ks.getD j 0 = x then ks.countP (fun y => decide (y < x)) else st x := by
    intro s
    induction s with
    | nil => intro st _; simp
    | cons j s ih =>
      intro st hl
      rw [List.foldl_cons, ih _ fun i hi => hl i (List.mem_cons_of_mem _ hi)]
      by_cases h1 : ∃ j ∈ s, (j = 0 ∨ ks.getD j 0 ≠ ks.getD (j - 1) 0) ∧ ks.getD j 0 = x
      · obtain ⟨i, hi, h⟩ := h1
        rw [if_pos ⟨i, hi, h⟩, if_pos ⟨i, List.mem_cons_of_mem _ hi, h⟩]
      · rw [if_neg h1]
        by_cases h2 : (j = 0 ∨ ks.getD j 0 ≠ ks.getD (j - 1) 0) ∧ ks.getD j 0 = x
        · rw [if_pos h2.1, if_pos ⟨j, List.mem_cons_self, h2⟩, ← h2.2, upd_same, head_count hs (hl j List.mem_cons_self) h2.1]
        · have h3 : ¬ ∃ i ∈ j :: s, (i = 0 ∨ ks.getD i 0 ≠ ks.getD (i - 1) 0) ∧ ks.getD i 0 = x := by
            rintro ⟨i, hi, h⟩
            rcases List.mem_cons.1 hi with rfl | hi
            · exact h2 h
            · exact h1 ⟨i, hi, h⟩
          rw [if_neg h3]
          by_cases h4 : j = 0 ∨ ks.getD j 0 ≠ ks.getD (j - 1) 0
          · rw [if_pos h4, upd_of_ne _ _ fun h => h2 ⟨h4, h.symm⟩]
          · rw [if_neg h4]
  rw [heads, aux s _ fun j hj => (hS.2 j).1 hj]
  have : (∃ j ∈ s, (j = 0 ∨ ks.getD j 0 ≠ ks.getD (j - 1) 0) ∧ ks.getD j 0 = x) ↔ x ∈ ks := by
    constructor
    · rintro ⟨j, hj, -, rfl⟩
      have := (hS.2 j).1 hj
      rw [getD_eq this]; exact List.getElem_mem _
    · intro hx
      have hex : ∃ j, j < ks.length ∧ ks.getD j 0 = x := by
        obtain ⟨j, hj, h⟩ := List.mem_iff_getElem.1 hx
        exact ⟨j, hj, by rw [getD_eq hj, h]⟩
      have h1 := Nat.find_spec hex
      refine ⟨Nat.find hex, (hS.2 _).2 h1.1, ?_, h1.2⟩
      by_cases h0 : Nat.find hex = 0
      · exact Or.inl h0
      · refine Or.inr fun hc => Nat.find_min hex (m := Nat.find hex - 1) (by omega) ⟨by omega, ?_⟩
        rw [← hc, h1.2]
  by_cases hx : x ∈ ks
  · rw [if_pos hx, if_pos (this.2 hx)]
  · rw [if_neg hx, if_neg fun h => hx (this.1 h)]

theorem fill_eq {s : List Nat} (hS : Sched ks.length s) (hm : ks.length < maxE) {n : Nat} (hn : ∀ k ∈ ks, k < n) (d : Nat) (hd : d ≤ n) :
    fill (heads ks s) n ks.length d = ks.countP (fun y => decide (y < n - d)) := by
  induction d with
  | zero => rw [fill, List.countP_eq_length.2]; intro k hk; simpa using hn k hk
  | succ d ih =>
    have hc : ks.countP (fun y => decide (y < n - (d + 1))) ≤ ks.length := List.countP_le_length
    rw [fill, heads_eq hs hS]
    by_cases hx : n - (d + 1) ∈ ks
    · rw [if_pos hx, if_neg (by omega)]
    · rw [if_neg hx, if_pos rfl, ih (by omega)]
      refine List.countP_congr fun k hk => ?_
      have : k ≠ n - (d + 1) := fun h => hx (h ▸ hk)
      simp only [decide_eq_true_eq]; omega

end

variable {n : Nat} {par : Nat → Nat}

theorem pairs_eq (hb : ∀ v < n, par v < n) (hn : n ≤ maxE) : pairs n par = ((List.range n).filter fun i => decide (par i ≠ i)).map fun i => (par i, i) := by
  unfold pairs
  have : ∀ l : List Nat, (∀ i ∈ l, par i < maxE) →
      ((l.map fun i => if par i ≠ i then (par i, i) else (maxE, maxE)).filter fun e => decide (e.1 ≠ maxE)) =
        (l.filter fun i => decide (par i ≠ i)).map fun i => (par i, i) := by
    intro l
    induction l with
    | nil => intro _; rfl
    | cons a l ih =>
      intro hl
      have ih := ih fun i hi => hl i (List.mem_cons_of_mem _ hi)
      have ha := hl a List.mem_cons_self
      rw [List.map_cons]
      by_cases h : par a ≠ a
      · rw [if_pos h, List.filter_cons_of_pos (by simp; omega), List.filter_cons_of_pos (by simpa using h), List.map_cons, ih]
      · rw [if_neg h, List.filter_cons_of_neg (by simp), List.filter_cons_of_neg (by simpa using h), ih]
  exact this _ fun i hi => by have := hb i (List.mem_range.1 hi); omega

/-- A list sorted by a key, in three parts. -/
theorem three (es : List (Nat × Nat)) (h : es.Pairwise fun a b => a.1 ≤ b.1) (v : Nat) :
    es = es.filter (fun e => decide (e.1 < v)) ++ (es.filter (fun e => decide (e.1 = v)) ++ es.filter (fun e => decide (v < e.1))) := by
  induction es with
  | nil => rfl
  | cons a es ih =>
    rw [List.pairwise_cons] at h
    have ih := ih h.2
    rcases Nat.lt_trichotomy a.1 v with hlt | heq | hgt
    · rw [List.filter_cons_of_pos (by simpa using hlt), List.filter_cons_of_neg (by simp; omega), List.filter_cons_of_neg (by simp; omega), List.cons_append, ← ih]
    · have h0 : es.filter (fun e => decide (e.1 < v)) = [] := List.filter_eq_nil_iff.2 fun e he => by have := h.1 e he; simp; omega
      rw [h0, List.nil_append] at ih
      rw [List.filter_cons_of_neg (by simp; omega), List.filter_cons_of_pos (by simpa using heq), List.filter_cons_of_neg (by simp; omega), h0, List.nil_append,
        List.cons_append, ← ih]
    · have h0 : es.filter (fun e => decide (e.1 < v)) = [] := List.filter_eq_nil_iff.2 fun e he => by have := h.1 e he; simp; omega
      have h1 : es.filter (fun e => decide (e.1 = v)) = [] := List.filter_eq_nil_iff.2 fun e he => by have := h.1 e he; simp; omega
      rw [h0, h1, List.nil_append, List.nil_append] at ih
      rw [List.filter_cons_of_neg (by simp; omega), List.filter_cons_of_neg (by simp; omega), List.filter_cons_of_pos (by simpa using hgt), h0, h1, List.nil_append,
        List.nil_append, ← ih]

/-- The arrays built by the code give every vertex its children, in increasing order. -/
theorem outs_eq (hb : ∀ v < n, par v < n) (hn : n < maxE) {es : List (Nat × Nat)} (he : Edges n par es) {s : List Nat} (hS : Sched es.length s) {v : Nat} (hv : v < n) :
    outs n es s v = kids n par v := by
  have hp := pairs_eq hb (Nat.le_of_lt hn)
  have hmem : ∀ e : Nat × Nat, e ∈ es ↔ e.2 < n ∧ par e.2 ≠ e.2 ∧ par e.2 = e.1 := by
    intro e
    rw [he.1.mem_iff, hp, List.mem_map]
    constructor
    · rintro ⟨i, hi, rfl⟩
      obtain ⟨h1, h2⟩ := List.mem_filter.1 hi
      exact ⟨List.mem_range.1 h1, by simpa using h2, rfl⟩
    · rintro ⟨h1, h2, h3⟩
      exact ⟨e.2, List.mem_filter.2 ⟨List.mem_range.2 h1, by simpa using h2⟩, Prod.ext h3 rfl⟩
  have hlen : es.length ≤ n := by
    rw [he.1.length_eq, hp, List.length_map]
    exact (List.length_filter_le _ _).trans (by simp)
  have hso : es.Pairwise fun a b => a.1 ≤ b.1 := he.2.imp fun h => by unfold lexLe at h; omega
  have hks : (es.map Prod.fst).Pairwise (· ≤ ·) := List.pairwise_map.2 hso
  have hst : ∀ i, i ≤ n → starts n es s i = (es.filter fun e => decide (e.1 < i)).length := by
    intro i hi
    unfold starts
    have h1 := fill_eq hks (s := s) (by simpa using hS) (by simp; omega) (n := n) (fun k hk => by
      obtain ⟨e, h1, rfl⟩ := List.mem_map.1 hk
      obtain ⟨h2, -, h3⟩ := (hmem e).1 h1
      exact h3 ▸ hb _ h2) (n - i) (by omega)
    rw [List.length_map] at h1
    rw [h1, List.countP_map, List.countP_eq_length_filter, show n - (n - i) = i by omega]
    rfl
  have h3 := three es hso v
  have hlt1 : (es.filter fun e => decide (e.1 < v + 1)).length = (es.filter fun e => decide (e.1 < v)).length + (es.filter fun e => decide (e.1 = v)).length := by
    clear h3 hst hks hso hlen hmem hS he
    induction es with
    | nil => rfl
    | cons a es ih =>
      rcases Nat.lt_trichotomy a.1 v with h | h | h
      · rw [List.filter_cons_of_pos (by simp; omega), List.filter_cons_of_pos (by simp; omega), List.filter_cons_of_neg (by simp; omega),
          List.length_cons, List.length_cons, ih]; omega
      · rw [List.filter_cons_of_pos (by simp; omega), List.filter_cons_of_neg (by simp; omega), List.filter_cons_of_pos (by simp; omega),
          List.length_cons, List.length_cons, ih]; omega
      · rw [List.filter_cons_of_neg (by simp; omega), List.filter_cons_of_neg (by simp; omega), List.filter_cons_of_neg (by simp; omega), ih]
  have hsl : outs n es s v = (es.filter fun e => decide (e.1 = v)).map Prod.snd := by
    unfold outs
    rw [hst v (by omega), hst (v + 1) (by omega), hlt1, Nat.add_sub_cancel_left, ← List.map_drop, ← List.map_take]
    congr 1
    have aux : ∀ A B C : List (Nat × Nat), es = A ++ (B ++ C) → (es.drop A.length).take B.length = B := by
      rintro A B C rfl
      rw [List.drop_left, List.take_left]
    exact aux _ _ _ h3
  rw [hsl]
  have hperm : ((es.filter fun e => decide (e.1 = v)).map Prod.snd).Perm (kids n par v) := by
    refine ((he.1.filter _).map _).trans (List.Perm.of_eq ?_)
    rw [hp, List.filter_map, List.map_map, kids, List.filter_filter]
    rw [show (Prod.snd ∘ fun i => (par i, i)) = (id : Nat → Nat) from rfl, List.map_id]
    refine List.filter_congr fun i _ => ?_
    simp [Function.comp, Bool.and_comm]
  refine hperm.eq_of_pairwise (le := (· ≤ ·)) (fun a b _ _ h1 h2 => Nat.le_antisymm h1 h2) ?_ ?_
  · rw [List.pairwise_map]
    refine (he.2.filter _).imp_of_mem fun ha hb h => ?_
    have h1 := (List.mem_filter.1 ha).2
    have h2 := (List.mem_filter.1 hb).2
    simp only [decide_eq_true_eq] at h1 h2
    unfold lexLe at h
    omega
  · exact List.Pairwise.filter _ (List.pairwise_le_range)

end Gbbs.Bicc
