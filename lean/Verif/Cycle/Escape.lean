/-
C112: the ESCAPE five-cycle counter, the parallel loops, and the theorems about `benchmarks/CycleCounting/Parallel5Cycle/FiveCycle.h`.
-/
import Verif.Cycle.Five

namespace Gbbs.Cyc

open Finset (univ)

/-! ### Model -/

/-- `OUTG` and `ING`, `FiveCycle.h:756-766`: edges to larger and to smaller vertices. -/
def CG.outs (H : CG) (u : Nat) : List Nat := (H.nb u).filter fun v => decide (u < v)
def CG.ins (H : CG) (u : Nat) : List Nat := (H.nb u).filter fun v => decide (u > v)

/-- `U[w] = 0`, `:815`, `:865`, `:875`. -/
def Wk.zero (s : Wk) (w : Nat) : Option Wk := if w < s.k then some ⟨s.k, fun x => if x = w then 0 else s.U x, s.D⟩ else none

/-- `:840-844`, `:846-849`: `parlay::binary_search` with a predicate returns the first position at which it fails. -/
def isNgbP (l : List Nat) (w : Nat) : Bool :=
  let j := l.findIdx fun x => !decide (w < x)
  decide (j < l.length) && l.getD j 0 == w

/-- `:833-850`. The single steps `tmp += U[vl]`, `tmp--`, `tmp--` are taken together; all are modulo 2^64. -/
def probe (H : CG) (a : Wk) (i j k : Nat) (t : Int) (l : Nat) : Option Int :=
  if l = i ∨ l = j then some t
  else if l < a.k then some ((t + (a.U l - (if isNgbP (H.nb i) k then 1 else 0) - if isNgbP (H.nb j) l then 1 else 0)) % 2 ^ 64) else none

/-- One vertex, `:776-877` (and `:984-1080`). -/
def escVertex (H : CG) (s : Wk) (i : Nat) : Option (Wk × Int) :=
  if H.nb i = [] then some (s, 0)
  else
    ((H.outs i).foldlM (fun s j => (H.outs j).foldlM (Wk.add 1) s) s).bind fun s1 =>
    ((H.ins i).foldlM (fun s j => (H.nb j).foldlM (Wk.add 1) s) s1).bind fun s2 =>
    (s2.zero i).bind fun s3 =>
    ((H.ins i).foldlM (fun t j => if H.nb j = [] then some t else (H.ins j).foldlM (fun t k => (H.outs k).foldlM (probe H s3 i j k) t) t) 0).bind fun t =>
    ((H.outs i).foldlM (fun s j => (H.outs j).foldlM Wk.zero s) s3).bind fun s4 =>
    ((H.ins i).foldlM (fun s j => (H.nb j).foldlM Wk.zero s) s4).map fun s5 => (s5, t)

/-- `Count5Cycle_ESCAPE`, `:716-885`, after the preprocessing. -/
def escSerial (H : CG) : Option Int :=
  ((List.range H.n).foldlM (fun p i => (escVertex H p.1 i).map fun r => (r.1, (p.2 + r.2) % 2 ^ 64)) (Wk.fresh H.n, (0 : Int))).map Prod.snd

/-- `Count5Cycle_ESCAPE_par`, `:891-1098`, after the scheduling: a new `U` for every vertex; `sched` lists the blocks in the order in which they finish. -/
def escPar (H : CG) (blk : Nat → List Nat) (sched : List Nat) : Option Int :=
  sched.foldlM (fun t b => ((blk b).foldlM (fun t i => (escVertex H (Wk.fresh H.n) i).map fun r => (t + r.2) % 2 ^ 64) 0).map fun r => (t + r) % 2 ^ 64) (0 : Int)

/-- `Count5Cycle`, `:362-474`, after `Preprocess`: scheduling and counting; `sched` distributes the blocks to the workers. -/
def count5 (H : CG) (rank : Nat → Nat) (sched : Nat → List (Nat × Nat)) (st : Nat → Wk) : Option ((Nat → Wk) × Int) :=
  (plan 5000000 (work H H.n)).bind fun p => countPar H.nb (H.dir rank) (block H p.2) (sched p.1) st

/-- `Count5Cycle_no_scheduling`, `:539-584`: every vertex is a block. -/
def count5NoSched (H : CG) (rank : Nat → Nat) (sched : List (Nat × Nat)) (st : Nat → Wk) : Option ((Nat → Wk) × Int) :=
  countPar H.nb (H.dir rank) (fun i => [i]) sched st

/-- `Count5Cycle_ESCAPE_par` with the scheduling, `:948-966`. -/
def escape5 (H : CG) (sched : Nat → List Nat) : Option Int := (plan 50000 (work H H.n)).bind fun p => escPar H (block H p.2) (sched p.1)

/-- The memory of the workers at the beginning of a loop: `alloc(n)` (`:447`, `bridge.h:87-88`) allocates the arrays of the workers that have none. -/
def allocAll (n : Nat) (st : Nat → Option Wk) (j : Nat) : Wk := (st j).getD (Wk.fresh n)

/-! ### Proof: ESCAPE -/

theorem isNgbP_iff {l : List Nat} (h : l.Pairwise (· > ·)) (w : Nat) : isNgbP l w = decide (w ∈ l) := by
  have e : ∀ l : List Nat, l.Pairwise (· > ·) → isNgbP l w = decide (w ∈ l) := by
    intro l h
    induction l with
    | nil => rfl
    | cons a l ih =>
      obtain ⟨h1, h2⟩ := List.pairwise_cons.1 h
      have ih := ih h2
      unfold isNgbP at ih ⊢
      rw [List.findIdx_cons]
      by_cases ha : w < a
      · have : (!decide (w < a)) = false := by simp [ha]
        have hne : w ≠ a := by omega
        simp only [this, cond_false, List.length_cons, Nat.add_lt_add_iff_right, List.getD_cons_succ, List.mem_cons, hne, false_or]
        exact ih
      · have : (!decide (w < a)) = true := by simp [ha]
        simp only [this, cond_true, List.length_cons, Nat.zero_lt_succ, decide_true, Bool.true_and, List.getD_cons_zero, List.mem_cons]
        have hl : w ∉ l ∨ w = a := by
          by_cases e : w = a
          · exact .inr e
          · exact .inl fun hm => by have := h1 w hm; omega
        rw [Bool.eq_iff_iff, beq_iff_eq, decide_eq_true_iff]
        constructor
        · exact fun e => .inl e.symm
        · rintro (e | e)
          · exact e.symm
          · exact (hl.elim (fun h => absurd e h) id).symm
  exact e l h

theorem zero_all (l : List Nat) (s : Wk) (hl : ∀ x ∈ l, x < s.k) : l.foldlM Wk.zero s = some ⟨s.k, fun x => if x ∈ l then 0 else s.U x, s.D⟩ := by
  induction l generalizing s with
  | nil => simp
  | cons a l ih =>
    rw [List.foldlM_cons]
    have h1 : Wk.zero s a = some ⟨s.k, fun x => if x = a then 0 else s.U x, s.D⟩ := if_pos (hl a List.mem_cons_self)
    rw [h1]
    show l.foldlM Wk.zero _ = _
    rw [ih ⟨s.k, fun x => if x = a then 0 else s.U x, s.D⟩ (fun x hx => hl x (List.mem_cons_of_mem _ hx))]
    congr 2
    funext x
    simp only [List.mem_cons]
    by_cases h2 : x ∈ l <;> by_cases h3 : x = a <;> simp [h2, h3]

/-- What ESCAPE counts at `i`. -/
def escAt (H : CG) (i : Nat) : Nat :=
  ((H.ins i).map fun j => ((H.ins j).map fun k => ((H.outs k).map fun l =>
    if l = i ∨ l = j then 0 else (H.nb i).countP fun y => decide (((l ∈ H.nb y ∧ ¬ (i < y ∧ l < y)) ∧ y ≠ j) ∧ y ≠ k)).sum).sum).sum

section
variable {H : CG}

theorem mem_outs {u v : Nat} : v ∈ H.outs u ↔ v ∈ H.nb u ∧ u < v := by simp [CG.outs]
theorem mem_ins {u v : Nat} : v ∈ H.ins u ↔ v ∈ H.nb u ∧ v < u := by simp [CG.ins]

theorem wedge_count (hH : H.Ok) {i l : Nat} (M : List Nat) (hM : ∀ y ∈ M, y ≠ i) :
    ((M.filter fun v => decide (i < v)).flatMap H.outs ++ (M.filter fun v => decide (i > v)).flatMap H.nb).count l =
      M.countP fun y => decide (l ∈ H.nb y ∧ ¬ (i < y ∧ l < y)) := by
  rw [List.count_append]
  induction M with
  | nil => rfl
  | cons a M ih =>
    have ih := ih fun y hy => hM y (List.mem_cons_of_mem _ hy)
    have ha := hM a List.mem_cons_self
    have ho : (H.outs a).count l = if l ∈ H.nb a ∧ a < l then 1 else 0 := by
      by_cases h : l ∈ H.outs a
      · rw [List.count_eq_one_of_mem (show (H.outs a).Nodup from (hH.nodup a).filter _) h, if_pos (mem_outs.1 h)]
      · rw [List.count_eq_zero.2 h, if_neg (mt mem_outs.2 h)]
    have hn : (H.nb a).count l = if l ∈ H.nb a then 1 else 0 := by
      by_cases h : l ∈ H.nb a
      · rw [List.count_eq_one_of_mem (hH.nodup a) h, if_pos h]
      · rw [List.count_eq_zero.2 h, if_neg h]
    rw [List.countP_cons, ← ih]
    by_cases h1 : i < a
    · have h2 : ¬ i > a := by omega
      rw [List.filter_cons_of_pos (by simpa using h1), List.filter_cons_of_neg (by simpa using h2), List.flatMap_cons, List.count_append, ho]
      have : (l ∈ H.nb a ∧ ¬ (i < a ∧ l < a)) ↔ (l ∈ H.nb a ∧ a < l) := by
        refine and_congr_right fun hl => ?_
        have : l ≠ a := fun e => hH.loop a (e ▸ hl)
        omega
      simp only [this, decide_eq_true_eq]
      omega
    · have h2 : i > a := by omega
      rw [List.filter_cons_of_neg (by simpa using h1), List.filter_cons_of_pos (by simpa using h2), List.flatMap_cons, List.count_append, hn]
      have : (l ∈ H.nb a ∧ ¬ (i < a ∧ l < a)) ↔ l ∈ H.nb a := and_iff_left fun h => h1 h.1
      simp only [this, decide_eq_true_eq]
      omega

theorem escVertex_spec (hH : H.Sorted) (hn : H.n < 2 ^ 32) {s : Wk} (hs : s.Clean H.n) {i : Nat} (hi : i < H.n) :
    escVertex H s i = some (s, (escAt H i : Int) % 2 ^ 64) := by
  obtain ⟨hk, hU, hD⟩ := hs
  obtain ⟨sk, sU, sD⟩ := s
  simp only at hk hU hD
  subst hU hD
  unfold escVertex
  by_cases h0 : H.nb i = []
  · rw [if_pos h0, escAt, CG.ins, h0]
    rfl
  rw [if_neg h0]
  simp only [foldlM_flat]
  have hdeg : (H.nb i).length ≤ H.n := by
    have : H.nb i ⊆ List.range H.n := fun x hx => List.mem_range.2 (hH.lt _ _ hx).2
    simpa using ((hH.nodup i).subperm this).length_le
  generalize hA : (H.outs i).flatMap H.outs = A
  generalize hB : (H.ins i).flatMap H.nb = B
  have hAlt : ∀ x ∈ A, x < sk := fun x hx => by
    rw [← hA, List.mem_flatMap] at hx
    obtain ⟨u, -, hx⟩ := hx
    exact Nat.lt_of_lt_of_le (hH.lt _ _ (mem_outs.1 hx).1).2 hk
  have hBlt : ∀ x ∈ B, x < sk := fun x hx => by
    rw [← hB, List.mem_flatMap] at hx
    obtain ⟨u, -, hx⟩ := hx
    exact Nat.lt_of_lt_of_le (hH.lt _ _ hx).2 hk
  have hcnt : ∀ l, (A ++ B).count l = (H.nb i).countP fun y => decide (l ∈ H.nb y ∧ ¬ (i < y ∧ l < y)) := fun l => by
    rw [← hA, ← hB]
    exact wedge_count hH.toOk _ fun y hy e => hH.loop i (e ▸ hy)
  have hcb : ∀ l, (A ++ B).count l ≤ H.n := fun l => by rw [hcnt]; exact Nat.le_trans List.countP_le_length hdeg
  rw [add_all 1 A ⟨sk, fun _ => 0, []⟩ hAlt (fun _ => Int.zero_emod _), Option.bind_some]
  rw [add_all 1 B ⟨sk, fun x => ((0 : Int) + 1 * (A.count x : Nat)) % 2 ^ 32, []⟩ hBlt (fun _ => Int.emod_emod_of_dvd _ (dvd_refl _)), Option.bind_some]
  have hval : (fun x => (((0 : Int) + 1 * (A.count x : Nat)) % 2 ^ 32 + 1 * (B.count x : Nat)) % 2 ^ 32) = fun x => (((A ++ B).count x : Nat) : Int) := by
    funext x
    have := hcb x
    rw [Int.emod_add_emod, List.count_append] at *
    rw [Int.emod_eq_of_lt (by omega) (by omega)]
    push_cast
    ring
  simp only [hval]
  have hz : Wk.zero ⟨sk, fun x => (((A ++ B).count x : Nat) : Int), []⟩ i = some ⟨sk, fun x => if x = i then 0 else (((A ++ B).count x : Nat) : Int), []⟩ :=
    if_pos (Nat.lt_of_lt_of_le hi hk)
  rw [hz, Option.bind_some]
  rw [fold_sum' (M := 2 ^ 64) (g := fun j => ((H.ins j).map fun k => ((H.outs k).map fun l =>
    if l = i ∨ l = j then 0 else (H.nb i).countP fun y => decide (((l ∈ H.nb y ∧ ¬ (i < y ∧ l < y)) ∧ y ≠ j) ∧ y ≠ k)).sum).sum) ?_ (by decide), Option.bind_some]
  · rw [zero_all A _ hAlt, Option.bind_some, zero_all B ⟨sk, fun x => if x ∈ A then 0 else if x = i then 0 else (((A ++ B).count x : Nat) : Int), []⟩ hBlt, Option.map_some]
    refine congrArg some (Prod.ext ?_ ?_)
    · dsimp only
      congr 1
      funext x
      by_cases hb : x ∈ B
      · rw [if_pos hb]
      · rw [if_neg hb]
        by_cases ha : x ∈ A
        · rw [if_pos ha]
        · rw [if_neg ha, List.count_append, List.count_eq_zero.2 ha, List.count_eq_zero.2 hb]
          simp
    · dsimp only
      rw [zero_add]
      rfl
  · intro j hj t ht
    obtain ⟨hj1, hj2⟩ := mem_ins.1 hj
    have hnj : H.nb j ≠ [] := fun e => by
      have := hH.symm _ _ hj1
      rw [e] at this
      cases this
    simp only [if_neg hnj]
    refine fold_sum' (fun k hk' t ht => ?_) ht
    refine fold_sum' (fun l hl t ht => ?_) ht
    obtain ⟨hk1, hk2⟩ := mem_ins.1 hk'
    obtain ⟨hl1, hl2⟩ := mem_outs.1 hl
    unfold probe
    by_cases hlij : l = i ∨ l = j
    · rw [if_pos hlij, if_pos hlij, Nat.cast_zero, add_zero, ht]
    · rw [if_neg hlij, if_neg hlij, if_pos (Nat.lt_of_lt_of_le (hH.lt _ _ hl1).2 hk)]
      have hli : l ≠ i := fun e => hlij (.inl e)
      dsimp only
      rw [if_neg hli, isNgbP_iff (hH.desc i), isNgbP_iff (hH.desc j), hcnt]
      have e1 := countP_ne (p := fun y => l ∈ H.nb y ∧ ¬ (i < y ∧ l < y)) (hH.nodup i) j
      have e2 := countP_ne (p := fun y => (l ∈ H.nb y ∧ ¬ (i < y ∧ l < y)) ∧ y ≠ j) (hH.nodup i) k
      have i1 : (j ∈ H.nb i ∧ l ∈ H.nb j ∧ ¬ (i < j ∧ l < j)) ↔ l ∈ H.nb j := ⟨fun h => h.2.1, fun h => ⟨hj1, h, by omega⟩⟩
      have i2 : (k ∈ H.nb i ∧ (l ∈ H.nb k ∧ ¬ (i < k ∧ l < k)) ∧ k ≠ j) ↔ k ∈ H.nb i :=
        ⟨fun h => h.1, fun h => ⟨h, ⟨hl1, by omega⟩, by omega⟩⟩
      simp only [i1] at e1
      simp only [i2] at e2
      have : (((H.nb i).countP (fun y => decide (l ∈ H.nb y ∧ ¬ (i < y ∧ l < y))) : Nat) : Int) - (if decide (k ∈ H.nb i) = true then 1 else 0) -
          (if decide (l ∈ H.nb j) = true then 1 else 0) = ((H.nb i).countP (fun y => decide (((l ∈ H.nb y ∧ ¬ (i < y ∧ l < y)) ∧ y ≠ j) ∧ y ≠ k)) : Nat) := by
        rw [e1, e2]
        by_cases c1 : k ∈ H.nb i <;> by_cases c2 : l ∈ H.nb j <;> simp only [c1, c2, decide_true, decide_false, if_true, if_false, Bool.false_eq_true] <;> push_cast <;> ring
      rw [this]

theorem escAt_sum (hH : H.Sorted) : ((List.range H.n).map (escAt H)).sum =
    ∑ t : Tup H.n, (if IsCycle (fun a b => b ∈ H.nb a) t.1 t.2.1 t.2.2.1 t.2.2.2.1 t.2.2.2.2 ∧ t.2.1 < t.1 ∧ t.2.2.1 < t.2.1 ∧ t.2.2.1 < t.2.2.2.1 ∧
      ¬ (t.1 < t.2.2.2.2 ∧ t.2.2.2.1 < t.2.2.2.2) then 1 else 0) := by
  have hin : ∀ u, ∀ x ∈ H.ins u, x < H.n := fun u x hx => (hH.lt _ _ (mem_ins.1 hx).1).2
  have hout : ∀ u, ∀ x ∈ H.outs u, x < H.n := fun u x hx => (hH.lt _ _ (mem_outs.1 hx).1).2
  have nin : ∀ u, (H.ins u).Nodup := fun u => (hH.nodup u).filter _
  have nout : ∀ u, (H.outs u).Nodup := fun u => (hH.nodup u).filter _
  rw [list_sum List.nodup_range (fun x hx => List.mem_range.1 hx)]
  simp only [Fintype.sum_prod_type]
  refine Finset.sum_congr rfl fun i _ => ?_
  rw [if_pos (List.mem_range.2 i.2), escAt, list_sum (nin _) (hin _)]
  refine Finset.sum_congr rfl fun j _ => ?_
  rw [list_sum (nin _) (hin _)]
  by_cases hj : (j : Nat) ∈ H.ins i
  swap
  · rw [if_neg hj]
    symm
    refine Finset.sum_eq_zero fun k _ => Finset.sum_eq_zero fun l _ => Finset.sum_eq_zero fun y _ => if_neg ?_
    rintro ⟨h1, h2, -⟩
    exact hj (mem_ins.2 ⟨h1.1.1, h2⟩)
  rw [if_pos hj]
  refine Finset.sum_congr rfl fun k _ => ?_
  rw [list_sum (nout _) (hout _)]
  by_cases hk : (k : Nat) ∈ H.ins j
  swap
  · rw [if_neg hk]
    symm
    refine Finset.sum_eq_zero fun l _ => Finset.sum_eq_zero fun y _ => if_neg ?_
    rintro ⟨h1, -, h2, -⟩
    exact hk (mem_ins.2 ⟨h1.1.2.1, h2⟩)
  rw [if_pos hk]
  refine Finset.sum_congr rfl fun l _ => ?_
  by_cases hl : (l : Nat) ∈ H.outs k
  swap
  · rw [if_neg hl]
    symm
    refine Finset.sum_eq_zero fun y _ => if_neg ?_
    rintro ⟨h1, -, -, h2, -⟩
    exact hl (mem_outs.2 ⟨h1.1.2.2.1, h2⟩)
  rw [if_pos hl]
  obtain ⟨hj1, hj2⟩ := mem_ins.1 hj
  obtain ⟨hk1, hk2⟩ := mem_ins.1 hk
  obtain ⟨hl1, hl2⟩ := mem_outs.1 hl
  have ne : ∀ {a b : Nat}, b ∈ H.nb a → a ≠ b := fun {a b} h e => hH.loop a (e ▸ h)
  by_cases hlij : (l : Nat) = i ∨ (l : Nat) = j
  · rw [if_pos hlij]
    symm
    refine Finset.sum_eq_zero fun y _ => if_neg ?_
    rintro ⟨h1, -⟩
    rcases hlij with e | e
    · exact h1.2.1.2.2.1 e.symm
    · exact h1.2.2.1.2.1 e.symm
  rw [if_neg hlij, list_count (hH.nodup _) (fun x hx => (hH.lt _ _ hx).2)]
  refine Finset.sum_congr rfl fun y _ => ?_
  refine if_congr ?_ rfl rfl
  constructor
  · rintro ⟨h1, ⟨⟨h2, h3⟩, h4⟩, h5⟩
    exact ⟨⟨⟨hj1, hk1, hl1, hH.symm _ _ h2, hH.symm _ _ h1⟩, ⟨by omega, by omega, fun e => hlij (.inl e.symm), ne h1⟩, ⟨by omega, fun e => hlij (.inr e.symm), fun e => h4 e.symm⟩,
      ⟨by omega, fun e => h5 e.symm⟩, (ne h2).symm⟩, hj2, hk2, hl2, h3⟩
  · rintro ⟨⟨h1, h2, h3, h4, h5⟩, -, -, -, h6⟩
    exact ⟨hH.symm _ _ h1.2.2.2.2, ⟨⟨hH.symm _ _ h1.2.2.2.1, h6⟩, fun e => h3.2.2 e.symm⟩, fun e => h4.2 e.symm⟩

theorem escAt_total (hH : H.Sorted) : ((List.range H.n).map (escAt H)).sum = H.cycles := by
  have := escape_unique (adj := fun a b => b ∈ H.nb a) (fun a b h => hH.symm _ _ h) H.n
  rw [← escAt_sum hH] at this
  unfold CG.cycles
  omega

/-! ### Proof: blocks -/

theorem sum_flat {α : Type} (g : Nat → Nat) (f : α → List Nat) (l : List α) : (l.map fun b => ((f b).map g).sum).sum = ((l.flatMap f).map g).sum := by
  induction l with
  | nil => rfl
  | cons a l ih => rw [List.map_cons, List.sum_cons, ih, List.flatMap_cons, List.map_append, List.sum_append]

theorem flat_range (s : Nat → Nat) (h0 : s 0 = 0) (hm : ∀ b, s b ≤ s (b + 1)) (k : Nat) :
    (List.range k).flatMap (fun b => (List.range (s (b + 1) - s b)).map (· + s b)) = List.range (s k) := by
  induction k with
  | zero => rw [h0]; rfl
  | succ k ih =>
    rw [List.range_succ, List.flatMap_append, ih]
    have : s (k + 1) = s k + (s (k + 1) - s k) := by have := hm k; omega
    conv_rhs => rw [this, List.range_add]
    simp only [List.flatMap_cons, List.flatMap_nil, List.append_nil, Nat.add_comm]

theorem work_le (i : Nat) {n : Nat} (h : i ≤ n) : work H i ≤ work H n := by
  unfold work
  obtain ⟨d, rfl⟩ := Nat.exists_eq_add_of_le h
  rw [List.range_add, List.map_append, List.sum_append]
  exact Nat.le_add_right _ _

/-- The blocks are disjoint and contain all vertices. -/
theorem block_partition {size nb w : Nat} (h : plan size (work H H.n) = some (nb, w)) : (List.range nb).flatMap (block H w) = List.range H.n := by
  unfold plan at h
  dsimp only at h
  split at h
  · cases h
  rename_i hw
  injection h with h
  obtain ⟨rfl, rfl⟩ := Prod.mk.inj h
  generalize work H H.n / (work H H.n / size + 1) = w at hw ⊢
  have e := flat_range (fun b => (List.range H.n).countP fun i => decide (work H i < b * w)) (by simp) (fun b => by
    refine List.countP_mono_left fun i _ hi => ?_
    simp only [decide_eq_true_eq] at hi ⊢
    have : b * w ≤ (b + 1) * w := Nat.mul_le_mul_right w (Nat.le_succ b)
    omega) (work H H.n / w + 1)
  have hall : (List.range H.n).countP (fun i => decide (work H i < (work H H.n / w + 1) * w)) = H.n := by
    conv_rhs => rw [← List.length_range (n := H.n)]
    rw [List.countP_eq_length]
    intro i hi
    rw [decide_eq_true_iff]
    have h1 := work_le (H := H) i (Nat.le_of_lt (List.mem_range.1 hi))
    have h2 := Nat.lt_div_mul_add (a := work H H.n) (Nat.pos_of_ne_zero hw)
    rw [Nat.add_mul, Nat.one_mul]
    omega
  rw [hall] at e
  exact e

theorem countPar_spec {rank : Nat → Nat} (hH : H.Sorted) (hn : H.n < 2 ^ 32) {st : Nat → Wk} (hst : ∀ j, (st j).Clean H.n) {blk : Nat → List Nat} {nb : Nat}
    (hb : (List.range nb).flatMap blk = List.range H.n) {sched : List (Nat × Nat)} (hs : (sched.map Prod.fst).Perm (List.range nb)) :
    countPar H.nb (H.dir rank) blk sched st = some (st, ((((List.range H.n).map (countAt H rank)).sum : Nat) : Int) % 2 ^ 64) := by
  unfold countPar
  rw [fold_sum (M := 2 ^ 64) (g := fun b => ((blk b.1).map (countAt H rank)).sum) (fun b _ t ht => by
    dsimp only
    rw [countList_spec hH hn (hst b.2), Option.map_some]
    refine congrArg some (Prod.ext ?_ ?_)
    · funext j
      dsimp only
      split
      · rename_i e; rw [e]
      · rfl
    · simp only [Int.add_emod_emod]) (by decide), zero_add]
  have : (sched.map fun b => ((blk b.1).map (countAt H rank)).sum) = (sched.map Prod.fst).map fun b => ((blk b).map (countAt H rank)).sum := by
    rw [List.map_map]; rfl
  rw [this, (hs.map _).sum_eq, sum_flat, hb]

end

/-! ### Theorems -/

theorem fst_sched (f : Nat → Nat) (l : List Nat) : (l.map fun b => (b, f b)).map Prod.fst = l := by
  rw [List.map_map]
  exact List.map_id l

theorem fresh_clean (n : Nat) : (Wk.fresh n).Clean n := ⟨Nat.le_refl n, rfl, rfl⟩

section
variable {G : CG} {o : List Nat}

/-- Fewer than 2^32 edges (each counted in both directions): relabelling works. -/
theorem relabel_some (hm : ((List.range G.n).map fun u => (G.nb u).length).sum < 2 ^ 32) (o : List Nat) : ∃ H, relabel G o = some H :=
  ⟨_, if_neg (by rw [Nat.mod_eq_of_lt hm]; omega)⟩

/-- If there is an edge, there is work to distribute. -/
theorem plan_some (hG : G.Ok) (ho : o.Perm (List.range G.n)) {H : CG} (hr : relabel G o = some H) (hedge : ∃ u v, v ∈ G.nb u) {size : Nat} (h2 : 2 ≤ size) :
    ∃ nb w, plan size (work H H.n) = some (nb, w) := by
  obtain ⟨hH, -, -, he⟩ := relabel_spec hG ho hr
  obtain ⟨a, b, hab⟩ := he hedge
  have hb : 0 < (H.nb b).length := List.length_pos_of_mem (hH.symm _ _ hab)
  have hpos : 0 < work H H.n := by
    refine Nat.lt_of_lt_of_le ?_ (work_le (H := H) (a + 1) (hH.lt _ _ hab).1)
    unfold work
    rw [List.range_succ, List.map_append, List.sum_append, List.map_singleton, List.sum_singleton]
    have := List.single_le_sum (l := (H.nb a).map fun x => (H.nb x).length) (fun _ _ => Nat.zero_le _) _ (List.mem_map.2 ⟨b, hab, rfl⟩)
    omega
  generalize work H H.n = t at hpos
  have h3 : t / size + 1 ≤ t := by
    have h4 : t / size ≤ t / 2 := Nat.div_le_div_left h2 (by decide)
    rcases Nat.lt_or_ge t 2 with h5 | h5
    · have : t / size = 0 := Nat.div_eq_of_lt (by omega)
      omega
    · omega
  have h6 : t / (t / size + 1) ≠ 0 := Nat.ne_of_gt (Nat.div_pos h3 (Nat.succ_pos _))
  exact ⟨_, _, if_neg h6⟩

/-- Ten tuples for every cycle. -/
theorem ten_cycles (hG : G.Ok) : 10 * G.cycles = tuples (fun a b => b ∈ G.nb a) G.n := by
  have := kowalik_unique (adj := fun a b => b ∈ G.nb a) (fun a b h => hG.symm _ _ h) G.n id (fun a b h e => hG.loop a (by simp only [id] at e; rw [e] at h ⊢; exact h))
  unfold CG.cycles
  omega

/-- **C112.** The serial counter returns the number of five-cycles (modulo 2^64), for every order of the vertices and every rank in which adjacent vertices differ. -/
theorem five_serial (hG : G.Ok) (hn : G.n < 2 ^ 32) (ho : DegOrder G o) {H : CG} (hr : relabel G o = some H) {rank : Nat → Nat} (hrank : ∀ a b, b ∈ H.nb a → rank a ≠ rank b) :
    countSerial H rank = some ((G.cycles : Int) % 2 ^ 64) := by
  obtain ⟨hH, e1, e2, -⟩ := relabel_spec hG ho.1 hr
  have hn' : H.n < 2 ^ 32 := by omega
  unfold countSerial
  rw [countList_spec hH hn' (fresh_clean _), Option.map_some, (countAt_total hH hrank).1, e2]

/-- **C112.** So does the parallel counter with scheduling, for every distribution of the blocks to workers, if the graph has an edge and the workers have arrays of sufficient size;
their memory is clean afterwards. -/
theorem five_par (hG : G.Ok) (hn : G.n < 2 ^ 32) (ho : DegOrder G o) {H : CG} (hr : relabel G o = some H) {rank : Nat → Nat} (hrank : ∀ a b, b ∈ H.nb a → rank a ≠ rank b)
    (hedge : ∃ u v, v ∈ G.nb u) {st : Nat → Wk} (hst : ∀ j, (st j).Clean G.n) {sched : Nat → List (Nat × Nat)} (hs : ∀ nb, ((sched nb).map Prod.fst).Perm (List.range nb)) :
    count5 H rank sched st = some (st, (G.cycles : Int) % 2 ^ 64) := by
  obtain ⟨hH, e1, e2, -⟩ := relabel_spec hG ho.1 hr
  have hn' : H.n < 2 ^ 32 := by omega
  have hp := plan_some hG ho.1 hr hedge (size := 5000000) (by decide)
  obtain ⟨nb, w, hp⟩ := hp
  unfold count5
  rw [hp, Option.bind_some]
  rw [countPar_spec hH hn' (fun j => by rw [e1]; exact hst j) (block_partition hp) (hs nb), (countAt_total hH hrank).1, e2]

/-- **C112.** So does the parallel counter without scheduling. -/
theorem five_nosched (hG : G.Ok) (hn : G.n < 2 ^ 32) (ho : DegOrder G o) {H : CG} (hr : relabel G o = some H) {rank : Nat → Nat} (hrank : ∀ a b, b ∈ H.nb a → rank a ≠ rank b)
    {st : Nat → Wk} (hst : ∀ j, (st j).Clean G.n) {sched : List (Nat × Nat)} (hs : (sched.map Prod.fst).Perm (List.range G.n)) :
    count5NoSched H rank sched st = some (st, (G.cycles : Int) % 2 ^ 64) := by
  obtain ⟨hH, e1, e2, -⟩ := relabel_spec hG ho.1 hr
  have hn' : H.n < 2 ^ 32 := by omega
  unfold count5NoSched
  rw [countPar_spec hH hn' (fun j => by rw [e1]; exact hst j) (nb := H.n) (by simp) (by rw [e1]; exact hs), (countAt_total hH hrank).1, e2]

/-- **C112.** ESCAPE returns the same number, for every order of the vertices. -/
theorem five_escape (hG : G.Ok) (hn : G.n < 2 ^ 32) (ho : o.Perm (List.range G.n)) {H : CG} (hr : relabel G o = some H) : escSerial H = some ((G.cycles : Int) % 2 ^ 64) := by
  obtain ⟨hH, e1, e2, -⟩ := relabel_spec hG ho hr
  have hn' : H.n < 2 ^ 32 := by omega
  unfold escSerial
  rw [fold_sum (M := 2 ^ 64) (g := escAt H) (fun i hi t ht => by
    dsimp only
    rw [escVertex_spec hH hn' (fresh_clean _) (List.mem_range.1 hi), Option.map_some]
    simp only [Int.add_emod_emod]) (by decide), Option.map_some, zero_add, escAt_total hH, e2]

/-- **C112.** So does the parallel version of ESCAPE, for every order of the blocks, if the graph has an edge. -/
theorem five_escape_par (hG : G.Ok) (hn : G.n < 2 ^ 32) (ho : o.Perm (List.range G.n)) {H : CG} (hr : relabel G o = some H) (hedge : ∃ u v, v ∈ G.nb u)
    {sched : Nat → List Nat} (hs : ∀ nb, (sched nb).Perm (List.range nb)) : escape5 H sched = some ((G.cycles : Int) % 2 ^ 64) := by
  obtain ⟨hH, e1, e2, -⟩ := relabel_spec hG ho hr
  have hn' : H.n < 2 ^ 32 := by omega
  obtain ⟨nb, w, hp⟩ := plan_some hG ho hr hedge (size := 50000) (by decide)
  unfold escape5 escPar
  rw [hp, Option.bind_some]
  dsimp only
  have hblk := block_partition hp
  have hlt : ∀ b, b < nb → ∀ i ∈ block H w b, i < H.n := fun b hb i hi => List.mem_range.1 (hblk ▸ List.mem_flatMap.2 ⟨b, List.mem_range.2 hb, hi⟩)
  rw [fold_sum' (M := 2 ^ 64) (g := fun b => ((block H w b).map (escAt H)).sum) (fun b hb t ht => by
    have hb' : b < nb := List.mem_range.1 ((hs nb).mem_iff.1 hb)
    rw [fold_sum' (M := 2 ^ 64) (g := escAt H) (fun i hi t ht => by
      rw [escVertex_spec hH hn' (fresh_clean _) (hlt b hb' i hi), Option.map_some]
      simp only [Int.add_emod_emod]) (by decide), Option.map_some, zero_add, Int.add_emod_emod]) (by decide), zero_add]
  rw [((hs nb).map _).sum_eq, sum_flat, hblk, escAt_total hH, e2]

end

/-! ### Where the code fails -/

/-- **C112, refuted.** On a graph without edges, `Count5Cycle` and `Count5Cycle_ESCAPE_par` divide by zero: no work, no work per block. The other versions return 0. -/
theorem five_no_edges {H : CG} (h : ∀ u, H.nb u = []) (rank : Nat → Nat) (sched : Nat → List (Nat × Nat)) (sched' : Nat → List Nat) (st : Nat → Wk) :
    count5 H rank sched st = none ∧ escape5 H sched' = none ∧ (H.n < 2 ^ 32 → countSerial H rank = some 0 ∧ escSerial H = some 0) := by
  have hw : work H H.n = 0 := by
    unfold work
    simp [h]
  have hH : H.Sorted := by
    constructor
    · constructor <;> intros <;> simp_all
    · intro u; rw [h]; exact List.Pairwise.nil
  have hc : H.cycles = 0 := by
    rw [← (countAt_total (rank := rank) hH (fun a b hb => by rw [h] at hb; cases hb)).1]
    have : countAt H rank = fun _ => 0 := by
      funext i
      simp [countAt, h, up]
    simp [this]
  refine ⟨by unfold count5; rw [hw]; rfl, by unfold escape5; rw [hw]; rfl, fun hn => ⟨?_, ?_⟩⟩
  · unfold countSerial
    rw [countList_spec hH hn (fresh_clean _), Option.map_some, (countAt_total hH (fun a b hb => by rw [h] at hb; cases hb)).1, hc]
    rfl
  · unfold escSerial
    rw [fold_sum (M := 2 ^ 64) (g := escAt H) (fun i hi t ht => by
      dsimp only
      rw [escVertex_spec hH hn (fresh_clean _) (List.mem_range.1 hi), Option.map_some]
      simp only [Int.add_emod_emod]) (by decide), Option.map_some, zero_add, escAt_total hH, hc]
    rfl

/-- The cycle through `n` vertices, lists in descending order. -/
def ring (n : Nat) : CG := ⟨n, fun i => if n ≤ i then [] else if i = 0 then [n - 1, 1] else if i = n - 1 then [n - 2, 0] else [i + 1, i - 1]⟩

/-- **C112, refuted.** The arrays of a worker are kept for the next call, `alloc` does not replace them: after a first graph with three vertices, a graph with five vertices leads to an access
outside of the array. -/
theorem five_reuse : ∃ st : Nat → Option Wk, (count5NoSched (ring 3) id ((List.range 3).map fun i => (i, 0)) (allocAll 3 fun _ => none)).map (fun r => r.1 0) = st 0 ∧ st 0 ≠ none ∧
    (count5NoSched (ring 5) id ((List.range 5).map fun i => (i, 0)) (allocAll 5 st)).isNone = true ∧
    (count5NoSched (ring 5) id ((List.range 5).map fun i => (i, 0)) (allocAll 5 fun _ => none)).map Prod.snd = some 1 := by
  have hok : ∀ n, n = 3 ∨ n = 5 → (ring n).Sorted := by
    have h1 : ∀ n, n = 3 ∨ n = 5 → ∀ u, u < n → ((ring n).nb u).Pairwise (· > ·) ∧ ∀ v ∈ (ring n).nb u, v < n ∧ v ≠ u ∧ u ∈ (ring n).nb v := by
      rintro n (rfl | rfl) <;> decide
    intro n hn
    have h2 : ∀ u v, v ∈ (ring n).nb u → u < n := fun u v h => by
      by_contra hc
      have : (ring n).nb u = [] := if_pos (by omega)
      rw [this] at h; cases h
    refine ⟨⟨fun u v h => ⟨h2 u v h, ((h1 n hn u (h2 u v h)).2 v h).1⟩, fun u => ?_, fun u v h => ((h1 n hn u (h2 u v h)).2 v h).2.2, fun u h => ((h1 n hn u (h2 u u h)).2 u h).2.1 rfl⟩, fun u => ?_⟩
    · by_cases hu : u < n
      · exact (h1 n hn u hu).1.imp fun h => Nat.ne_of_gt h
      · have : (ring n).nb u = [] := if_pos (by omega)
        rw [this]; exact List.nodup_nil
    · by_cases hu : u < n
      · exact (h1 n hn u hu).1
      · have : (ring n).nb u = [] := if_pos (by omega)
        rw [this]; exact List.Pairwise.nil
  have hrun : ∀ n, n = 3 ∨ n = 5 → count5NoSched (ring n) id ((List.range n).map fun i => (i, 0)) (allocAll n fun _ => none) =
      some (allocAll n fun _ => none, ((ring n).cycles : Int) % 2 ^ 64) := by
    intro n hn
    have hlt : (ring n).n < 2 ^ 32 := by rcases hn with rfl | rfl <;> decide
    unfold count5NoSched
    rw [countPar_spec (hok n hn) hlt (st := allocAll n fun _ => none) (fun j => fresh_clean n) (blk := fun i => [i]) (nb := (ring n).n) (by simp) (by rw [fst_sched]; exact List.Perm.refl _),
      (countAt_total (hok n hn) (fun a b h e => (hok n hn).loop a (by simp only [id] at e; rw [e] at h ⊢; exact h))).1]
  refine ⟨fun _ => some (Wk.fresh 3), ?_, by simp, by decide +kernel, ?_⟩
  · rw [hrun 3 (.inl rfl)]
    rfl
  · rw [hrun 5 (.inr rfl), ← (countAt_total (hok 5 (.inr rfl)) (rank := id) (fun a b h e => (hok 5 (.inr rfl)).loop a (by simp only [id] at e; rw [e] at h ⊢; exact h))).1]
    decide +kernel

/-- **C112, refuted.** The number of edges is kept in 32 bits when the graph is relabelled: for the complete graph with 65537 vertices, the array is too short. -/
theorem five_many_edges : ∃ G : CG, G.Ok ∧ G.n < 2 ^ 17 ∧ ∀ o, relabel G o = none := by
  refine ⟨⟨65537, fun u => if u < 65537 then (List.range 65537).filter fun v => decide (v ≠ u) else []⟩, ⟨fun u v h => ?_, fun u => ?_, fun u v h => ?_, fun u h => ?_⟩, by decide, fun o => ?_⟩
  · dsimp only at h ⊢
    split at h
    · rename_i hu
      exact ⟨hu, List.mem_range.1 (List.mem_filter.1 h).1⟩
    · cases h
  · dsimp only
    split
    · exact List.nodup_range.filter _
    · exact List.nodup_nil
  · dsimp only at h ⊢
    split at h
    · rename_i hu
      obtain ⟨h1, h2⟩ := List.mem_filter.1 h
      rw [if_pos (List.mem_range.1 h1)]
      rw [decide_eq_true_iff] at h2
      exact List.mem_filter.2 ⟨List.mem_range.2 hu, by simpa using Ne.symm h2⟩
    · cases h
  · dsimp only at h
    split at h
    · have := (List.mem_filter.1 h).2
      simp at this
    · cases h
  · have hsum : ((List.range 65537).map fun u => (if u < 65537 then (List.range 65537).filter fun v => decide (v ≠ u) else []).length).sum = 65537 * 65536 := by
      have hl : ∀ u ∈ List.range 65537, (if u < 65537 then (List.range 65537).filter fun v => decide (v ≠ u) else []).length = 65536 := by
        intro u hu
        rw [if_pos (List.mem_range.1 hu), ← List.countP_eq_length_filter]
        have e := countP_ne (p := fun _ => True) (List.nodup_range (n := 65537)) u
        simp only [decide_true, true_and, and_true, hu, if_true] at e
        rw [List.countP_true, List.length_range] at e
        omega
      rw [List.map_congr_left hl, List.map_const', List.sum_replicate, List.length_range]
      rfl
    unfold relabel
    dsimp only
    rw [hsum]
    exact if_pos (by decide)

/-! ### Examples -/

/-- The wheel with five spokes. -/
def wheel : CG := ⟨6, fun i => [[5, 4, 3, 2, 1], [5, 2, 0], [3, 1, 0], [4, 2, 0], [5, 3, 0], [4, 1, 0]].getD i []⟩

theorem wheel_ok : wheel.Sorted := by
  have h1 : ∀ u, u < 6 → (wheel.nb u).Pairwise (· > ·) ∧ ∀ v ∈ wheel.nb u, v < 6 ∧ v ≠ u ∧ u ∈ wheel.nb v := by decide
  have h3 : ∀ u, ¬ u < 6 → wheel.nb u = [] := fun u hu => by
    unfold wheel
    dsimp only
    rw [List.getD_eq_getElem?_getD, List.getElem?_eq_none (by simp only [List.length_cons, List.length_nil]; omega)]
    rfl
  have h2 : ∀ u v, v ∈ wheel.nb u → u < 6 := fun u v h => by
    by_contra hc
    rw [h3 u hc] at h; cases h
  have h4 : ∀ u, (wheel.nb u).Pairwise (· > ·) := fun u => by
    by_cases hu : u < 6
    · exact (h1 u hu).1
    · rw [h3 u hu]; exact List.Pairwise.nil
  exact ⟨⟨fun u v h => ⟨h2 u v h, ((h1 u (h2 u v h)).2 v h).1⟩, fun u => (h4 u).imp fun h => Nat.ne_of_gt h, fun u v h => ((h1 u (h2 u v h)).2 v h).2.2,
    fun u h => ((h1 u (h2 u u h)).2 u h).2.1 rfl⟩, h4⟩

theorem wheel_order : DegOrder wheel (List.range 6) := ⟨by decide, by decide⟩

/-- The wheel has six cycles of length five; all versions find them. -/
example : ∃ H, relabel wheel (List.range 6) = some H ∧ countSerial H id = some 6 ∧ escSerial H = some 6 ∧
    count5 H id (fun nb => (List.range nb).map fun b => (b, b % 2)) (allocAll 6 fun _ => none) = some (allocAll 6 fun _ => none, 6) ∧
    count5NoSched H id ((List.range 6).map fun b => (b, b % 2)) (allocAll 6 fun _ => none) = some (allocAll 6 fun _ => none, 6) ∧ escape5 H List.range = some 6 := by
  obtain ⟨H, hr⟩ := relabel_some (G := wheel) (by decide) (List.range 6)
  have hok := wheel_ok.toOk
  obtain ⟨hH, e1, e2, -⟩ := relabel_spec hok wheel_order.1 hr
  have hrank : ∀ a b, b ∈ H.nb a → id a ≠ id b := fun a b h e => hH.loop a (by simp only [id] at e; rw [e] at h ⊢; exact h)
  have hs := five_serial hok (by decide) wheel_order hr hrank
  have he := five_escape hok (by decide) wheel_order.1 hr
  have hp := five_par hok (by decide) wheel_order hr hrank ⟨5, 0, by decide⟩ (fun j => fresh_clean 6) (sched := fun nb => (List.range nb).map fun b => (b, b % 2))
    (fun nb => by rw [fst_sched])
  have hq := five_nosched hok (by decide) wheel_order hr hrank (fun j => fresh_clean 6) (sched := (List.range 6).map fun b => (b, b % 2)) (by rw [fst_sched]; exact List.Perm.refl _)
  have hf := five_escape_par hok (by decide) wheel_order.1 hr ⟨5, 0, by decide⟩ (sched := List.range) (fun nb => List.Perm.refl _)
  have hc : ((wheel.cycles : Int) % 2 ^ 64) = 6 := by
    rw [← escAt_total wheel_ok]
    decide +kernel
  rw [hc] at hs he hp hq hf
  exact ⟨H, hr, hs, he, hp, hq, hf⟩

end Gbbs.Cyc
