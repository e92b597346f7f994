/-
Arithmetic of ranges, and the effect of insertions, for the bucket model.
-/
import Verif.Buckets.Model

namespace Gbbs.Buckets

/-- Position of a bucket in the order of iteration: the id itself (increasing), or its distance from
the top `K * opn` of the first range (decreasing). -/
def time (c : Cfg) (K bkt : Nat) : Option Nat :=
  if c.inc then some bkt else if bkt < K * c.opn then some (K * c.opn - 1 - bkt) else none

/-- Number of ranges passed. -/
def prog (c : Cfg) (K r : Nat) : Nat := if c.inc then r else K - r

/-- Where an element of time `t` belongs when the current range is `q`. -/
def slot (c : Cfg) (q t : Nat) : Nat := if t < (q + 1) * c.opn then t - q * c.opn else c.opn

theorem slot_le {c : Cfg} {q t : Nat} (hq : q * c.opn ≤ t) : slot c q t ≤ c.opn := by
  unfold slot
  rw [Nat.add_mul]
  split <;> omega

theorem slot_eq_opn {c : Cfg} {q t : Nat} (hq : (q + 1) * c.opn ≤ t) : slot c q t = c.opn := by
  unfold slot
  rw [if_neg (by omega)]

theorem slot_lt {c : Cfg} {q t : Nat} (h1 : q * c.opn ≤ t) (h2 : t < (q + 1) * c.opn) :
    slot c q t < c.opn ∧ t = q * c.opn + slot c q t := by
  unfold slot
  rw [if_pos h2]
  rw [Nat.add_mul] at h2
  omega

theorem slot_mono {c : Cfg} {q t t' : Nat} (h1 : q * c.opn ≤ t) (h : t ≤ t') :
    slot c q t ≤ slot c q t' := by
  unfold slot
  rw [Nat.add_mul]
  split <;> split <;> omega

theorem toRange_spec {c : Cfg} {K r : Nat} (ho : 0 < c.opn) (hr : c.inc = true ∨ r ≤ K) (bkt : Nat) :
    toRange c r bkt = match time c K bkt with
      | none => c.null
      | some t => if t < prog c K r * c.opn then c.null else slot c (prog c K r) t := by
  by_cases hi : c.inc = true
  · simp only [toRange, time, prog, hi, if_true, slot]
    by_cases h1 : bkt < r * c.opn
    · simp [h1]
    · simp only [h1, if_false]
      by_cases h2 : bkt < (r + 1) * c.opn
      · simp only [h2, if_true]
        have hd : bkt / c.opn = r := by
          rw [Nat.div_eq_iff ho]
          rw [Nat.add_mul] at h2
          omega
        have := Nat.div_add_mod bkt c.opn
        rw [hd, Nat.mul_comm] at this
        exact (Nat.sub_eq_of_eq_add (by omega)).symm
      · simp [h2]
  · have hrK : r ≤ K := hr.resolve_left hi
    simp only [toRange, time, prog, hi, Bool.false_eq_true, if_false, slot]
    have hK : K * c.opn = (K - r) * c.opn + r * c.opn := by
      rw [← Nat.add_mul]; congr 1; omega
    have hle : r * c.opn ≤ K * c.opn := Nat.mul_le_mul_right _ hrK
    by_cases hv : bkt < K * c.opn
    · simp only [hv, if_true]
      by_cases h1 : bkt ≥ r * c.opn
      · rw [if_pos h1, if_pos (by omega)]
      · have hge : ¬ (K * c.opn - 1 - bkt < (K - r) * c.opn) := by omega
        rw [if_neg h1]
        simp only [hge, if_false]
        have hr1 : 1 ≤ r := by
          rcases Nat.eq_zero_or_pos r with rfl | h
          · simp at h1
          · exact h
        have hrr : (r - 1) * c.opn + c.opn = r * c.opn := by
          rw [← Nat.succ_mul]; congr 1; omega
        rw [Nat.add_mul (K - r) 1]
        by_cases h2 : bkt ≥ (r - 1) * c.opn
        · rw [if_pos h2, if_pos (by omega)]
          have hd : bkt / c.opn = r - 1 := by
            rw [Nat.div_eq_iff ho]; omega
          have := Nat.div_add_mod bkt c.opn
          rw [hd, Nat.mul_comm] at this
          omega
        · rw [if_neg h2, if_neg (by omega)]
    · simp only [hv, if_false]
      rw [if_pos (by omega)]

theorem time_inj {c : Cfg} {K a b t : Nat} (ha : time c K a = some t) (hb : time c K b = some t) :
    a = b := by
  unfold time at ha hb
  by_cases hi : c.inc = true
  · simp only [hi, if_true, Option.some.injEq] at ha hb; omega
  · simp only [hi, Bool.false_eq_true, if_false] at ha hb
    split at ha
    · split at hb
      · simp only [Option.some.injEq] at ha hb; omega
      · simp at hb
    · simp at ha

/-- The current bucket number has time "current range, current slot". -/
theorem time_curNum {c : Cfg} {K : Nat} {st : BS} (hr : c.inc = true ∨ st.curRange ≤ K)
    (h1 : c.inc = true ∨ 1 ≤ st.curRange) (hc : st.curBkt < c.opn) :
    time c K (curNum c st) = some (prog c K st.curRange * c.opn + st.curBkt) := by
  by_cases hi : c.inc = true
  · simp [time, curNum, prog, hi]
  · have hrK := hr.resolve_left hi
    have hr1 := h1.resolve_left hi
    have hK : K * c.opn = (K - st.curRange) * c.opn + st.curRange * c.opn := by
      rw [← Nat.add_mul]; congr 1; omega
    have : 1 * c.opn ≤ st.curRange * c.opn := Nat.mul_le_mul_right _ hr1
    simp only [time, curNum, prog, hi, Bool.false_eq_true, if_false]
    rw [if_pos (by omega)]
    simp only [Option.some.injEq]
    omega

/-! ### Minimum and maximum -/

theorem minOf_spec (z : Nat) (l : List Nat) :
    minOf z l ∈ z :: l ∧ ∀ x ∈ z :: l, minOf z l ≤ x := by
  induction l generalizing z with
  | nil => simp [minOf]
  | cons y l ih =>
    obtain ⟨h1, h2⟩ := ih (min z y)
    have hunf : minOf z (y :: l) = minOf (min z y) l := rfl
    rw [hunf]
    constructor
    · rcases List.mem_cons.1 h1 with h | h
      · rw [h]
        rcases Nat.le_total z y with h' | h'
        · rw [Nat.min_eq_left h']; simp
        · rw [Nat.min_eq_right h']; simp
      · simp [h]
    · have h3 := h2 (min z y) List.mem_cons_self
      intro x hx
      simp only [List.mem_cons] at hx
      rcases hx with rfl | rfl | hx
      · omega
      · omega
      · exact h2 x (List.mem_cons_of_mem _ hx)

theorem maxOf_spec (z : Nat) (l : List Nat) :
    maxOf z l ∈ z :: l ∧ ∀ x ∈ z :: l, x ≤ maxOf z l := by
  induction l generalizing z with
  | nil => simp [maxOf]
  | cons y l ih =>
    obtain ⟨h1, h2⟩ := ih (max z y)
    have hunf : maxOf z (y :: l) = maxOf (max z y) l := rfl
    rw [hunf]
    constructor
    · rcases List.mem_cons.1 h1 with h | h
      · rw [h]
        rcases Nat.le_total z y with h' | h'
        · rw [Nat.max_eq_right h']; simp
        · rw [Nat.max_eq_left h']; simp
      · simp [h]
    · have h3 := h2 (max z y) List.mem_cons_self
      intro x hx
      simp only [List.mem_cons] at hx
      rcases hx with rfl | rfl | hx
      · omega
      · omega
      · exact h2 x (List.mem_cons_of_mem _ hx)

/-! ### Insertion -/

/-- Total number of identifiers stored in the buckets. -/
def total (c : Cfg) (bkts : Nat → List Nat) : Nat := exScan (fun i => (bkts i).length) (c.opn + 1)

theorem exScan_upd (f : Nat → Nat) (i k x : Nat) (h : i < k) :
    exScan (upd f i x) k + f i = exScan f k + x := by
  induction k with
  | zero => omega
  | succ k ih =>
    simp only [exScan]
    by_cases hk : i = k
    · subst hk
      rw [upd_same, exScan_congr (g := f) (fun j hj => upd_of_ne _ _ (by omega))]
      omega
    · rw [upd_of_ne _ _ (by omega)]
      have := ih (by omega)
      omega

theorem total_upd (c : Cfg) (bkts : Nat → List Nat) (i : Nat) (l : List Nat) (h : i ≤ c.opn) :
    total c (upd bkts i l) + (bkts i).length = total c bkts + l.length := by
  have := exScan_upd (fun i => (bkts i).length) i (c.opn + 1) l.length (by omega)
  rw [total, total, ← this]
  congr 1
  apply exScan_congr
  intro j _
  by_cases hj : j = i
  · subst hj; simp
  · simp [upd_of_ne _ _ hj]

/-- Identifiers of a batch sent to bucket `i`. -/
def destined (c : Cfg) (es : List (Nat × Nat)) (i : Nat) : List Nat :=
  (es.filter fun e => decide (e.2 = i ∧ e.2 ≠ c.null)).map Prod.fst

/-- A batch with destinations in range is inserted completely, in order. -/
theorem updateBuckets_spec (c : Cfg) (es : List (Nat × Nat)) : ∀ st : BS,
    (∀ e ∈ es, e.2 = c.null ∨ e.2 ≤ c.opn) →
    ∃ st', updateBuckets c st es = some st' ∧ (∀ i, st'.bkts i = st.bkts i ++ destined c es i) ∧
      st'.curBkt = st.curBkt ∧ st'.curRange = st.curRange ∧
      st'.numElms + total c st.bkts = st.numElms + total c st'.bkts := by
  induction es with
  | nil => intro st _; exact ⟨st, rfl, by simp [destined], rfl, rfl, rfl⟩
  | cons e es ih =>
    intro st h
    by_cases hn : e.2 = c.null
    · obtain ⟨st', h1, h2, h3⟩ := ih st (fun e' he' => h e' (List.mem_cons_of_mem _ he'))
      refine ⟨st', ?_, ?_, h3⟩
      · rw [updateBuckets, List.foldlM_cons, insertOne, if_pos hn]; exact h1
      · intro i; rw [h2]; simp [destined, hn]
    · have hle : e.2 ≤ c.opn := (h e List.mem_cons_self).resolve_left hn
      obtain ⟨st', h1, h2, h3, h4, h5⟩ := ih
        { st with bkts := upd st.bkts e.2 (st.bkts e.2 ++ [e.1]), numElms := st.numElms + 1 }
        (fun e' he' => h e' (List.mem_cons_of_mem _ he'))
      refine ⟨st', ?_, ?_, h3, h4, ?_⟩
      · rw [updateBuckets, List.foldlM_cons, insertOne, if_neg hn, if_neg (by omega)]; exact h1
      · intro i
        rw [h2]
        by_cases hi : e.2 = i
        · subst hi; simp [destined, hn]
        · simp [destined, hi, upd_of_ne _ _ (Ne.symm hi)]
      · have := total_upd c st.bkts e.2 (st.bkts e.2 ++ [e.1]) hle
        simp only [List.length_append, List.length_singleton] at this
        simp only at h5
        omega

theorem total_pos_of_mem {c : Cfg} {bkts : Nat → List Nat} {i : Nat} {v : Nat} (hi : i ≤ c.opn)
    (h : v ∈ bkts i) : 0 < total c bkts := by
  have h1 := exScan_mono (fun i => (bkts i).length) (show i + 1 ≤ c.opn + 1 by omega)
  have h2 := List.length_pos_of_mem h
  simp only [exScan] at h1
  simp only [total, exScan]
  omega

theorem total_eq_overflow {c : Cfg} {bkts : Nat → List Nat} (h : ∀ i, i < c.opn → bkts i = []) :
    total c bkts = (bkts c.opn).length := by
  have : ∀ k, k ≤ c.opn → exScan (fun i => (bkts i).length) k = 0 := by
    intro k
    induction k with
    | zero => intro _; rfl
    | succ k ih => intro hk; simp only [exScan]; rw [ih (by omega), h k (by omega)]; rfl
  simp [total, exScan, this c.opn (Nat.le_refl _)]

end Gbbs.Buckets
