/-
`unpack` re-buckets the overflow bucket for the next non-empty range.
-/
import Verif.Buckets.Lemmas

namespace Gbbs.Buckets

/-- `v` belongs to slot `i` of range `q`. -/
def inSlot (c : Cfg) (K : Nat) (d : Nat → Nat) (q i v : Nat) : Bool :=
  match time c K (d v) with
  | none => false
  | some t => decide (q * c.opn ≤ t ∧ slot c q t = i)

theorem inSlot_iff {c : Cfg} {K : Nat} {d : Nat → Nat} {q i v : Nat} :
    inSlot c K d q i v = true ↔ ∃ t, time c K (d v) = some t ∧ q * c.opn ≤ t ∧ slot c q t = i := by
  unfold inSlot
  cases time c K (d v) <;> simp

/-- `v` belongs to the range after `q`. -/
def inNext (c : Cfg) (K : Nat) (d : Nat → Nat) (q v : Nat) : Prop :=
  ∃ t, time c K (d v) = some t ∧ (q + 1) * c.opn ≤ t ∧ t < (q + 2) * c.opn

theorem total_split (c : Cfg) (bkts : Nat → List Nat) :
    total c bkts = exScan (fun i => (bkts i).length) c.opn + (bkts c.opn).length := rfl

theorem exScan_eq_zero {f : Nat → Nat} {k : Nat} (h : exScan f k = 0) : ∀ i, i < k → f i = 0 := by
  intro i hi
  have := exScan_mono f (show i + 1 ≤ k by omega)
  simp only [exScan] at this
  omega

/-- `adjust` keeps the contents and only moves the range, to just before the earliest remaining
bucket. -/
theorem adjust_spec {c : Cfg} {K : Nat} {d : Nat → Nat} {st : BS} (ho : 0 < c.opn)
    (hr : c.inc = true ∨ st.curRange ≤ K) (hr1 : c.inc = true ∨ st.curRange = 0 →
      c.inc = true ∨ st.bkts c.opn = [])
    (inRange : Nat)
    (hov : ∀ v ∈ st.bkts c.opn, inSlot c K d (prog c K st.curRange) c.opn v = true) :
    ∃ r', adjust c d inRange st = some { st with curRange := r' } ∧
      (c.inc = true ∨ r' ≤ K) ∧ prog c K st.curRange ≤ prog c K r' ∧
      (inRange ≠ 0 ∨ st.bkts c.opn = [] → r' = st.curRange) ∧
      (inRange = 0 → st.bkts c.opn ≠ [] → (c.inc = true ∨ 1 ≤ r') ∧
        (∀ v ∈ st.bkts c.opn, ∃ t, time c K (d v) = some t ∧ (prog c K r' + 1) * c.opn ≤ t) ∧
        ∃ v ∈ st.bkts c.opn, inNext c K d (prog c K r') v) := by
  unfold adjust
  cases hb : st.bkts c.opn with
  | nil =>
    exact ⟨st.curRange, rfl, hr, Nat.le_refl _, fun _ => rfl, fun _ h => absurd rfl h⟩
  | cons v vs =>
    simp only
    by_cases hz : inRange = 0
    swap
    · rw [if_neg hz]
      exact ⟨st.curRange, rfl, hr, Nat.le_refl _, fun _ => rfl, fun h => absurd h hz⟩
    rw [if_pos hz]
    rw [hb] at hov
    -- every overflow element lies beyond the current range
    have hfar : ∀ w ∈ v :: vs, ∃ t, time c K (d w) = some t ∧
        (prog c K st.curRange + 1) * c.opn ≤ t := by
      intro w hw
      obtain ⟨t, h1, h2, h3⟩ := inSlot_iff.1 (hov w hw)
      refine ⟨t, h1, ?_⟩
      by_contra hlt
      have := (slot_lt h2 (by omega)).1
      omega
    by_cases hi : c.inc = true
    · rw [if_pos hi]
      obtain ⟨m1, m2⟩ := minOf_spec (d v) (vs.map d)
      set mn := minOf (d v) (vs.map d) with hmn
      have hm : ∃ w ∈ v :: vs, d w = mn := by
        rcases List.mem_cons.1 m1 with h | h
        · exact ⟨v, List.mem_cons_self, h.symm⟩
        · obtain ⟨w, hw, hw'⟩ := List.mem_map.1 h
          exact ⟨w, List.mem_cons_of_mem _ hw, hw'⟩
      have hall : ∀ w ∈ v :: vs, mn ≤ d w := by
        intro w hw
        apply m2
        rcases List.mem_cons.1 hw with rfl | hw
        · exact List.mem_cons_self
        · exact List.mem_cons_of_mem _ (List.mem_map_of_mem hw)
      have htime : ∀ b, time c K b = some b := fun b => by simp [time, hi]
      have hprog : ∀ r, prog c K r = r := fun r => by simp [prog, hi]
      obtain ⟨w, hw, hwm⟩ := hm
      have hge : (st.curRange + 1) * c.opn ≤ mn := by
        obtain ⟨t, h1, h2⟩ := hfar w hw
        rw [htime, Option.some.injEq] at h1
        rw [hprog] at h2
        omega
      have hdiv : st.curRange + 1 ≤ mn / c.opn := (Nat.le_div_iff_mul_le ho).2 hge
      have hdm := Nat.div_add_mod mn c.opn
      have hml := Nat.mod_lt mn ho
      rw [Nat.mul_comm] at hdm
      rw [if_neg (by omega)]
      refine ⟨mn / c.opn - 1, rfl, Or.inl hi, ?_, ?_, ?_⟩
      · rw [hprog, hprog]; omega
      · rintro (h | h)
        · exact absurd hz h
        · exact absurd h (by simp)
      · intro _ _
        rw [hprog, show mn / c.opn - 1 + 1 = mn / c.opn by omega]
        refine ⟨Or.inl hi, ?_, w, hw, d w, htime _, ?_, ?_⟩
        · intro u hu
          exact ⟨d u, htime _, (by have := hall u hu; omega)⟩
        · rw [show mn / c.opn - 1 + 1 = mn / c.opn by omega]; omega
        · rw [show mn / c.opn - 1 + 2 = mn / c.opn + 1 by omega, Nat.add_mul]; omega
    · have hrK := hr.resolve_left hi
      rw [if_neg hi]
      obtain ⟨m1, m2⟩ := maxOf_spec (d v) (vs.map d)
      set mx := maxOf (d v) (vs.map d) with hmx
      have hm : ∃ w ∈ v :: vs, d w = mx := by
        rcases List.mem_cons.1 m1 with h | h
        · exact ⟨v, List.mem_cons_self, h.symm⟩
        · obtain ⟨w, hw, hw'⟩ := List.mem_map.1 h
          exact ⟨w, List.mem_cons_of_mem _ hw, hw'⟩
      have hall : ∀ w ∈ v :: vs, d w ≤ mx := by
        intro w hw
        apply m2
        rcases List.mem_cons.1 hw with rfl | hw
        · exact List.mem_cons_self
        · exact List.mem_cons_of_mem _ (List.mem_map_of_mem hw)
      obtain ⟨w, hw, hwm⟩ := hm
      have htime : ∀ u ∈ v :: vs, d u < K * c.opn ∧ time c K (d u) = some (K * c.opn - 1 - d u) := by
        intro u hu
        obtain ⟨t, h1, _⟩ := hfar u hu
        unfold time at h1 ⊢
        simp only [hi, Bool.false_eq_true, if_false] at h1 ⊢
        split at h1
        · rename_i hlt; exact ⟨hlt, by rw [if_pos hlt]⟩
        · simp at h1
      have hprog : ∀ r, prog c K r = K - r := fun r => by simp [prog, hi]
      have hr0 : 1 ≤ st.curRange := by
        by_contra h
        rcases hr1 (Or.inr (by omega)) with h' | h'
        · exact hi h'
        · rw [hb] at h'; exact absurd h' (by simp)
      have hKr : K * c.opn = (K - st.curRange) * c.opn + st.curRange * c.opn := by
        rw [← Nat.add_mul]; congr 1; omega
      have hrr : (st.curRange - 1) * c.opn + c.opn = st.curRange * c.opn := by
        rw [← Nat.succ_mul]; congr 1; omega
      have hlt : mx < (st.curRange - 1) * c.opn := by
        obtain ⟨t, h1, h2⟩ := hfar w hw
        obtain ⟨h3, h4⟩ := htime w hw
        rw [h4, Option.some.injEq] at h1
        rw [hprog, Nat.add_mul] at h2
        omega
      have hdiv : mx / c.opn < st.curRange - 1 := Nat.div_lt_of_lt_mul (by rw [Nat.mul_comm]; exact hlt)
      have hdm := Nat.div_add_mod mx c.opn
      have hml := Nat.mod_lt mx ho
      rw [Nat.mul_comm] at hdm
      have hr' : (c.opn + mx) / c.opn + 1 = mx / c.opn + 2 := by
        rw [Nat.add_div_left _ ho]
      have hKm : K * c.opn = (K - (mx / c.opn + 2)) * c.opn + (mx / c.opn * c.opn + 2 * c.opn) := by
        rw [← Nat.add_mul, ← Nat.add_mul]; congr 1; omega
      rw [hr']
      refine ⟨mx / c.opn + 2, rfl, Or.inr (by omega), ?_, ?_, ?_⟩
      · rw [hprog, hprog]; omega
      · rintro (h | h)
        · exact absurd hz h
        · exact absurd h (by simp)
      · intro _ _
        rw [hprog, Nat.add_mul]
        refine ⟨Or.inr (Nat.le_trans (by decide) (Nat.le_add_left 2 _)), ?_, w, hw, _,
          (htime w hw).2, ?_, ?_⟩
        · intro u hu
          refine ⟨_, (htime u hu).2, ?_⟩
          have := hall u hu
          omega
        · rw [Nat.add_mul]; omega
        · rw [Nat.add_mul]; omega

/-- The effect of `unpack` when all open buckets are empty. -/
theorem unpack_spec {c : Cfg} {K : Nat} {d : Nat → Nat} {st : BS} (ho : 0 < c.opn)
    (hnull : c.opn < c.null) (hr : c.inc = true ∨ st.curRange ≤ K)
    (hr1 : c.inc = true ∨ 1 ≤ st.curRange) (hempty : ∀ i, i < c.opn → st.bkts i = [])
    (hcnt : st.numElms = total c st.bkts) :
    ∃ st', unpack c d st = some st' ∧ st'.curBkt = st.curBkt ∧
      prog c K st.curRange + 1 ≤ prog c K st'.curRange ∧
      (c.inc = true ∨ st'.curRange ≤ K) ∧
      (0 < st'.numElms → c.inc = true ∨ 1 ≤ st'.curRange) ∧
      st'.numElms = total c st'.bkts ∧
      (∀ i, i ≤ c.opn → st'.bkts i =
        (st.bkts c.opn).filter (inSlot c K d (prog c K st'.curRange) i)) ∧
      (∀ v ∈ st.bkts c.opn, ∀ t, time c K (d v) = some t →
        (prog c K st.curRange + 1) * c.opn ≤ t → prog c K st'.curRange * c.opn ≤ t) ∧
      ((st'.bkts c.opn).length = (st.bkts c.opn).length → st.bkts c.opn ≠ [] →
        (∃ v ∈ st'.bkts c.opn, inNext c K d (prog c K st'.curRange) v) ∧
        ¬ ∃ v ∈ st.bkts c.opn, inNext c K d (prog c K st.curRange) v) := by
  have hm : st.numElms = (st.bkts c.opn).length := by rw [hcnt, total_eq_overflow hempty]
  unfold unpack
  rw [if_neg (by
    rintro ⟨h1, h2⟩
    rcases hr1 with h | h
    · rw [h] at h1; simp at h1
    · omega)]
  simp only
  rw [if_neg (by omega)]
  set r := if c.inc then st.curRange + 1 else st.curRange - 1 with hrdef
  have hprog : prog c K r = prog c K st.curRange + 1 := by
    by_cases hi : c.inc = true
    · simp [prog, hrdef, hi]
    · have := hr.resolve_left hi
      have := hr1.resolve_left hi
      simp only [prog, hrdef, hi, Bool.false_eq_true, if_false]; omega
  have hrr : c.inc = true ∨ r ≤ K := by
    by_cases hi : c.inc = true
    · exact Or.inl hi
    · have := hr.resolve_left hi
      right; simp only [hrdef, hi, Bool.false_eq_true, if_false]; omega
  set es := (st.bkts c.opn).map fun v => (v, toRange c r (d v)) with hes
  have hdest : ∀ e ∈ es, e.2 = c.null ∨ e.2 ≤ c.opn := by
    intro e he
    obtain ⟨v, _, rfl⟩ := List.mem_map.1 he
    simp only
    rw [toRange_spec ho hrr]
    cases time c K (d v) with
    | none => exact Or.inl rfl
    | some t =>
      simp only
      by_cases h : t < prog c K r * c.opn
      · rw [if_pos h]; exact Or.inl rfl
      · rw [if_neg h]; exact Or.inr (slot_le (by omega))
  obtain ⟨st2, u1, u2, u3, u4, u5⟩ := updateBuckets_spec c es
    { st with bkts := upd st.bkts c.opn [], curRange := r } hdest
  rw [u1]
  simp only
  have hb2 : ∀ i, i ≤ c.opn → st2.bkts i =
      (st.bkts c.opn).filter (inSlot c K d (prog c K r) i) := by
    intro i hi
    rw [u2]
    have h0 : upd st.bkts c.opn [] i = [] := by
      by_cases h : i = c.opn
      · subst h; simp
      · rw [upd_of_ne _ _ h]; exact hempty i (by omega)
    simp only [h0, List.nil_append]
    rw [destined, hes, List.filter_map, List.map_map]
    rw [show (Prod.fst ∘ fun v => (v, toRange c r (d v))) = id from rfl, List.map_id]
    apply List.filter_congr
    intro v _
    rw [Bool.eq_iff_iff, inSlot_iff]
    simp only [Function.comp, decide_eq_true_eq]
    rw [toRange_spec ho hrr]
    cases time c K (d v) with
    | none => simp
    | some t =>
      simp only [Option.some.injEq, exists_eq_left']
      by_cases h : t < prog c K r * c.opn
      · simp only [h, if_true, ne_eq, not_true_eq_false, and_false, false_iff, not_and]
        intro h'; omega
      · have := slot_le (c := c) (q := prog c K r) (t := t) (by omega)
        simp only [h, if_false]
        constructor
        · rintro ⟨h1, _⟩; exact ⟨by omega, h1⟩
        · rintro ⟨_, h1⟩; exact ⟨h1, by omega⟩
  have ht1 : total c (upd st.bkts c.opn []) = 0 := by
    rw [total_eq_overflow]
    · simp
    · intro i hi; rw [upd_of_ne _ _ (by omega)]; exact hempty i hi
  simp only at u3 u4 u5
  rw [ht1, Nat.add_zero] at u5
  have hupdated : st2.numElms - st.numElms = total c st2.bkts := by omega
  rw [hupdated]
  have hlen : total c st2.bkts - (st2.bkts c.opn).length =
      exScan (fun i => (st2.bkts i).length) c.opn := by
    rw [total_split]; omega
  rw [hlen]
  have hpr2 : prog c K st2.curRange = prog c K r := by rw [u4]
  have hall : ∀ v ∈ st2.bkts c.opn, inSlot c K d (prog c K st2.curRange) c.opn v = true := by
    intro v hv
    rw [hb2 c.opn (Nat.le_refl _)] at hv
    rw [hpr2]
    exact (List.mem_filter.1 hv).2
  have hnone0 : c.inc = false → r = 0 → ∀ i v, inSlot c K d (prog c K r) i v = false := by
    intro hi h0 i v
    rw [Bool.eq_false_iff, Ne, inSlot_iff]
    rintro ⟨t, h1, h2, _⟩
    unfold time at h1
    simp only [hi, Bool.false_eq_true, if_false] at h1
    split at h1
    · rw [Option.some.injEq] at h1
      simp only [prog, hi, Bool.false_eq_true, if_false, h0, Nat.sub_zero] at h2
      omega
    · simp at h1
  obtain ⟨r', a1, a2, a3, a4, a5⟩ := adjust_spec (d := d) (st := st2) ho (by rw [u4]; exact hrr) (by
      rintro (h | h)
      · exact Or.inl h
      · by_cases hi : c.inc = true
        · exact Or.inl hi
        · right
          rw [hb2 c.opn (Nat.le_refl _), List.filter_eq_nil_iff]
          intro v _
          rw [hnone0 (by simpa using hi) (by rw [← u4]; exact h)]; simp)
    (exScan (fun i => (st2.bkts i).length) c.opn) hall
  rw [a1]
  simp only
  rw [hpr2] at a3
  have hfin : st2.numElms - (st.bkts c.opn).length = total c st2.bkts := by omega
  have hv2 : exScan (fun i => (st2.bkts i).length) c.opn = 0 → st2.bkts c.opn ≠ [] →
      ∀ v ∈ st.bkts c.opn, ∀ t, time c K (d v) = some t → prog c K r * c.opn ≤ t →
          (prog c K r' + 1) * c.opn ≤ t ∧ slot c (prog c K r) t = c.opn := by
    intro hc1 hc2 v hv t h1 h2
    obtain ⟨_, far, _⟩ := a5 hc1 hc2
    have hz := exScan_eq_zero hc1
    have hs : slot c (prog c K r) t = c.opn := by
      have hsl := slot_le (c := c) h2
      by_contra hne
      have hlt : slot c (prog c K r) t < c.opn := by omega
      have : v ∈ st2.bkts (slot c (prog c K r) t) := by
        rw [hb2 _ (by omega), List.mem_filter]
        exact ⟨hv, inSlot_iff.2 ⟨t, h1, h2, rfl⟩⟩
      have := List.length_pos_of_mem this
      have := hz _ hlt
      omega
    have hmem : v ∈ st2.bkts c.opn := by
      rw [hb2 _ (Nat.le_refl _), List.mem_filter]
      exact ⟨hv, inSlot_iff.2 ⟨t, h1, h2, hs⟩⟩
    obtain ⟨t', h3, h4⟩ := far v hmem
    rw [h1, Option.some.injEq] at h3
    subst h3
    exact ⟨h4, hs⟩
  refine ⟨_, rfl, u3, by simp only; omega, a2, ?_, hfin, ?_, ?_, ?_⟩
  · simp only
    intro hpos
    rw [hfin] at hpos
    by_cases hi : c.inc = true
    · exact Or.inl hi
    right
    by_cases hc : exScan (fun i => (st2.bkts i).length) c.opn ≠ 0 ∨ st2.bkts c.opn = []
    · rw [a4 hc]
      by_contra h0
      have : total c st2.bkts = 0 := by
        rw [total_split]
        have hz : ∀ i, i ≤ c.opn → st2.bkts i = [] := by
          intro i hi'
          rw [hb2 i hi', List.filter_eq_nil_iff]
          intro v _
          rw [hnone0 (by simpa using hi) (by rw [← u4]; omega)]; simp
        have h1 : exScan (fun i => (st2.bkts i).length) c.opn = exScan (fun _ => 0) c.opn :=
          exScan_congr fun i hi' => by rw [hz i (by omega)]; rfl
        have h2 : ∀ k, exScan (fun _ => 0) k = 0 := by
          intro k; induction k with
          | zero => rfl
          | succ k ih => simp [exScan, ih]
        rw [h1, h2, hz c.opn (Nat.le_refl _)]; rfl
      omega
    · rw [not_or, not_not] at hc
      exact ((a5 hc.1 hc.2).1).resolve_left hi
  · intro i hi
    simp only
    rw [hb2 i hi]
    by_cases hc : exScan (fun i => (st2.bkts i).length) c.opn ≠ 0 ∨ st2.bkts c.opn = []
    · rw [a4 hc, hpr2]
    · rw [not_or, not_not] at hc
      apply List.filter_congr
      intro v hv
      rw [Bool.eq_iff_iff, inSlot_iff, inSlot_iff]
      constructor
      · rintro ⟨t, h1, h2, h3⟩
        obtain ⟨h4, h5⟩ := hv2 hc.1 hc.2 v hv t h1 h2
        refine ⟨t, h1, ?_, ?_⟩
        · rw [Nat.add_mul] at h4; omega
        · rw [slot_eq_opn h4]; omega
      · rintro ⟨t, h1, h2, h3⟩
        have h2' : prog c K r * c.opn ≤ t := (Nat.mul_le_mul_right _ a3).trans h2
        obtain ⟨h4, h5⟩ := hv2 hc.1 hc.2 v hv t h1 h2'
        refine ⟨t, h1, h2', ?_⟩
        rw [slot_eq_opn h4] at h3; omega
  · intro v hv t h1 h2
    simp only
    rw [← hprog] at h2
    by_cases hc : exScan (fun i => (st2.bkts i).length) c.opn ≠ 0 ∨ st2.bkts c.opn = []
    · rw [a4 hc, hpr2]; exact h2
    · rw [not_or, not_not] at hc
      have := (hv2 hc.1 hc.2 v hv t h1 h2).1
      rw [Nat.add_mul] at this; omega
  · simp only
    intro hlen' hne
    have heq : st2.bkts c.opn = st.bkts c.opn := by
      rw [hb2 c.opn (Nat.le_refl _)] at hlen' ⊢
      exact List.filter_eq_self.2 (List.length_filter_eq_length_iff.1 hlen')
    have hallin : ∀ v ∈ st.bkts c.opn, inSlot c K d (prog c K r) c.opn v = true := by
      intro v hv
      rw [← heq] at hv
      rw [← hpr2]; exact hall v hv
    have hz : exScan (fun i => (st2.bkts i).length) c.opn = 0 := by
      have h1 : exScan (fun i => (st2.bkts i).length) c.opn = exScan (fun _ => 0) c.opn := by
        apply exScan_congr
        intro i hi
        have : st2.bkts i = [] := by
          rw [hb2 i (by omega), List.filter_eq_nil_iff]
          intro v hv h
          obtain ⟨t, t1, t2, t3⟩ := inSlot_iff.1 h
          obtain ⟨t', t1', t2', t3'⟩ := inSlot_iff.1 (hallin v hv)
          rw [t1, Option.some.injEq] at t1'
          subst t1'
          omega
        rw [this]; rfl
      have h2 : ∀ k, exScan (fun _ => 0) k = 0 := by
        intro k; induction k with
        | zero => rfl
        | succ k ih => simp [exScan, ih]
      rw [h1, h2]
    obtain ⟨_, _, hn⟩ := a5 hz (by rw [heq]; exact hne)
    refine ⟨hn, ?_⟩
    rintro ⟨v, hv, t, t1, t2, t3⟩
    obtain ⟨t', t1', t2', t3'⟩ := inSlot_iff.1 (hallin v hv)
    rw [t1, Option.some.injEq] at t1'
    subst t1'
    rw [hprog] at t2' t3'
    have := (slot_lt t2' t3).1
    omega

end Gbbs.Buckets
