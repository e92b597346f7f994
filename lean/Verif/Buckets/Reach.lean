/-
C13, C14: histories of the bucket structure.
-/
import Verif.Buckets.Theorems

namespace Gbbs.Buckets

/-! ### Moves -/

theorem setAll_of_not_mem (d : Nat → Nat) (moves : List (Nat × Nat)) {v : Nat}
    (h : v ∉ moves.map Prod.fst) : setAll d moves v = d v := by
  induction moves generalizing d with
  | nil => rfl
  | cons mv moves ih =>
    simp only [List.map_cons, List.mem_cons, not_or] at h
    show setAll (upd d mv.1 mv.2) moves v = d v
    rw [ih _ h.2, upd_of_ne _ _ h.1]

theorem setAll_of_mem (d : Nat → Nat) (moves : List (Nat × Nat)) (hnd : (moves.map Prod.fst).Nodup)
    {mv : Nat × Nat} (h : mv ∈ moves) : setAll d moves mv.1 = mv.2 := by
  induction moves generalizing d with
  | nil => simp at h
  | cons mv' moves ih =>
    simp only [List.map_cons, List.nodup_cons] at hnd
    show setAll (upd d mv'.1 mv'.2) moves mv.1 = mv.2
    rcases List.mem_cons.1 h with rfl | h
    · rw [setAll_of_not_mem _ _ hnd.1, upd_same]
    · exact ih _ hnd.2 h

/-- Identifiers present after a batch of moves. -/
def presentAfter (c : Cfg) (d : Nat → Nat) (P : Nat → Prop) (moves : List (Nat × Nat)) (v : Nat) :
    Prop :=
  if v ∈ moves.map Prod.fst then setAll d moves v ≠ c.null else P v

theorem mem_destined {c : Cfg} {moves : List (Nat × Nat)} {dest : Nat × Nat → Nat} {i v : Nat} :
    v ∈ destined c (moves.map fun mv => (mv.1, dest mv)) i ↔
      ∃ mv ∈ moves, mv.1 = v ∧ dest mv = i ∧ dest mv ≠ c.null := by
  unfold destined
  simp only [List.mem_map, List.mem_filter, decide_eq_true_eq]
  constructor
  · rintro ⟨e, ⟨⟨mv, hm, rfl⟩, h1, h2⟩, rfl⟩
    exact ⟨mv, hm, rfl, h1, h2⟩
  · rintro ⟨mv, hm, rfl, h1, h2⟩
    exact ⟨_, ⟨⟨mv, hm, rfl⟩, h1, h2⟩, rfl⟩

theorem destined_sublist (c : Cfg) (moves : List (Nat × Nat)) (dest : Nat × Nat → Nat) (i : Nat) :
    (destined c (moves.map fun mv => (mv.1, dest mv)) i).Sublist (moves.map Prod.fst) := by
  unfold destined
  have h : moves.map Prod.fst = (moves.map fun mv => (mv.1, dest mv)).map Prod.fst := by
    simp
  rw [h]
  exact List.filter_sublist.map _

/-- A batch of moves preserves the invariant. -/
theorem Inv.move {c : Cfg} {K : Nat} {d : Nat → Nat} {P : Nat → Prop} {st : BS}
    (h : Inv c K d P st) (moves : List (Nat × Nat)) (hnd : (moves.map Prod.fst).Nodup)
    (dest : Nat × Nat → Nat)
    (hb : ∀ mv ∈ moves, mv.2 ≤ c.null)
    (ht : ∀ mv ∈ moves, mv.2 = c.null ∨ ∃ t, time c K mv.2 = some t ∧ now c K st ≤ t ∧
      (dest mv = slot c (prog c K st.curRange) t ∨
        (dest mv = c.null ∧ mv.1 ∈ st.bkts (slot c (prog c K st.curRange) t))))
    (hdest : ∀ mv ∈ moves, dest mv = c.null ∨ (st.curBkt ≤ dest mv ∧ dest mv ≤ c.opn))
    (hr0 : c.inc = true ∨ 1 ≤ st.curRange ∨ ∀ mv ∈ moves, dest mv = c.null) :
    ∃ st', updateBuckets c st (moves.map fun mv => (mv.1, dest mv)) = some st' ∧
      Inv c K (setAll d moves) (presentAfter c d P moves) st' ∧
      st'.curBkt = st.curBkt ∧ st'.curRange = st.curRange ∧
      ∀ i, st'.bkts i = st.bkts i ++ destined c (moves.map fun mv => (mv.1, dest mv)) i := by
  obtain ⟨st', u1, u2, u3, u4, u5⟩ := updateBuckets_spec c (moves.map fun mv => (mv.1, dest mv)) st
    (by
      intro e he
      obtain ⟨mv, hm, rfl⟩ := List.mem_map.1 he
      exact (hdest mv hm).imp_right And.right)
  refine ⟨st', u1, ?_, u3, u4, u2⟩
  have hnow : now c K st' = now c K st := by simp [now, u3, u4]
  refine ⟨h.opn_pos, h.opn_null, h.dec_null, by rw [u4]; exact h.rng, ?_, by rw [u3]; exact h.cur,
    by have := h.cnt; omega, ?_, ?_, ?_, ?_⟩
  · intro hpos
    rw [u4]
    rcases hr0 with h0 | h0 | h0
    · exact Or.inl h0
    · exact Or.inr h0
    · have hd : ∀ i, destined c (moves.map fun mv => (mv.1, dest mv)) i = [] := by
        intro i
        rw [List.eq_nil_iff_forall_not_mem]
        intro v hv
        obtain ⟨mv, hm, _, _, h3⟩ := mem_destined.1 hv
        exact h3 (h0 mv hm)
      have : total c st'.bkts = total c st.bkts := by
        unfold total
        apply exScan_congr
        intro i _
        rw [u2, hd]; simp
      exact h.rng1 (by omega)
  · intro i hi
    rw [u3] at hi
    rw [u2, h.past i hi, List.nil_append, List.eq_nil_iff_forall_not_mem]
    intro v hv
    obtain ⟨mv, hm, _, h2, h3⟩ := mem_destined.1 hv
    rcases hdest mv hm with h4 | h4
    · exact h3 h4
    · omega
  · intro v
    by_cases hv : v ∈ moves.map Prod.fst
    · obtain ⟨mv, hm, rfl⟩ := List.mem_map.1 hv
      rw [setAll_of_mem d moves hnd hm]; exact hb mv hm
    · rw [setAll_of_not_mem d moves hv]; exact h.bound v
  · intro v hv
    unfold presentAfter at hv
    by_cases hm' : v ∈ moves.map Prod.fst
    · rw [if_pos hm'] at hv
      refine ⟨hv, ?_⟩
      obtain ⟨mv, hm, rfl⟩ := List.mem_map.1 hm'
      rw [setAll_of_mem d moves hnd hm] at hv ⊢
      obtain ⟨t, h1, h2, h3⟩ := (ht mv hm).resolve_left hv
      refine ⟨t, h1, by rw [hnow]; exact h2, ?_⟩
      rw [u4, u2, List.mem_append]
      rcases h3 with h3 | h3
      · right
        have hq : prog c K st.curRange * c.opn ≤ t := by rw [now] at h2; omega
        have := slot_le (c := c) hq
        have := h.opn_null
        exact mem_destined.2 ⟨mv, hm, rfl, h3, by omega⟩
      · exact Or.inl h3.2
    · rw [if_neg hm'] at hv
      rw [setAll_of_not_mem d moves hm']
      obtain ⟨h1, t, h2, h3, h4⟩ := h.pres v hv
      refine ⟨h1, t, h2, by rw [hnow]; exact h3, ?_⟩
      rw [u4, u2, List.mem_append]
      exact Or.inl h4
  · intro v hv
    unfold presentAfter at hv
    by_cases hm' : v ∈ moves.map Prod.fst
    · rw [if_pos hm', not_not] at hv
      exact Or.inl hv
    · rw [if_neg hm'] at hv
      rw [setAll_of_not_mem d moves hm']
      refine (h.abs v hv).imp_right fun h' t ht' => ?_
      rw [hnow]
      rcases h' t ht' with h'' | h''
      · exact Or.inl h''
      · refine Or.inr ⟨h''.1, ?_⟩
        rw [u3, u2, List.mem_append, not_or]
        refine ⟨h''.2, fun hmem => ?_⟩
        obtain ⟨mv, hm, rfl, _, _⟩ := mem_destined.1 hmem
        exact hm' (List.mem_map_of_mem hm)

/-- Destination computed by the code, in terms of times. -/
theorem toRange_time {c : Cfg} {K : Nat} {d : Nat → Nat} {P : Nat → Prop} {st : BS}
    (h : Inv c K d P st) {b t : Nat} (ht : time c K b = some t)
    (hq : prog c K st.curRange * c.opn ≤ t) :
    toRange c st.curRange b = slot c (prog c K st.curRange) t := by
  rw [toRange_spec h.opn_pos h.rng, ht]
  simp only
  rw [if_neg (by omega)]

/-! ### Histories -/

/-- The earliest bucket of the initial mapping (`null` / `0` when everything is unmapped). -/
def firstBkt (c : Cfg) (n : Nat) (d : Nat → Nat) : Nat :=
  if c.inc then minOf c.null ((List.range n).map d)
  else maxOf 0 ((List.range n).map fun i => if d i = c.null then 0 else d i)

/-- How the client may move identifiers.  `any`: to any bucket that is not before the last one
returned.  `earlier`: moreover only to strictly earlier buckets (or an identifier not yet in the
structure, or one just extracted back into the current bucket).  `extracted`: moreover only
identifiers that are not in the structure. -/
inductive Mode where
  | any | earlier | extracted
  deriving DecidableEq

/-- Additional restriction on a move imposed by the mode. -/
def MoveOK (c : Cfg) (mode : Mode) (d : Nat → Nat) (P : Nat → Prop) (lb : Nat) (mv : Nat × Nat) :
    Prop :=
  match mode with
  | .any => True
  | .earlier => mv.2 ≠ c.null ∧ (d mv.1 = c.null ∨ ¬ notAfter c (d mv.1) mv.2 ∨
      (mv.2 = lb ∧ d mv.1 = lb ∧ ¬ P mv.1))
  | .extracted => ¬ P mv.1 ∧ (mv.2 = c.null → c.inc = false)

/-- A history of API calls: the client's mapping `d`, the identifiers `P` in the structure, the
bucket `lb` before which nothing may be inserted (the last bucket returned), and the state. -/
inductive Reach (c : Cfg) (mode : Mode) (n : Nat) :
    (Nat → Nat) → (Nat → Prop) → Nat → BS → Prop
  | init (d : Nat → Nat) (st : BS) (h1 : 0 < c.opn) (h2 : c.opn < c.null)
      (h3 : ∀ v, d v ≤ c.null) (h4 : ∀ v, n ≤ v → d v = c.null)
      (h5 : c.inc = false → ∀ v, d v ≠ c.null → d v + c.opn ≤ c.null)
      (h6 : create c n d = some st) :
      Reach c mode n d (fun v => d v ≠ c.null) (firstBkt c n d) st
  | next (d : Nat → Nat) (P : Nat → Prop) (lb : Nat) (st : BS) (fuel id : Nat) (ids : List Nat)
      (st' : BS) (h : Reach c mode n d P lb st)
      (h1 : nextBucket c d fuel st = some (id, ids, st')) (h2 : id ≠ c.null) :
      Reach c mode n d (fun v => P v ∧ d v ≠ id) id st'
  | move2 (d : Nat → Nat) (P : Nat → Prop) (lb : Nat) (st st' : BS) (moves : List (Nat × Nat))
      (h : Reach c mode n d P lb st) (h1 : (moves.map Prod.fst).Nodup)
      (h2 : ∀ mv ∈ moves, mv.2 = c.null ∨ (mv.2 < c.null ∧ notAfter c lb mv.2))
      (h3 : ∀ mv ∈ moves, MoveOK c mode d P lb mv)
      (h4 : moveTo2 c d st moves = some st') :
      Reach c mode n (setAll d moves) (presentAfter c d P moves) lb st'
  | move1 (d : Nat → Nat) (P : Nat → Prop) (lb : Nat) (st st' : BS) (moves : List (Nat × Nat))
      (h : Reach c mode n d P lb st) (h1 : (moves.map Prod.fst).Nodup)
      (h2 : ∀ mv ∈ moves, mv.2 = c.null ∨ (mv.2 < c.null ∧ notAfter c lb mv.2))
      (h3 : ∀ mv ∈ moves, MoveOK c mode d P lb mv)
      (h5 : c.inc = true → ∀ mv ∈ moves, mv.2 ≠ c.null → P mv.1 ∧ mv.2 ≤ d mv.1)
      (h6 : mode = .earlier → c.inc = true)
      (h4 : moveTo1 c st moves = some st') :
      Reach c mode n (setAll d moves) (presentAfter c d P moves) lb st'

theorem nextBucket_mono {c : Cfg} {d : Nat → Nat} {r : Nat × List Nat × BS} (k : Nat) :
    ∀ (fuel : Nat) (st : BS), nextBucket c d fuel st = some r →
      nextBucket c d (fuel + k) st = some r := by
  intro fuel
  induction fuel with
  | zero => intro st h; simp [nextBucket] at h
  | succ fuel ih =>
    intro st h
    rw [show fuel + 1 + k = (fuel + k) + 1 by omega]
    rw [nextBucket] at h ⊢
    by_cases h1 : st.bkts st.curBkt = [] ∧ 0 < st.numElms
    · rw [if_pos h1] at h ⊢
      cases hs : stepBucket c d st with
      | none => rw [hs] at h; simp at h
      | some s => rw [hs] at h; simp only at h ⊢; exact ih s h
    · rw [if_neg h1] at h ⊢
      by_cases h2 : st.numElms = 0
      · rw [if_pos h2] at h ⊢; exact h
      · rw [if_neg h2] at h ⊢
        simp only at h ⊢
        split at h
        · rename_i hf; rw [if_pos hf]; exact ih _ h
        · rename_i hf; rw [if_neg hf]; exact h

theorem nextBucket_det {c : Cfg} {d : Nat → Nat} {st : BS} {f1 f2 : Nat}
    {r1 r2 : Nat × List Nat × BS} (h1 : nextBucket c d f1 st = some r1)
    (h2 : nextBucket c d f2 st = some r2) : r1 = r2 := by
  have a := nextBucket_mono f2 f1 st h1
  have b := nextBucket_mono f1 f2 st h2
  rw [Nat.add_comm f2 f1] at b
  rw [a] at b
  exact Option.some.inj b

/-- Facts kept along a history. -/
structure Good (c : Cfg) (mode : Mode) (K : Nat) (d : Nat → Nat) (P : Nat → Prop) (lb : Nat)
    (st : BS) : Prop where
  inv : Inv c K d P st
  lbt : ∃ t, time c K lb = some t ∧ now c K st ≤ t
  lbn : lb ≤ c.null
  tidy : mode = .earlier → Tidy c K d st
  clean : mode = .extracted → Clean c K d P st
  /-- once something was extracted the bound is the current bucket; before that, nothing mapped to
  the bound has left the structure -/
  lbe : (∃ t, time c K lb = some t ∧ now c K st = t) ∨ ∀ v, d v = lb → lb ≠ c.null → P v

theorem notAfter_time {c : Cfg} {K a b ta : Nat} (ha : time c K a = some ta)
    (hab : notAfter c a b) : ∃ tb, time c K b = some tb ∧ ta ≤ tb := by
  unfold time at ha ⊢
  unfold notAfter at hab
  by_cases hi : c.inc = true
  · simp only [hi, if_true, Option.some.injEq] at ha hab ⊢
    exact ⟨b, rfl, by omega⟩
  · simp only [hi, Bool.false_eq_true, if_false] at ha hab ⊢
    split at ha
    · rw [if_pos (by omega)]
      rw [Option.some.injEq] at ha
      exact ⟨_, rfl, by omega⟩
    · simp at ha

theorem time_notAfter {c : Cfg} {K a b ta tb : Nat} (ha : time c K a = some ta)
    (hb : time c K b = some tb) (h : ¬ notAfter c a b) : tb < ta := by
  by_contra hle
  apply h
  unfold time at ha hb
  unfold notAfter
  by_cases hi : c.inc = true
  · simp only [hi, if_true, Option.some.injEq] at ha hb ⊢
    omega
  · simp only [hi, Bool.false_eq_true, if_false] at ha hb ⊢
    split at ha
    · split at hb
      · simp only [Option.some.injEq] at ha hb; omega
      · simp at hb
    · simp at ha

/-- Creation establishes the invariant. -/
theorem create_good {c : Cfg} (mode : Mode) {n : Nat} {d : Nat → Nat} (h1 : 0 < c.opn)
    (h2 : c.opn < c.null) (h3 : ∀ v, d v ≤ c.null) (h4 : ∀ v, n ≤ v → d v = c.null)
    (h5 : c.inc = false → ∀ v, d v ≠ c.null → d v + c.opn ≤ c.null) :
    ∃ K st, create c n d = some st ∧
      Good c mode K d (fun v => d v ≠ c.null) (firstBkt c n d) st := by
  set r := if c.inc then minOf c.null ((List.range n).map d) / c.opn
    else (maxOf 0 ((List.range n).map fun i => if d i = c.null then 0 else d i) + c.opn) / c.opn
    with hr
  set fb := firstBkt c n d with hfb
  have hrng : c.inc = true ∨ r ≤ r := Or.inr (Nat.le_refl _)
  -- `fb` is within the first range
  have hfbt : ∃ t, time c r fb = some t ∧ prog c r r * c.opn ≤ t := by
    by_cases hi : c.inc = true
    · refine ⟨fb, by simp [time, hi], ?_⟩
      simp only [prog, hi, if_true, hr, hfb, firstBkt]
      exact Nat.div_mul_le_self _ _
    · refine ⟨r * c.opn - 1 - fb, ?_, ?_⟩
      · have hlt : fb < r * c.opn := by
          have e1 : r = (fb + c.opn) / c.opn := by
            simp only [hr, hfb, firstBkt, hi, Bool.false_eq_true, if_false]
          have e2 := Nat.div_add_mod (fb + c.opn) c.opn
          have e3 := Nat.mod_lt (fb + c.opn) h1
          rw [← e1, Nat.mul_comm] at e2
          omega
        simp [time, hi, hlt]
      · simp [prog, hi]
  have hfbn : fb ≤ c.null := by
    by_cases hi : c.inc = true
    · simp only [hfb, firstBkt, hi, if_true]
      exact (minOf_spec c.null _).2 _ List.mem_cons_self
    · simp only [hfb, firstBkt, hi, Bool.false_eq_true, if_false]
      have := (maxOf_spec 0 ((List.range n).map fun i => if d i = c.null then 0 else d i)).1
      rcases List.mem_cons.1 this with h | h
      · rw [h]; omega
      · obtain ⟨i, _, hi'⟩ := List.mem_map.1 h
        rw [← hi']
        split
        · omega
        · exact h3 i
  have hfirst : ∀ v, d v ≠ c.null → notAfter c fb (d v) := by
    intro v hv
    have hvn : v < n := by
      by_contra h
      exact hv (h4 v (by omega))
    unfold notAfter
    by_cases hi : c.inc = true
    · simp only [hi, if_true, hfb, firstBkt]
      exact (minOf_spec c.null _).2 _ (List.mem_cons_of_mem _
        (List.mem_map_of_mem (List.mem_range.2 hvn)))
    · simp only [hi, Bool.false_eq_true, if_false, hfb, firstBkt]
      apply (maxOf_spec 0 _).2 _ (List.mem_cons_of_mem _ _)
      rw [List.mem_map]
      exact ⟨v, List.mem_range.2 hvn, by rw [if_neg hv]⟩
  obtain ⟨tf, hf1, hf2⟩ := hfbt
  set es := (List.range n).map fun i => (i, if d i = c.null then c.null else toRange c r (d i))
    with hes
  have hdest : ∀ i, d i ≠ c.null → ∃ t, time c r (d i) = some t ∧ prog c r r * c.opn ≤ t ∧
      toRange c r (d i) = slot c (prog c r r) t := by
    intro i hi
    obtain ⟨t, t1, t2⟩ := notAfter_time hf1 (hfirst i hi)
    refine ⟨t, t1, by omega, ?_⟩
    rw [toRange_spec h1 hrng, t1]
    simp only
    rw [if_neg (by omega)]
  obtain ⟨st, u1, u2, u3, u4, u5⟩ := updateBuckets_spec c es
    { bkts := fun _ => [], curBkt := 0, curRange := r, numElms := 0 } (by
      intro e he
      obtain ⟨i, _, rfl⟩ := List.mem_map.1 he
      simp only
      split
      · exact Or.inl rfl
      · rename_i hi
        obtain ⟨t, t1, t2, t3⟩ := hdest i hi
        rw [t3]
        exact Or.inr (slot_le t2))
  simp only [List.nil_append] at u2 u3 u4
  have hmem : ∀ i v, v ∈ st.bkts i ↔ v < n ∧ d v ≠ c.null ∧ toRange c r (d v) = i := by
    intro i v
    rw [u2]
    unfold destined
    simp only [hes, List.mem_map, List.mem_filter, List.mem_range, decide_eq_true_eq]
    constructor
    · rintro ⟨e, ⟨⟨j, hj, rfl⟩, e1, e2⟩, rfl⟩
      simp only at e1 e2 ⊢
      by_cases hd : d j = c.null
      · rw [if_pos hd] at e2; exact absurd rfl e2
      · rw [if_neg hd] at e1; exact ⟨hj, hd, e1⟩
    · rintro ⟨h6, h7, h8⟩
      obtain ⟨t, t1, t2, t3⟩ := hdest v h7
      have := slot_le (c := c) t2
      refine ⟨_, ⟨⟨v, h6, rfl⟩, ?_, ?_⟩, rfl⟩
      · simp only [if_neg h7]; exact h8
      · simp only [if_neg h7]; rw [t3]; omega
  have hnodup : ∀ i, (st.bkts i).Nodup := by
    intro i
    rw [u2]
    have h6 : (destined c es i).Sublist (es.map Prod.fst) := List.filter_sublist.map _
    have h7 : es.map Prod.fst = List.range n := by
      rw [hes, List.map_map]
      exact (List.map_congr_left fun _ _ => rfl).trans (List.map_id _)
    rw [h7] at h6
    exact h6.nodup List.nodup_range
  have h0 : total c (fun _ => ([] : List Nat)) = 0 := by
    rw [total_eq_overflow]
    · rfl
    · intro _ _; rfl
  have hnow : now c r st = prog c r r * c.opn := by rw [now, u3, u4]; rfl
  refine ⟨r, st, u1, ⟨⟨h1, h2, ?_, ?_, ?_, ?_, ?_, ?_, h3, ?_, ?_⟩, ⟨tf, hf1, by omega⟩, hfbn,
    ?_, ?_, ?_⟩⟩
  · intro hi
    have e1 : r = (fb + c.opn) / c.opn := by
      simp only [hr, hfb, firstBkt, hi, Bool.false_eq_true, if_false]
    have e2 : r * c.opn ≤ fb + c.opn := by rw [e1]; exact Nat.div_mul_le_self _ _
    have hmx := (maxOf_spec 0 ((List.range n).map fun i => if d i = c.null then 0 else d i)).1
    have hfbe : fb = maxOf 0 ((List.range n).map fun i => if d i = c.null then 0 else d i) := by
      simp only [hfb, firstBkt, hi, Bool.false_eq_true, if_false]
    rw [← hfbe] at hmx
    rcases List.mem_cons.1 hmx with h | h
    · omega
    · obtain ⟨i, _, hi'⟩ := List.mem_map.1 h
      by_cases hd : d i = c.null
      · rw [if_pos hd] at hi'; omega
      · rw [if_neg hd] at hi'
        have := h5 hi i hd
        omega
  · rw [u4]; exact hrng
  · intro _
    rw [u4]
    by_cases hi : c.inc = true
    · exact Or.inl hi
    · right
      simp only [hr, hi, Bool.false_eq_true, if_false]
      exact (Nat.le_div_iff_mul_le h1).2 (by omega)
  · rw [u3]; exact h1
  · simp only [h0] at u5; omega
  · intro i hi; rw [u3] at hi; omega
  · intro v hv
    obtain ⟨t, t1, t2, t3⟩ := hdest v hv
    refine ⟨hv, t, t1, by omega, ?_⟩
    rw [u4, hmem]
    refine ⟨?_, hv, t3⟩
    by_contra h
    exact hv (h4 v (by omega))
  · intro v hv
    exact Or.inl (not_not.1 hv)
  · intro _
    refine ⟨fun i _ => hnodup i, fun i v _ hv => ?_⟩
    obtain ⟨_, h7, h8⟩ := (hmem i v).1 hv
    refine ⟨h7, fun t t1 t2 => ?_⟩
    obtain ⟨t', t1', _, t3'⟩ := hdest v h7
    rw [t1, Option.some.injEq] at t1'
    subst t1'
    rw [u4]; omega
  · intro _
    refine ⟨fun i _ => hnodup i, fun i v _ hv => ?_⟩
    obtain ⟨_, h7, h8⟩ := (hmem i v).1 hv
    obtain ⟨t', t1', t2', t3'⟩ := hdest v h7
    exact ⟨h7, t', t1', by rw [u4]; exact t2', by rw [u4]; omega⟩
  · right
    intro v hv hn
    rw [hv]; exact hn

/-- Extraction along a history. -/
theorem Good.next {c : Cfg} {mode : Mode} {K : Nat} {d : Nat → Nat} {P : Nat → Prop} {lb : Nat}
    {st : BS} (h : Good c mode K d P lb st) :
    ∃ fuel id ids st', nextBucket c d fuel st = some (id, ids, st') ∧ NextSpec c d P id ids ∧
      (mode ≠ .any → ids.Nodup) ∧
      (id ≠ c.null → Good c mode K d (fun v => P v ∧ d v ≠ id) id st') := by
  obtain ⟨fuel, id, ids, st', r1, r2, r3, r4, r5, r6⟩ := nextBucket_spec st h.inv
  refine ⟨fuel, id, ids, st', r1, r2, ?_, ?_⟩
  · intro hm
    cases mode with
    | any => exact absurd rfl hm
    | earlier => exact (r5 (h.tidy rfl)).2
    | extracted => exact (r6 (h.clean rfl)).2
  · intro hid
    refine ⟨r3, ⟨_, r4 hid, Nat.le_refl _⟩, ?_, fun hm => (r5 (h.tidy hm)).1,
      fun hm => (r6 (h.clean hm)).1, Or.inl ⟨_, r4 hid, rfl⟩⟩
    rcases r2 with ⟨h1, _⟩ | ⟨_, ⟨v, _, hv⟩, _⟩
    · exact absurd h1 hid
    · rw [← hv]; exact h.inv.bound v

/-- What a destination function must satisfy for a batch of moves. -/
theorem Good.move {c : Cfg} {mode : Mode} {K : Nat} {d : Nat → Nat} {P : Nat → Prop} {lb : Nat}
    {st : BS} (h : Good c mode K d P lb st) (moves : List (Nat × Nat))
    (h1 : (moves.map Prod.fst).Nodup)
    (h2 : ∀ mv ∈ moves, mv.2 = c.null ∨ (mv.2 < c.null ∧ notAfter c lb mv.2))
    (h3 : ∀ mv ∈ moves, MoveOK c mode d P lb mv)
    (dest : Nat × Nat → Nat)
    (hd1 : ∀ mv ∈ moves, dest mv = c.null ∨ dest mv = toRange c st.curRange mv.2)
    (hd2 : ∀ mv ∈ moves, mv.2 ≠ c.null → dest mv = c.null →
      mv.1 ∈ st.bkts (toRange c st.curRange mv.2))
    (hd3 : mode = .earlier → ∀ mv ∈ moves, dest mv ≠ c.null → d mv.1 ≠ c.null →
      toRange c st.curRange (d mv.1) = dest mv → dest mv = st.curBkt) :
    ∃ st', updateBuckets c st (moves.map fun mv => (mv.1, dest mv)) = some st' ∧
      Good c mode K (setAll d moves) (presentAfter c d P moves) lb st' := by
  have hinv := h.inv
  have hcur := hinv.cur
  have hon := hinv.opn_null
  obtain ⟨tl, l1, l2⟩ := h.lbt
  -- times of the new buckets
  have htime : ∀ mv ∈ moves, mv.2 ≠ c.null → ∃ t, time c K mv.2 = some t ∧ now c K st ≤ t ∧
      toRange c st.curRange mv.2 = slot c (prog c K st.curRange) t := by
    intro mv hm hn
    obtain ⟨t, t1, t2⟩ := notAfter_time l1 ((h2 mv hm).resolve_left hn).2
    refine ⟨t, t1, by omega, toRange_time hinv t1 ?_⟩
    have : prog c K st.curRange * c.opn ≤ now c K st := by rw [now]; omega
    omega
  have hnull : toRange c st.curRange c.null = c.null ∨
      ∃ t, time c K c.null = some t ∧ now c K st ≤ t ∧
        toRange c st.curRange c.null = slot c (prog c K st.curRange) t := by
    by_cases hi : c.inc = true
    · right
      have hlb := h.lbn
      simp only [time, hi, if_true, Option.some.injEq] at l1
      have ht : time c K c.null = some c.null := by simp [time, hi]
      refine ⟨c.null, ht, by omega, toRange_time hinv ht ?_⟩
      have : prog c K st.curRange * c.opn ≤ now c K st := by rw [now]; omega
      omega
    · left
      rw [toRange_spec hinv.opn_pos hinv.rng]
      have := hinv.dec_null (by simpa using hi)
      simp only [time, hi, Bool.false_eq_true, if_false]
      rw [if_neg (by omega)]
  have hslot : ∀ t, now c K st ≤ t → st.curBkt ≤ slot c (prog c K st.curRange) t ∧
      slot c (prog c K st.curRange) t ≤ c.opn := by
    intro t ht
    have hq : prog c K st.curRange * c.opn ≤ now c K st := by rw [now]; omega
    refine ⟨?_, slot_le (by omega)⟩
    rw [← slot_now (K := K) hcur]
    exact slot_mono hq ht
  have hrr : c.inc = true ∨ 1 ≤ st.curRange := by
    by_cases hi : c.inc = true
    · exact Or.inl hi
    · right
      by_contra h0
      have h0' : st.curRange = 0 := by omega
      unfold time at l1
      simp only [hi, Bool.false_eq_true, if_false] at l1
      split at l1
      · simp only [Option.some.injEq] at l1
        simp only [now, prog, hi, Bool.false_eq_true, if_false, h0', Nat.sub_zero] at l2
        omega
      · simp at l1
  have hdr : ∀ mv ∈ moves, dest mv = c.null ∨ (st.curBkt ≤ dest mv ∧ dest mv ≤ c.opn) := by
    intro mv hm
    rcases hd1 mv hm with h4 | h4
    · exact Or.inl h4
    · by_cases hn : mv.2 = c.null
      · rw [hn] at h4
        rcases hnull with h5 | ⟨t, _, t2, t3⟩
        · exact Or.inl (by omega)
        · rw [h4, t3]; exact Or.inr (hslot t t2)
      · obtain ⟨t, _, t2, t3⟩ := htime mv hm hn
        rw [h4, t3]; exact Or.inr (hslot t t2)
  obtain ⟨st', u1, u2, u3, u4, u5⟩ := hinv.move moves h1 dest
    (fun mv hm => by
      rcases h2 mv hm with h4 | h4
      · omega
      · omega)
    (fun mv hm => by
      by_cases hn : mv.2 = c.null
      · exact Or.inl hn
      · right
        obtain ⟨t, t1, t2, t3⟩ := htime mv hm hn
        refine ⟨t, t1, t2, ?_⟩
        rw [← t3]
        by_cases h4 : dest mv = c.null
        · exact Or.inr ⟨h4, hd2 mv hm hn h4⟩
        · exact Or.inl ((hd1 mv hm).resolve_left h4))
    hdr (by rcases hrr with h4 | h4; exacts [Or.inl h4, Or.inr (Or.inl h4)])
  refine ⟨st', u1, u2, ⟨tl, l1, ?_⟩, h.lbn, ?_, ?_, ?_⟩
  · rw [now, u3, u4]; exact l2
  · -- no duplicates when moving to earlier buckets
    intro hm
    have htidy := h.tidy hm
    have hfresh : ∀ mv ∈ moves, dest mv ≠ c.null → mv.1 ∉ st.bkts (dest mv) := by
      intro mv hmv hne hmem
      have hle : dest mv ≤ c.opn := ((hdr mv hmv).resolve_left hne).2
      obtain ⟨s1, s2⟩ := htidy.stale _ _ hle hmem
      have hok := h3 mv hmv
      rw [hm] at hok
      obtain ⟨o1, o2⟩ := hok
      obtain ⟨t, t1, t2, t3⟩ := htime mv hmv o1
      have hdt : dest mv = slot c (prog c K st.curRange) t := by
        rw [← t3]; exact (hd1 mv hmv).resolve_left hne
      have hq : prog c K st.curRange * c.opn ≤ now c K st := by rw [now]; omega
      rcases o2 with o2 | o2 | ⟨o2, o3, o4⟩
      · exact s1 o2
      · -- strictly earlier
        have hdv : ∃ tv, time c K (d mv.1) = some tv := by
          by_cases hi : c.inc = true
          · exact ⟨_, by simp [time, hi]; rfl⟩
          · unfold notAfter at o2
            simp only [hi, Bool.false_eq_true, if_false, not_le] at o2
            by_contra hno
            have hbig : ¬ d mv.1 < K * c.opn := fun hlt => hno ⟨_, by simp [time, hi, hlt]; rfl⟩
            have t1' := t1
            unfold time at t1'
            simp only [hi, Bool.false_eq_true, if_false] at t1'
            split at t1'
            · omega
            · simp at t1'
        obtain ⟨tv, v1⟩ := hdv
        have hlt := time_notAfter v1 t1 o2
        have hge := s2 tv v1 (by omega)
        have hmono := slot_mono (c := c) (q := prog c K st.curRange) (show _ ≤ t by omega) hlt.le
        have heq : slot c (prog c K st.curRange) tv = dest mv := by omega
        have := hd3 hm mv hmv hne s1 (by rw [toRange_time hinv v1 (by omega)]; exact heq)
        -- both are the current bucket: same time
        have e1 : t < (prog c K st.curRange + 1) * c.opn := by
          by_contra hh
          rw [slot_eq_opn (by omega)] at hdt; omega
        have e2 : tv < (prog c K st.curRange + 1) * c.opn := by
          by_contra hh
          rw [slot_eq_opn (by omega)] at heq; omega
        have e3 := (slot_lt (c := c) (show prog c K st.curRange * c.opn ≤ t by omega) e1).2
        have e4 := (slot_lt (c := c) (show prog c K st.curRange * c.opn ≤ tv by omega) e2).2
        omega
      · -- an extracted identifier goes back to the current bucket
        have hlnow : tl = now c K st := by
          rcases h.lbe with ⟨t', t1', t2'⟩ | hP
          · rw [l1, Option.some.injEq] at t1'; omega
          · exact absurd (hP _ o3 (by rw [← o2]; exact o1)) o4
        rw [o2, l1, Option.some.injEq] at t1
        subst t1
        rw [hlnow, slot_now hcur] at hdt
        rcases hinv.abs _ o4 with h5 | h5
        · exact s1 h5
        · rcases h5 tl (by rw [o3]; exact l1) with h6 | h6
          · omega
          · rw [hdt] at hmem; exact h6.2 hmem
    refine ⟨fun i hi => ?_, fun i v hi hv => ?_⟩
    · rw [u5, List.nodup_append]
      refine ⟨htidy.nodup i hi, (destined_sublist c moves dest i).nodup h1, ?_⟩
      intro a ha b hb hab
      subst hab
      obtain ⟨mv, hmv, rfl, e2, e3⟩ := mem_destined.1 hb
      rw [← e2] at ha
      exact hfresh mv hmv e3 ha
    · rw [u4]
      by_cases hmv' : v ∈ moves.map Prod.fst
      · obtain ⟨mv, hmv, rfl⟩ := List.mem_map.1 hmv'
        rw [setAll_of_mem d moves h1 hmv]
        have hok := h3 mv hmv
        rw [hm] at hok
        obtain ⟨o1, o2⟩ := hok
        refine ⟨o1, fun t t1 tq => ?_⟩
        rw [u5, List.mem_append] at hv
        obtain ⟨t', t1', t2', t3'⟩ := htime mv hmv o1
        rw [t1, Option.some.injEq] at t1'
        subst t1'
        rcases hv with hv | hv
        · obtain ⟨s1, s2⟩ := htidy.stale i _ hi hv
          rcases o2 with o2 | o2 | ⟨o2, o3, o4⟩
          · exact absurd o2 s1
          · have hdv : ∃ tv, time c K (d mv.1) = some tv := by
              by_cases hi : c.inc = true
              · exact ⟨_, by simp [time, hi]; rfl⟩
              · unfold notAfter at o2
                simp only [hi, Bool.false_eq_true, if_false, not_le] at o2
                by_contra hno
                have hbig : ¬ d mv.1 < K * c.opn := fun hlt => hno ⟨_, by simp [time, hi, hlt]; rfl⟩
                have t1' := t1
                unfold time at t1'
                simp only [hi, Bool.false_eq_true, if_false] at t1'
                split at t1'
                · omega
                · simp at t1'
            obtain ⟨tv, v1⟩ := hdv
            have hlt := time_notAfter v1 t1 o2
            have hge := s2 tv v1 (by omega)
            have hmono := slot_mono (c := c) (q := prog c K st.curRange) tq hlt.le
            omega
          · exact s2 t (by rw [o3, ← o2]; exact t1) tq
        · obtain ⟨mv', hmv2, e1, e2, e3⟩ := mem_destined.1 hv
          have : mv' = mv := by
            have a1 := setAll_of_mem d moves h1 hmv2
            have a2 := setAll_of_mem d moves h1 hmv
            rw [e1] at a1
            exact Prod.ext e1 (by rw [← a1, ← a2])
          subst this
          have := (hd1 mv' hmv).resolve_left e3
          omega
      · rw [setAll_of_not_mem d moves hmv']
        rw [u5, List.mem_append] at hv
        rcases hv with hv | hv
        · exact htidy.stale i v hi hv
        · obtain ⟨mv', hmv2, e1, e2, e3⟩ := mem_destined.1 hv
          exact absurd (e1 ▸ List.mem_map_of_mem hmv2) hmv'
  · -- moving only extracted identifiers
    intro hm
    have hclean := h.clean hm
    have hout : ∀ mv ∈ moves, ∀ i, i ≤ c.opn → mv.1 ∉ st.bkts i := by
      intro mv hmv i hi hmem
      have hok := h3 mv hmv
      rw [hm] at hok
      exact hok.1 (hclean.only i _ hi hmem).1
    refine ⟨fun i hi => ?_, fun i v hi hv => ?_⟩
    · rw [u5, List.nodup_append]
      refine ⟨hclean.nodup i hi, (destined_sublist c moves dest i).nodup h1, ?_⟩
      intro a ha b hb hab
      subst hab
      obtain ⟨mv, hmv, rfl, e2, e3⟩ := mem_destined.1 hb
      exact hout mv hmv i hi ha
    · rw [u4]
      rw [u5, List.mem_append] at hv
      unfold presentAfter
      rcases hv with hv | hv
      · have hmv' : v ∉ moves.map Prod.fst := by
          intro hmem
          obtain ⟨mv, hmv, rfl⟩ := List.mem_map.1 hmem
          exact hout mv hmv i hi hv
        rw [if_neg hmv', setAll_of_not_mem d moves hmv']
        exact hclean.only i v hi hv
      · obtain ⟨mv, hmv, rfl, e2, e3⟩ := mem_destined.1 hv
        rw [if_pos (List.mem_map_of_mem hmv), setAll_of_mem d moves h1 hmv]
        have hn : mv.2 ≠ c.null := by
          intro hn
          have hok := h3 mv hmv
          rw [hm] at hok
          have hi' := hok.2 hn
          have e4 := (hd1 mv hmv).resolve_left e3
          rw [hn, toRange_spec hinv.opn_pos hinv.rng] at e4
          have := hinv.dec_null hi'
          simp only [time, hi', Bool.false_eq_true, if_false] at e4
          rw [if_neg (by omega)] at e4
          exact e3 e4
        obtain ⟨t, t1, t2, t3⟩ := htime mv hmv hn
        refine ⟨hn, t, t1, ?_, ?_⟩
        · rw [now] at t2; omega
        · rw [← t3, ← e2]; exact ((hd1 mv hmv).resolve_left e3).symm
  · rcases h.lbe with ⟨t, t1, t2⟩ | hP
    · exact Or.inl ⟨t, t1, by rw [now, u3, u4]; exact t2⟩
    · right
      intro v hv hn
      unfold presentAfter
      by_cases hmv' : v ∈ moves.map Prod.fst
      · rw [if_pos hmv', hv]; exact hn
      · rw [if_neg hmv']
        rw [setAll_of_not_mem d moves hmv'] at hv
        exact hP v hv hn

theorem getBucket2_cases (c : Cfg) (st : BS) (prev next : Nat) :
    getBucket2 c st prev next = c.null ∨
      getBucket2 c st prev next = toRange c st.curRange next := by
  unfold getBucket2
  simp only
  split
  · exact Or.inr rfl
  · exact Or.inl rfl

theorem getBucket1_cases (c : Cfg) (st : BS) (next : Nat) :
    getBucket1 c st next = c.null ∨ getBucket1 c st next = toRange c st.curRange next := by
  unfold getBucket1
  simp only
  split
  · split
    · exact Or.inr rfl
    · exact Or.inl rfl
  · split
    · exact Or.inr rfl
    · exact Or.inl rfl

/-- `get_bucket(prev, next)` computes a correct destination. -/
theorem Good.move2 {c : Cfg} {mode : Mode} {K : Nat} {d : Nat → Nat} {P : Nat → Prop} {lb : Nat}
    {st : BS} (h : Good c mode K d P lb st) (moves : List (Nat × Nat))
    (h1 : (moves.map Prod.fst).Nodup)
    (h2 : ∀ mv ∈ moves, mv.2 = c.null ∨ (mv.2 < c.null ∧ notAfter c lb mv.2))
    (h3 : ∀ mv ∈ moves, MoveOK c mode d P lb mv) :
    ∃ st', moveTo2 c d st moves = some st' ∧
      Good c mode K (setAll d moves) (presentAfter c d P moves) lb st' := by
  have hinv := h.inv
  have hcur := hinv.cur
  have hon := hinv.opn_null
  obtain ⟨tl, l1, l2⟩ := h.lbt
  refine h.move moves h1 h2 h3 (fun mv => getBucket2 c st (d mv.1) mv.2)
    (fun mv _ => getBucket2_cases c st _ _) ?_ ?_
  · intro mv hm hn hnull
    obtain ⟨t, t1, t2⟩ := notAfter_time l1 ((h2 mv hm).resolve_left hn).2
    have hq : prog c K st.curRange * c.opn ≤ now c K st := by rw [now]; omega
    have hr := toRange_time hinv t1 (by omega)
    have hsl := slot_le (c := c) (q := prog c K st.curRange) (t := t) (by omega)
    have hne : toRange c st.curRange mv.2 ≠ c.null := by rw [hr]; omega
    simp only [getBucket2] at hnull
    split at hnull
    · exact absurd hnull hne
    · rename_i hcond
      simp only [hne, ne_eq, not_false_eq_true, true_and, not_or, not_not] at hcond
      obtain ⟨c1, c2, c3⟩ := hcond
      -- same slot as before and not the current one: the identifier is present
      have hP : P mv.1 := by
        by_contra hP
        rcases hinv.abs _ hP with h4 | h4
        · exact c1 h4
        · rw [toRange_spec hinv.opn_pos hinv.rng] at c2
          cases hv : time c K (d mv.1) with
          | none => rw [hv] at c2; exact hne c2.symm
          | some tv =>
            rw [hv] at c2
            simp only at c2
            split at c2
            · exact hne c2.symm
            · rename_i htv
              have hle : tv ≤ now c K st := by
                rcases h4 tv hv with h5 | h5 <;> omega
              have := slot_mono (c := c) (q := prog c K st.curRange) (show _ ≤ tv by omega) hle
              rw [slot_now hcur] at this
              have h6 := slot_mono (c := c) hq (show now c K st ≤ t by omega)
              rw [slot_now hcur, ← hr] at h6
              omega
      obtain ⟨_, tv, v1, v2, v3⟩ := hinv.pres _ hP
      rw [← c2, toRange_time hinv v1 (by omega)]
      exact v3
  · intro _ mv _ hne hdn heq
    simp only [getBucket2] at hne heq ⊢
    split at hne
    · rename_i hcond
      rw [if_pos hcond] at heq ⊢
      rcases hcond.2 with h4 | h4 | h4
      · exact absurd h4 hdn
      · exact absurd heq h4
      · exact h4
    · exact absurd rfl hne

/-- `get_bucket(next)` computes a correct destination under its contract. -/
theorem Good.move1 {c : Cfg} {mode : Mode} {K : Nat} {d : Nat → Nat} {P : Nat → Prop} {lb : Nat}
    {st : BS} (h : Good c mode K d P lb st) (moves : List (Nat × Nat))
    (h1 : (moves.map Prod.fst).Nodup)
    (h2 : ∀ mv ∈ moves, mv.2 = c.null ∨ (mv.2 < c.null ∧ notAfter c lb mv.2))
    (h3 : ∀ mv ∈ moves, MoveOK c mode d P lb mv)
    (h5 : c.inc = true → ∀ mv ∈ moves, mv.2 ≠ c.null → P mv.1 ∧ mv.2 ≤ d mv.1)
    (h6 : mode = .earlier → c.inc = true) :
    ∃ st', moveTo1 c st moves = some st' ∧
      Good c mode K (setAll d moves) (presentAfter c d P moves) lb st' := by
  have hinv := h.inv
  have hcur := hinv.cur
  have hon := hinv.opn_null
  obtain ⟨tl, l1, l2⟩ := h.lbt
  have hq : prog c K st.curRange * c.opn ≤ now c K st := by rw [now]; omega
  refine h.move moves h1 h2 h3 (fun mv => getBucket1 c st mv.2)
    (fun mv _ => getBucket1_cases c st _) ?_ ?_
  · intro mv hm hn hnull
    obtain ⟨t, t1, t2⟩ := notAfter_time l1 ((h2 mv hm).resolve_left hn).2
    have hr := toRange_time hinv t1 (by omega)
    have hsl := slot_le (c := c) (q := prog c K st.curRange) (t := t) (by omega)
    have hne : toRange c st.curRange mv.2 ≠ c.null := by rw [hr]; omega
    by_cases hi : c.inc = true
    · simp only [getBucket1, hi, if_true] at hnull
      split at hnull
      · exact absurd hnull hne
      · rename_i hcond
        simp only [hne, ne_eq, not_false_eq_true, true_and, not_not] at hcond
        obtain ⟨hP, hle⟩ := h5 hi mv hm hn
        obtain ⟨_, tv, v1, v2, v3⟩ := hinv.pres _ hP
        have e1 : tv = d mv.1 := by simp [time, hi] at v1; omega
        have e2 : t = mv.2 := by simp [time, hi] at t1; omega
        have := slot_mono (c := c) (q := prog c K st.curRange) (show _ ≤ t by omega)
          (show t ≤ tv by omega)
        have := slot_le (c := c) (q := prog c K st.curRange) (t := tv) (by omega)
        have hs : slot c (prog c K st.curRange) tv = c.opn := by omega
        rw [hcond, ← hs]; exact v3
    · simp only [getBucket1, hi, Bool.false_eq_true, if_false] at hnull
      rw [if_pos hne] at hnull
      exact absurd hnull hne
  · intro hm mv hmv hne hdn heq
    have hi := h6 hm
    have hok := h3 mv hmv
    rw [hm] at hok
    obtain ⟨o1, o2⟩ := hok
    obtain ⟨hP, hle⟩ := h5 hi mv hmv o1
    obtain ⟨_, tv, v1, v2, v3⟩ := hinv.pres _ hP
    obtain ⟨t, t1, t2⟩ := notAfter_time l1 ((h2 mv hmv).resolve_left o1).2
    have hr := toRange_time hinv t1 (by omega)
    simp only [getBucket1, hi, if_true] at hne heq ⊢
    split at hne
    · rename_i hcond
      rw [if_pos hcond] at heq ⊢
      have hrv := toRange_time hinv v1 (by omega)
      rcases o2 with o2 | o2 | ⟨_, _, o2⟩
      · exact absurd o2 hdn
      · have hlt := time_notAfter v1 t1 o2
        -- same open slot but different times: impossible
        exfalso
        have hopen : slot c (prog c K st.curRange) t ≠ c.opn := by rw [← hr]; exact hcond.2
        have e1 : t < (prog c K st.curRange + 1) * c.opn := by
          by_contra hh
          exact hopen (slot_eq_opn (by omega))
        have e2 : tv < (prog c K st.curRange + 1) * c.opn := by
          by_contra hh
          have := slot_eq_opn (c := c) (q := prog c K st.curRange) (t := tv) (by omega)
          omega
        have e3 := (slot_lt (c := c) (show prog c K st.curRange * c.opn ≤ t by omega) e1).2
        have e4 := (slot_lt (c := c) (show prog c K st.curRange * c.opn ≤ tv by omega) e2).2
        omega
      · exact absurd hP o2
    · exact absurd rfl hne

/-- Every history keeps the invariant. -/
theorem Reach.good {c : Cfg} {mode : Mode} {n : Nat} {d : Nat → Nat} {P : Nat → Prop} {lb : Nat}
    {st : BS} (h : Reach c mode n d P lb st) : ∃ K, Good c mode K d P lb st := by
  induction h with
  | init d st h1 h2 h3 h4 h5 h6 =>
    obtain ⟨K, st', e1, e2⟩ := create_good mode h1 h2 h3 h4 h5
    rw [h6, Option.some.injEq] at e1
    subst e1
    exact ⟨K, e2⟩
  | next d P lb st fuel id ids st' _ h1 h2 ih =>
    obtain ⟨K, hg⟩ := ih
    obtain ⟨f, id', ids', s', r1, _, _, r4⟩ := hg.next
    have := nextBucket_det h1 r1
    simp only [Prod.mk.injEq] at this
    obtain ⟨rfl, rfl, rfl⟩ := this
    exact ⟨K, r4 h2⟩
  | move2 d P lb st st' moves _ h1 h2 h3 h4 ih =>
    obtain ⟨K, hg⟩ := ih
    obtain ⟨s', e1, e2⟩ := hg.move2 moves h1 h2 h3
    rw [h4, Option.some.injEq] at e1
    subst e1
    exact ⟨K, e2⟩
  | move1 d P lb st st' moves _ h1 h2 h3 h5 h6 h4 ih =>
    obtain ⟨K, hg⟩ := ih
    obtain ⟨s', e1, e2⟩ := hg.move1 moves h1 h2 h3 h5 h6
    rw [h4, Option.some.injEq] at e1
    subst e1
    exact ⟨K, e2⟩

/-! ### The theorems -/

/-- C13/C14, general form: after any history of API calls, `next_bucket` terminates, and every
result it can give is the first non-empty bucket with exactly its members (or the null bucket when
nothing is left).  When identifiers are only moved to earlier buckets, or only after extraction,
the list has no duplicates. -/
theorem next_bucket_correct {c : Cfg} {mode : Mode} {n : Nat} {d : Nat → Nat} {P : Nat → Prop}
    {lb : Nat} {st : BS} (h : Reach c mode n d P lb st) :
    (∃ fuel r, nextBucket c d fuel st = some r) ∧
    ∀ fuel id ids st', nextBucket c d fuel st = some (id, ids, st') →
      NextSpec c d P id ids ∧ (mode ≠ .any → ids.Nodup) := by
  obtain ⟨K, hg⟩ := h.good
  obtain ⟨f, id', ids', s', r1, r2, r3, _⟩ := hg.next
  refine ⟨⟨f, _, r1⟩, fun fuel id ids st' h1 => ?_⟩
  have := nextBucket_det h1 r1
  simp only [Prod.mk.injEq] at this
  obtain ⟨rfl, rfl, rfl⟩ := this
  exact ⟨r2, r3⟩

/-- C13: increasing order, spelled out. -/
theorem next_bucket_increasing {c : Cfg} (hi : c.inc = true) {mode : Mode} {n : Nat}
    {d : Nat → Nat} {P : Nat → Prop} {lb : Nat} {st : BS} (h : Reach c mode n d P lb st)
    {fuel id : Nat} {ids : List Nat} {st' : BS}
    (hr : nextBucket c d fuel st = some (id, ids, st')) :
    (id = c.null → ∀ v, ¬ P v) ∧
    (id ≠ c.null → (∃ v, P v ∧ d v = id) ∧ (∀ v, P v → id ≤ d v) ∧
      ∀ v, v ∈ ids ↔ P v ∧ d v = id) := by
  rcases ((next_bucket_correct h).2 fuel id ids st' hr).1 with ⟨h1, h2⟩ | ⟨h1, h2, h3, h4⟩
  · exact ⟨fun _ => h2, fun h' => absurd h1 h'⟩
  · exact ⟨fun h' => absurd h' h1, fun _ => ⟨h2, by simpa [notAfter, hi] using h3, h4⟩⟩

/-- C14: decreasing order, spelled out. -/
theorem next_bucket_decreasing {c : Cfg} (hi : c.inc = false) {mode : Mode} {n : Nat}
    {d : Nat → Nat} {P : Nat → Prop} {lb : Nat} {st : BS} (h : Reach c mode n d P lb st)
    {fuel id : Nat} {ids : List Nat} {st' : BS}
    (hr : nextBucket c d fuel st = some (id, ids, st')) :
    (id = c.null → ∀ v, ¬ P v) ∧
    (id ≠ c.null → (∃ v, P v ∧ d v = id) ∧ (∀ v, P v → d v ≤ id) ∧
      ∀ v, v ∈ ids ↔ P v ∧ d v = id) := by
  rcases ((next_bucket_correct h).2 fuel id ids st' hr).1 with ⟨h1, h2⟩ | ⟨h1, h2, h3, h4⟩
  · exact ⟨fun _ => h2, fun h' => absurd h1 h'⟩
  · exact ⟨fun h' => absurd h' h1, fun _ => ⟨h2, by simpa [notAfter, hi] using h3, h4⟩⟩

/-- The structure can always be created and updated: no out-of-range bucket is ever accessed and
the corruption assertion never fires. -/
theorem create_ok {c : Cfg} {n : Nat} {d : Nat → Nat} (h1 : 0 < c.opn)
    (h2 : c.opn < c.null) (h3 : ∀ v, d v ≤ c.null) (h4 : ∀ v, n ≤ v → d v = c.null)
    (h5 : c.inc = false → ∀ v, d v ≠ c.null → d v + c.opn ≤ c.null) :
    ∃ st, create c n d = some st := by
  obtain ⟨_, st, h, _⟩ := create_good .any h1 h2 h3 h4 h5
  exact ⟨st, h⟩

theorem move2_ok {c : Cfg} {mode : Mode} {n : Nat} {d : Nat → Nat} {P : Nat → Prop} {lb : Nat}
    {st : BS} (h : Reach c mode n d P lb st) (moves : List (Nat × Nat))
    (h1 : (moves.map Prod.fst).Nodup)
    (h2 : ∀ mv ∈ moves, mv.2 = c.null ∨ (mv.2 < c.null ∧ notAfter c lb mv.2))
    (h3 : ∀ mv ∈ moves, MoveOK c mode d P lb mv) : ∃ st', moveTo2 c d st moves = some st' := by
  obtain ⟨_, hg⟩ := h.good
  obtain ⟨st', h4, _⟩ := hg.move2 moves h1 h2 h3
  exact ⟨st', h4⟩

theorem move1_ok {c : Cfg} {mode : Mode} {n : Nat} {d : Nat → Nat} {P : Nat → Prop} {lb : Nat}
    {st : BS} (h : Reach c mode n d P lb st) (moves : List (Nat × Nat))
    (h1 : (moves.map Prod.fst).Nodup)
    (h2 : ∀ mv ∈ moves, mv.2 = c.null ∨ (mv.2 < c.null ∧ notAfter c lb mv.2))
    (h3 : ∀ mv ∈ moves, MoveOK c mode d P lb mv)
    (h5 : c.inc = true → ∀ mv ∈ moves, mv.2 ≠ c.null → P mv.1 ∧ mv.2 ≤ d mv.1)
    (h6 : mode = .earlier → c.inc = true) : ∃ st', moveTo1 c st moves = some st' := by
  obtain ⟨_, hg⟩ := h.good
  obtain ⟨st', h4, _⟩ := hg.move1 moves h1 h2 h3 h5 h6
  exact ⟨st', h4⟩

end Gbbs.Buckets
