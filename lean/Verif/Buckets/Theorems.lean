/-
C13, C14: the bucket structure returns buckets in order and completely, whatever was moved between
extractions.
-/
import Verif.Buckets.Unpack

namespace Gbbs.Buckets

/-! ### Specification

`P` is the (ghost) set of identifiers in the structure.  `firstId` says that no identifier present
has an earlier bucket. -/

/-- Order of iteration: `a` is not after `b`. -/
def notAfter (c : Cfg) (a b : Nat) : Prop := if c.inc then a ≤ b else b ≤ a

/-- What a client expects from `next_bucket` when the identifiers in the structure are `P` and the
current mapping is `d`: either the null bucket and nothing is left, or the first non-empty bucket
with exactly its members. -/
def NextSpec (c : Cfg) (d : Nat → Nat) (P : Nat → Prop) (id : Nat) (ids : List Nat) : Prop :=
  (id = c.null ∧ ∀ v, ¬ P v) ∨
  (id ≠ c.null ∧ (∃ v, P v ∧ d v = id) ∧ (∀ v, P v → notAfter c id (d v)) ∧
    ∀ v, v ∈ ids ↔ P v ∧ d v = id)

/-! ### Invariant -/

/-- Current position in the order of iteration. -/
def now (c : Cfg) (K : Nat) (st : BS) : Nat := prog c K st.curRange * c.opn + st.curBkt

/-- Representation invariant. -/
structure Inv (c : Cfg) (K : Nat) (d : Nat → Nat) (P : Nat → Prop) (st : BS) : Prop where
  opn_pos : 0 < c.opn
  opn_null : c.opn < c.null
  dec_null : c.inc = false → K * c.opn ≤ c.null
  rng : c.inc = true ∨ st.curRange ≤ K
  rng1 : 0 < st.numElms → c.inc = true ∨ 1 ≤ st.curRange
  cur : st.curBkt < c.opn
  cnt : st.numElms = total c st.bkts
  past : ∀ i, i < st.curBkt → st.bkts i = []
  bound : ∀ v, d v ≤ c.null
  pres : ∀ v, P v → d v ≠ c.null ∧ ∃ t, time c K (d v) = some t ∧ now c K st ≤ t ∧
    v ∈ st.bkts (slot c (prog c K st.curRange) t)
  abs : ∀ v, ¬ P v → d v = c.null ∨ ∀ t, time c K (d v) = some t →
    t < now c K st ∨ (t = now c K st ∧ v ∉ st.bkts st.curBkt)

/-- No duplicates, and stale copies only in later buckets (holds when identifiers only move to
earlier buckets). -/
structure Tidy (c : Cfg) (K : Nat) (d : Nat → Nat) (st : BS) : Prop where
  nodup : ∀ i, i ≤ c.opn → (st.bkts i).Nodup
  stale : ∀ i v, i ≤ c.opn → v ∈ st.bkts i → d v ≠ c.null ∧ ∀ t, time c K (d v) = some t →
    prog c K st.curRange * c.opn ≤ t → slot c (prog c K st.curRange) t ≤ i

/-- No duplicates and no stale copies at all (holds when only extracted identifiers are moved). -/
structure Clean (c : Cfg) (K : Nat) (d : Nat → Nat) (P : Nat → Prop) (st : BS) : Prop where
  nodup : ∀ i, i ≤ c.opn → (st.bkts i).Nodup
  only : ∀ i v, i ≤ c.opn → v ∈ st.bkts i → P v ∧
    ∃ t, time c K (d v) = some t ∧ prog c K st.curRange * c.opn ≤ t ∧
      slot c (prog c K st.curRange) t = i

theorem now_lt {c : Cfg} {K : Nat} {st : BS} (h : st.curBkt < c.opn) :
    now c K st < (prog c K st.curRange + 1) * c.opn := by
  rw [now, Nat.add_mul]; omega

/-- An identifier whose time is the current one belongs to the current bucket. -/
theorem slot_now {c : Cfg} {K : Nat} {st : BS} (h : st.curBkt < c.opn) :
    slot c (prog c K st.curRange) (now c K st) = st.curBkt := by
  unfold slot
  rw [if_pos (now_lt h), now]; omega

/-! ### One step of the search -/

/-- Advancing within the range. -/
theorem Inv.step_small {c : Cfg} {K : Nat} {d : Nat → Nat} {P : Nat → Prop} {st : BS}
    (h : Inv c K d P st) (he : st.bkts st.curBkt = []) (hlt : st.curBkt + 1 ≠ c.opn) :
    Inv c K d P { st with curBkt := st.curBkt + 1 } := by
  have hc := h.cur
  have hnow : now c K { st with curBkt := st.curBkt + 1 } = now c K st + 1 := by
    simp only [now]; omega
  refine ⟨h.opn_pos, h.opn_null, h.dec_null, h.rng, h.rng1, by simp only; omega, h.cnt, ?_,
    h.bound, ?_, ?_⟩
  · intro i hi
    simp only at hi ⊢
    by_cases hi' : i = st.curBkt
    · subst hi'; exact he
    · exact h.past i (by omega)
  · intro v hv
    obtain ⟨h1, t, h2, h3, h4⟩ := h.pres v hv
    refine ⟨h1, t, h2, ?_, h4⟩
    rw [hnow]
    by_contra hlt'
    have : t = now c K st := by omega
    subst this
    rw [slot_now h.cur, he] at h4
    simp at h4
  · intro v hv
    refine (h.abs v hv).imp_right fun h' t ht => ?_
    rw [hnow]
    rcases h' t ht with h'' | h''
    · left; omega
    · left; omega

theorem inSlot_of_mem {c : Cfg} {K : Nat} {d : Nat → Nat} {l : List Nat} {q i v : Nat}
    (h : v ∈ l.filter (inSlot c K d q i)) :
    ∃ t, time c K (d v) = some t ∧ q * c.opn ≤ t ∧ slot c q t = i :=
  inSlot_iff.1 (List.mem_filter.1 h).2

/-- The termination measure of the search, lexicographic. -/
noncomputable def flag (c : Cfg) (K : Nat) (d : Nat → Nat) (st : BS) : Nat :=
  open Classical in if ∃ v ∈ st.bkts c.opn, inNext c K d (prog c K st.curRange) v then 0 else 1

theorem flag_congr {c : Cfg} {K : Nat} {d : Nat → Nat} {s s' : BS}
    (h1 : s.bkts c.opn = s'.bkts c.opn) (h2 : s.curRange = s'.curRange) :
    flag c K d s = flag c K d s' := by
  by_cases hx : ∃ v ∈ s'.bkts c.opn, inNext c K d (prog c K s'.curRange) v
  · exact (if_pos (by rw [h1, h2]; exact hx)).trans (if_pos hx).symm
  · exact (if_neg (by rw [h1, h2]; exact hx)).trans (if_neg hx).symm

/-- One step of the search preserves the invariants and decreases the measure. -/
theorem Inv.step {c : Cfg} {K : Nat} {d : Nat → Nat} {P : Nat → Prop} {st : BS}
    (h : Inv c K d P st) (he : st.bkts st.curBkt = []) (hpos : 0 < st.numElms) :
    ∃ st', stepBucket c d st = some st' ∧ Inv c K d P st' ∧
      (Tidy c K d st → Tidy c K d st') ∧ (Clean c K d P st → Clean c K d P st') ∧
      ((st'.bkts c.opn).length < (st.bkts c.opn).length ∨
        ((st'.bkts c.opn).length = (st.bkts c.opn).length ∧ flag c K d st' < flag c K d st) ∨
        ((st'.bkts c.opn).length = (st.bkts c.opn).length ∧ flag c K d st' = flag c K d st ∧
          st'.numElms = st.numElms ∧ c.opn - st'.curBkt < c.opn - st.curBkt)) := by
  unfold stepBucket
  simp only
  have hc := h.cur
  by_cases hlast : st.curBkt + 1 = c.opn
  swap
  · rw [if_neg hlast]
    refine ⟨_, rfl, h.step_small he hlast, fun ht => ⟨ht.nodup, ht.stale⟩,
      fun hcl => ⟨hcl.nodup, hcl.only⟩, Or.inr (Or.inr ⟨rfl, rfl, rfl, by simp only; omega⟩)⟩
  rw [if_pos hlast]
  have hempty : ∀ i, i < c.opn → st.bkts i = [] := by
    intro i hi
    by_cases hi' : i = st.curBkt
    · subst hi'; exact he
    · exact h.past i (by omega)
  obtain ⟨s, u1, u2, u3, u4, u5, u6, u7, u9, u8⟩ := unpack_spec (K := K) (d := d)
    (st := { st with curBkt := st.curBkt + 1 }) h.opn_pos h.opn_null h.rng (h.rng1 hpos) hempty h.cnt
  simp only at u2 u3 u7 u8 u9
  rw [u1]
  simp only
  have hopn := h.opn_pos
  have hmul : (prog c K st.curRange + 1) * c.opn ≤ prog c K s.curRange * c.opn :=
    Nat.mul_le_mul_right _ u3
  have hnow : now c K st < prog c K s.curRange * c.opn := (now_lt h.cur).trans_le hmul
  have hnow' : now c K { s with curBkt := 0 } = prog c K s.curRange * c.opn := rfl
  refine ⟨_, rfl, ?_, ?_, ?_, ?_⟩
  · refine ⟨hopn, h.opn_null, h.dec_null, u4, u5, hopn, u6, fun i hi => absurd hi (by simp),
      h.bound, ?_, ?_⟩
    · intro v hv
      obtain ⟨h1, t, h2, h3, h4⟩ := h.pres v hv
      have ht : (prog c K st.curRange + 1) * c.opn ≤ t := by
        by_contra hlt
        have hq : prog c K st.curRange * c.opn ≤ t := by rw [now] at h3; omega
        have := (slot_lt hq (by omega)).1
        rw [hempty _ this] at h4
        simp at h4
      rw [slot_eq_opn ht] at h4
      -- `v` survived `unpack`
      have hge : prog c K s.curRange * c.opn ≤ t := u9 v h4 t h2 ht
      refine ⟨h1, t, h2, by rw [hnow']; exact hge, ?_⟩
      show v ∈ s.bkts (slot c (prog c K s.curRange) t)
      rw [u7 _ (slot_le hge), List.mem_filter]
      exact ⟨h4, inSlot_iff.2 ⟨t, h2, hge, rfl⟩⟩
    · intro v hv
      refine (h.abs v hv).imp_right fun h' t ht => ?_
      left
      rw [hnow']
      rcases h' t ht with h'' | h''
      · omega
      · omega
  · intro ht
    refine ⟨fun i hi => ?_, fun i v hi hv => ?_⟩
    · show (s.bkts i).Nodup
      rw [u7 i hi]; exact (ht.nodup _ (Nat.le_refl _)).filter _
    · have hv' : v ∈ s.bkts i := hv
      rw [u7 i hi] at hv'
      refine ⟨(ht.stale c.opn v (Nat.le_refl _) (List.mem_filter.1 hv').1).1, ?_⟩
      intro t h1 h2
      obtain ⟨t', h3, _, h4⟩ := inSlot_of_mem hv'
      rw [h1, Option.some.injEq] at h3
      subst h3
      exact h4.le
  · intro hcl
    refine ⟨fun i hi => ?_, fun i v hi hv => ?_⟩
    · show (s.bkts i).Nodup
      rw [u7 i hi]; exact (hcl.nodup _ (Nat.le_refl _)).filter _
    · have hv' : v ∈ s.bkts i := hv
      rw [u7 i hi] at hv'
      exact ⟨(hcl.only c.opn v (Nat.le_refl _) (List.mem_filter.1 hv').1).1, inSlot_of_mem hv'⟩
  · have hne : st.bkts c.opn ≠ [] := by
      intro h0
      rw [h.cnt, total_eq_overflow hempty, h0] at hpos
      simp at hpos
    have hle : (s.bkts c.opn).length ≤ (st.bkts c.opn).length := by
      rw [u7 c.opn (Nat.le_refl _)]; exact List.length_filter_le _ _
    by_cases heq : (s.bkts c.opn).length = (st.bkts c.opn).length
    · right; left
      refine ⟨heq, ?_⟩
      obtain ⟨h1, h2⟩ := u8 heq hne
      have hf' : flag c K d { s with curBkt := 0 } = 0 := if_pos h1
      have hf : flag c K d st = 1 := if_neg h2
      omega
    · left; show (s.bkts c.opn).length < _; omega

/-! ### Extraction -/

theorem curNum_lt_null {c : Cfg} {K : Nat} {d : Nat → Nat} {P : Nat → Prop} {st : BS}
    (h : Inv c K d P st) (hpos : 0 < st.numElms) (hi : c.inc = false) : curNum c st < c.null := by
  have h1 := time_curNum h.rng (h.rng1 hpos) h.cur
  have h2 := h.dec_null hi
  unfold time at h1
  simp only [hi, Bool.false_eq_true, if_false] at h1
  split at h1
  · omega
  · simp at h1

theorem dv_eq_curNum_iff {c : Cfg} {K : Nat} {d : Nat → Nat} {P : Nat → Prop} {st : BS}
    (h : Inv c K d P st) (hpos : 0 < st.numElms) (v : Nat) :
    d v = curNum c st ↔ time c K (d v) = some (now c K st) := by
  have h1 := time_curNum h.rng (h.rng1 hpos) h.cur
  constructor
  · intro h2; rw [h2, h1]; rfl
  · intro h2; exact time_inj h2 h1

theorem Inv.congr {c : Cfg} {K : Nat} {d : Nat → Nat} {P P' : Nat → Prop} {st : BS}
    (h : Inv c K d P st) (hP : ∀ v, P v ↔ P' v) : Inv c K d P' st := by
  have : P = P' := funext fun v => propext (hP v)
  exact this ▸ h

/-- Removing the current bucket. -/
theorem Inv.extract {c : Cfg} {K : Nat} {d : Nat → Nat} {P : Nat → Prop} {st : BS}
    (h : Inv c K d P st) (hpos : 0 < st.numElms) :
    Inv c K d (fun v => P v ∧ d v ≠ curNum c st)
      { st with bkts := upd st.bkts st.curBkt [],
                numElms := st.numElms - (st.bkts st.curBkt).length } := by
  have hc := h.cur
  refine ⟨h.opn_pos, h.opn_null, h.dec_null, h.rng, fun h' => h.rng1 hpos, hc, ?_, ?_,
    h.bound, ?_, ?_⟩
  · have := total_upd c st.bkts st.curBkt [] (by omega)
    simp only [List.length_nil] at this
    have := h.cnt
    simp only
    omega
  · intro i hi
    simp only at hi ⊢
    rw [upd_of_ne _ _ (by omega)]; exact h.past i hi
  · rintro v ⟨hv, hne⟩
    obtain ⟨h1, t, h2, h3, h4⟩ := h.pres v hv
    refine ⟨h1, t, h2, h3, ?_⟩
    have htn : t ≠ now c K st := by
      rintro rfl
      exact hne ((dv_eq_curNum_iff h hpos v).2 h2)
    simp only
    rw [upd_of_ne]
    · exact h4
    · intro hs
      have hq : prog c K st.curRange * c.opn ≤ t := by rw [now] at h3; omega
      by_cases hlt : t < (prog c K st.curRange + 1) * c.opn
      · have := (slot_lt hq hlt).2
        rw [hs] at this
        exact htn (by rw [now]; exact this)
      · rw [slot_eq_opn (by omega)] at hs; omega
  · intro v hv
    simp only at hv ⊢
    by_cases hP : P v
    · have hd : d v = curNum c st := by
        by_contra hne; exact hv ⟨hP, hne⟩
      right
      intro t ht
      right
      have := (dv_eq_curNum_iff h hpos v).1 hd
      rw [ht, Option.some.injEq] at this
      exact ⟨this, by simp⟩
    · refine (h.abs v hP).imp_right fun h' t ht => ?_
      rcases h' t ht with h'' | h''
      · exact Or.inl h''
      · exact Or.inr ⟨h''.1, by simp⟩

theorem filter_cur_spec {c : Cfg} {K : Nat} {d : Nat → Nat} {P : Nat → Prop} {st : BS}
    (h : Inv c K d P st) (hpos : 0 < st.numElms) (hnn : curNum c st ≠ c.null) (v : Nat) :
    v ∈ (st.bkts st.curBkt).filter (fun v => d v == curNum c st) ↔ P v ∧ d v = curNum c st := by
  rw [List.mem_filter, beq_iff_eq]
  constructor
  · rintro ⟨h1, h2⟩
    refine ⟨?_, h2⟩
    by_contra hP
    rcases h.abs v hP with h3 | h3
    · rw [h2] at h3; exact hnn h3
    · rcases h3 _ ((dv_eq_curNum_iff h hpos v).1 h2) with h4 | h4
      · omega
      · exact h4.2 h1
  · rintro ⟨hP, h2⟩
    refine ⟨?_, h2⟩
    obtain ⟨h1, t, h3, h4, h5⟩ := h.pres v hP
    have := (dv_eq_curNum_iff h hpos v).1 h2
    rw [h3, Option.some.injEq] at this
    subst this
    rwa [slot_now h.cur] at h5

/-- With the null bucket number reached (possible only for the increasing order, when the client
left identifiers mapped to null in the structure) nothing is present any more. -/
theorem no_present_at_null {c : Cfg} {K : Nat} {d : Nat → Nat} {P : Nat → Prop} {st : BS}
    (h : Inv c K d P st) (hpos : 0 < st.numElms) (hn : curNum c st = c.null) (v : Nat) : ¬ P v := by
  intro hP
  have hi : c.inc = true := by
    by_contra hi
    have := curNum_lt_null h hpos (by simpa using hi)
    omega
  obtain ⟨h1, t, h2, h3, _⟩ := h.pres v hP
  have h4 := h.bound v
  simp only [time, hi, if_true, Option.some.injEq] at h2
  simp only [curNum, hi, if_true] at hn
  simp only [now, prog, hi, if_true] at h3
  omega

theorem Tidy.extract {c : Cfg} {K : Nat} {d : Nat → Nat} {st : BS} (h : Tidy c K d st) (x : Nat) :
    Tidy c K d { st with bkts := upd st.bkts st.curBkt [], numElms := x } := by
  refine ⟨fun i hi => ?_, fun i v hi hv => ?_⟩
  · simp only [upd_apply]
    split
    · exact List.nodup_nil
    · exact h.nodup i hi
  · simp only [upd_apply] at hv
    split at hv
    · simp at hv
    · exact h.stale i v hi hv

theorem Clean.extract {c : Cfg} {K : Nat} {d : Nat → Nat} {P : Nat → Prop} {st : BS}
    (h : Clean c K d P st) (hcur : st.curBkt < c.opn)
    (hnum : ∀ v, d v = curNum c st ↔ time c K (d v) = some (now c K st)) (x : Nat) :
    Clean c K d (fun v => P v ∧ d v ≠ curNum c st)
      { st with bkts := upd st.bkts st.curBkt [], numElms := x } := by
  refine ⟨fun i hi => ?_, fun i v hi hv => ?_⟩
  · simp only [upd_apply]
    split
    · exact List.nodup_nil
    · exact h.nodup i hi
  · simp only [upd_apply] at hv
    split at hv
    · simp at hv
    · rename_i hne
      obtain ⟨h1, t, h2, h3, h4⟩ := h.only i v hi hv
      refine ⟨⟨h1, fun hd => ?_⟩, t, h2, h3, h4⟩
      have := (hnum v).1 hd
      rw [h2, Option.some.injEq] at this
      subst this
      rw [slot_now hcur] at h4
      exact hne h4.symm

/-- The search terminates and returns what the specification asks for. -/
theorem nextBucket_spec {c : Cfg} {K : Nat} {d : Nat → Nat} {P : Nat → Prop} (st : BS)
    (h : Inv c K d P st) :
    ∃ fuel id ids st', nextBucket c d fuel st = some (id, ids, st') ∧ NextSpec c d P id ids ∧
      Inv c K d (fun v => P v ∧ d v ≠ id) st' ∧
      (id ≠ c.null → time c K id = some (now c K st')) ∧
      (Tidy c K d st → Tidy c K d st' ∧ ids.Nodup) ∧
      (Clean c K d P st → Clean c K d (fun v => P v ∧ d v ≠ id) st' ∧ ids.Nodup) := by
  by_cases hloop : st.bkts st.curBkt = [] ∧ 0 < st.numElms
  · obtain ⟨st1, s1, s2, s3, s4, s5⟩ := h.step hloop.1 hloop.2
    obtain ⟨fuel, id, ids, st', r1, r2, r3, r6, r4, r5⟩ := nextBucket_spec st1 s2
    refine ⟨fuel + 1, id, ids, st', ?_, r2, r3, r6, fun ht => r4 (s3 ht), fun hc => r5 (s4 hc)⟩
    rw [nextBucket, if_pos hloop, s1]; exact r1
  by_cases hz : st.numElms = 0
  · have hP : ∀ v, ¬ P v := by
      intro v hv
      obtain ⟨_, t, _, h3, h4⟩ := h.pres v hv
      have := total_pos_of_mem (c := c) (slot_le (by rw [now] at h3; omega)) h4
      have := h.cnt
      omega
    refine ⟨1, c.null, [], st, ?_, Or.inl ⟨rfl, hP⟩, h.congr fun v => ?_, fun h' => absurd rfl h',
      fun ht => ⟨ht, by simp⟩,
      fun hc => ⟨⟨hc.nodup, fun i v hi hv => absurd (hc.only i v hi hv).1 (hP v)⟩, by simp⟩⟩
    · rw [nextBucket, if_neg hloop, if_pos hz]
    · simp [hP v]
  have hpos : 0 < st.numElms := by omega
  have hne : st.bkts st.curBkt ≠ [] := fun h' => hloop ⟨h', hpos⟩
  have hinv := h.extract hpos
  have hcur := h.cur
  by_cases hf : (st.bkts st.curBkt).filter (fun v => d v == curNum c st) = []
  · -- nothing in the bucket is current: look further
    have hPP : ∀ v, (P v ∧ d v ≠ curNum c st) ↔ P v := by
      intro v
      refine ⟨And.left, fun hP => ⟨hP, fun hd => ?_⟩⟩
      by_cases hnn : curNum c st = c.null
      · exact no_present_at_null h hpos hnn v hP
      · have := (filter_cur_spec h hpos hnn v).2 ⟨hP, hd⟩
        rw [hf] at this; simp at this
    have hinv' := hinv.congr hPP
    have hlen : 0 < (st.bkts st.curBkt).length := List.length_pos_of_ne_nil hne
    obtain ⟨fuel, id, ids, st', r1, r2, r3, r6, r4, r5⟩ := nextBucket_spec _ hinv'
    refine ⟨fuel + 1, id, ids, st', ?_, r2, r3, r6, fun ht => r4 (ht.extract _), fun hc => r5 ?_⟩
    · rw [nextBucket, if_neg hloop, if_neg hz]
      simp only [hf, if_true]; exact r1
    · have := hc.extract h.cur (dv_eq_curNum_iff h hpos) (st.numElms - (st.bkts st.curBkt).length)
      exact ⟨this.nodup, fun i v hi hv => ⟨(this.only i v hi hv).1.1, (this.only i v hi hv).2⟩⟩
  · refine ⟨1, curNum c st, (st.bkts st.curBkt).filter (fun v => d v == curNum c st), _,
      ?_, ?_, hinv, fun _ => time_curNum h.rng (h.rng1 hpos) h.cur, fun ht => ⟨ht.extract _, ?_⟩,
      fun hc => ⟨hc.extract h.cur (dv_eq_curNum_iff h hpos) _, ?_⟩⟩
    · rw [nextBucket, if_neg hloop, if_neg hz]
      simp only [hf, if_false]
    · by_cases hnn : curNum c st = c.null
      · exact Or.inl ⟨hnn, no_present_at_null h hpos hnn⟩
      · right
        have hspec := filter_cur_spec h hpos hnn
        refine ⟨hnn, ?_, ?_, hspec⟩
        · obtain ⟨v, hv⟩ := List.exists_mem_of_ne_nil _ hf
          exact ⟨v, (hspec v).1 hv⟩
        · intro v hP
          obtain ⟨_, t, h2, h3, _⟩ := h.pres v hP
          have h4 := time_curNum h.rng (h.rng1 hpos) h.cur
          unfold notAfter
          unfold now at h3
          unfold time at h2 h4
          by_cases hi : c.inc = true
          · simp only [hi, if_true, Option.some.injEq] at h2 h4 ⊢
            omega
          · simp only [hi, Bool.false_eq_true, if_false] at h2 h4 ⊢
            split at h2
            · split at h4
              · simp only [Option.some.injEq] at h2 h4; omega
              · simp at h4
            · simp at h2
    · exact (ht.nodup _ (by omega)).filter _
    · exact (hc.nodup _ (by omega)).filter _
termination_by ((st.bkts c.opn).length, flag c K d st, st.numElms, c.opn - st.curBkt)
decreasing_by
  · rcases s5 with h1 | ⟨h1, h2⟩ | ⟨h1, h2, h3, h4⟩
    · exact Prod.Lex.left _ _ h1
    · rw [h1]; exact Prod.Lex.right _ (Prod.Lex.left _ _ h2)
    · rw [h1, h2, h3]; exact Prod.Lex.right _ (Prod.Lex.right _ (Prod.Lex.right _ h4))
  · have hb : upd st.bkts st.curBkt [] c.opn = st.bkts c.opn := upd_of_ne _ _ (by omega)
    have hflag : ∀ x, flag c K d (BS.mk (upd st.bkts st.curBkt []) st.curBkt st.curRange x) =
        flag c K d st := by
      intro x; exact flag_congr hb rfl
    rw [hflag]
    simp only [hb]
    exact Prod.Lex.right _ (Prod.Lex.right _ (Prod.Lex.left _ _ (by omega)))

end Gbbs.Buckets
