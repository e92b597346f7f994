import Verif.Encoding.AmLayout

/-! # Reading and packing `bytepd_amortized` lists -/

namespace Gbbs.AM

open Gbbs Byte Blk EncSpec
open Gbbs.PD (blocksLen take_block drop_block)

variable {W : Type} {c : WCodec W} {ok : W → Prop}

/-- The entries a layout holds. -/
abbrev live (vd : Nat) (blk : Nat → List (Nat × W)) : List (Nat × W) :=
  (List.range (numBlocks vd)).flatMap blk

section read

variable {L : Lawful c ok} {m : Mem} {a src vd ext : Nat} {offs cap : Nat → Nat}
  {orig blk : Nat → List (Nat × W)}

theorem callsUntil_append (ans : Nat → Nat → W → Nat → Bool) (i : Nat) (l r : List (Nat × W)) :
    callsUntil ans src i (l ++ r) = callsUntil ans src i l ++
      (if allYes ans src i l then callsUntil ans src (i + l.length) r else []) := by
  induction l generalizing i with
  | nil => simp [callsUntil, allYes]
  | cons e l ih =>
    obtain ⟨n, w⟩ := e
    simp only [List.cons_append, callsUntil, allYes, ih, List.length_cons]
    by_cases hb : ans src n w i = true
    · simp [hb, show i + 1 + l.length = i + (l.length + 1) by omega]
    · simp [hb]

theorem decodeSeqLoop_eq (h : Lay L m a src vd ext offs cap orig blk)
    (ans : Nat → Nat → W → Nat → Bool) (k i : Nat) (hk : i + k = numBlocks vd)
    (cs : List (Call W)) :
    decodeSeqLoop c ans m a src (st blk (numBlocks vd)) (numBlocks vd) k i (cs, true) =
      some (cs ++ callsUntil ans src (st blk i)
        (((List.range (numBlocks vd)).drop i).flatMap blk)) := by
  induction k generalizing i cs with
  | zero =>
    rw [List.drop_of_length_le (by simp; omega)]
    simp [decodeSeqLoop, callsUntil]
  | succ k ih =>
    rw [List.drop_eq_getElem_cons (by simp; omega)]
    simp only [decodeSeqLoop, run_block h _ (show i < numBlocks vd by omega), visit_record,
      List.getElem_range, List.flatMap_cons, callsUntil_append]
    rcases hy : allYes ans src (st blk i) (blk i) with _ | _
    · simp
    · simp only [if_true]
      rw [ih (i + 1) (by omega)]
      simp [List.append_assoc, scan]

theorem decodeWeighted_lay (h : Lay L m a src vd ext offs cap orig blk)
    (ans : Nat → Nat → W → Nat → Bool) :
    decodeWeighted c ans m a src (live vd blk).length = some (callsUntil ans src 0 (live vd blk)) := by
  rw [decodeWeighted, h.vdEq, live, st_length]
  by_cases h0 : st blk (numBlocks vd) > 0
  · rw [if_pos h0]
    have := decodeSeqLoop_eq h ans (numBlocks vd) 0 (by omega) []
    simpa [scan] using this
  · rw [if_neg h0]
    have : live vd blk = [] := List.length_eq_zero_iff.1 (by rw [live, st_length]; omega)
    simp only [live] at this
    rw [this]; rfl

theorem flatMap_map_flatten (vd : Nat) (blk : Nat → List (Nat × W)) :
    ((List.range (numBlocks vd)).map (fun i => numbered (st blk i) (blk i))).flatten =
      numbered 0 (live vd blk) := by
  have : ∀ k, ((List.range k).map (fun i => numbered (st blk i) (blk i))).flatten =
      numbered 0 ((List.range k).flatMap blk) := by
    intro k
    induction k with
    | zero => rfl
    | succ k ih =>
      rw [List.range_succ, List.map_append, List.flatten_append, ih, List.flatMap_append,
        numbered_append, st_length]
      simp
  exact this _

theorem decodeUnweighted_lay (h : Lay L m a src vd ext offs cap orig blk)
    (ans : Nat → Nat → W → Nat → Bool) (hd : 0 < (live vd blk).length) :
    decodeUnweighted c ans m a src (live vd blk).length = some
      (if allYes ans src 0 (blk 0) then
        (List.range (numBlocks vd)).map (fun i => callsUntil ans src (st blk i) (blk i))
      else [callsUntil ans src 0 (blk 0)]) := by
  have hnb := numBlocks_pos vd
  rw [live, st_length] at hd
  simp only [decodeUnweighted, h.vdEq, live, st_length]
  rw [if_pos hd, run_block h _ hnb, visit_record]
  simp only [show st blk 0 = 0 from rfl, List.nil_append]
  rcases allYes ans src 0 (blk 0) with _ | _
  · simp
  · simp only [if_true]
    rw [mapM_some _ (fun j => callsUntil ans src (st blk (j + 1)) (blk (j + 1)))]
    · simp only [Option.some.injEq]
      obtain ⟨n, hn⟩ : ∃ n, numBlocks vd = n + 1 := ⟨numBlocks vd - 1, by omega⟩
      rw [hn, List.range_succ_eq_map, Nat.add_sub_cancel]
      simp [Function.comp_def, scan]
    · intro j hj
      rw [run_block h _ (by simp at hj; omega), visit_record]
      simp

theorem decodeBlock_lay (h : Lay L m a src vd ext offs cap orig blk)
    (ans : Nat → Nat → W → Nat → Bool) (hd : 0 < (live vd blk).length) {i : Nat}
    (hi : i < numBlocks vd) :
    decodeBlock c ans m a src (live vd blk).length i =
      some (callsUntil ans src (st blk i) (blk i)) := by
  rw [live, st_length] at hd
  simp only [decodeBlock, h.vdEq, live, st_length]
  rw [if_pos hd, run_block h _ hi, visit_record]
  simp

theorem mapReduce_lay {E : Type} (h : Lay L m a src vd ext offs cap orig blk)
    (f : Nat → Nat → W → E) (red : E → E → E) (ident : E)
    (hid : ∀ x, red ident x = x) (hid' : ∀ x, red x ident = x)
    (ha : ∀ x y z, red (red x y) z = red x (red y z)) :
    mapReduce c f red ident m a src (live vd blk).length =
      some (reduceList f red ident src (live vd blk)) := by
  by_cases hd : 0 < (live vd blk).length
  · have hd' := hd
    rw [live, st_length] at hd
    simp only [mapReduce, h.vdEq, live, st_length]
    rw [if_pos hd, mapM_some _ (fun i => (blk i).foldl (fun a e => red a (f src e.1 e.2)) ident)]
    · simp only [Option.some.injEq]
      rw [PD.reduce_blocks f red ident hid' ha, PD.reduceList_eq f red ident hid]
    · intro i hi
      rw [run_block h _ (by simpa using hi), visit_reduce]
  · have : live vd blk = [] := List.length_eq_zero_iff.1 (by omega)
    rw [this]
    simp [mapReduce, reduceList]

theorem filterSequential_lay (h : Lay L m a src vd ext offs cap orig blk)
    (pred : Nat → Nat → W → Bool) :
    filterSequential c pred m a src (live vd blk).length =
      some ((live vd blk).filter (fun e => pred src e.1 e.2)) := by
  simp only [filterSequential, h.vdEq, live, st_length]
  rw [foldlM_some _ (fun out i => out ++ (blk i).filter (fun e => pred src e.1 e.2))]
  · rw [PD.foldl_append_flatMap, List.nil_append, ← List.filter_flatMap]
  · intro i hi out
    rw [run_block h _ (by simpa using hi), visit_keep]

theorem getBlockDegree_lay (h : Lay L m a src vd ext offs cap orig blk)
    (hd : 0 < (live vd blk).length) {i : Nat} (hi : i < numBlocks vd) :
    getBlockDegree m a (live vd blk).length i = (blk i).length := by
  rw [live, st_length] at hd
  simp only [getBlockDegree, h.vdEq, live, st_length]
  rw [if_neg (by omega), end_eq h hi]
  by_cases h0 : i = 0
  · subst h0; rw [if_pos rfl]; simp [scan]
  · rw [if_neg h0, end_eq h (by omega), Nat.sub_add_cancel (by omega)]
    simp [scan]

end read

/-! ## Phase 1 of `pack`: filtering every block in place -/

section pack

variable {L : Lawful c ok} {a src vd ext : Nat} {offs cap : Nat → Nat}
  {orig blk : Nat → List (Nat × W)}

/-- Mid-pack: headers and start counters still describe `blk`, block `i` holds `cur i`. -/
structure Mid (L : Lawful c ok) (m0 m : Mem) (a src vd : Nat) (offs cap : Nat → Nat)
    (orig cur : Nat → List (Nat × W)) : Prop where
  sub : ∀ i, (cur i).Sublist (orig i)
  out : ∀ x, (∀ i, i < numBlocks vd → ¬ (a + offs i + 4 ≤ x ∧ x < a + offs i + 4 + cap i)) →
    m x = m0 x
  body : ∀ i, i < numBlocks vd → m.Has (a + offs i + 4) (encBlk plain L src (cur i))

theorem mid_load {m0 m : Mem} {cur : Nat → List (Nat × W)}
    (h : Lay L m0 a src vd ext offs cap orig blk)
    (hm : Mid L m0 m a src vd offs cap orig cur) :
    m.load32 a = vd ∧
    (∀ i, 0 < i → i < numBlocks vd → m.load32 (a + 4 + 4 * (i - 1)) = offs i) ∧
    (∀ i, i < numBlocks vd → m.load32 (a + offs i) = st blk i) := by
  have hp := numBlocks_pos vd
  refine ⟨?_, ?_, ?_⟩
  · rw [← h.vdEq]
    refine Mem.load32_congr (fun x hx1 hx2 => hm.out x (fun i hi => ?_))
    have := off_ge h hi; omega
  · intro j h1 h2
    rw [← h.hdr j h1 h2]
    refine Mem.load32_congr (fun x hx1 hx2 => hm.out x (fun i hi => ?_))
    have := off_ge h hi; omega
  · intro j hj
    rw [← h.start j hj]
    refine Mem.load32_congr (fun x hx1 hx2 => hm.out x (fun i hi => ?_))
    rcases Nat.lt_trichotomy i j with e | e | e
    · have := mono_offs h e hj; omega
    · subst e; omega
    · have := mono_offs h e hi; omega

theorem mid_finger {m0 m : Mem} {cur : Nat → List (Nat × W)}
    (h : Lay L m0 a src vd ext offs cap orig blk)
    (hm : Mid L m0 m a src vd offs cap orig cur) {i : Nat} (hi : i < numBlocks vd) :
    blockFinger m a (numBlocks vd) i = a + offs i := by
  rw [blockFinger]
  by_cases e : i > 0
  · rw [if_pos e, (mid_load h hm).2.1 i e hi]
  · have : i = 0 := by omega
    subst this
    rw [if_neg e, h.off0]; omega

theorem mid_end {m0 m : Mem} {cur : Nat → List (Nat × W)}
    (h : Lay L m0 a src vd ext offs cap orig blk)
    (hm : Mid L m0 m a src vd offs cap orig cur) {i : Nat} (hi : i < numBlocks vd) :
    blockEnd m a (numBlocks vd) (st blk (numBlocks vd)) i = st blk (i + 1) := by
  rw [blockEnd]
  by_cases e : i = numBlocks vd - 1
  · rw [if_pos e]; congr 1; omega
  · rw [if_neg e]
    have := (mid_load h hm).2.1 (i + 1) (by omega) (by omega)
    rw [Nat.add_sub_cancel] at this
    rw [this, (mid_load h hm).2.2 (i + 1) (by omega)]

theorem st_le_vd {m : Mem} (h : Lay L m a src vd ext offs cap orig blk) {i : Nat}
    (hi : i ≤ numBlocks vd) : st blk i ≤ vd := by
  have h1 : st blk i ≤ st orig i := by
    clear hi
    induction i with
    | zero => exact Nat.le_refl _
    | succ i ih =>
      show st blk i + (blk i).length ≤ st orig i + (orig i).length
      have := (h.sub i).length_le; omega
  have h2 : st orig i ≤ st orig (numBlocks vd) := scan_mono _ hi
  have h3 := h.vdSum
  omega

theorem packBlock_eq {m0 m : Mem} {cur : Nat → List (Nat × W)}
    (h : Lay L m0 a src vd ext offs cap orig blk)
    (hm : Mid L m0 m a src vd offs cap orig cur) (pred : Nat → Nat → W → Bool)
    {i : Nat} (hi : i < numBlocks vd) (hc : cur i = blk i) :
    ∃ m', packBlock c pred a src (st blk (numBlocks vd)) (numBlocks vd) m i =
        some (m', ((blk i).filter (fun e => pred src e.1 e.2)).length) ∧
      Mid L m0 m' a src vd offs cap orig
        (fun j => if j = i then (blk i).filter (fun e => pred src e.1 e.2) else cur j) := by
  have hlt : st blk (i + 1) < 4294967296 := by
    have := st_le_vd h (show i + 1 ≤ numBlocks vd by omega)
    have := Mem.load32_lt m0 a
    rw [h.vdEq] at this
    omega
  have e2 : st blk (i + 1) = st blk i + (blk i).length := rfl
  have hbd : (st blk (i + 1) + (uintEMod - st blk i)) % uintEMod = (blk i).length := by
    simp only [uintEMod]; omega
  have hbody := hm.body i hi
  rw [hc] at hbody
  have hdec := decodeFrom_eq plain L (keepCb pred) m src (a + offs i + 4) (st blk i) (blk i) []
    h.srcLt (blk_valid h hi) (blk_ok h hi) hbody
  rw [visit_keep, List.nil_append] at hdec
  simp only [packBlock, mid_finger h hm hi, mid_end h hm hi, (mid_load h hm).2.2 i hi, hbd, hdec]
  generalize hK : (blk i).filter (fun e => pred src e.1 e.2) = K
  have hsub : K.Sublist (blk i) := hK ▸ List.filter_sublist
  have hvK := ValidList.sublist hsub (blk_valid h hi)
  have hokK : ∀ e ∈ K, ok e.2 := fun e he => blk_ok h hi e (hsub.subset he)
  have hcap := sub_cap h hi (hsub.trans (h.sub i))
  by_cases hcond : K.length > 0 ∧ K.length < (blk i).length
  · rw [if_pos hcond, seqComp_eq L m (a + offs i + 4) src K h.srcLt hvK hokK]
    refine ⟨m.write (a + offs i + 4) (encBlk plain L src K), rfl, ⟨?_, ?_, ?_⟩⟩
    · intro j
      by_cases e : j = i
      · subst e; rw [if_pos rfl]; exact hsub.trans (h.sub j)
      · rw [if_neg e]; exact hm.sub j
    · intro x hx
      rw [Mem.write_outside _ _ _ _ (by have := hx i hi; omega)]
      exact hm.out x hx
    · intro j hj
      by_cases e : j = i
      · subst e; rw [if_pos rfl]; exact Mem.write_has _ _ _
      · rw [if_neg e]
        refine Mem.has_of_agree (fun x hx1 hx2 => ?_) (hm.body j hj)
        refine (Mem.write_outside _ _ _ _ ?_).symm
        have hcj := sub_cap h hj (hm.sub j)
        rcases Nat.lt_or_gt_of_ne e with e | e
        · have := mono_offs h e hi; omega
        · have := mono_offs h e hj; omega
  · rw [if_neg hcond]
    refine ⟨m, rfl, ⟨?_, hm.out, ?_⟩⟩
    · intro j
      by_cases e : j = i
      · subst e; rw [if_pos rfl]; exact hsub.trans (h.sub j)
      · rw [if_neg e]; exact hm.sub j
    intro j hj
    by_cases e : j = i
    · subst e
      rw [if_pos rfl]
      by_cases h0 : K.length = 0
      · rw [List.length_eq_zero_iff.1 h0]; trivial
      · have : K = blk j := hsub.eq_of_length (by have := hsub.length_le; omega)
        rw [this]; exact hbody
    · rw [if_neg e]; exact hm.body j hj

/-- The blocks after filtering. -/
abbrev kept (pred : Nat → Nat → W → Bool) (src : Nat) (blk : Nat → List (Nat × W)) (i : Nat) :
    List (Nat × W) := (blk i).filter (fun e => pred src e.1 e.2)

theorem packPhase1_eq {m0 : Mem} (h : Lay L m0 a src vd ext offs cap orig blk)
    (pred : Nat → Nat → W → Bool) (order : List Nat) (m : Mem) (cts : Nat → Nat) (D : Nat → Prop)
    [DecidablePred D]
    (hlt : ∀ i ∈ order, i < numBlocks vd) (hnd : order.Nodup) (hD : ∀ i ∈ order, ¬ D i)
    (hm : Mid L m0 m a src vd offs cap orig (fun j => if D j then kept pred src blk j else blk j))
    (hcts : ∀ i, D i → cts i = (kept pred src blk i).length) :
    ∃ m' cts', packPhase1 c pred a src (st blk (numBlocks vd)) (numBlocks vd) order m cts =
        some (m', cts') ∧
      Mid L m0 m' a src vd offs cap orig
        (fun j => if D j ∨ j ∈ order then kept pred src blk j else blk j) ∧
      (∀ i, D i ∨ i ∈ order → cts' i = (kept pred src blk i).length) := by
  induction order generalizing m cts D with
  | nil => exact ⟨m, cts, rfl, by simpa using hm, by simpa using hcts⟩
  | cons i order ih =>
    obtain ⟨m1, h1, h2⟩ := packBlock_eq h hm pred (hlt i (by simp))
      (by simp [hD i (by simp)])
    rw [packPhase1, h1]
    simp only
    rw [List.nodup_cons] at hnd
    obtain ⟨m', cts', g1, g2, g3⟩ := ih m1 (fun j => if j = i then
        (List.filter (fun e => pred src e.1 e.2) (blk i)).length else cts j)
      (fun j => D j ∨ j = i)
      (fun j hj => hlt j (List.mem_cons_of_mem _ hj)) hnd.2
      (fun j hj hj' => by
        rcases hj' with hj' | hj'
        · exact hD j (List.mem_cons_of_mem _ hj) hj'
        · subst hj'; exact hnd.1 hj)
      (by
        have : (fun j => if j = i then (blk i).filter (fun e => pred src e.1 e.2)
            else if D j then kept pred src blk j else blk j) =
            (fun j => if D j ∨ j = i then kept pred src blk j else blk j) := by
          funext j
          by_cases e : j = i
          · subst e; simp
          · simp [e]
        rw [this] at h2; exact h2)
      (by
        intro j hj
        by_cases e : j = i
        · subst e; simp
        · simp only [e, or_false, if_false] at hj ⊢; exact hcts j hj)
    refine ⟨m', cts', g1, ?_, ?_⟩
    · have : (fun j => if D j ∨ j ∈ i :: order then kept pred src blk j else blk j) =
          (fun j => if (D j ∨ j = i) ∨ j ∈ order then kept pred src blk j else blk j) := by
        funext j; simp only [List.mem_cons, or_assoc]
      rw [this]; exact g2
    · intro j hj
      apply g3
      simpa [List.mem_cons, or_assoc] using hj

/-- A schedule of a parallel loop over `[0, n)`: every index once, in some order. -/
def Schedule (n : Nat) (order : List Nat) : Prop := order.Nodup ∧ ∀ i, i ∈ order ↔ i < n

theorem phase1 {m0 : Mem} (h : Lay L m0 a src vd ext offs cap orig blk)
    (pred : Nat → Nat → W → Bool) (order : List Nat) (ho : Schedule (numBlocks vd) order) :
    ∃ m' cts', packPhase1 c pred a src (st blk (numBlocks vd)) (numBlocks vd) order m0
        (fun _ => 0) = some (m', cts') ∧
      Mid L m0 m' a src vd offs cap orig
        (fun j => if j < numBlocks vd then kept pred src blk j else blk j) ∧
      (∀ i, i < numBlocks vd → cts' i = (kept pred src blk i).length) := by
  obtain ⟨m', cts', h1, h2, h3⟩ := packPhase1_eq h pred order m0 (fun _ => 0) (fun _ => False)
    (fun i hi => (ho.2 i).1 hi) ho.1 (fun _ _ h => h)
    ⟨by simpa using h.sub, fun _ _ => rfl, by simpa using h.body⟩ (fun _ h => h.elim)
  refine ⟨m', cts', h1, ?_, fun i hi => h3 i (Or.inr ((ho.2 i).2 hi))⟩
  have : (fun j => if j < numBlocks vd then kept pred src blk j else blk j) =
      (fun j => if False ∨ j ∈ order then kept pred src blk j else blk j) := by
    funext j; simp only [false_or, ho.2 j]
  rw [this]; exact h2

/-! ## Phase 2: new start counters -/

theorem phase2_loop {m0 m : Mem} {cur : Nat → List (Nat × W)}
    (h : Lay L m0 a src vd ext offs cap orig blk) (starts : Nat → Nat)
    (hs : ∀ i, i < numBlocks vd → starts i < 4294967296)
    (order : List Nat) (D : Nat → Prop)
    (hlt : ∀ i ∈ order, i < numBlocks vd)
    (hvd : m.load32 a = vd)
    (hhdr : ∀ i, 0 < i → i < numBlocks vd → m.load32 (a + 4 + 4 * (i - 1)) = offs i)
    (hst : ∀ i, i < numBlocks vd → D i → m.load32 (a + offs i) = starts i)
    (hsub : ∀ i, (cur i).Sublist (orig i))
    (hbody : ∀ i, i < numBlocks vd → m.Has (a + offs i + 4) (encBlk plain L src (cur i))) :
    ∃ m', packPhase2 a (numBlocks vd) starts order m = m' ∧ m'.load32 a = vd ∧
      (∀ i, 0 < i → i < numBlocks vd → m'.load32 (a + 4 + 4 * (i - 1)) = offs i) ∧
      (∀ i, i < numBlocks vd → D i ∨ i ∈ order → m'.load32 (a + offs i) = starts i) ∧
      (∀ i, i < numBlocks vd → m'.Has (a + offs i + 4) (encBlk plain L src (cur i))) ∧
      (∀ x, x < a ∨ a + ext ≤ x → m' x = m x) := by
  induction order generalizing m D with
  | nil => exact ⟨m, rfl, hvd, hhdr, by simpa using hst, hbody, fun _ _ => rfl⟩
  | cons i order ih =>
    have hi := hlt i (by simp)
    have hf : blockFinger m a (numBlocks vd) i = a + offs i := by
      rw [blockFinger]
      by_cases e : i > 0
      · rw [if_pos e, hhdr i e hi]
      · have : i = 0 := by omega
        subst this
        rw [if_neg e, h.off0]; omega
    have hge := off_ge h hi
    have hnb := numBlocks_pos vd
    obtain ⟨m', g1, g2, g3, g4, g5, g6⟩ := ih (m := m.store32 (a + offs i) (starts i))
      (fun j => D j ∨ j = i) (fun j hj => hlt j (List.mem_cons_of_mem _ hj))
      (by rw [Mem.load32_store32_other _ _ _ _ (by omega)]; exact hvd)
      (by
        intro j h1 h2
        rw [Mem.load32_store32_other _ _ _ _ (by omega)]; exact hhdr j h1 h2)
      (by
        intro j hj hD
        by_cases e : j = i
        · subst e; exact Mem.load32_store32_same _ _ _ (hs j hj)
        · have hD' : D j := by simpa [e] using hD
          rw [Mem.load32_store32_other]
          · exact hst j hj hD'
          · rcases Nat.lt_or_gt_of_ne e with e | e
            · have := mono_offs h e hi; omega
            · have := mono_offs h e hj; omega)
      (by
        intro j hj
        refine Mem.has_of_agree (fun x hx1 hx2 => ?_) (hbody j hj)
        refine (Mem.store32_outside _ _ _ _ ?_).symm
        have hcj := sub_cap h hj (hsub j)
        rcases Nat.lt_trichotomy i j with e | e | e
        · have := mono_offs h e hj; omega
        · subst e; omega
        · have := mono_offs h e hi; omega)
    refine ⟨m', by rw [packPhase2, hf]; exact g1, g2, g3, ?_, g5, ?_⟩
    · intro j hj hD
      apply g4 j hj
      rcases hD with hD | hD
      · exact Or.inl (Or.inl hD)
      · rcases List.mem_cons.1 hD with e | e
        · exact Or.inl (Or.inr e)
        · exact Or.inr e
    · intro x hx
      rw [g6 x hx]
      have := h.fits i hi
      exact Mem.store32_outside _ _ _ _ (by omega)

/-- Phases 1 and 2 together turn the layout of `blk` into the layout of the kept entries. -/
theorem phase12 {m0 : Mem} (h : Lay L m0 a src vd ext offs cap orig blk)
    (pred : Nat → Nat → W → Bool) (order1 order2 : List Nat)
    (ho1 : Schedule (numBlocks vd) order1) (ho2 : Schedule (numBlocks vd) order2) :
    ∃ m1 cts, packPhase1 c pred a src (live vd blk).length (numBlocks vd) order1 m0
        (fun _ => 0) = some (m1, cts) ∧
      scan cts (numBlocks vd) = (live vd (kept pred src blk)).length ∧
      Lay L (packPhase2 a (numBlocks vd) (scan cts) order2 m1) a src vd ext offs cap orig
        (kept pred src blk) ∧
      (∀ x, x < a ∨ a + ext ≤ x →
        packPhase2 a (numBlocks vd) (scan cts) order2 m1 x = m0 x) := by
  obtain ⟨m1, cts, h1, h2, h3⟩ := phase1 h pred order1 ho1
  have hscan : ∀ i, i ≤ numBlocks vd → scan cts i = st (kept pred src blk) i :=
    fun i hi => scan_congr (fun j hj => h3 j (by omega))
  have hksub : ∀ i, (kept pred src blk i).Sublist (orig i) :=
    fun i => List.filter_sublist.trans (h.sub i)
  have hle : ∀ i, i ≤ numBlocks vd → st (kept pred src blk) i ≤ vd := by
    intro i hi
    have e1 : st (kept pred src blk) i ≤ st orig i := by
      clear hi
      induction i with
      | zero => exact Nat.le_refl _
      | succ i ih =>
        show st (kept pred src blk) i + (kept pred src blk i).length ≤
          st orig i + (orig i).length
        have := (hksub i).length_le; omega
    have e2 : st orig i ≤ st orig (numBlocks vd) := scan_mono _ hi
    have e3 := h.vdSum
    omega
  have hvlt : vd < 4294967296 := h.vdEq ▸ Mem.load32_lt m0 a
  have hl := mid_load h h2
  obtain ⟨m', g1, g2, g3, g4, g5, g6⟩ := phase2_loop (m := m1) (cur := kept pred src blk) h
    (scan cts) (fun i hi => by rw [hscan i (by omega)]; have := hle i (by omega); omega)
    order2 (fun _ => False) (fun i hi => (ho2.2 i).1 hi) hl.1 hl.2.1 (fun _ _ h => h.elim)
    hksub (fun i hi => by have := h2.body i hi; simpa [hi] using this)
  refine ⟨m1, cts, by rw [live, st_length]; exact h1, ?_, ?_, ?_⟩
  · rw [hscan _ (Nat.le_refl _), live, st_length]
  · rw [g1]
    exact
      { srcLt := h.srcLt, vdPos := h.vdPos, vdEq := g2, vdSum := h.vdSum, sub := hksub
        len := h.len
        valid := h.valid, ok := h.ok, off0 := h.off0, capOk := h.capOk, sep := h.sep
        fits := h.fits, extLt := h.extLt, hdr := g3
        start := fun i hi => by rw [g4 i hi (Or.inr ((ho2.2 i).2 hi)), hscan i (by omega)]
        body := g5 }
  · intro x hx
    rw [g1, g6 x hx]
    apply h2.out
    intro i hi
    have := h.fits i hi
    omega

end pack

end Gbbs.AM
