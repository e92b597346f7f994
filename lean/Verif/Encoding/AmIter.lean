import Verif.Encoding.AmTheorems
import Verif.Encoding.ByteIntersect

/-!
# The sequential iterator over a `bytepd_amortized` list
(`gbbs/encodings/byte_pd_amortized.h:172-265`, `gbbs/bridge.h:384-409`)
-/

namespace Gbbs.AM

open Gbbs Byte Blk EncSpec

variable {W : Type} {c : WCodec W} {ok : W → Prop}

/-! ## Model -/

/-- `bytepd_amortized::iter`, `byte_pd_amortized.h:173-186` (`base`, `src` and `degree` are passed as
arguments). -/
structure AIter (W : Type) where
  finger : Nat
  numBlocks : Nat
  chunk : Nat
  chunkDeg : Nat
  last : Nat × W
  inBlock : Nat
  total : Nat

/-- `last_edge = (eatFirstEdge(finger, src), eatWeight<W>(finger))`, `byte_pd_amortized.h:208-209`,
`221-222`, `248-249`. -/
def readFirst (c : WCodec W) (m : Mem) (pos src : Nat) : Option ((Nat × W) × Nat) :=
  match eatFirstEdge m pos src with
  | none => none
  | some (ngh, pos) =>
    match c.eat m pos with
    | none => none
    | some (w, pos) => some ((ngh, w), pos)

/-- The blocks visited by the constructor, `byte_pd_amortized.h:199-227`: block 0 and then, while the
block is empty, the following ones.  `k` is the number of blocks left.  When all blocks are empty
`last_edge` is left uninitialised (`none`). -/
def initFrom (c : WCodec W) (m : Mem) (a src degree nb : Nat) : (k i : Nat) → Option (AIter W)
  | 0, _ => none
  | k + 1, i =>
    let finger := blockFinger m a nb i
    let startOff := m.load32 finger
    let endOff := blockEnd m a nb degree i
    if startOff < endOff then
      match readFirst c m (finger + 4) src with
      | none => none
      | some (e, pos) => some ⟨pos, nb, i, endOff - startOff, e, 1, 1⟩
    else initFrom c m a src degree nb k (i + 1)

/-- `iter::iter(base, degree, src)`, `byte_pd_amortized.h:190-230`.  With degree 0 the members stay
uninitialised (`none`). -/
def AIter.init (c : WCodec W) (m : Mem) (a src degree : Nat) : Option (AIter W) :=
  if degree = 0 then none
  else
    let nb := AM.numBlocks (m.load32 a)
    initFrom c m a src degree nb nb 0

/-- `while (cur_chunk_degree == 0) { cur_chunk++; ... }`, `byte_pd_amortized.h:240-249`, entered with
`cur_chunk = i - 1`; result: the chunk, its degree (a `uintE` subtraction) and the finger behind the
block's start offset.  `k` is the number of blocks left; running past the last block reads beyond the
table of offsets (`none`). -/
def seekBlock (m : Mem) (a degree nb : Nat) : (k i : Nat) → Option (Nat × Nat × Nat)
  | 0, _ => none
  | k + 1, i =>
    let finger := blockFinger m a nb i
    let startOff := m.load32 finger
    let endOff := blockEnd m a nb degree i
    let d := (endOff + (uintEMod - startOff)) % uintEMod
    if d = 0 then seekBlock m a degree nb k (i + 1) else some (i, d, finger + 4)

/-- `iter::next`, `byte_pd_amortized.h:236-260`. -/
def AIter.next (c : WCodec W) (m : Mem) (a src degree : Nat) (it : AIter W) : Option (AIter W) :=
  if it.inBlock = it.chunkDeg then
    match seekBlock m a degree it.numBlocks (it.numBlocks - (it.chunk + 1)) (it.chunk + 1) with
    | none => none
    | some (i, d, pos) =>
      match readFirst c m pos src with
      | none => none
      | some (e, pos) => some ⟨pos, it.numBlocks, i, d, e, 1, it.total + 1⟩
  else
    match eatEdge m it.finger with
    | none => none
    | some (d, pos) =>
      match c.eat m pos with
      | none => none
      | some (w, pos) =>
        some { it with finger := pos, last := ((it.last.1 + d) % uintEMod, w),
                       inBlock := it.inBlock + 1, total := it.total + 1 }

/-- `iter::has_next`, `byte_pd_amortized.h:262-264`. -/
def AIter.hasNext (degree : Nat) (it : AIter W) : Bool := it.total < degree

/-- The iterator after its construction and `k` calls of `next`. -/
def AIter.steps (c : WCodec W) (m : Mem) (a src degree : Nat) : Nat → Option (AIter W)
  | 0 => AIter.init c m a src degree
  | k + 1 =>
    match AIter.steps c m a src degree k with
    | none => none
    | some it => it.next c m a src degree

/-- `filter_iter`, `gbbs/bridge.h:384-388`: the underlying iterator and `cur_val`. -/
structure FIter (W : Type) where
  it : AIter W
  cur : Nat × W

/-- `while (!pred(cur_val) && iter.has_next()) cur_val = iter.next();`, `gbbs/bridge.h:392-394`.  The
number of rounds is bounded by the entries left; the bound is never reached. -/
def FIter.skip (c : WCodec W) (m : Mem) (a src degree : Nat) (p : Nat × W → Bool) :
    Nat → FIter W → Option (FIter W)
  | 0, _ => none
  | k + 1, f =>
    if !p f.cur && f.it.hasNext degree then
      match f.it.next c m a src degree with
      | none => none
      | some it => FIter.skip c m a src degree p k ⟨it, it.last⟩
    else some f

/-- The constructor, `gbbs/bridge.h:390-395`. -/
def FIter.init (c : WCodec W) (m : Mem) (a src degree : Nat) (p : Nat × W → Bool) (it : AIter W) :
    Option (FIter W) :=
  FIter.skip c m a src degree p (degree - it.total + 1) ⟨it, it.last⟩

/-- `while (iter.has_next()) { cur_val = iter.next(); if (pred(cur_val)) break; }`,
`gbbs/bridge.h:400-405`; the number of rounds is bounded as in `skip`. -/
def FIter.nextLoop (c : WCodec W) (m : Mem) (a src degree : Nat) (p : Nat × W → Bool) :
    Nat → FIter W → Option (FIter W)
  | 0, _ => none
  | k + 1, f =>
    if f.it.hasNext degree then
      match f.it.next c m a src degree with
      | none => none
      | some it =>
        if p it.last then some ⟨it, it.last⟩
        else FIter.nextLoop c m a src degree p k ⟨it, it.last⟩
    else some f

/-- `filter_iter::next`, `gbbs/bridge.h:399-407`. -/
def FIter.next (c : WCodec W) (m : Mem) (a src degree : Nat) (p : Nat × W → Bool) (f : FIter W) :
    Option (FIter W) :=
  FIter.nextLoop c m a src degree p (degree - f.it.total + 1) f

/-- The rounds `eid = 1 .. deg-1` of `byte::sequentialCompressEdgeSet` with an iterator,
`gbbs/encodings/byte.h:289-296`. -/
def compressIterRest {I : Type} (c : WCodec W) (cur : I → Nat × W) (nxt : I → Option I) :
    Nat → Mem → Nat → Nat → I → Option (Mem × Nat)
  | 0, m, off, _, _ => some (m, off)
  | k + 1, m, off, prev, it =>
    match nxt it with
    | none => none
    | some it =>
      let difference := ((cur it).1 + (uintEMod - prev)) % uintEMod
      let (m, off) := compressEdge m off difference
      let (m, off) := c.compress m off (cur it).2
      compressIterRest c cur nxt k m off (cur it).1 it

/-- `byte::sequentialCompressEdgeSet(edgeArray, offset, deg, src, it)`,
`gbbs/encodings/byte.h:280-299`. -/
def compressIter {I : Type} (c : WCodec W) (cur : I → Nat × W) (nxt : I → Option I) (m : Mem)
    (off src deg : Nat) (it : I) : Option (Mem × Nat) :=
  match deg with
  | 0 => some (m, off)
  | k + 1 =>
    let (m, off) := compressFirstEdge m off src (cur it).1
    let (m, off) := c.compress m off (cur it).2
    compressIterRest c cur nxt k m off (cur it).1 it

/-! ## The iterator over a list -/

/-- The iterator stands on the first of the listed entries and `next` reaches the others. -/
def Yields {I : Type} (cur : I → Nat × W) (nxt : I → Option I) : I → List (Nat × W) → Prop
  | _, [] => True
  | it, e :: R => cur it = e ∧ (R ≠ [] → ∃ it', nxt it = some it' ∧ Yields cur nxt it' R)

/-- The blocks `i, i+1, …, nb-1`. -/
def tailFrom (blk : Nat → List (Nat × W)) (nb i : Nat) : List (Nat × W) :=
  (List.range' i (nb - i)).flatMap blk

theorem tailFrom_step (blk : Nat → List (Nat × W)) {nb i : Nat} (h : i < nb) :
    tailFrom blk nb i = blk i ++ tailFrom blk nb (i + 1) := by
  rw [tailFrom, show nb - i = (nb - (i + 1)) + 1 by omega, List.range'_succ, List.flatMap_cons]
  rfl

theorem tailFrom_zero (blk : Nat → List (Nat × W)) (vd : Nat) :
    tailFrom blk (numBlocks vd) 0 = live vd blk := by
  simp only [tailFrom, live, Nat.sub_zero, List.range_eq_range']

section lay

variable {L : Lawful c ok} {m : Mem} {a src vd ext : Nat} {offs cap : Nat → Nat}
  {orig blk : Nat → List (Nat × W)}

/-- The iterator stands on an entry of block `it.chunk`; `R` are the entries after it. -/
structure Pos (L : Lawful c ok) (m : Mem) (nb degree : Nat) (blk : Nat → List (Nat × W))
    (it : AIter W) (T R : List (Nat × W)) : Prop where
  nbEq : it.numBlocks = nb
  lt : it.chunk < nb
  atE : At L m ⟨it.finger, it.last⟩ (it.last :: T)
  deg : it.chunkDeg = (blk it.chunk).length
  inB : it.inBlock + T.length = (blk it.chunk).length
  tot : it.total + R.length = degree
  rest : R = T ++ tailFrom blk nb (it.chunk + 1)

theorem readFirst_blk (h : Lay L m a src vd ext offs cap orig blk) {i : Nat}
    (hi : i < numBlocks vd) {e : Nat × W} {T : List (Nat × W)} (he : blk i = e :: T) :
    ∃ pos, readFirst c m (a + offs i + 4) src = some (e, pos) ∧ At L m ⟨pos, e⟩ (e :: T) := by
  have hv := blk_valid h hi
  have hok := blk_ok h hi
  have hb := h.body i hi
  rw [he] at hv hok hb
  rw [encBlk_plain] at hb
  obtain ⟨n, w⟩ := e
  have hn : n < uintEMod := hv.bounded _ (List.mem_cons_self ..)
  have hc : Chain ok n T := chain_of_valid hv (fun e he => hok e (List.mem_cons_of_mem _ he))
  obtain ⟨e1, e2, e3⟩ := eat_first L h.srcLt hn (hok (n, w) (by simp)) hb
  exact ⟨_, by simp only [readFirst, e1, e2], rfl, e3, hc⟩

theorem initFrom_pos (h : Lay L m a src vd ext offs cap orig blk) (k : Nat) :
    ∀ i, i + k = numBlocks vd → tailFrom blk (numBlocks vd) i = live vd blk →
      live vd blk ≠ [] →
      ∃ it T R, initFrom c m a src (live vd blk).length (numBlocks vd) k i = some it ∧
        Pos L m (numBlocks vd) (live vd blk).length blk it T R ∧ it.last :: R = live vd blk := by
  induction k with
  | zero =>
    intro i hi ht hne
    exact absurd (by rw [← ht, tailFrom, show numBlocks vd - i = 0 by omega]; rfl) hne
  | succ k ih =>
    intro i hi ht hne
    have hib : i < numBlocks vd := by omega
    have hstep := tailFrom_step blk hib
    have e2 : st blk (i + 1) = st blk i + (blk i).length := rfl
    have hend := end_eq h hib
    rw [← st_length, e2] at hend
    simp only [initFrom, finger_eq h hib, h.start i hib, live] at *
    rw [hend]
    cases hb : blk i with
    | nil =>
      rw [if_neg (by simp)]
      exact ih (i + 1) (by omega) (by rw [← ht, hstep, hb]; rfl) hne
    | cons e T =>
      rw [if_pos (by simp)]
      obtain ⟨pos, hp, hat⟩ := readFirst_blk h hib hb
      rw [hp]
      refine ⟨_, T, T ++ tailFrom blk (numBlocks vd) (i + 1), rfl, ⟨rfl, hib, hat, ?_, ?_, ?_, rfl⟩, ?_⟩
      · simp [hb]
      · simp [hb]; omega
      · have := congrArg List.length (ht.symm.trans hstep)
        rw [hb] at this
        simp only [List.cons_append, List.length_cons] at this
        simp only
        omega
      · rw [← ht, hstep, hb]; rfl

theorem seekBlock_pos (h : Lay L m a src vd ext offs cap orig blk) (k : Nat) :
    ∀ i, i + k = numBlocks vd → tailFrom blk (numBlocks vd) i ≠ [] →
      (live vd blk).length < uintEMod →
      ∃ j e T, seekBlock m a (live vd blk).length (numBlocks vd) k i =
          some (j, (blk j).length, a + offs j + 4) ∧ j < numBlocks vd ∧ blk j = e :: T ∧
        tailFrom blk (numBlocks vd) i = e :: (T ++ tailFrom blk (numBlocks vd) (j + 1)) := by
  induction k with
  | zero =>
    intro i hi hne
    exact absurd (by rw [tailFrom, show numBlocks vd - i = 0 by omega]; rfl) hne
  | succ k ih =>
    intro i hi hne hlt
    have hib : i < numBlocks vd := by omega
    have hstep := tailFrom_step blk hib
    have e2 : st blk (i + 1) = st blk i + (blk i).length := rfl
    have hend := end_eq h hib
    have hm : st blk (i + 1) ≤ st blk (numBlocks vd) := scan_mono _ (by omega)
    simp only [live] at *
    rw [st_length] at hlt ih ⊢
    simp only [seekBlock, finger_eq h hib, h.start i hib, hend]
    have hd : (st blk (i + 1) + (uintEMod - st blk i)) % uintEMod = (blk i).length := by
      simp only [uintEMod] at *; omega
    rw [hd]
    cases hb : blk i with
    | nil =>
      rw [if_pos List.length_nil]
      rw [hstep, hb, List.nil_append] at hne ⊢
      exact ih (i + 1) (by omega) hne hlt
    | cons e T =>
      rw [if_neg (by simp)]
      exact ⟨i, e, T, by rw [hb], hib, hb, by rw [hstep, hb]; rfl⟩

theorem next_pos (h : Lay L m a src vd ext offs cap orig blk)
    (hlt : (live vd blk).length < uintEMod) {it : AIter W} {T R : List (Nat × W)} {e : Nat × W}
    (hp : Pos L m (numBlocks vd) (live vd blk).length blk it T (e :: R)) :
    ∃ it' T', it.next c m a src (live vd blk).length = some it' ∧
      Pos L m (numBlocks vd) (live vd blk).length blk it' T' R ∧ it'.last = e := by
  have htot := hp.tot
  simp only [List.length_cons] at htot
  cases T with
  | nil =>
    have hin := hp.inB
    have hr := hp.rest
    simp only [List.length_nil, Nat.add_zero, List.nil_append] at hin hr
    obtain ⟨j, e', T', h1, h2, h3, h4⟩ := seekBlock_pos h (numBlocks vd - (it.chunk + 1))
      (it.chunk + 1) (by have := hp.lt; omega) (by rw [← hr]; simp) hlt
    obtain ⟨pos, h5, h6⟩ := readFirst_blk h h2 h3
    rw [← hr] at h4
    obtain ⟨h4e, h7⟩ := List.cons.inj h4
    subst h4e
    refine ⟨⟨pos, numBlocks vd, j, (blk j).length, e, 1, it.total + 1⟩, T', by rw [AIter.next, if_pos (by rw [hin, hp.deg]), hp.nbEq, h1]; simp only [h5],
      ⟨rfl, h2, h6, rfl, ?_, ?_, h7⟩, rfl⟩
    · rw [h3]; simp only [List.length_cons]; omega
    · simp only; omega
  | cons x T =>
    have hin := hp.inB
    simp only [List.length_cons] at hin
    obtain ⟨n, w⟩ := x
    obtain ⟨h1, h2, h3⟩ := hp.atE
    obtain ⟨e1, e2, e3, e4⟩ := eat_step L h3 h2
    have hr := hp.rest
    simp only [List.cons_append] at hr
    obtain ⟨hre, hr2⟩ := List.cons.inj hr
    subst hre
    refine ⟨{ it with
        finger := it.finger + (encEdge (n - it.last.1)).length + (L.enc w).length
        last := (n, w), inBlock := it.inBlock + 1, total := it.total + 1 }, T, by rw [AIter.next, if_neg (by rw [hp.deg]; omega)]; simp only [e1, e3, e2],
      ⟨hp.nbEq, hp.lt, ⟨rfl, e4, h3.2.2.2⟩, hp.deg, ?_, ?_, hr2⟩, rfl⟩
    · simp only; omega
    · simp only; omega

end lay

/-- An `AIter` standing on the first of the listed entries, with `has_next` exact. -/
def YieldsH (c : WCodec W) (m : Mem) (a src degree : Nat) : AIter W → List (Nat × W) → Prop
  | _, [] => False
  | it, e :: R => it.last = e ∧ it.total + R.length = degree ∧
      (R ≠ [] → ∃ it', it.next c m a src degree = some it' ∧ YieldsH c m a src degree it' R)

theorem yields_pos {L : Lawful c ok} {m : Mem} {a src vd ext : Nat} {offs cap : Nat → Nat}
    {orig blk : Nat → List (Nat × W)} (h : Lay L m a src vd ext offs cap orig blk)
    (hlt : (live vd blk).length < uintEMod) (R : List (Nat × W)) :
    ∀ (it : AIter W) (T : List (Nat × W)),
      Pos L m (numBlocks vd) (live vd blk).length blk it T R →
      YieldsH c m a src (live vd blk).length it (it.last :: R) := by
  induction R with
  | nil => intro it T hp; exact ⟨rfl, hp.tot, fun h => absurd rfl h⟩
  | cons e R ih =>
    intro it T hp
    refine ⟨rfl, hp.tot, fun _ => ?_⟩
    obtain ⟨it', T', h1, h2, h3⟩ := next_pos h hlt hp
    exact ⟨it', h1, by rw [← h3]; exact ih it' T' h2⟩

theorem init_yields {L : Lawful c ok} {m : Mem} {a src ext vd : Nat} {edges : List (Nat × W)}
    (h : Represents L m a src ext vd edges) (hne : edges ≠ []) (hlt : edges.length < uintEMod) :
    ∃ it, AIter.init c m a src edges.length = some it ∧ YieldsH c m a src edges.length it edges := by
  obtain ⟨offs, cap, orig, blk, lay, rfl⟩ := h
  obtain ⟨it, T, R, h1, h2, h3⟩ := initFrom_pos lay (numBlocks vd) 0 (by omega) (tailFrom_zero blk vd) hne
  refine ⟨it, ?_, ?_⟩
  · rw [AIter.init, if_neg (fun h0 => hne (List.length_eq_zero_iff.1 h0)), lay.vdEq]
    exact h1
  · rw [← h3] at hlt ⊢
    rw [h3] at hlt ⊢
    have := yields_pos lay hlt R it T h2
    rwa [h3] at this

theorem steps_yields {m : Mem} {a src degree : Nat} {it : AIter W} {l : List (Nat × W)}
    (hi : AIter.init c m a src degree = some it) (hy : YieldsH c m a src degree it l) (k : Nat)
    (hk : k < l.length) :
    ∃ it', AIter.steps c m a src degree k = some it' ∧
      YieldsH c m a src degree it' (l.drop k) := by
  induction k with
  | zero => exact ⟨it, hi, hy⟩
  | succ k ih =>
    obtain ⟨it', h1, h2⟩ := ih (by omega)
    have e : l.drop k = l[k] :: l.drop (k + 1) := List.drop_eq_getElem_cons (by omega)
    rw [e] at h2
    have hne : l.drop (k + 1) ≠ [] := by
      intro h0
      have := congrArg List.length h0
      simp at this
      omega
    obtain ⟨it'', h3, h4⟩ := h2.2.2 hne
    exact ⟨it'', by simp only [AIter.steps, h1, h3], h4⟩

/-! ## The filtering iterator -/

theorem skip_yields {m : Mem} {a src degree : Nat} (p : Nat × W → Bool) (l : List (Nat × W)) :
    ∀ (it : AIter W) (k : Nat), YieldsH c m a src degree it l → degree - it.total < k →
      l.filter p ≠ [] →
      ∃ it' e R, FIter.skip c m a src degree p k ⟨it, it.last⟩ = some ⟨it', e⟩ ∧
        YieldsH c m a src degree it' (e :: R) ∧ l.filter p = e :: R.filter p := by
  induction l with
  | nil => intro it k h; exact absurd h id
  | cons e R ih =>
    intro it k hy hk hne
    obtain ⟨k, rfl⟩ : ∃ k', k = k' + 1 := ⟨k - 1, by omega⟩
    obtain ⟨rfl, h2, h3⟩ := hy
    by_cases hp : p it.last = true
    · refine ⟨it, it.last, R, by simp [FIter.skip, hp], ⟨rfl, h2, h3⟩, ?_⟩
      rw [List.filter_cons_of_pos hp]
    · rw [List.filter_cons_of_neg hp] at hne ⊢
      have hR : R ≠ [] := by rintro rfl; exact hne rfl
      have hpos : 0 < R.length := List.length_pos_iff.2 hR
      obtain ⟨it', h4, h5⟩ := h3 hR
      have htot : it.total < degree := by omega
      have ht' : degree - it'.total < k := by
        cases R with
        | nil => exact absurd rfl hR
        | cons x R =>
          have := h5.2.1
          simp only [List.length_cons] at h2
          omega
      obtain ⟨it'', e, R', h6, h7, h8⟩ := ih it' k h5 ht' hne
      refine ⟨it'', e, R', ?_, h7, h8⟩
      simp only [FIter.skip, AIter.hasNext, htot, hp, h4, decide_true, Bool.not_false, Bool.and_self,
        if_true, h6]

theorem nextLoop_yields {m : Mem} {a src degree : Nat} (p : Nat × W → Bool) (R : List (Nat × W)) :
    ∀ (it : AIter W) (cur e : Nat × W) (k : Nat), YieldsH c m a src degree it (e :: R) →
      degree - it.total < k → R.filter p ≠ [] →
      ∃ it' e' R', FIter.nextLoop c m a src degree p k ⟨it, cur⟩ = some ⟨it', e'⟩ ∧
        YieldsH c m a src degree it' (e' :: R') ∧ R.filter p = e' :: R'.filter p ∧
        R'.length < R.length := by
  induction R with
  | nil => intro it cur e k _ _ h; exact absurd rfl h
  | cons x R ih =>
    intro it cur e k hy hk hne
    obtain ⟨k, rfl⟩ : ∃ k', k = k' + 1 := ⟨k - 1, by omega⟩
    obtain ⟨h1, h2, h3⟩ := hy
    simp only [List.length_cons] at h2
    obtain ⟨it', h4, h5⟩ := h3 (by simp)
    have htot : it.total < degree := by omega
    have h5' := h5
    obtain ⟨h6, h7, h8⟩ := h5
    by_cases hp : p x = true
    · refine ⟨it', x, R, ?_, h5', by rw [List.filter_cons_of_pos hp],
        by simp⟩
      simp only [FIter.nextLoop, AIter.hasNext, htot, decide_true, if_true, h4, h6, hp]
    · rw [List.filter_cons_of_neg hp] at hne ⊢
      obtain ⟨it'', e', R', h9, h10, h11, h12⟩ := ih it' it'.last x k h5' (by omega) hne
      refine ⟨it'', e', R', ?_, h10, h11, by simp only [List.length_cons]; omega⟩
      simp only [FIter.nextLoop, AIter.hasNext, htot, decide_true, if_true, h4]
      rw [h6] at h9 ⊢
      simp only [hp, h9]
      rfl

theorem fiter_yields {m : Mem} {a src degree : Nat} (p : Nat × W → Bool) (n : Nat) :
    ∀ (it : AIter W) (e : Nat × W) (R : List (Nat × W)), R.length ≤ n →
      YieldsH c m a src degree it (e :: R) →
      Yields FIter.cur (FIter.next c m a src degree p) ⟨it, e⟩ (e :: R.filter p) := by
  induction n with
  | zero =>
    intro it e R hR _
    rw [List.length_eq_zero_iff.1 (Nat.le_zero.1 hR)]
    exact ⟨rfl, fun h => absurd rfl h⟩
  | succ n ih =>
    intro it e R hR hy
    refine ⟨rfl, fun hne => ?_⟩
    obtain ⟨it', e', R', h1, h2, h3, h4⟩ := nextLoop_yields p R it e e (degree - it.total + 1) hy
      (by omega) hne
    refine ⟨⟨it', e'⟩, h1, ?_⟩
    rw [h3]
    exact ih it' e' R' (by omega) h2

theorem nextLoop_end {m : Mem} {a src degree : Nat} (p : Nat × W → Bool) (R : List (Nat × W)) :
    ∀ (it : AIter W) (cur e : Nat × W) (k : Nat), YieldsH c m a src degree it (e :: R) →
      degree - it.total < k → R.filter p = [] →
      ∃ it', FIter.nextLoop c m a src degree p k ⟨it, cur⟩ = some ⟨it', R.getLastD cur⟩ := by
  induction R with
  | nil =>
    intro it cur e k hy hk _
    obtain ⟨k, rfl⟩ : ∃ k', k = k' + 1 := ⟨k - 1, by omega⟩
    have := hy.2.1
    simp only [List.length_nil] at this
    exact ⟨it, by simp [FIter.nextLoop, AIter.hasNext, show ¬ it.total < degree by omega]⟩
  | cons x R ih =>
    intro it cur e k hy hk hf
    obtain ⟨k, rfl⟩ : ∃ k', k = k' + 1 := ⟨k - 1, by omega⟩
    obtain ⟨h1, h2, h3⟩ := hy
    simp only [List.length_cons] at h2
    obtain ⟨it', h4, h5⟩ := h3 (by simp)
    have htot : it.total < degree := by omega
    have h5' := h5
    obtain ⟨h6, h7, h8⟩ := h5
    have hp : ¬ p x = true := by
      intro hp; rw [List.filter_cons_of_pos hp] at hf; cases hf
    rw [List.filter_cons_of_neg hp] at hf
    obtain ⟨it'', h9⟩ := ih it' it'.last x k h5' (by omega) hf
    refine ⟨it'', ?_⟩
    simp only [FIter.nextLoop, AIter.hasNext, htot, decide_true, if_true, h4]
    rw [h6] at h9 ⊢
    simp only [hp, h9]
    cases R <;> rfl

theorem init_fiter {m : Mem} {a src degree : Nat} {it : AIter W} {l : List (Nat × W)}
    (hy : YieldsH c m a src degree it l) (p : Nat × W → Bool) (hne : l.filter p ≠ []) :
    ∃ f, FIter.init c m a src degree p it = some f ∧
      Yields FIter.cur (FIter.next c m a src degree p) f (l.filter p) := by
  obtain ⟨it', e, R, h1, h2, h3⟩ := skip_yields p l it (degree - it.total + 1) hy (by omega) hne
  exact ⟨⟨it', e⟩, h1, by rw [h3]; exact fiter_yields p R.length it' e R (Nat.le_refl _) h2⟩

/-! ## Encoding through an iterator -/

theorem compressIterRest_eq {I : Type} (cur : I → Nat × W) (nxt : I → Option I)
    (R : List (Nat × W)) :
    ∀ (it : I) (m : Mem) (off : Nat), Yields cur nxt it (cur it :: R) →
      compressIterRest c cur nxt R.length m off (cur it).1 it =
        some (compressRest c m off (cur it).1 R) := by
  induction R with
  | nil => intro it m off _; rfl
  | cons e R ih =>
    intro it m off hy
    obtain ⟨it', h1, h2⟩ := hy.2 (by simp)
    obtain ⟨h3, h4⟩ := h2
    simp only [List.length_cons, compressIterRest, h1]
    rw [ih it' _ _ ⟨rfl, h4⟩, ← h3]
    simp only [compressRest]

theorem compressIter_eq {I : Type} (cur : I → Nat × W) (nxt : I → Option I) (l : List (Nat × W))
    (it : I) (m : Mem) (off src : Nat) (hy : Yields cur nxt it l) :
    compressIter c cur nxt m off src l.length it =
      some (Byte.sequentialCompressEdgeSet c m off src l) := by
  cases l with
  | nil => rfl
  | cons e R =>
    obtain ⟨h1, h2⟩ := hy
    subst h1
    simp only [List.length_cons, compressIter]
    rw [compressIterRest_eq cur nxt R it _ _ ⟨rfl, h2⟩]
    simp only [Byte.sequentialCompressEdgeSet]

/-! ## C133 -/

/-- `filter_iter` after its construction on a fresh `iter` and `k` calls of `next`. -/
def FIter.steps (c : WCodec W) (m : Mem) (a src degree : Nat) (p : Nat × W → Bool) :
    Nat → Option (FIter W)
  | 0 =>
    match AIter.init c m a src degree with
    | none => none
    | some it => FIter.init c m a src degree p it
  | k + 1 =>
    match FIter.steps c m a src degree p k with
    | none => none
    | some f => f.next c m a src degree p

/-- `auto iter = get_iter(); auto f_it = make_filter_iter(iter, pred);
byte::sequentialCompressEdgeSet(dst, off, deg, src, f_it)`, `gbbs/graph_mutation.h:131-134`.  `m` is the
memory of the input graph, `out` that of the result. -/
def filterCompress (c : WCodec W) (m : Mem) (a src degree : Nat) (p : Nat × W → Bool) (out : Mem)
    (off deg : Nat) : Option (Mem × Nat) :=
  match AIter.init c m a src degree with
  | none => none
  | some it =>
    match FIter.init c m a src degree p it with
    | none => none
    | some f => compressIter c FIter.cur (FIter.next c m a src degree p) out off src deg f

theorem yields_get {m : Mem} {a src degree : Nat} {p : Nat × W → Bool} {f : FIter W}
    {l : List (Nat × W)} (h0 : FIter.steps c m a src degree p 0 = some f)
    (hy : Yields FIter.cur (FIter.next c m a src degree p) f l) (k : Nat) (hk : k < l.length) :
    ∃ f', FIter.steps c m a src degree p k = some f' ∧
      Yields FIter.cur (FIter.next c m a src degree p) f' (l.drop k) := by
  induction k with
  | zero => exact ⟨f, h0, hy⟩
  | succ k ih =>
    obtain ⟨f', h1, h2⟩ := ih (by omega)
    rw [List.drop_eq_getElem_cons (show k < l.length by omega)] at h2
    have hne : l.drop (k + 1) ≠ [] := by
      intro h0
      have := congrArg List.length h0
      simp at this
      omega
    obtain ⟨f'', h3, h4⟩ := h2.2 hne
    exact ⟨f'', by simp only [FIter.steps, h1, h3], h4⟩

theorem iter_spec {L : Lawful c ok} {m : Mem} {a src ext vd : Nat} {edges : List (Nat × W)}
    (h : Represents L m a src ext vd edges) (hlt : edges.length < uintEMod) (k : Nat)
    (hk : k < edges.length) :
    ∃ it, AIter.steps c m a src edges.length k = some it ∧ edges[k]? = some it.last ∧
      it.hasNext edges.length = decide (k + 1 < edges.length) := by
  obtain ⟨it, h1, h2⟩ := init_yields h (by rintro rfl; simp at hk) hlt
  obtain ⟨it', h3, h4⟩ := steps_yields h1 h2 k hk
  refine ⟨it', h3, ?_⟩
  rw [List.drop_eq_getElem_cons hk] at h4
  have := h4.2.1
  simp only [List.length_drop] at this
  refine ⟨by rw [List.getElem?_eq_getElem hk, h4.1], ?_⟩
  rw [AIter.hasNext, decide_eq_decide]
  omega

theorem filter_spec {L : Lawful c ok} {m : Mem} {a src ext vd : Nat} {edges : List (Nat × W)}
    (h : Represents L m a src ext vd edges) (hlt : edges.length < uintEMod) (p : Nat × W → Bool) :
    (∀ k, k < (edges.filter p).length → ∃ f, FIter.steps c m a src edges.length p k = some f ∧
      (edges.filter p)[k]? = some f.cur) ∧
    (edges.filter p ≠ [] → ∀ out off,
      filterCompress c m a src edges.length p out off (edges.filter p).length =
        some (Byte.sequentialCompressEdgeSet c out off src (edges.filter p))) := by
  by_cases hne : edges.filter p = []
  · exact ⟨fun k hk => by simp [hne] at hk, fun h => absurd hne h⟩
  · have hne' : edges ≠ [] := by rintro rfl; exact hne rfl
    obtain ⟨it, h1, h2⟩ := init_yields h hne' hlt
    obtain ⟨f, h3, h4⟩ := init_fiter h2 p hne
    refine ⟨fun k hk => ?_, fun _ out off => ?_⟩
    · obtain ⟨f', h5, h6⟩ := yields_get (by simp only [FIter.steps, h1]; exact h3) h4 k hk
      rw [List.drop_eq_getElem_cons hk] at h6
      exact ⟨f', h5, by rw [List.getElem?_eq_getElem hk, h6.1]⟩
    · simp only [filterCompress, h1, h3]
      exact compressIter_eq _ _ _ _ _ _ _ h4

theorem filter_end {L : Lawful c ok} {m : Mem} {a src ext vd : Nat} {e : Nat × W}
    {R : List (Nat × W)} (h : Represents L m a src ext vd (e :: R))
    (hlt : (e :: R).length < uintEMod) (p : Nat × W → Bool) (hp : p e = true)
    (hR : R.filter p = []) :
    ∃ f, FIter.steps c m a src (e :: R).length p 1 = some f ∧ f.cur = R.getLastD e := by
  obtain ⟨it, h1, h2⟩ := init_yields h (by simp) hlt
  have h3 : FIter.init c m a src (e :: R).length p it = some ⟨it, it.last⟩ := by
    rw [FIter.init, FIter.skip]
    simp [h2.1, hp]
  obtain ⟨it', h4⟩ := nextLoop_end p R it it.last e ((e :: R).length - it.total + 1) h2 (by omega) hR
  refine ⟨⟨it', R.getLastD e⟩, ?_, rfl⟩
  simp only [FIter.steps, h1, h3, FIter.next]
  rw [h4, h2.1]

section claims

/-- A non-empty freshly encoded list after any history of `pack` calls still represents the entries
accepted by all predicates. -/
theorem history_represents (L : Lawful c ok) (hw : ∀ w, ok w → (L.enc w).length ≤ 5)
    (m : Mem) (a src : Nat) (edges : List (Nat × W))
    (hsrc : src < 4294967296) (hv : ValidList edges) (hok : ∀ e ∈ edges, ok e.2)
    (hpos : 0 < edges.length) (hlen : edges.length ≤ 300000000)
    (preds : List (Nat → Nat → W → Bool)) (m' : Mem) (d : Nat)
    (hp : Packs c a src ((sequentialCompressEdgeSet c m a src edges).1, edges.length) preds (m', d)) :
    d = (acceptedBy src preds edges).length ∧ d < uintEMod ∧
      ∃ ext vd, Represents L m' a src ext vd (acceptedBy src preds edges) := by
  obtain ⟨m1, b1, h1, _, hb, _, h4⟩ := encode_spec L hw m a src edges hsrc hv hok hlen
  rw [h1] at hp
  obtain ⟨offs, cap, lay⟩ := h4 hpos m1 (fun _ _ _ => rfl)
  have hrep : Represents L m1 a src (size L src edges) edges.length edges :=
    ⟨offs, cap, _, _, lay, live_block edges⟩
  obtain ⟨vd', g1, g2, g3⟩ := packs_represents hp hrep rfl
  have : (acceptedBy src preds edges).length ≤ edges.length := List.length_filter_le _ _
  simp only at g1
  exact ⟨g1, by simp only [uintEMod]; omega, _, _, g2⟩

/-- C133: encode a list with `bytepd_amortized` and run any history of `pack` calls under any schedules.
After `k` calls of `next` the iterator stands on the `k`-th remaining entry, with its weight, and
`has_next` tells whether there is another one; over it, `filter_iter` yields the accepted entries one
after the other, and encoding through it writes exactly the `byte` encoding of the accepted entries. -/
theorem C133_amortized_iter_int (m : Mem) (a src : Nat) (edges : List (Nat × Int))
    (hsrc : src < 4294967296) (hv : ValidList edges) (hok : ∀ e ∈ edges, Int32NotMin e.2)
    (hpos : 0 < edges.length) (hlen : edges.length ≤ 300000000)
    (preds : List (Nat → Nat → Int → Bool)) (m' : Mem) (d : Nat)
    (hp : Packs intCodec a src ((sequentialCompressEdgeSet intCodec m a src edges).1, edges.length) preds
      (m', d)) :
    let now := acceptedBy src preds edges
    d = now.length ∧
    (∀ k, k < d → ∃ it, AIter.steps intCodec m' a src d k = some it ∧ now[k]? = some it.last ∧
      it.hasNext d = decide (k + 1 < d)) ∧
    ∀ p : Nat × Int → Bool,
      (∀ k, k < (now.filter p).length → ∃ f, FIter.steps intCodec m' a src d p k = some f ∧
        (now.filter p)[k]? = some f.cur) ∧
      (now.filter p ≠ [] → ∀ out off, filterCompress intCodec m' a src d p out off (now.filter p).length =
        some (Byte.sequentialCompressEdgeSet intCodec out off src (now.filter p))) := by
  intro now
  obtain ⟨g1, g2, ext, vd, g3⟩ := history_represents intLawful intLawful_len m a src edges hsrc hv hok hpos
    hlen preds m' d hp
  subst g1
  exact ⟨rfl, fun k hk => iter_spec g3 g2 k hk, fun p => filter_spec g3 g2 p⟩

/-- C133, unweighted. -/
theorem C133_amortized_iter_unweighted (m : Mem) (a src : Nat) (edges : List (Nat × Unit))
    (hsrc : src < 4294967296) (hv : ValidList edges)
    (hpos : 0 < edges.length) (hlen : edges.length ≤ 300000000)
    (preds : List (Nat → Nat → Unit → Bool)) (m' : Mem) (d : Nat)
    (hp : Packs emptyCodec a src ((sequentialCompressEdgeSet emptyCodec m a src edges).1, edges.length) preds
      (m', d)) :
    let now := acceptedBy src preds edges
    d = now.length ∧
    (∀ k, k < d → ∃ it, AIter.steps emptyCodec m' a src d k = some it ∧ now[k]? = some it.last ∧
      it.hasNext d = decide (k + 1 < d)) ∧
    ∀ p : Nat × Unit → Bool,
      (∀ k, k < (now.filter p).length → ∃ f, FIter.steps emptyCodec m' a src d p k = some f ∧
        (now.filter p)[k]? = some f.cur) ∧
      (now.filter p ≠ [] → ∀ out off, filterCompress emptyCodec m' a src d p out off (now.filter p).length =
        some (Byte.sequentialCompressEdgeSet emptyCodec out off src (now.filter p))) := by
  intro now
  obtain ⟨g1, g2, ext, vd, g3⟩ := history_represents emptyLawful (fun w _ => emptyLawful_len w) m a src edges
    hsrc hv (fun _ _ => trivial) hpos hlen preds m' d hp
  subst g1
  exact ⟨rfl, fun k hk => iter_spec g3 g2 k hk, fun p => filter_spec g3 g2 p⟩

/-- C133: `filter_iter` has no `has_next`, and calling `next` after the last accepted entry returns a
rejected one: if the first entry is accepted and the (one or more) others are not, the second value is
the last entry of the list. -/
theorem C133_filter_iter_past_end_wrong (m : Mem) (a src : Nat) (e : Nat × Int) (R : List (Nat × Int))
    (hsrc : src < 4294967296) (hv : ValidList (e :: R)) (hok : ∀ x ∈ e :: R, Int32NotMin x.2)
    (hlen : (e :: R).length ≤ 300000000) (p : Nat × Int → Bool) (hp : p e = true)
    (hR : R.filter p = []) (hne : R ≠ []) :
    ∃ f, FIter.steps intCodec (sequentialCompressEdgeSet intCodec m a src (e :: R)).1 a src
        (e :: R).length p 1 = some f ∧ some f.cur = R.getLast? ∧ p f.cur = false := by
  obtain ⟨_, g2, ext, vd, g3⟩ := history_represents intLawful intLawful_len m a src (e :: R) hsrc hv hok
    (by simp) hlen [] _ _ (Packs.nil _)
  have hacc : acceptedBy src [] (e :: R) = e :: R := by simp [acceptedBy]
  rw [hacc] at g3
  obtain ⟨f, h1, h2⟩ := filter_end g3 g2 p hp hR
  have hl : R.getLast? = some (R.getLastD e) := by
    cases R with
    | nil => exact absurd rfl hne
    | cons x R => simp [List.getLast?_eq_some_getLast, List.getLast_eq_getLastD]
  refine ⟨f, h1, by rw [h2, hl], ?_⟩
  have hmem : R.getLastD e ∈ R := List.mem_of_getLast? hl
  rw [h2]
  have := List.filter_eq_nil_iff.1 hR _ hmem
  simpa using this

example : ValidList [(5, (7 : Int)), (9, -2), (4000000000, 1)] ∧
    [(5, (7 : Int)), (9, -2), (4000000000, 1)].filter (fun e => decide (e.2 = 7)) = [(5, 7)] :=
  ⟨⟨by decide, by decide⟩, by decide⟩

end claims

end Gbbs.AM
