import Verif.Convert.Converter

/-!
# `utils/converter` and `utils/compressor`: files that do not load as the graph

* lists longer than a block of the converter (256 entries by default, the loader assumes 1000);
* small graphs: the batches of the converter end before the last vertex;
* the default encoding of the converter (`byte`), which no loader reads;
* `-enc degree`, which writes no edges at all;
* weighted graphs given to the compressor, which reads them without their weights.
-/

namespace Gbbs.Convert

open Gbbs Byte Blk EncSpec

variable {W : Type} {c : WCodec W} {ok : W → Prop}

/-! ## Reading with the wrong block size -/

/-- Where block `i` of an encoded list starts, when block 0 starts at `o`. -/
def blockPos (L : Lawful c ok) (bs src : Nat) (all : List (Nat × W)) (o : Nat) : Nat → Nat
  | 0 => o
  | i + 1 => blockPos L bs src all o i + 4 + (encList L src (blockB bs all i)).length

theorem blockPos_mono (L : Lawful c ok) (bs src : Nat) (all : List (Nat × W)) (o : Nat) {i j : Nat}
    (h : i ≤ j) : blockPos L bs src all o i ≤ blockPos L bs src all o j := by
  induction h with
  | refl => exact Nat.le_refl _
  | step _ ih => rw [blockPos]; omega

theorem bodyBytes_has (L : Lawful c ok) (bs src : Nat) (all : List (Nat × W)) {M : Mem} {a o : Nat}
    (k i : Nat) (h : M.Has (a + blockPos L bs src all o i) (bodyBytes L bs src all k i)) :
    (∀ j, i ≤ j → j < i + k → M.Has (a + blockPos L bs src all o j) (le32 (j * bs))) ∧
    blockPos L bs src all o i + (bodyBytes L bs src all k i).length =
      blockPos L bs src all o (i + k) := by
  induction k generalizing i with
  | zero => exact ⟨fun j h1 h2 => by omega, by simp [bodyBytes]⟩
  | succ k ih =>
    simp only [bodyBytes, Mem.has_append, le32_length] at h
    obtain ⟨h1, _, h3⟩ := h
    have e : a + blockPos L bs src all o i + 4 + (encList L src (blockB bs all i)).length =
        a + blockPos L bs src all o (i + 1) := by rw [blockPos]; omega
    rw [e] at h3
    obtain ⟨i1, i2⟩ := ih (i + 1) h3
    refine ⟨fun j hj1 hj2 => ?_, ?_⟩
    · by_cases hj : j = i
      · subst hj; exact h1
      · exact i1 j (by omega) (by omega)
    · rw [show i + (k + 1) = i + 1 + k by omega, ← i2]
      simp only [bodyBytes, List.length_append, le32_length, blockPos]
      omega

theorem offBytes_has (L : Lawful c ok) (bs src : Nat) (all : List (Nat × W)) {M : Mem} {p o : Nat}
    (k i : Nat) (hi : i > 0)
    (h : M.Has (p + 4 * (i - 1)) (offBytes L bs src all k i (blockPos L bs src all o i))) :
    ∀ j, i ≤ j → j < i + k → M.Has (p + 4 * (j - 1)) (le32 (blockPos L bs src all o j)) := by
  induction k generalizing i with
  | zero => exact fun j h1 h2 => by omega
  | succ k ih =>
    simp only [offBytes, if_pos hi, Mem.has_append, le32_length] at h
    obtain ⟨h1, h2⟩ := h
    intro j hj1 hj2
    by_cases hj : j = i
    · subst hj; exact h1
    · refine ih (i + 1) (by omega) ?_ j (by omega) (by omega)
      rwa [show p + 4 * (i - 1) + 4 = p + 4 * (i + 1 - 1) by omega] at h2

/-- What a reader finds in an encoded list: the degree, the positions of the blocks, and at the
start of each block the number of its first entry. -/
theorem encBytes_has (L : Lawful c ok) (bs src : Nat) (all : List (Nat × W)) {M : Mem} {a : Nat}
    (hp : all.length > 0) (hsmall : (encBytes L bs src all).length < 4294967296)
    (hlen : all.length < 4294967296) (hbs : 0 < bs) (h : M.Has a (encBytes L bs src all)) :
    M.load32 a = all.length ∧
    ∀ i, 0 < i → i < 1 + (all.length - 1) / bs →
      0 < M.load32 (a + 4 + 4 * (i - 1)) ∧
      M.load32 (a + M.load32 (a + 4 + 4 * (i - 1))) = i * bs := by
  simp only [encBytes, if_pos hp] at h hsmall
  have hnb : 0 < 1 + (all.length - 1) / bs := Nat.add_pos_left Nat.one_pos _
  have hle : ((all.length - 1) / bs) * bs ≤ all.length - 1 := Nat.div_mul_le_self _ _
  generalize hq : (all.length - 1) / bs = q at *
  obtain ⟨nb, hnb'⟩ : ∃ nb, 1 + q = nb + 1 := ⟨q, by omega⟩
  rw [hnb'] at h hsmall
  simp only [Mem.has_append, le32_length, List.length_append, offBytes_length] at h hsmall
  obtain ⟨h1, h2, h3⟩ := h
  refine ⟨Mem.load32_of_has h1 hlen, fun i hi1 hi2 => ?_⟩
  simp only [offBytes, show ¬ (0 > 0) by omega, if_false, List.nil_append] at h2
  rw [show a + 4 + (if (0 : Nat) > 0 then 4 * (nb + 1) else 4 * (nb + 1 - 1)) = a + 4 * (nb + 1) by
    simp; omega] at h3
  have hb := bodyBytes_has L bs src all (a := a) (o := 4 * (nb + 1)) (nb + 1) 0 h3
  have ho := offBytes_has L bs src all (p := a + 4) (o := 4 * (nb + 1)) nb 1 (by omega) h2 i
    (by omega) (by omega)
  have hm : blockPos L bs src all (4 * (nb + 1)) i ≤ blockPos L bs src all (4 * (nb + 1)) (0 + (nb + 1)) :=
    blockPos_mono L bs src all _ (by omega)
  have hm0 : blockPos L bs src all (4 * (nb + 1)) 0 ≤ blockPos L bs src all (4 * (nb + 1)) i :=
    blockPos_mono L bs src all _ (by omega)
  have hz : blockPos L bs src all (4 * (nb + 1)) 0 = 4 * (nb + 1) := rfl
  have hb2 := hb.2
  rw [if_neg (by omega : ¬ (0 > 0))] at hsmall
  have e := Mem.load32_of_has ho (by omega)
  rw [e]
  refine ⟨by omega, Mem.load32_of_has (hb.1 i (by omega) (by omega)) ?_⟩
  have : i * bs ≤ q * bs := Nat.mul_le_mul_right _ (by omega)
  omega

/-- All calls recorded so far have an edge number other than 0. -/
def NoZero (s : List (Call W) × Bool) : Prop := ∀ x ∈ s.1, x.1 ≠ 0

theorem decodeLoop_noZero (ans : Nat → Nat → W → Nat → Bool) (M : Mem) (src : Nat) (k : Nat) :
    ∀ (i pos ngh : Nat) (s s' : List (Call W) × Bool), 0 < i → NoZero s →
      decodeLoop c (recordCb ans) M src k i pos ngh s = some s' → NoZero s' := by
  induction k with
  | zero => intro i pos ngh s s' _ hs h; cases h; exact hs
  | succ k ih =>
    intro i pos ngh s s' hi hs h
    have hs' : ∀ (n : Nat) (w : W) (b : Bool), NoZero (s.1 ++ [(i, n, w)], b) := by
      intro n w b x hx
      rcases List.mem_append.1 hx with hx | hx
      · exact hs x hx
      · simp at hx; subst hx; show i ≠ 0; omega
    rw [decodeLoop] at h
    cases h1 : eatEdge M pos with
    | none => simp [h1] at h
    | some dp =>
      simp only [h1] at h
      cases h2 : c.eat M dp.2 with
      | none => simp [h2] at h
      | some wp =>
        simp only [h2, recordCb] at h
        cases h3 : ans src ((ngh + dp.1) % uintEMod) wp.1 i with
        | true => simp only [h3] at h; exact ih _ _ _ _ _ (by omega) (hs' _ _ _) h
        | false => simp only [h3] at h; cases h; exact hs' _ _ _

theorem decodeFrom_noZero (ans : Nat → Nat → W → Nat → Bool) (M : Mem) (pos src deg o : Nat)
    (s s' : List (Call W) × Bool) (ho : 0 < o) (hs : NoZero s)
    (h : decodeFrom c (recordCb ans) M pos src deg o s = some s') : NoZero s' := by
  cases deg with
  | zero => cases h; exact hs
  | succ k =>
    have hs' : ∀ (n : Nat) (w : W) (b : Bool), NoZero (s.1 ++ [(o, n, w)], b) := by
      intro n w b x hx
      rcases List.mem_append.1 hx with hx | hx
      · exact hs x hx
      · simp at hx; subst hx; show o ≠ 0; omega
    rw [decodeFrom] at h
    cases h1 : eatFirstEdge M pos src with
    | none => simp [h1] at h
    | some dp =>
      simp only [h1] at h
      cases h2 : c.eat M dp.2 with
      | none => simp [h2] at h
      | some wp =>
        simp only [h2, recordCb] at h
        cases h3 : ans src dp.1 wp.1 o with
        | true =>
          simp only [h3] at h
          exact decodeLoop_noZero ans M src k _ _ _ _ _ (by omega) (hs' _ _ _) h
        | false => simp only [h3] at h; cases h; exact hs' _ _ _

theorem blockRun_noZero (ans : Nat → Nat → W → Nat → Bool) (M : Mem) (a src deg nb i : Nat)
    (s s' : List (Call W) × Bool) (ho : 0 < M.load32 (AM.blockFinger M a nb i)) (hs : NoZero s)
    (h : AM.blockRun c (recordCb ans) M a src deg nb i s = some s') : NoZero s' := by
  rw [AM.blockRun] at h
  split at h
  · exact decodeFrom_noZero ans M _ _ _ _ _ _ ho hs h
  · cases h; exact hs

theorem decodeSeqLoop_noZero (ans : Nat → Nat → W → Nat → Bool) (M : Mem) (a src deg nb : Nat)
    (hf : ∀ i, i < nb → 0 < M.load32 (AM.blockFinger M a nb i)) (k : Nat) :
    ∀ (i : Nat) (s : List (Call W) × Bool) (cs : List (Call W)), i + k ≤ nb → NoZero s →
      AM.decodeSeqLoop c ans M a src deg nb k i s = some cs → NoZero (cs, true) := by
  induction k with
  | zero => intro i s cs _ hs h; cases h; exact hs
  | succ k ih =>
    intro i s cs hik hs h
    rw [AM.decodeSeqLoop] at h
    cases h1 : AM.blockRun c (recordCb ans) M a src deg nb i s with
    | none => simp [h1] at h
    | some s' =>
      obtain ⟨cs', b⟩ := s'
      have := blockRun_noZero ans M a src deg nb i s _ (hf i (by omega)) hs h1
      cases b with
      | true => simp only [h1] at h; exact ih (i + 1) _ _ (by omega) this h
      | false => simp only [h1] at h; cases h; exact this

/-- A list that occupies more blocks in the file than the loader expects is never read correctly:
no traversal makes the first call it should make. -/
theorem misread (L : Lawful c ok) {bs : Nat} (hbs : 0 < bs) (src : Nat) (l : List (Nat × W))
    {M : Mem} {a : Nat} (hsmall : (encBytes L bs src l).length < 4294967296)
    (hlen : l.length < 4294967296) (hmore : (l.length - 1) / 1000 < (l.length - 1) / bs)
    (h : M.Has a (encBytes L bs src l)) (ans : Nat → Nat → W → Nat → Bool) :
    AM.decodeWeighted c ans M a src l.length ≠ some (callsUntil ans src 0 l) ∧
    AM.decodeUnweighted c ans M a src l.length ≠ some (blockedCalls ans src l) := by
  have hp : l.length > 0 := by
    refine Nat.pos_of_ne_zero (fun h0 => ?_)
    rw [h0] at hmore
    simp at hmore
  obtain ⟨h1, h2⟩ := encBytes_has L bs src l hp hsmall hlen hbs h
  have hf : ∀ i, i < AM.numBlocks l.length →
      0 < M.load32 (AM.blockFinger M a (AM.numBlocks l.length) i) := by
    intro i hi
    simp only [AM.numBlocks, parallelDegree] at hi ⊢
    by_cases hi0 : i > 0
    · rw [AM.blockFinger, if_pos hi0, (h2 i hi0 (by omega)).2]
      exact Nat.mul_pos hi0 hbs
    · rw [AM.blockFinger, if_neg hi0]
      have := (h2 (1 + (l.length - 1) / 1000) (by omega) (by omega)).1
      rwa [show a + 4 + 4 * (1 + (l.length - 1) / 1000 - 1) =
        a + (1 + (l.length - 1) / 1000 - 1) * 4 + 4 by omega] at this
  obtain ⟨⟨v, w⟩, rest, hl⟩ : ∃ e rest, l = e :: rest := by
    cases l with
    | nil => simp at hp
    | cons e rest => exact ⟨e, rest, rfl⟩
  constructor
  · intro hc
    rw [AM.decodeWeighted, if_pos hp, h1] at hc
    have := decodeSeqLoop_noZero ans M a src l.length _ hf _ 0 _ _ (by omega)
      (by intro x hx; simp at hx) hc
    refine this (0, v, w) ?_ rfl
    show (0, v, w) ∈ callsUntil ans src 0 l
    rw [hl, callsUntil]
    exact List.mem_cons_self ..
  · intro hc
    have hfst : ∃ cs tl, blockedCalls ans src l = cs :: tl ∧ (0, v, w) ∈ cs := by
      rw [blockedCalls, if_neg (by omega)]
      have hmem : (0, v, w) ∈ callsUntil ans src 0 (block l 0) := by
        rw [hl]; simp [block, callsUntil]
      split
      · rw [Nat.add_comm, List.range_succ_eq_map, List.map_cons]
        exact ⟨_, _, rfl, by rw [Nat.zero_mul]; exact hmem⟩
      · exact ⟨_, _, rfl, hmem⟩
    obtain ⟨cs, tl, he, hmem⟩ := hfst
    rw [he, AM.decodeUnweighted, if_pos hp, h1] at hc
    dsimp only at hc
    cases h3 : AM.blockRun c (recordCb ans) M a src l.length (AM.numBlocks l.length) 0 ([], true) with
    | none => simp [h3] at hc
    | some s =>
      have hn := blockRun_noZero ans M a src l.length _ 0 _ _
        (hf 0 (Nat.add_pos_left Nat.one_pos _)) (by intro x hx; simp at hx) h3
      obtain ⟨cs', b⟩ := s
      have : cs' = cs := by
        cases b with
        | false => simp only [h3] at hc; simpa using (List.cons.inj (Option.some.inj hc)).1
        | true =>
          simp only [h3] at hc
          split at hc
          · cases hc
          · exact (List.cons.inj (Option.some.inj hc)).1
      subst this
      exact hn _ hmem rfl

/-- Every graph with a list of 257 to 1000 neighbours, converted with the default block size, loads
as another graph, whatever else is in the file. -/
theorem converter_blocksize (L : Lawful c ok) {bs : Nat} (hbs : 0 < bs) (g : Adj W)
    (ha : Accepted ok g) {nBatches : Nat}
    (hsmall : ∀ u, u ≤ g.n → offsets c bs g.out u < 4294967296)
    (runs : Nat → Run) (hr : RunsOk nBatches g.n runs) (v : Nat)
    (hv : v < min (numBlocksP g.n nBatches * numBlocksP g.n nBatches) g.n)
    (hmore : ((g.out v).length - 1) / 1000 < ((g.out v).length - 1) / bs) :
    ∃ file, converterSym c bs nBatches g runs = some file ∧ ∀ M : Mem, M.Has 0 file →
      (readSymmetric M).degree v = (g.out v).length ∧
      (∀ ans, (readSymmetric M).mapW c M ans v ≠ some (callsUntil ans v 0 (g.out v))) ∧
      (∀ ans, (readSymmetric M).mapU c M ans v ≠ some (blockedCalls ans v (g.out v))) := by
  have hn : g.n ≤ uintEMod := by have := ha.n; simp only [uintEMod]; omega
  refine ⟨_, converterSym_eq L hbs ha runs hr, fun M hM => ?_⟩
  simp only [Mem.has_append, le64_length, tables_length] at hM
  obtain ⟨h1, _, _, h4, h5⟩ := hM
  rw [tables, Mem.has_append] at h4
  have hvn : v < g.n := by omega
  have hgv := ha.out v hvn
  have e1 : load64 M 0 = g.n := load64_of_has h1 (by have := ha.n; omega)
  have hoff := hsmall v (by omega)
  have hoff1 := hsmall (v + 1) (by omega)
  have e2 := load64_of_has (has_flatMap_const (fun i => le64_length (offsets c bs g.out i)) h4.1 v
    (by omega)) (by omega)
  have hl : ((List.range (g.n + 1)).flatMap fun i => le64 (offsets c bs g.out i)).length =
      (g.n + 1) * 8 := by rw [flatMap_length]; simp only [le64_length, scan_const]
  rw [hl] at h4
  have e3 := has_flatMap_const (fun i => le32_length (degrees c bs g.out i)) h4.2 v hvn
  rw [degrees_eq L hbs (by omega) hgv] at e3
  have e3 := Mem.load32_of_has e3 (by have := hgv.len; omega)
  rw [offsets_eq L hbs hn ha.out (by omega)] at e2 hoff hoff1
  rw [AM.scan] at hoff1
  have e5 := has_flatMap.1 h5 v hv
  have k1 : (readSymmetric M).degree v = (g.out v).length := by
    simp only [readSymmetric, e1]
    rw [← e3]
  have k2 : (readSymmetric M).edges + (readSymmetric M).offset v =
      0 + 8 + 8 + 8 + ((g.n + 1) * 8 + g.n * 4) +
        AM.scan (fun j => (encBytes L bs j (g.out j)).length) v := by
    simp only [readSymmetric, e1]
    rw [show 3 * 8 + v * 8 = 0 + 8 + 8 + 8 + v * 8 by omega, e2]; omega
  refine ⟨k1, fun ans => ?_, fun ans => ?_⟩
  · rw [Loaded.mapW, k1, k2]
    exact (misread L hbs v (g.out v) (by omega) (by have := hgv.len; omega) hmore e5 ans).1
  · rw [Loaded.mapU, k1, k2]
    exact (misread L hbs v (g.out v) (by omega) (by have := hgv.len; omega) hmore e5 ans).2

/-- A schedule exists for every graph. -/
theorem runs_exist (nBatches n : Nat) : ∃ runs, RunsOk nBatches n runs := by
  refine ⟨fun j => ⟨0, fun _ => 0, List.range'
    ((batches (numBlocksP n nBatches) n (numBlocksP n nBatches) 0).getD j (0, 0)).1
    (((batches (numBlocksP n nBatches) n (numBlocksP n nBatches) 0).getD j (0, 0)).2 -
      ((batches (numBlocksP n nBatches) n (numBlocksP n nBatches) 0).getD j (0, 0)).1)⟩, ?_⟩
  intro j hj
  generalize numBlocksP n nBatches = b at hj ⊢
  obtain ⟨_, _, _, h2, _⟩ := batches_spec b n b 0 (by omega)
  have hx := h2 _ (List.getElem_mem hj)
  refine ⟨List.nodup_range', fun v => ?_⟩
  show v ∈ List.range' _ _ ↔ _
  rw [show (batches b n b 0).getD j (0, 0) = (batches b n b 0)[j] by
    rw [List.getD_eq_getElem?_getD, List.getElem?_eq_getElem hj, Option.getD_some]]
  rw [List.mem_range'_1]
  omega

/-- C125, block size: converted with the default block size and loaded, a graph of more than 30
vertices in which `v` has 257 to 1000 neighbours has the right degree at `v`, but no traversal of
the neighbours of `v` is right. -/
theorem C125_blocksize (g : Adj Unit) (ha : Accepted (fun _ => True) g) (hn : 30 < g.n)
    (hsmall : offsets emptyCodec 256 g.out g.n < 4294967296)
    (runs : Nat → Run) (hr : RunsOk 6 g.n runs) (v : Nat) (hv : v < g.n)
    (h1 : 256 < (g.out v).length) (h2 : (g.out v).length ≤ 1000) :
    ∃ file, converterSym emptyCodec 256 6 g runs = some file ∧ ∀ M : Mem, M.Has 0 file →
      (readSymmetric M).degree v = (g.out v).length ∧
      (∀ ans, (readSymmetric M).mapW emptyCodec M ans v ≠ some (callsUntil ans v 0 (g.out v))) ∧
      (∀ ans, (readSymmetric M).mapU emptyCodec M ans v ≠ some (blockedCalls ans v (g.out v))) := by
  refine converter_blocksize emptyLawful (by decide) g ha (fun u hu => ?_) runs hr v ?_ ?_
  · exact Nat.lt_of_le_of_lt (AM.scan_mono _ hu) hsmall
  · have := (batches_cover g.n).2 (Or.inr (Or.inr hn)); omega
  · rw [Nat.div_eq_of_lt (by omega : (g.out v).length - 1 < 1000)]
    exact Nat.div_pos (by omega) (by decide)

/-- A star with 300 leaves. -/
def star300 : Adj Unit :=
  { n := 301, m := 600
    out := fun v => if v = 0 then (List.range' 1 300).map fun x => (x, ()) else [(0, ())]
    inn := fun v => if v = 0 then (List.range' 1 300).map fun x => (x, ()) else [(0, ())] }

theorem star300_accepted : Accepted (fun _ => True) star300 := by
  have hg : Good (fun _ : Unit => True) ((List.range' 1 300).map fun x => (x, ())) := by
    refine ⟨⟨?_, ?_⟩, by simp, by simp⟩
    rotate_left
    · intro e he
      obtain ⟨x, hx, rfl⟩ := List.mem_map.1 he
      have := List.mem_range'_1.1 hx
      show x < 4294967296; omega
    · rw [List.map_map]
      show List.Pairwise _ (List.map (fun x => x) _)
      rw [List.map_id']
      exact List.pairwise_lt_range' 1 (by decide)
  refine ⟨by decide, by decide, ?_, ?_⟩ <;>
  · intro v _
    simp only [star300]
    split
    · exact hg
    · exact ⟨⟨by decide, by decide⟩, by simp, by decide⟩

example : ∃ runs, Accepted (fun _ => True) star300 ∧ 30 < star300.n ∧
    offsets emptyCodec 256 star300.out star300.n < 4294967296 ∧ RunsOk 6 star300.n runs ∧
    256 < (star300.out 0).length ∧ (star300.out 0).length ≤ 1000 := by
  obtain ⟨runs, hr⟩ := runs_exist 6 star300.n
  exact ⟨runs, star300_accepted, by decide, by decide +kernel, hr, by decide +kernel,
    by decide +kernel⟩

/-! ## C125, what holds -/

/-- C125 for graphs without weights, the encoding `bytepd-amortized` and the default of six batches:
right for more than 30 vertices when no list is longer than a block. -/
theorem C125_converter_partial (bs : Nat) (hbs : 0 < bs) (g : Adj Unit)
    (ha : Accepted (fun _ => True) g)
    (hd : bs = 1000 ∨ ∀ v, v < g.n → (g.out v).length ≤ bs ∧ (g.out v).length ≤ 1000)
    (hn : 30 < g.n) (runs : Nat → Run) (hr : RunsOk 6 g.n runs) :
    ∃ file, converterSym emptyCodec bs 6 g runs = some file ∧ ∀ M : Mem, M.Has 0 file →
      (readSymmetric M).n = g.n ∧ (readSymmetric M).m = g.m ∧
      Shows emptyCodec M g.n g.out (readSymmetric M) :=
  converter_partial emptyLawful (fun w _ => emptyLawful_len w) hbs g ha hd
    ((batches_cover g.n).2 (Or.inr (Or.inr hn))) runs hr

/-- The star with block size 1000, and with 300. -/
example : Accepted (fun _ => True) star300 ∧ 30 < star300.n ∧
    (∀ v, v < star300.n → (star300.out v).length ≤ 300 ∧ (star300.out v).length ≤ 1000) ∧
    ∃ runs, RunsOk 6 star300.n runs := by
  refine ⟨star300_accepted, by decide, fun v _ => ?_, runs_exist _ _⟩
  simp only [star300]
  split <;> simp

/-- For 2 to 24 and 26 to 30 vertices the last vertex is not in the file: its list starts at the
end of the file, or later. -/
theorem C125_truncated (bs : Nat) (hbs : 0 < bs) (g : Adj Unit) (ha : Accepted (fun _ => True) g)
    (hn : 1 < g.n) (hn2 : g.n ≠ 25) (hn3 : g.n ≤ 30)
    (hsmall : offsets emptyCodec bs g.out g.n < 18446744073709551616)
    (runs : Nat → Run) (hr : RunsOk 6 g.n runs) :
    ∃ file, converterSym emptyCodec bs 6 g runs = some file ∧ ∀ M : Mem, M.Has 0 file →
      file.length ≤ (readSymmetric M).edges + (readSymmetric M).offset (g.n - 1) := by
  have hc := mt (batches_cover g.n).1 (by omega)
  refine ⟨_, converterSym_eq emptyLawful hbs ha runs hr, fun M hM => ?_⟩
  exact converter_truncated emptyLawful hbs g ha runs hr (g.n - 1) (by omega) (by omega) _
    (converterSym_eq emptyLawful hbs ha runs hr)
    (fun u hu => Nat.lt_of_le_of_lt (AM.scan_mono _ hu) hsmall) M hM

/-! ## Small graphs -/

/-- The graph with two vertices and one edge. -/
def k2 : Adj Unit :=
  { n := 2, m := 2, out := fun v => if v = 0 then [(1, ())] else [(0, ())]
    inn := fun v => if v = 0 then [(1, ())] else [(0, ())] }

theorem k2_accepted : Accepted (fun _ => True) k2 := by
  refine ⟨by decide, by decide, ?_, ?_⟩ <;>
  · intro v _
    simp only [k2]
    split <;> exact ⟨⟨by decide, by decide⟩, by simp, by decide⟩

/-- A memory that holds a file at address 0 and zeros after it. -/
def fileMem (file : List UInt8) : Mem := fun i => file.getD i 0

theorem has_fileMem (file : List UInt8) : (fileMem file).Has 0 file := by
  have : ∀ (l pre : List UInt8) , (fileMem (pre ++ l)).Has pre.length l := by
    intro l
    induction l with
    | nil => intro pre; trivial
    | cons b l ih =>
      intro pre
      refine ⟨by simp [fileMem], ?_⟩
      have := ih (pre ++ [b])
      simpa using this
  exact this file []

/-- Converted with the right encoding, whatever the block size, and whatever the schedule, the graph
with one edge loads without that edge at vertex 1: its bytes are missing in the file.  Where zeros
follow, vertex 1 is its own neighbour. -/
theorem C125_small (bs : Nat) (hbs : 0 < bs) (runs : Nat → Run) (hr : RunsOk 6 2 runs) :
    ∃ file, converterSym emptyCodec bs 6 k2 runs = some file ∧
      file.length = (readSymmetric (fileMem file)).edges + (readSymmetric (fileMem file)).offset 1 ∧
      (readSymmetric (fileMem file)).degree 1 = 1 ∧
      (readSymmetric (fileMem file)).mapW emptyCodec (fileMem file) (fun _ _ _ _ => true) 1 =
        some [(0, 1, ())] := by
  have hd : bs = 1000 ∨ ∀ v, v < 2 → (k2.out v).length ≤ bs ∧ (k2.out v).length ≤ 1000 := by
    refine Or.inr (fun v _ => ?_)
    simp only [k2]
    split <;> simp <;> omega
  have hs := converter_sizes emptyLawful hbs (by decide : 2 ≤ uintEMod) k2_accepted.out hd
  refine ⟨_, converterSym_eq emptyLawful hbs k2_accepted runs hr, ?_⟩
  rw [show k2.n = 2 from rfl, hs.1 2 (by omega), hs.2]
  have : ((List.range (min (numBlocksP 2 6 * numBlocksP 2 6) 2)).flatMap fun v =>
      encBytes emptyLawful bs v (k2.out v)) = encBytes emptyLawful 1000 0 [(1, ())] := by
    rw [← encBytes_small emptyLawful (bs := bs) 0 (l := [(1, ())]) (Or.inr ⟨hbs, by decide⟩)]
    simp [numBlocksP, k2]
  rw [this]
  decide +kernel

example : (∃ runs, RunsOk 6 2 runs) ∧ offsets emptyCodec 256 k2.out k2.n < 18446744073709551616 ∧
    Accepted (fun _ => True) k2 ∧ 1 < k2.n ∧ k2.n ≠ 25 ∧ k2.n ≤ 30 :=
  ⟨runs_exist 6 2, by decide +kernel, k2_accepted, by decide, by decide, by decide⟩

/-! ## The default encoding -/

/-- With the default encoding the same graph loads with another neighbour at vertex 1. -/
theorem C125_default_encoding :
    let file := converterByte emptyCodec k2 0 (fun _ => 0)
    (readSymmetric (fileMem file)).degree 1 = 1 ∧
    (readSymmetric (fileMem file)).mapW emptyCodec (fileMem file) (fun _ _ _ _ => true) 1 ≠
      some (callsUntil (fun _ _ _ _ => true) 1 0 (k2.out 1)) := by
  decide +kernel

/-! ## `-enc degree` -/

theorem reorderPass_zero (newId : Nat) (nghs : List Nat) (h : nghs.length ≤ 8192) :
    reorderPass newId nghs = some (0, 0) := by
  by_cases hp : nghs.length > 0
  · simp [reorderPass, hp, show ¬ nghs.length > 8192 by omega, sizeLoop]
  · simp [reorderPass, hp]

theorem reorderPass_ub (newId : Nat) (nghs : List Nat) (h : 8192 < nghs.length) :
    reorderPass newId nghs = none := by
  simp [reorderPass, show nghs.length > 0 by omega, h]

/-- `-enc degree`: whatever the graph and the ranking, the file says that every vertex has degree
0. -/
theorem C125_degree (g : Adj Unit) (hn : g.n ≤ 4294967295) (rank : Nat → Nat)
    (h : ∀ v, v < g.n → (g.out v).length ≤ 8192) :
    ∃ file, converterDegree g rank = some file ∧ ∀ M : Mem, M.Has 0 file →
      (readSymmetric M).n = g.n ∧ ∀ v, v < g.n → (readSymmetric M).degree v = 0 := by
  have hrows : (List.range g.n).mapM
      (fun i => reorderPass (rank i) ((g.out i).map fun e => rank e.1)) =
      some ((List.range g.n).map fun _ => ((0, 0) : Nat × Nat)) := by
    have : ∀ l : List Nat, (∀ v ∈ l, v < g.n) →
        l.mapM (fun i => reorderPass (rank i) ((g.out i).map fun e => rank e.1)) =
          some (l.map fun _ => ((0, 0) : Nat × Nat)) := by
      intro l
      induction l with
      | nil => intro _; rfl
      | cons v l ih =>
        intro hl
        rw [List.mapM_cons, reorderPass_zero _ _ (by
          rw [List.length_map]; exact h v (hl v (by simp))),
          ih (fun w hw => hl w (by simp [hw]))]
        rfl
    exact this _ (fun v hv => List.mem_range.1 hv)
  have hget : ∀ i, (((List.range g.n).map fun _ => ((0, 0) : Nat × Nat)).getD i (0, 0)) = (0, 0) := by
    intro i
    rw [List.getD_eq_getElem?_getD, List.getElem?_map]
    cases (List.range g.n)[i]? <;> rfl
  rw [converterDegree, hrows]
  dsimp only
  rw [if_pos (by simp)]
  refine ⟨_, rfl, fun M hM => ?_⟩
  simp only [hget, Mem.has_append, le64_length] at hM
  obtain ⟨h1, _, _, h4, h5⟩ := hM
  have e1 : load64 M 0 = g.n := load64_of_has h1 (by omega)
  refine ⟨e1, fun v hv => ?_⟩
  rw [flatMap_length] at h5
  simp only [le64_length, scan_const] at h5
  have := Mem.load32_of_has (has_flatMap_const (fun _ => le32_length 0) h5 v hv) (by decide)
  simp only [readSymmetric, e1]
  exact this

/-- … and for a vertex with more than 8192 neighbours it writes outside its array. -/
theorem C125_degree_ub (g : Adj Unit) (rank : Nat → Nat) (v : Nat) (hv : v < g.n)
    (h : 8192 < (g.out v).length) : converterDegree g rank = none := by
  have : (List.range g.n).mapM
      (fun i => reorderPass (rank i) ((g.out i).map fun e => rank e.1)) = none := by
    have : ∀ l : List Nat, v ∈ l →
        l.mapM (fun i => reorderPass (rank i) ((g.out i).map fun e => rank e.1)) = none := by
      intro l
      induction l with
      | nil => intro hm; simp at hm
      | cons w l ih =>
        intro hm
        rw [List.mapM_cons]
        by_cases hw : w = v
        · subst hw; rw [reorderPass_ub _ _ (by rw [List.length_map]; exact h)]; rfl
        · rw [ih (by simpa [Ne.symm hw] using hm)]
          cases reorderPass (rank w) ((g.out w).map fun e => rank e.1) <;> rfl
    exact this _ (List.mem_range.2 hv)
  rw [converterDegree, this]

example : k2.n ≤ 4294967295 ∧ ∀ v, v < k2.n → 0 < (k2.out v).length ∧ (k2.out v).length ≤ 8192 := by
  refine ⟨by decide, fun v _ => ?_⟩
  simp only [k2]
  split <;> simp

example : ∃ g : Adj Unit, 0 < g.n ∧ 8192 < (g.out 0).length :=
  ⟨{ n := 8194, m := 8193, out := fun v => if v = 0 then (List.range' 1 8193).map fun x => (x, ()) else []
     inn := fun v => if v = 0 then [] else [(0, ())] }, by decide, by simp⟩

/-! ## Weights -/

/-- What `generate_main` (`gbbs/benchmark.h:103-133`) makes of a weighted adjacency graph file: the
unweighted parser (`gbbs/graph_io.cc:64-83`) takes the first `m` entries after the offsets, which
are the neighbours, and ignores the weights that follow (the header and the number of entries are
checked in debug builds only). -/
def forget (g : Adj W) : Adj Unit :=
  { n := g.n, m := g.m, out := fun v => (g.out v).map fun e => (e.1, ())
    inn := fun v => (g.inn v).map fun e => (e.1, ()) }

/-- The graph with one edge of weight `w`. -/
def k2w (w : Int) : Adj Int :=
  { n := 2, m := 2, out := fun v => if v = 0 then [(1, w)] else [(0, w)]
    inn := fun v => if v = 0 then [(1, w)] else [(0, w)] }

/-- Compressed by the command of the README for weighted graphs and loaded as the README says,
the graph with one edge of weight 5 has an edge of weight 1: its weight was never written, and the
first byte of the list of vertex 1 is taken for it. -/
theorem C124_weights_lost :
    ∃ file, compressor emptyCodec (forget (k2w 5)) ⟨0, fun _ => 0, [0, 1]⟩ = some file ∧
      (readSymmetric (fileMem file)).mapW intCodec (fileMem file) (fun _ _ _ _ => true) 0 =
        some [(0, 1, 1)] := by
  refine ⟨(compressor emptyCodec (forget (k2w 5)) ⟨0, fun _ => 0, [0, 1]⟩).get (by decide +kernel),
    by simp, by decide +kernel⟩

end Gbbs.Convert
