import Verif.Encoding.Blocks

/-! # Layout of the `bytepd` encoding -/

namespace Gbbs.PD

open Gbbs Byte Blk EncSpec

variable {W : Type} {c : PCodec W} {ok : W → Prop}

/-- The neighbour is not exactly `2^31` away from the source (where `std::abs(INT_MIN)` would
be evaluated). -/
def NotHalf (src n : Nat) : Prop := n + 2147483648 ≠ src ∧ src + 2147483648 ≠ n

theorem firstDiff_ne {src n : Nat} (hs : src < uintEMod) (hn : n < uintEMod)
    (h : NotHalf src n) : firstDiff src n ≠ -2147483648 := by
  simp only [uintEMod] at *
  obtain ⟨h1, h2⟩ := h
  rcases firstDiff_cases src n with h | h <;> omega

theorem compressFirstEdge_eq (m : Mem) (off src n : Nat) (hs : src < uintEMod)
    (hn : n < uintEMod) (h : NotHalf src n) :
    PD.compressFirstEdge m off src n =
      some (m.write off (encSigned (wrapped.d src n)),
        off + (encSigned (wrapped.d src n)).length) := by
  have hlt : (firstDiff src n).natAbs < uintEMod := wrapped.lt src n hs hn
  simp only [PD.compressFirstEdge, firstDiff_ne hs hn h, if_false]
  rw [Byte.compressFirstEdge_eq _ _ _ _ (by simpa using hlt)]
  simp [wrapped]

theorem compressRest_eq (L : Lawful c.codec ok) (hub : ∀ w, ok w → c.ub w = false) (m : Mem)
    (off prev : Nat) (edges : List (Nat × W)) (h : Chain ok prev edges) :
    PD.compressRest c m off prev edges =
      some (m.write off (encRest L prev edges), off + (encRest L prev edges).length) := by
  induction edges generalizing m off prev with
  | nil => rfl
  | cons e rest ih =>
    obtain ⟨ngh, w⟩ := e
    obtain ⟨h1, h2, h3, h4⟩ := h
    simp only [PD.compressRest, diff_eq h1 h2, compressEdge_eq, compressWeight, hub w h3,
      L.compress_eq _ _ _ h3]
    simp only [Bool.false_eq_true, if_false]
    rw [ih _ _ _ h4]
    simp only [encRest, Mem.write_append, List.length_append, Nat.add_assoc]

theorem compressBlock_eq (L : Lawful c.codec ok) (hub : ∀ w, ok w → c.ub w = false) (m : Mem)
    (off src : Nat) (edges : List (Nat × W)) (hsrc : src < uintEMod) (h : ValidList edges)
    (hok : ∀ e ∈ edges, ok e.2) (hh : ∀ e ∈ edges, NotHalf src e.1) :
    compressBlock c m off src edges =
      some (m.write off (encBlk wrapped L src edges),
        off + (encBlk wrapped L src edges).length) := by
  cases edges with
  | nil => rfl
  | cons e rest =>
    obtain ⟨ngh, w⟩ := e
    have hn : ngh < uintEMod := h.bounded _ (List.mem_cons_self ..)
    have hw : ok w := hok (ngh, w) (by simp)
    have hc : Chain ok ngh rest := chain_of_valid h (fun e he => hok e (List.mem_cons_of_mem _ he))
    simp only [compressBlock, compressFirstEdge_eq m off src ngh hsrc hn (hh (ngh, w) (by simp)),
      compressWeight, hub w hw, L.compress_eq _ _ _ hw]
    simp only [Bool.false_eq_true, if_false]
    rw [compressRest_eq L hub _ _ _ _ hc]
    simp only [encBlk, Mem.write_append, List.length_append, Nat.add_assoc]

/-- Bytes of `k` consecutive blocks starting with block `i`. -/
def blocksLen (D : FirstEnc) {c : WCodec W} (L : Lawful c ok) (src extra : Nat)
    (all : List (Nat × W)) : (k i : Nat) → Nat
  | 0, _ => 0
  | k + 1, i => extra + (encBlk D L src (block all i)).length + blocksLen D L src extra all k (i + 1)

theorem take_block (all : List (Nat × W)) (i : Nat) :
    (all.drop (i * 1000)).take (min 1000 (all.length - i * 1000)) = block all i := by
  simp only [block]
  rcases Nat.le_total 1000 (all.length - i * 1000) with h | h
  · rw [Nat.min_eq_left h]
  · rw [Nat.min_eq_right h]
    generalize hd : all.drop (i * 1000) = r
    have hr : r.length = all.length - i * 1000 := by rw [← hd, List.length_drop]
    rw [← hr, List.take_length, List.take_of_length_le (hr ▸ h)]

theorem drop_block (all : List (Nat × W)) (i : Nat) :
    (all.drop (i * 1000)).drop (min 1000 (all.length - i * 1000)) = all.drop ((i + 1) * 1000) := by
  rw [List.drop_drop]
  rcases Nat.le_total 1000 (all.length - i * 1000) with h | h
  · rw [Nat.min_eq_left h, show i * 1000 + 1000 = (i + 1) * 1000 by omega]
  · rw [Nat.min_eq_right h, List.drop_of_length_le (by omega), List.drop_of_length_le (by omega)]

theorem compressBlocks_spec (L : Lawful c.codec ok) (hub : ∀ w, ok w → c.ub w = false)
    (a src nb : Nat) (all : List (Nat × W)) (hsrc : src < uintEMod) (hv : ValidList all)
    (hok : ∀ e ∈ all, ok e.2) (hh : ∀ e ∈ all, NotHalf src e.1)
    (k i : Nat) (m : Mem) (off : Nat) (hk : i + k = nb) (hoff : a + 4 * (nb - 1) ≤ off)
    (hsize : off + blocksLen wrapped L src 0 all k i < a + 4294967296) :
    ∃ (m' : Mem) (offs : Nat → Nat), compressBlocks c a src all.length a k i m off (all.drop (i * 1000)) =
        some (m', off + blocksLen wrapped L src 0 all k i) ∧
      (0 < k → offs i = off - a) ∧
      (∀ j, i ≤ j → j < nb → off ≤ a + offs j ∧
        a + offs j + (encBlk wrapped L src (block all j)).length ≤
          off + blocksLen wrapped L src 0 all k i ∧
        (0 < j → m'.load32 (a + 4 * (j - 1)) = offs j) ∧
        m'.Has (a + offs j) (encBlk wrapped L src (block all j))) ∧
      (∀ x, (x < off ∨ off + blocksLen wrapped L src 0 all k i ≤ x) →
        (x < a + 4 * (i - 1) ∨ a + 4 * (nb - 1) ≤ x) → m' x = m x) := by
  induction k generalizing i m off with
  | zero =>
    exact ⟨m, fun _ => 0, by simp [compressBlocks, blocksLen], by omega,
      fun j h1 h2 => by omega, fun _ _ _ => rfl⟩
  | succ k ih =>
    have hsub := block_sublist all i
    have hvb := ValidList.sublist hsub hv
    have hB := compressBlock_eq L hub
      (if i > 0 then m.store32 (a + 4 * (i - 1)) (off - a) else m) off src (block all i) hsrc hvb
      (fun e he => hok e (hsub.subset he)) (fun e he => hh e (hsub.subset he))
    generalize hm1 : (if i > 0 then m.store32 (a + 4 * (i - 1)) (off - a) else m) = m1 at hB
    generalize hlen : (encBlk wrapped L src (block all i)).length = len at *
    simp only [blocksLen, hlen] at hsize ⊢
    obtain ⟨m', offs, h1, h2, h3, h4⟩ := ih (i + 1)
      (m1.write off (encBlk wrapped L src (block all i))) (off + len) (by omega) (by omega)
      (by omega)
    refine ⟨m', fun j => if j = i then off - a else offs j, ?_, ?_, ?_, ?_⟩
    · simp only [compressBlocks, parallelDegree, take_block, drop_block, hm1, hB]
      rw [h1]; congr 2; omega
    · intro _; simp
    · intro j hj1 hj2
      by_cases hji : j = i
      · subst hji
        simp only [if_true]
        refine ⟨by omega, by omega, ?_, ?_⟩
        · intro hj0
          have e1 : m'.load32 (a + 4 * (j - 1)) = m1.load32 (a + 4 * (j - 1)) := by
            apply Mem.load32_congr
            intro x hx1 hx2
            rw [h4 x (by omega) (by omega), Mem.write_outside _ _ _ _ (by omega)]
          rw [e1, ← hm1, if_pos hj0, Mem.load32_store32_same _ _ _ (by omega)]
        · rw [show a + (off - a) = off by omega]
          refine Mem.has_of_agree (fun x hx1 hx2 => ?_)
            (Mem.write_has m1 off (encBlk wrapped L src (block all j)))
          rw [hlen] at hx2
          exact (h4 x (by omega) (by omega)).symm
      · obtain ⟨g1, g2, g3, g4⟩ := h3 j (by omega) hj2
        simp only [hji, if_false]
        exact ⟨by omega, by omega, g3, g4⟩
    · intro x hx1 hx2
      rw [h4 x (by omega) (by omega), Mem.write_outside _ _ _ _ (by omega), ← hm1]
      split
      · exact Mem.store32_outside _ _ _ _ (by omega)
      · rfl

/-- A memory holding the `bytepd` encoding of a list. -/
structure Lay (L : Lawful c.codec ok) (m : Mem) (a src : Nat) (edges : List (Nat × W))
    (offs : Nat → Nat) : Prop where
  pos : 0 < edges.length
  srcLt : src < uintEMod
  valid : ValidList edges
  ok : ∀ e ∈ edges, ok e.2
  off0 : offs 0 = 4 * ((edges.length - 1) / 1000)
  hdr : ∀ j, 0 < j → j < 1 + (edges.length - 1) / 1000 → m.load32 (a + 4 * (j - 1)) = offs j
  body : ∀ j, j < 1 + (edges.length - 1) / 1000 →
    m.Has (a + offs j) (encBlk wrapped L src (block edges j))

/-- Size in bytes of the encoding. -/
def size (L : Lawful c.codec ok) (src : Nat) (edges : List (Nat × W)) : Nat :=
  4 * ((edges.length - 1) / 1000) +
    blocksLen wrapped L src 0 edges (1 + (edges.length - 1) / 1000) 0

theorem encode_lay (L : Lawful c.codec ok) (hub : ∀ w, ok w → c.ub w = false)
    (m : Mem) (a src : Nat) (edges : List (Nat × W)) (hsrc : src < uintEMod) (hv : ValidList edges)
    (hok : ∀ e ∈ edges, ok e.2) (hh : ∀ e ∈ edges, NotHalf src e.1) (hpos : 0 < edges.length)
    (hsize : size L src edges < 4294967296) :
    ∃ m', sequentialCompressEdgeSet c m a src edges = some (m', a + size L src edges) ∧
      (∀ x, (x < a ∨ a + size L src edges ≤ x) → m' x = m x) ∧
      ∀ m'', AgreeOn m' m'' a (a + size L src edges) → ∃ offs, Lay L m'' a src edges offs := by
  have hs := hsize
  simp only [size] at hs
  obtain ⟨m', offs, h1, h2, h3, h4⟩ := compressBlocks_spec L hub a src
    (1 + (edges.length - 1) / 1000) edges hsrc hv hok hh (1 + (edges.length - 1) / 1000) 0 m
    (a + (1 + (edges.length - 1) / 1000 - 1) * 4) (by omega) (by omega) (by omega)
  refine ⟨m', ?_, ?_, ?_⟩
  · simp only [sequentialCompressEdgeSet, hpos, if_true, parallelDegree]
    simp only [Nat.zero_mul, List.drop_zero] at h1
    rw [h1]; simp only [size]; congr 2; omega
  · intro x hx
    simp only [size] at hx
    exact h4 x (by omega) (by omega)
  · intro m'' hag
    have hsz : size L src edges = 4 * ((edges.length - 1) / 1000) +
      blocksLen wrapped L src 0 edges (1 + (edges.length - 1) / 1000) 0 := rfl
    refine ⟨offs, hpos, hsrc, hv, hok, ?_, ?_, ?_⟩
    · have := h2 (by omega); omega
    · intro j hj1 hj2
      obtain ⟨_, _, g, _⟩ := h3 j (by omega) hj2
      rw [← g hj1]
      exact Mem.load32_congr (fun i hi1 hi2 => (hag i (by omega) (by omega)).symm)
    · intro j hj
      obtain ⟨g1, g2, _, g⟩ := h3 j (by omega) hj
      exact Mem.has_of_agree (fun i hi1 hi2 => hag i (by omega) (by omega)) g

theorem finger_eq {L : Lawful c.codec ok} {m : Mem} {a src : Nat} {edges : List (Nat × W)}
    {offs : Nat → Nat} (h : Lay L m a src edges offs) {j : Nat}
    (hj : j < 1 + (edges.length - 1) / 1000) :
    blockFinger m a (1 + (edges.length - 1) / 1000) j = a + offs j := by
  rw [blockFinger]
  by_cases h0 : j = 0
  · subst h0; rw [if_pos rfl, h.off0]; omega
  · rw [if_neg h0, h.hdr j (by omega) hj]

/-- Every traversal of block `j` sees exactly the entries of that block. -/
theorem run_block {σ : Type} {L : Lawful c.codec ok} {m : Mem} {a src : Nat}
    {edges : List (Nat × W)} {offs : Nat → Nat} (h : Lay L m a src edges offs)
    (t : σ → Nat → Nat → W → Nat → σ × Bool) {j : Nat} (hj : j < 1 + (edges.length - 1) / 1000)
    (s : σ) :
    decodeFrom c.codec t m (blockFinger m a (1 + (edges.length - 1) / 1000) j) src
      (min (j * 1000 + 1000) edges.length - j * 1000) (j * 1000) s =
      some (visit t src (j * 1000) (block edges j) s) := by
  rw [finger_eq h hj, ← block_length]
  have hsub := block_sublist edges j
  exact decodeFrom_eq wrapped L t m src _ _ _ s h.srcLt (ValidList.sublist hsub h.valid)
    (fun e he => h.ok e (hsub.subset he)) (h.body j hj)

theorem allYes_visit (ans : Nat → Nat → W → Nat → Bool) (src i : Nat) (l : List (Nat × W)) :
    visit (recordCb ans) src i l ([], true) = (callsUntil ans src i l, allYes ans src i l) := by
  simpa using visit_record ans src i l []

theorem decode_lay {L : Lawful c.codec ok} {m : Mem} {a src : Nat}
    {edges : List (Nat × W)} {offs : Nat → Nat} (h : Lay L m a src edges offs)
    (ans : Nat → Nat → W → Nat → Bool) :
    decode c.codec ans m a src edges.length = some (blockedCalls ans src edges) := by
  have hb : ∀ i, i < 1 + (edges.length - 1) / 1000 →
      decodeBlockAt c.codec ans m a src edges.length (1 + (edges.length - 1) / 1000) i =
        some (callsUntil ans src (i * 1000) (block edges i),
          allYes ans src (i * 1000) (block edges i)) := by
    intro i hi
    simp only [decodeBlockAt, parallelDegree, run_block h _ hi, allYes_visit]
  have hp := h.pos
  have hne : edges.length ≠ 0 := by omega
  simp only [decode, hp, hne, if_true, if_false, parallelDegree, blockedCalls]
  rw [hb 0 (by omega)]
  simp only [Nat.zero_mul]
  rcases allYes ans src 0 (block edges 0) with _ | _
  · simp
  · simp only [if_true]
    rw [mapM_some _ (fun j => callsUntil ans src ((j + 1) * 1000) (block edges (j + 1)))]
    · simp only [Option.some.injEq]
      rw [show 1 + (edges.length - 1) / 1000 = (edges.length - 1) / 1000 + 1 by omega,
        List.range_succ_eq_map]
      simp [Function.comp_def]
    · intro j hj
      rw [hb (j + 1) (by simp at hj; omega)]
      rfl

theorem decodeBlock_lay {L : Lawful c.codec ok} {m : Mem} {a src : Nat}
    {edges : List (Nat × W)} {offs : Nat → Nat} (h : Lay L m a src edges offs)
    (ans : Nat → Nat → W → Nat → Bool) {i : Nat} (hi : i < 1 + (edges.length - 1) / 1000) :
    decodeBlock c.codec ans m a src edges.length i =
      some (callsUntil ans src (i * 1000) (block edges i)) := by
  simp only [decodeBlock, h.pos, if_true, decodeBlockAt, parallelDegree, run_block h _ hi,
    allYes_visit, Option.map_some]

theorem foldl_assoc {E : Type} (red : E → E → E) (ha : ∀ x y z, red (red x y) z = red x (red y z))
    (g : Nat × W → E) (l : List (Nat × W)) (x y : E) :
    l.foldl (fun a e => red a (g e)) (red x y) = red x (l.foldl (fun a e => red a (g e)) y) := by
  induction l generalizing y with
  | nil => rfl
  | cons e l ih => simp only [List.foldl_cons, ha, ih]

theorem reduceList_eq {E : Type} (f : Nat → Nat → W → E) (red : E → E → E) (ident : E)
    (hid : ∀ x, red ident x = x) (src : Nat) (l : List (Nat × W)) :
    reduceList f red ident src l = l.foldl (fun a e => red a (f src e.1 e.2)) ident := by
  cases l with
  | nil => rfl
  | cons e l => obtain ⟨n, w⟩ := e; simp [reduceList, hid]

/-- Reducing per-block results. -/
theorem reduce_blocks {E : Type} (f : Nat → Nat → W → E) (red : E → E → E) (ident : E)
    (hid' : ∀ x, red x ident = x)
    (ha : ∀ x y z, red (red x y) z = red x (red y z)) (src : Nat)
    (blk : Nat → List (Nat × W)) (is : List Nat) (x : E) :
    (is.map (fun i => (blk i).foldl (fun a e => red a (f src e.1 e.2)) ident)).foldl red x =
      (is.flatMap blk).foldl (fun a e => red a (f src e.1 e.2)) x := by
  induction is generalizing x with
  | nil => rfl
  | cons i is ih =>
    simp only [List.map_cons, List.foldl_cons, List.flatMap_cons, List.foldl_append, ih]
    have := foldl_assoc red ha (fun e => f src e.1 e.2) (blk i) x ident
    rw [hid'] at this
    rw [this]

theorem mapReduce_lay {E : Type} {L : Lawful c.codec ok} {m : Mem} {a src : Nat}
    {edges : List (Nat × W)} {offs : Nat → Nat} (h : Lay L m a src edges offs)
    (f : Nat → Nat → W → E) (red : E → E → E) (ident : E)
    (hid : ∀ x, red ident x = x) (hid' : ∀ x, red x ident = x)
    (ha : ∀ x y z, red (red x y) z = red x (red y z)) :
    mapReduce c.codec f red ident m a src edges.length =
      some (reduceList f red ident src edges) := by
  simp only [mapReduce, h.pos, if_true, parallelDegree]
  rw [mapM_some _ (fun i => (block edges i).foldl (fun a e => red a (f src e.1 e.2)) ident)]
  · simp only [Option.some.injEq]
    rw [reduce_blocks f red ident hid' ha, flatMap_blocks_all, reduceList_eq f red ident hid]
  · intro i hi
    rw [run_block h _ (by simpa using hi), visit_reduce]

theorem foldl_append_flatMap {α : Type} (g : Nat → List α) (is : List Nat) (x : List α) :
    is.foldl (fun out i => out ++ g i) x = x ++ is.flatMap g := by
  induction is generalizing x with
  | nil => simp
  | cons i is ih => simp [ih]

theorem filter_lay {L : Lawful c.codec ok} {m : Mem} {a src : Nat}
    {edges : List (Nat × W)} {offs : Nat → Nat} (h : Lay L m a src edges offs)
    (pred : Nat → Nat → W → Bool) :
    filter c.codec pred m a src edges.length =
      some (edges.filter (fun e => pred src e.1 e.2)) := by
  have hp := h.pos
  rw [filter, if_neg (by omega)]
  simp only [parallelDegree]
  rw [foldlM_some _ (fun out i => out ++ (block edges i).filter (fun e => pred src e.1 e.2))]
  · rw [foldl_append_flatMap, List.nil_append, ← List.filter_flatMap, flatMap_blocks_all]
  · intro i hi out
    rw [run_block h _ (by simpa using hi), visit_keep]

theorem pack_lay {L : Lawful c.codec ok} (hub : ∀ w, ok w → c.ub w = false) {m : Mem} {a src : Nat}
    {edges : List (Nat × W)} {offs : Nat → Nat} (h : Lay L m a src edges offs)
    (hh : ∀ e ∈ edges, NotHalf src e.1)
    (pred : Nat → Nat → W → Bool) (hle : edges.length ≤ 1000) :
    ∃ m', pack c pred m a src edges.length =
        some (m', (edges.filter (fun e => pred src e.1 e.2)).length) ∧
      (∀ x, (x < a ∨ a + size L src edges ≤ x) → m' x = m x) ∧
      ∀ ans, decode c.codec ans m' a src (edges.filter (fun e => pred src e.1 e.2)).length =
        some (blockedCalls ans src (edges.filter (fun e => pred src e.1 e.2))) := by
  have hp := h.pos
  have h0 : (edges.length - 1) / 1000 = 0 := by omega
  have hblk : block edges 0 = edges := by
    simp only [block, Nat.zero_mul, List.drop_zero]
    exact List.take_of_length_le hle
  have hrun := run_block h (keepCb pred) (j := 0) (by omega) []
  rw [finger_eq h (by omega), h.off0, h0, hblk, visit_keep] at hrun
  simp only [Nat.zero_mul, Nat.zero_add, Nat.min_eq_right hle, Nat.sub_zero, Nat.mul_zero,
    Nat.add_zero, List.nil_append] at hrun
  have hsz : size L src edges = (encBlk wrapped L src edges).length := by
    simp [size, h0, blocksLen, hblk]
  generalize hK : edges.filter (fun e => pred src e.1 e.2) = K at *
  have hsub : K.Sublist edges := hK ▸ List.filter_sublist
  have hv := ValidList.sublist hsub h.valid
  have hok : ∀ e ∈ K, ok e.2 := fun e he => h.ok e (hsub.subset he)
  rw [pack, if_pos (by simpa [parallelDegree] using hle), packBlock,
    Nat.max_eq_right (by omega : 1 ≤ edges.length), hrun]
  simp only
  by_cases hnil : K = []
  · subst hnil
    exact ⟨m, by simp, fun _ _ => rfl, fun ans => by simp [decode, blockedCalls]⟩
  · have hKp : 0 < K.length := List.length_pos_iff.2 hnil
    rw [if_neg (by omega), compressBlock_eq L hub m a src K h.srcLt hv hok
      (fun e he => hh e (hsub.subset he))]
    have hlenle := encBlk_sublist wrapped L src h.srcLt hsub h.valid h.ok
    have hKle : K.length ≤ 1000 := Nat.le_trans hsub.length_le hle
    have hK0 : (K.length - 1) / 1000 = 0 := by omega
    have hKb : block K 0 = K := by
      simp only [block, Nat.zero_mul, List.drop_zero]
      exact List.take_of_length_le hKle
    refine ⟨_, rfl, fun x hx => Mem.write_outside _ _ _ _ (by omega), fun ans => ?_⟩
    have lay : Lay L (m.write a (encBlk wrapped L src K)) a src K (fun _ => 0) :=
      { pos := hKp, srcLt := h.srcLt, valid := hv, ok := hok, off0 := by omega
        hdr := fun j h1 h2 => by omega
        body := fun j hj => by
          have : j = 0 := by omega
          subst this
          rw [hKb]
          exact Mem.write_has _ _ _ }
    exact decode_lay lay ans

end Gbbs.PD
