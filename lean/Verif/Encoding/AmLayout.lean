import Verif.Encoding.BlockSize

/-! # Layout of the `bytepd_amortized` encoding -/

namespace Gbbs.AM

open Gbbs Byte Blk EncSpec
open Gbbs.PD (blocksLen take_block drop_block)

variable {W : Type} {c : WCodec W} {ok : W → Prop}

theorem seqComp_eq (L : Lawful c ok) (m : Mem) (off src : Nat)
    (edges : List (Nat × W)) (hsrc : src < uintEMod) (h : ValidList edges)
    (hok : ∀ e ∈ edges, ok e.2) :
    Byte.sequentialCompressEdgeSet c m off src edges =
      (m.write off (encBlk plain L src edges), off + (encBlk plain L src edges).length) := by
  rw [encBlk_plain]; exact sequentialCompressEdgeSet_eq L m off src edges hsrc h hok

/-- Position of the first entry of block `i`. -/
abbrev st (blk : Nat → List (Nat × W)) (i : Nat) : Nat := scan (fun j => (blk j).length) i

theorem scan_congr {f g : Nat → Nat} {k : Nat} (h : ∀ i, i < k → f i = g i) :
    scan f k = scan g k := by
  induction k with
  | zero => rfl
  | succ k ih => simp only [scan, ih (fun i hi => h i (by omega)), h k (by omega)]

theorem scan_mono (f : Nat → Nat) {i j : Nat} (h : i ≤ j) : scan f i ≤ scan f j := by
  induction h with
  | refl => exact Nat.le_refl _
  | step _ ih => simp only [scan]; omega

theorem st_length (blk : Nat → List (Nat × W)) (k : Nat) :
    ((List.range k).flatMap blk).length = st blk k := by
  induction k with
  | zero => rfl
  | succ k ih => rw [List.range_succ, List.flatMap_append, List.length_append, ih]; simp [scan]

theorem scan_block (all : List (Nat × W)) (k : Nat) :
    st (block all) k = min (k * 1000) all.length := by
  rw [← st_length, flatMap_blocks, List.length_take]

/-- A memory holding a (possibly packed) `bytepd_amortized` list.  `orig` are the blocks as last
encoded, `blk` the live entries per block, `offs i` the offset of block `i`, `cap i` the bytes
reserved for its body, `vd` the virtual degree, `ext` the reserved size. -/
structure Lay (L : Lawful c ok) (m : Mem) (a src vd ext : Nat) (offs cap : Nat → Nat)
    (orig blk : Nat → List (Nat × W)) : Prop where
  srcLt : src < uintEMod
  vdPos : 0 < vd
  vdEq : m.load32 a = vd
  vdSum : st orig (numBlocks vd) = vd
  sub : ∀ i, (blk i).Sublist (orig i)
  len : ∀ i, (orig i).length ≤ 1000
  valid : ValidList ((List.range (numBlocks vd)).flatMap orig)
  ok : ∀ e ∈ (List.range (numBlocks vd)).flatMap orig, ok e.2
  off0 : offs 0 = 4 * numBlocks vd
  capOk : ∀ i, i < numBlocks vd → (encBlk plain L src (orig i)).length ≤ cap i
  sep : ∀ i, i + 1 < numBlocks vd → offs i + 4 + cap i ≤ offs (i + 1)
  fits : ∀ i, i < numBlocks vd → offs i + 4 + cap i ≤ ext
  extLt : ext < 4294967296
  hdr : ∀ i, 0 < i → i < numBlocks vd → m.load32 (a + 4 + 4 * (i - 1)) = offs i
  start : ∀ i, i < numBlocks vd → m.load32 (a + offs i) = st blk i
  body : ∀ i, i < numBlocks vd → m.Has (a + offs i + 4) (encBlk plain L src (blk i))

theorem numBlocks_pos (vd : Nat) : 0 < numBlocks vd := Nat.add_pos_left (by decide) _

section lay

variable {L : Lawful c ok} {m : Mem} {a src vd ext : Nat} {offs cap : Nat → Nat}
  {orig blk : Nat → List (Nat × W)}

theorem mono_offs (h : Lay L m a src vd ext offs cap orig blk) {i j : Nat} (hij : i < j)
    (hj : j < numBlocks vd) : offs i + 4 + cap i ≤ offs j := by
  induction j with
  | zero => omega
  | succ j ih =>
    by_cases e : i = j
    · subst e; exact h.sep i hj
    · have := ih (by omega) (by omega)
      have := h.sep j hj
      omega

theorem off_ge (h : Lay L m a src vd ext offs cap orig blk) {i : Nat}
    (hi : i < numBlocks vd) : 4 * numBlocks vd ≤ offs i := by
  rcases Nat.eq_zero_or_pos i with e | e
  · subst e; rw [h.off0]; omega
  · have := mono_offs h e hi
    have := h.off0
    omega

theorem orig_sub (vd : Nat) (f : Nat → List (Nat × W)) {i : Nat}
    (hi : i < numBlocks vd) : (f i).Sublist ((List.range (numBlocks vd)).flatMap f) := by
  have : (List.range (numBlocks vd)).flatMap f =
      ((List.range i).flatMap f) ++ (f i ++ ((List.range (numBlocks vd)).drop (i + 1)).flatMap f) := by
    have e : List.range (numBlocks vd) = List.range i ++
        (i :: (List.range (numBlocks vd)).drop (i + 1)) := by
      have h1 : (List.range (numBlocks vd)).take i = List.range i := by
        rw [List.take_range, Nat.min_eq_left (by omega)]
      have h2 : (List.range (numBlocks vd)).drop i = i :: (List.range (numBlocks vd)).drop (i + 1) := by
        rw [List.drop_eq_getElem_cons (by simpa using hi)]; simp
      rw [← h1, ← h2, List.take_append_drop]
    conv => lhs; rw [e]
    simp
  rw [this]
  exact (List.sublist_append_left _ _).trans (List.sublist_append_right _ _)

theorem flatMap_sub {is : List Nat} {f g : Nat → List (Nat × W)} (h : ∀ i, (f i).Sublist (g i)) :
    (is.flatMap f).Sublist (is.flatMap g) := by
  induction is with
  | nil => simp
  | cons i is ih => simp only [List.flatMap_cons]; exact (h i).append ih

theorem blk_valid (h : Lay L m a src vd ext offs cap orig blk) {i : Nat}
    (hi : i < numBlocks vd) : ValidList (blk i) :=
  ValidList.sublist ((h.sub i).trans (orig_sub vd orig hi)) h.valid

theorem blk_ok (h : Lay L m a src vd ext offs cap orig blk) {i : Nat}
    (hi : i < numBlocks vd) : ∀ e ∈ blk i, ok e.2 :=
  fun e he => h.ok e (((h.sub i).trans (orig_sub vd orig hi)).subset he)

theorem edges_valid (h : Lay L m a src vd ext offs cap orig blk) :
    ValidList ((List.range (numBlocks vd)).flatMap blk) :=
  ValidList.sublist (flatMap_sub h.sub) h.valid

theorem edges_ok (h : Lay L m a src vd ext offs cap orig blk) :
    ∀ e ∈ (List.range (numBlocks vd)).flatMap blk, ok e.2 :=
  fun e he => h.ok e ((flatMap_sub h.sub).subset he)

theorem sub_cap (h : Lay L m a src vd ext offs cap orig blk) {i : Nat}
    (hi : i < numBlocks vd) {l : List (Nat × W)} (hl : l.Sublist (orig i)) :
    (encBlk plain L src l).length ≤ cap i := by
  have hs := orig_sub vd orig hi
  exact Nat.le_trans (encBlk_sublist plain L src h.srcLt hl (ValidList.sublist hs h.valid)
    (fun e he => h.ok e (hs.subset he))) (h.capOk i hi)

theorem finger_eq (h : Lay L m a src vd ext offs cap orig blk) {i : Nat}
    (hi : i < numBlocks vd) : blockFinger m a (numBlocks vd) i = a + offs i := by
  rw [blockFinger]
  by_cases e : i > 0
  · rw [if_pos e, h.hdr i e hi]
  · have : i = 0 := by omega
    subst this
    rw [if_neg e, h.off0]; omega

theorem end_eq (h : Lay L m a src vd ext offs cap orig blk) {i : Nat}
    (hi : i < numBlocks vd) :
    blockEnd m a (numBlocks vd) (st blk (numBlocks vd)) i = st blk (i + 1) := by
  rw [blockEnd]
  by_cases e : i = numBlocks vd - 1
  · rw [if_pos e]; congr 1; omega
  · rw [if_neg e]
    have := h.hdr (i + 1) (by omega) (by omega)
    rw [Nat.add_sub_cancel] at this
    rw [this, h.start (i + 1) (by omega)]

/-- Every traversal of block `i` sees exactly its live entries. -/
theorem run_block {σ : Type} (h : Lay L m a src vd ext offs cap orig blk)
    (t : σ → Nat → Nat → W → Nat → σ × Bool) {i : Nat} (hi : i < numBlocks vd) (s : σ) :
    blockRun c t m a src (st blk (numBlocks vd)) (numBlocks vd) i s =
      some (visit t src (st blk i) (blk i) s) := by
  have e2 : st blk (i + 1) = st blk i + (blk i).length := rfl
  simp only [blockRun, finger_eq h hi, end_eq h hi, h.start i hi, e2]
  by_cases hl : (blk i).length = 0
  · rw [if_neg (by omega), List.length_eq_zero_iff.1 hl]; rfl
  · rw [if_pos (by omega), Nat.add_sub_cancel_left]
    exact decodeFrom_eq plain L t m src _ _ _ s h.srcLt (blk_valid h hi) (blk_ok h hi) (h.body i hi)

end lay

/-! ## The encoder produces such a layout -/

theorem compressBlocks_spec (L : Lawful c ok) (a src nb : Nat) (all : List (Nat × W))
    (hsrc : src < uintEMod) (hv : ValidList all) (hok : ∀ e ∈ all, ok e.2)
    (hlen : all.length < 4294967296)
    (k i : Nat) (m : Mem) (off : Nat) (hk : i + k = nb) (hoff : a + 4 * nb ≤ off)
    (hib : ∀ j, j < nb → j * 1000 < all.length)
    (hsize : off + blocksLen plain L src 4 all k i < a + 4294967296) :
    ∃ (m' : Mem) (offs : Nat → Nat),
      compressBlocks c a src all.length a k i m off (all.drop (i * 1000)) =
        (m', off + blocksLen plain L src 4 all k i) ∧
      (0 < k → offs i = off - a) ∧
      (∀ j, i ≤ j → j < nb → off ≤ a + offs j ∧
        a + offs j + 4 + (encBlk plain L src (block all j)).length ≤
          off + blocksLen plain L src 4 all k i ∧
        (j + 1 < nb → offs j + 4 + (encBlk plain L src (block all j)).length ≤ offs (j + 1)) ∧
        (0 < j → m'.load32 (a + 4 + 4 * (j - 1)) = offs j) ∧
        m'.load32 (a + offs j) = j * 1000 ∧
        m'.Has (a + offs j + 4) (encBlk plain L src (block all j))) ∧
      (∀ x, (x < off ∨ off + blocksLen plain L src 4 all k i ≤ x) →
        (x < a + 4 + 4 * (i - 1) ∨ a + 4 * nb ≤ x) → m' x = m x) := by
  induction k generalizing i m off with
  | zero =>
    exact ⟨m, fun _ => 0, by simp [compressBlocks, blocksLen], by omega,
      fun j h1 h2 => by omega, fun _ _ _ => rfl⟩
  | succ k ih =>
    have hsub := block_sublist all i
    have hvb := ValidList.sublist hsub hv
    have hB := seqComp_eq L
      ((if i > 0 then m.store32 (a + 4 + 4 * (i - 1)) (off - a) else m).store32 off (i * 1000))
      (off + 4) src (block all i) hsrc hvb (fun e he => hok e (hsub.subset he))
    generalize hm1 : (if i > 0 then m.store32 (a + 4 + 4 * (i - 1)) (off - a) else m) = m1 at hB
    generalize hlen : (encBlk plain L src (block all i)).length = len at *
    have hbi := hib i (by omega)
    simp only [blocksLen, hlen] at hsize ⊢
    obtain ⟨m', offs, h1, h2, h3, h4⟩ := ih (i + 1)
      ((m1.store32 off (i * 1000)).write (off + 4) (encBlk plain L src (block all i)))
      (off + 4 + len) (by omega) (by omega) (by omega)
    have hin : ∀ x, off ≤ x → x < off + 4 + len → m' x =
        ((m1.store32 off (i * 1000)).write (off + 4) (encBlk plain L src (block all i))) x :=
      fun x hx1 hx2 => h4 x (by omega) (by omega)
    refine ⟨m', fun j => if j = i then off - a else offs j, ?_, ?_, ?_, ?_⟩
    · simp only [compressBlocks, take_block, drop_block, hm1, hB]
      rw [h1]; congr 1; omega
    · intro _; simp
    · intro j hj1 hj2
      by_cases hji : j = i
      · subst hji
        simp only [if_true, hlen]
        rw [if_neg (by omega : ¬ j + 1 = j)]
        refine ⟨by omega, by omega, ?_, ?_, ?_, ?_⟩
        · intro hj; have := h2 (by omega); omega
        · intro hj0
          have e1 : m'.load32 (a + 4 + 4 * (j - 1)) = m1.load32 (a + 4 + 4 * (j - 1)) := by
            apply Mem.load32_congr
            intro x hx1 hx2
            rw [h4 x (by omega) (by omega), Mem.write_outside _ _ _ _ (by omega),
              Mem.store32_outside _ _ _ _ (by omega)]
          rw [e1, ← hm1, if_pos hj0, Mem.load32_store32_same _ _ _ (by omega)]
        · rw [show a + (off - a) = off by omega]
          have e1 : m'.load32 off = (m1.store32 off (j * 1000)).load32 off := by
            apply Mem.load32_congr
            intro x hx1 hx2
            rw [hin x (by omega) (by omega), Mem.write_outside _ _ _ _ (by omega)]
          rw [e1, Mem.load32_store32_same _ _ _ (by omega)]
        · rw [show a + (off - a) = off by omega]
          refine Mem.has_of_agree (fun x hx1 hx2 => ?_)
            (Mem.write_has (m1.store32 off (j * 1000)) (off + 4)
              (encBlk plain L src (block all j)))
          rw [hlen] at hx2
          exact (hin x (by omega) (by omega)).symm
      · obtain ⟨g1, g2, g3, g4, g5, g6⟩ := h3 j (by omega) hj2
        simp only [hji, if_false]
        rw [if_neg (by omega : ¬ j + 1 = i)]
        exact ⟨by omega, by omega, g3, g4, g5, g6⟩
    · intro x hx1 hx2
      rw [h4 x (by omega) (by omega), Mem.write_outside _ _ _ _ (by omega),
        Mem.store32_outside _ _ _ _ (by omega), ← hm1]
      split
      · exact Mem.store32_outside _ _ _ _ (by omega)
      · rfl

/-- Size in bytes of the encoding of a non-empty list. -/
def size (L : Lawful c ok) (src : Nat) (edges : List (Nat × W)) : Nat :=
  4 * numBlocks edges.length + blocksLen plain L src 4 edges (numBlocks edges.length) 0

theorem encode_lay (L : Lawful c ok) (m : Mem) (a src : Nat) (edges : List (Nat × W))
    (hsrc : src < uintEMod) (hv : ValidList edges)
    (hok : ∀ e ∈ edges, ok e.2) (hpos : 0 < edges.length) (hle : edges.length < 4294967296)
    (hsize : size L src edges < 4294967296) :
    ∃ m', sequentialCompressEdgeSet c m a src edges = (m', a + size L src edges) ∧
      (∀ x, (x < a ∨ a + size L src edges ≤ x) → m' x = m x) ∧
      ∀ m'', AgreeOn m' m'' a (a + size L src edges) → ∃ offs cap,
        Lay L m'' a src edges.length (size L src edges) offs cap (block edges) (block edges) := by
  have hs := hsize
  simp only [size] at hs
  have hnb := numBlocks_pos edges.length
  have hnb' : numBlocks edges.length = 1 + (edges.length - 1) / 1000 := rfl
  obtain ⟨m', offs, h1, h2, h3, h4⟩ := compressBlocks_spec L a src
    (numBlocks edges.length) edges hsrc hv hok hle (numBlocks edges.length) 0
    (m.store32 a edges.length)
    (a + 4 + (numBlocks edges.length - 1) * 4) (by omega) (by omega) (by omega) (by omega)
  have hsz : size L src edges = 4 * numBlocks edges.length +
      blocksLen plain L src 4 edges (numBlocks edges.length) 0 := rfl
  refine ⟨m', ?_, ?_, ?_⟩
  · simp only [sequentialCompressEdgeSet, hpos, if_true]
    simp only [Nat.zero_mul, List.drop_zero] at h1
    rw [show 1 + (edges.length - 1) / parallelDegree = numBlocks edges.length from rfl, h1]
    congr 1; omega
  · intro x hx
    rw [h4 x (by omega) (by omega), Mem.store32_outside _ _ _ _ (by omega)]
  · intro m'' hag
    refine ⟨offs, fun i => (encBlk plain L src (block edges i)).length, ?_⟩
    have hall : (List.range (numBlocks edges.length)).flatMap (block edges) = edges :=
      flatMap_blocks_all edges
    refine
      { srcLt := hsrc, vdPos := hpos, vdEq := ?_, vdSum := ?_, sub := fun _ => List.Sublist.refl _
        len := fun i => by rw [block_length]; omega
        valid := by rw [hall]; exact hv
        ok := by rw [hall]; exact hok
        off0 := ?_, capOk := fun _ _ => Nat.le_refl _
        sep := ?_, fits := ?_, extLt := hsize, hdr := ?_, start := ?_, body := ?_ }
    · rw [Mem.load32_congr (m' := m.store32 a edges.length), Mem.load32_store32_same _ _ _ hle]
      intro i hi1 hi2
      rw [← hag i (by omega) (by omega), h4 i (by omega) (by omega)]
    · rw [scan_block]; exact Nat.min_eq_right (numBlocks_cover _)
    · have := h2 (by omega); omega
    · intro i hi
      exact (h3 i (by omega) (by omega)).2.2.1 hi
    · intro i hi
      have := (h3 i (by omega) hi).2.1
      omega
    · intro i hi1 hi2
      rw [← (h3 i (by omega) hi2).2.2.2.1 hi1]
      exact Mem.load32_congr (fun x hx1 hx2 => (hag x (by omega) (by omega)).symm)
    · intro i hi
      obtain ⟨g1, g2, _, _, g5, _⟩ := h3 i (by omega) hi
      rw [scan_block, Nat.min_eq_left (by omega), ← g5]
      exact Mem.load32_congr (fun x hx1 hx2 => (hag x (by omega) (by omega)).symm)
    · intro i hi
      obtain ⟨g1, g2, _, _, _, g6⟩ := h3 i (by omega) hi
      exact Mem.has_of_agree (fun x hx1 hx2 => hag x (by omega) (by omega)) g6

end Gbbs.AM
