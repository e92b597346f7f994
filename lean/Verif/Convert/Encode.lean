import Verif.Encoding.AmTheorems

/-!
# The `bytepd_amortized` encoder with an arbitrary block size, and the size pass of the converters

`Verif/Encoding/BlockedModel.lean` fixes the block size of the encoder to `PARALLEL_DEGREE`.  The
converter (`utils/converter.h`) passes another one, so the encoder is modelled here again with the
block size as a parameter, together with the loop that computes the size of an encoded list.
-/

namespace Gbbs.Convert

open Gbbs Byte Blk EncSpec

variable {W : Type}

/-! ## Model -/

/-- Loop over the blocks in `sequentialCompressEdgeSet`,
`gbbs/encodings/byte_pd_amortized.h:1119-1159`, with `encoded_degree = bs`.  As in
`AM.compressBlocks` one block (lines 1131-1158 without the debugging read-back) is
`Byte.sequentialCompressEdgeSet`. -/
def compressBlocks (c : WCodec W) (bs a src degree start : Nat) :
    (k i : Nat) → Mem → Nat → List (Nat × W) → Mem × Nat
  | 0, _, m, off, _ => (m, off)
  | k + 1, i, m, off, edges =>
    let o := i * bs
    let e := min bs (degree - o)
    let m := if i > 0 then m.store32 (a + 4 + 4 * (i - 1)) (off - start) else m
    let m := m.store32 off o
    let off := off + 4
    let (m, off) := Byte.sequentialCompressEdgeSet c m off src (edges.take e)
    compressBlocks c bs a src degree start k (i + 1) m off (edges.drop e)

/-- `sequentialCompressEdgeSet`, `byte_pd_amortized.h:1106-1162`, with `encoded_degree = bs`. -/
def compress (c : WCodec W) (bs : Nat) (m : Mem) (a src : Nat) (edges : List (Nat × W)) :
    Mem × Nat :=
  let degree := edges.length
  if degree > 0 then
    let nb := 1 + (degree - 1) / bs
    let m := m.store32 a degree
    compressBlocks c bs a src degree a nb 0 m (a + 4 + (nb - 1) * 4) edges
  else (m, a)

/-- The function mapped over the neighbours to compute the size of a list,
`utils/compressor.cc:31-44` and `utils/converter.h:525-537` (also 604-616, 689-701): `total` is `total_bytes`, `last` is `last_ngh`.  The bytes are written to the scratch
array `tmp` at offset 0 and only their number is used. -/
def sizeLoop (c : WCodec W) (bs u : Nat) : List (Nat × W) → (total last deg : Nat) → Nat × Nat
  | [], total, _, deg => (total, deg)
  | (v, w) :: rest, total, last, deg =>
    let tmp : Mem := fun _ => 0
    let r := if deg % bs = 0 then compressFirstEdge tmp 0 u v
      else compressEdge tmp 0 ((v + (uintEMod - last)) % uintEMod)
    let bytes := (c.compress r.1 r.2 w).2
    sizeLoop c bs u rest (total + bytes) v (deg + 1)

/-- `total_bytes` and `deg` of one vertex, `utils/compressor.cc:26-59`,
`utils/converter.h:519-554`. -/
def sizePass (c : WCodec W) (bs u : Nat) (edges : List (Nat × W)) : Nat × Nat :=
  let (total, deg) := sizeLoop c bs u edges 0 0 0
  if deg > 0 then
    let nChunks := 1 + (deg - 1) / bs
    (total + (nChunks - 1) * 4 + nChunks * 4 + 4, deg)
  else (total, deg)

/-- With blocks of `PARALLEL_DEGREE` entries this is the encoder of C07. -/
theorem compressBlocks_1000 (c : WCodec W) (a src degree start k i : Nat) (m : Mem) (off : Nat)
    (edges : List (Nat × W)) :
    compressBlocks c 1000 a src degree start k i m off edges =
      AM.compressBlocks c a src degree start k i m off edges := by
  induction k generalizing i m off edges with
  | zero => rfl
  | succ k ih =>
    simp only [compressBlocks, AM.compressBlocks, ih, parallelDegree]

theorem compress_1000 (c : WCodec W) (m : Mem) (a src : Nat) (edges : List (Nat × W)) :
    compress c 1000 m a src edges = AM.sequentialCompressEdgeSet c m a src edges := by
  simp only [compress, AM.sequentialCompressEdgeSet, compressBlocks_1000, parallelDegree]

/-! ## The bytes written -/

variable {c : WCodec W} {ok : W → Prop}

/-- Block `i` of a list cut into blocks of `bs` entries. -/
def blockB (bs : Nat) (l : List (Nat × W)) (i : Nat) : List (Nat × W) :=
  (l.drop (i * bs)).take bs

/-- The blocks `i, i+1, …` (`k` of them), each preceded by the number of its first entry. -/
def bodyBytes (L : Lawful c ok) (bs src : Nat) (all : List (Nat × W)) : (k i : Nat) → List UInt8
  | 0, _ => []
  | k + 1, i => le32 (i * bs) ++ (encList L src (blockB bs all i) ++ bodyBytes L bs src all k (i + 1))

/-- The offsets of the blocks `i, i+1, …` except that of block 0, when block `i` starts at `off`. -/
def offBytes (L : Lawful c ok) (bs src : Nat) (all : List (Nat × W)) :
    (k i off : Nat) → List UInt8
  | 0, _, _ => []
  | k + 1, i, off =>
    (if i > 0 then le32 off else []) ++
      offBytes L bs src all k (i + 1) (off + 4 + (encList L src (blockB bs all i)).length)

/-- All bytes of an encoded list. -/
def encBytes (L : Lawful c ok) (bs src : Nat) (all : List (Nat × W)) : List UInt8 :=
  if all.length > 0 then
    let nb := 1 + (all.length - 1) / bs
    le32 all.length ++ (offBytes L bs src all nb 0 (4 * nb) ++ bodyBytes L bs src all nb 0)
  else []

theorem offBytes_length (L : Lawful c ok) (bs src : Nat) (all : List (Nat × W)) (k i off : Nat) :
    (offBytes L bs src all k i off).length = if i > 0 then 4 * k else 4 * (k - 1) := by
  induction k generalizing i off with
  | zero => simp [offBytes]
  | succ k ih =>
    simp only [offBytes, List.length_append, ih]
    rw [if_pos (by omega : i + 1 > 0)]
    by_cases h : i > 0
    · simp only [h, if_true, le32_length]; omega
    · simp only [h, if_false, List.length_nil]; omega

theorem blockB_sub (bs : Nat) (l : List (Nat × W)) (i : Nat) : (blockB bs l i).Sublist l :=
  (List.take_sublist _ _).trans (List.drop_sublist _ _)

theorem has_write {m : Mem} {a : Nat} {bytes : List UInt8} (x : Nat) (h1 : a ≤ x)
    (h2 : x < a + bytes.length) {m' : Mem} (h : m'.Has a bytes) : m' x = m.write a bytes x := by
  induction bytes generalizing m a with
  | nil => simp at h2; omega
  | cons b bytes ih =>
    simp only [List.length_cons] at h2
    by_cases e : x = a
    · subst e
      rw [Mem.write, Mem.write_outside _ _ _ _ (by omega), Mem.store_same]
      exact h.1
    · exact ih (by omega) (by omega) h.2

/-- A memory that has the bytes and agrees elsewhere is the result of writing them. -/
theorem eq_write {m m' : Mem} {a : Nat} {bytes : List UInt8} (h : m'.Has a bytes)
    (hf : ∀ x, x < a ∨ a + bytes.length ≤ x → m' x = m x) : m' = m.write a bytes := by
  funext x
  by_cases h1 : a ≤ x ∧ x < a + bytes.length
  · exact has_write x h1.1 h1.2 h
  · rw [hf x (by omega), Mem.write_outside _ _ _ _ (by omega)]

theorem take_drop_min (bs i : Nat) (all : List (Nat × W)) :
    (all.drop (i * bs)).take (min bs (all.length - i * bs)) = blockB bs all i ∧
    ((k : Nat) → i * bs + bs ≤ all.length ∨ k = 0 →
      (all.drop (i * bs)).drop (min bs (all.length - i * bs)) = all.drop ((i + 1) * bs)) := by
  have hm : (i + 1) * bs = i * bs + bs := Nat.succ_mul ..
  refine ⟨?_, fun k _ => ?_⟩
  · rw [blockB]
    by_cases h : bs ≤ all.length - i * bs
    · rw [Nat.min_eq_left h]
    · rw [Nat.min_eq_right (by omega)]
      rw [List.take_of_length_le (by simp), List.take_of_length_le (by simp; omega)]
  · rw [List.drop_drop, hm]
    by_cases h : bs ≤ all.length - i * bs
    · rw [Nat.min_eq_left h]
    · rw [Nat.min_eq_right (by omega)]
      rw [List.drop_eq_nil_of_le (by omega), List.drop_eq_nil_of_le (by omega)]

theorem compressBlocks_eq (L : Lawful c ok) (bs a src nb : Nat) (all : List (Nat × W))
    (hsrc : src < uintEMod) (hv : ValidList all) (hok : ∀ e ∈ all, ok e.2)
    (k i : Nat) (m : Mem) (off : Nat) (hk : i + k = nb) (hoff : a + 4 * nb ≤ off) :
    ∃ m' : Mem,
      compressBlocks c bs a src all.length a k i m off (all.drop (i * bs)) =
        (m', off + (bodyBytes L bs src all k i).length) ∧
      m'.Has off (bodyBytes L bs src all k i) ∧
      m'.Has (a + 4 + 4 * (i - 1)) (offBytes L bs src all k i (off - a)) ∧
      (∀ x, (x < off ∨ off + (bodyBytes L bs src all k i).length ≤ x) →
        (x < a + 4 + 4 * (i - 1) ∨ a + 4 * nb ≤ x) → m' x = m x) := by
  induction k generalizing i m off with
  | zero => exact ⟨m, rfl, trivial, trivial, fun _ _ _ => rfl⟩
  | succ k ih =>
    have hsub := blockB_sub bs all i
    obtain ⟨ht, hd⟩ := take_drop_min bs i all
    have hB := sequentialCompressEdgeSet_eq L
      ((if i > 0 then m.store32 (a + 4 + 4 * (i - 1)) (off - a) else m).store32 off (i * bs))
      (off + 4) src (blockB bs all i) hsrc (ValidList.sublist hsub hv)
      (fun e he => hok e (hsub.subset he))
    generalize hm1 : (if i > 0 then m.store32 (a + 4 + 4 * (i - 1)) (off - a) else m) = m1 at hB
    generalize hE : encList L src (blockB bs all i) = E at *
    obtain ⟨m', h1, h2, h3, h4⟩ := ih (i + 1)
      ((m1.store32 off (i * bs)).write (off + 4) E) (off + 4 + E.length) (by omega) (by omega)
    have hl : (bodyBytes L bs src all (k + 1) i).length =
        4 + E.length + (bodyBytes L bs src all k (i + 1)).length := by
      simp only [bodyBytes, hE, List.length_append, le32_length]; omega
    have hin : ∀ x, off ≤ x → x < off + 4 + E.length → m' x =
        ((m1.store32 off (i * bs)).write (off + 4) E) x :=
      fun x hx1 hx2 => h4 x (by omega) (by omega)
    refine ⟨m', ?_, ?_, ?_, ?_⟩
    · simp only [compressBlocks, ht, hd 0 (Or.inr rfl), hm1, hB]
      rw [h1, hl]; congr 1; omega
    · simp only [bodyBytes, hE, Mem.has_append, le32_length]
      refine ⟨?_, ?_, ?_⟩
      · refine Mem.has_of_agree (fun x hx1 hx2 => ?_)
          (Mem.write_has m1 off (le32 (i * bs)))
        rw [le32_length] at hx2
        rw [hin x hx1 (by omega),
          Mem.write_outside (m1.store32 off (i * bs)) (off + 4) E x (by omega)]; rfl
      · exact Mem.has_of_agree (fun x hx1 hx2 => (hin x (by omega) (by omega)).symm)
          (Mem.write_has _ (off + 4) E)
      · exact h2
    · simp only [offBytes, hE]
      by_cases hi : i > 0
      · rw [if_pos hi, Mem.has_append, le32_length]
        refine ⟨?_, ?_⟩
        · refine Mem.has_of_agree (fun x hx1 hx2 => ?_)
            (Mem.write_has m (a + 4 + 4 * (i - 1)) (le32 (off - a)))
          rw [le32_length] at hx2
          rw [h4 x (by omega) (by omega),
            Mem.write_outside (m1.store32 off (i * bs)) (off + 4) E x (by omega),
            Mem.store32_outside _ _ _ _ (by omega), ← hm1, if_pos hi]; rfl
        · rw [show a + 4 + 4 * (i - 1) + 4 = a + 4 + 4 * (i + 1 - 1) by omega,
            show off - a + 4 + E.length = off + 4 + E.length - a by omega]
          exact h3
      · have : i = 0 := by omega
        subst this
        rw [if_neg hi, List.nil_append, show off - a + 4 + E.length = off + 4 + E.length - a by omega]
        exact h3
    · intro x hx1 hx2
      rw [hl] at hx1
      rw [h4 x (by omega) (by omega), Mem.write_outside _ _ _ _ (by omega),
        Mem.store32_outside _ _ _ _ (by omega), ← hm1]
      split
      · exact Mem.store32_outside _ _ _ _ (by omega)
      · rfl

/-- The encoder writes exactly `encBytes`, consecutively, wherever it is told to. -/
theorem compress_eq (L : Lawful c ok) (bs : Nat) (m : Mem) (a src : Nat) (all : List (Nat × W))
    (hsrc : src < uintEMod) (hv : ValidList all) (hok : ∀ e ∈ all, ok e.2) :
    compress c bs m a src all =
      (m.write a (encBytes L bs src all), a + (encBytes L bs src all).length) := by
  by_cases hp : all.length > 0
  · have e0 := offBytes_length L bs src all (1 + (all.length - 1) / bs) 0
      (4 * (1 + (all.length - 1) / bs))
    rw [if_neg (by omega)] at e0
    simp only [compress, encBytes, if_pos hp]
    have hpos : 0 < 1 + (all.length - 1) / bs := Nat.add_pos_left Nat.one_pos _
    generalize 1 + (all.length - 1) / bs = nb at *
    obtain ⟨m', h1, h2, h3, h4⟩ := compressBlocks_eq L bs a src nb all hsrc hv hok nb 0
      (m.store32 a all.length) (a + 4 + (nb - 1) * 4) (by omega) (by omega)
    rw [Nat.zero_mul, List.drop_zero] at h1
    rw [show a + 4 + (nb - 1) * 4 - a = 4 * nb by omega,
      show a + 4 + 4 * (0 - 1) = a + 4 by omega] at h3
    rw [h1]
    have hl : (le32 all.length ++ (offBytes L bs src all nb 0 (4 * nb) ++
        bodyBytes L bs src all nb 0)).length = 4 * nb + (bodyBytes L bs src all nb 0).length := by
      simp only [List.length_append, e0, le32_length]; omega
    rw [hl]
    refine Prod.ext ?_ (show a + 4 + (nb - 1) * 4 + _ = a + _ by omega)
    refine eq_write ?_ ?_
    · simp only [Mem.has_append, le32_length, e0]
      refine ⟨?_, h3, ?_⟩
      · refine Mem.has_of_agree (fun x hx1 hx2 => ?_) (Mem.write_has m a (le32 all.length))
        rw [le32_length] at hx2
        rw [h4 x (by omega) (by omega)]; rfl
      · rw [show a + 4 + 4 * (nb - 1) = a + 4 + (nb - 1) * 4 by omega]; exact h2
    · intro x hx
      rw [hl] at hx
      show m' x = m x
      rw [h4 x (by omega) (by omega), Mem.store32_outside _ _ _ _ (by omega)]
  · have : all = [] := List.length_eq_zero_iff.1 (by omega)
    subst this
    rfl

/-! ## The size pass -/

theorem sizeLoop_rest (L : Lawful c ok) (bs u : Nat) (rest tail : List (Nat × W))
    (total last deg : Nat) (hc : Chain ok last rest) (hd : deg % bs ≠ 0 ∨ rest = [])
    (hb : deg % bs + rest.length ≤ bs) :
    sizeLoop c bs u (rest ++ tail) total last deg =
      sizeLoop c bs u tail (total + (encRest L last rest).length)
        ((rest.map Prod.fst).getLast?.getD last) (deg + rest.length) := by
  induction rest generalizing total last deg with
  | nil => simp [encRest]
  | cons e rest ih =>
    obtain ⟨v, w⟩ := e
    obtain ⟨h1, h2, h3, h4⟩ := hc
    have hne : deg % bs ≠ 0 := by
      rcases hd with h | h
      · exact h
      · simp at h
    simp only [List.length_cons] at hb
    have hmod : deg % bs + 1 < bs → (deg + 1) % bs = deg % bs + 1 := by
      intro h
      rw [Nat.add_mod, Nat.mod_eq_of_lt (by omega : 1 < bs), Nat.mod_eq_of_lt h]
    simp only [List.cons_append, sizeLoop, if_neg hne, compressEdge_eq, diff_eq h1 h2,
      L.compress_eq _ _ _ h3]
    have key : (deg + 1) % bs ≠ 0 ∨ rest = [] := by
      by_cases hr : rest = []
      · exact Or.inr hr
      · left
        have := List.length_pos_iff.2 hr
        rw [hmod (by omega)]; omega
    have kb : (deg + 1) % bs + rest.length ≤ bs := by
      by_cases hr : rest = []
      · subst hr
        have := Nat.mod_lt (deg + 1) (show bs > 0 by omega)
        simp; omega
      · have := List.length_pos_iff.2 hr
        rw [hmod (by omega)]; omega
    rw [ih _ _ _ h4 key kb]
    simp only [encRest, List.length_append, List.length_cons, List.map_cons]
    congr 1
    · omega
    · cases rest with
      | nil => simp
      | cons e r => simp [List.getLast?_cons]
    · omega

theorem sizeLoop_block (L : Lawful c ok) (bs u : Nat) (hbs : 0 < bs) (hu : u < uintEMod)
    (l tail : List (Nat × W)) (total last deg : Nat) (hv : ValidList l) (hok : ∀ e ∈ l, ok e.2)
    (hd : deg % bs = 0) (hb : l.length ≤ bs) :
    ∃ last', sizeLoop c bs u (l ++ tail) total last deg =
      sizeLoop c bs u tail (total + (encList L u l).length) last' (deg + l.length) := by
  cases l with
  | nil => exact ⟨last, by simp [encList]⟩
  | cons e r =>
    obtain ⟨v, w⟩ := e
    have hn : v < uintEMod := hv.bounded _ (List.mem_cons_self ..)
    have hc : Chain ok v r := chain_of_valid hv (fun e he => hok e (List.mem_cons_of_mem _ he))
    simp only [List.length_cons] at hb
    refine ⟨(r.map Prod.fst).getLast?.getD v, ?_⟩
    simp only [List.cons_append, sizeLoop, if_pos hd]
    rw [compressFirstEdge_eq _ _ _ _ (by simp only [uintEMod] at *; omega)]
    simp only [L.compress_eq _ _ _ (hok (v, w) (by simp))]
    rw [sizeLoop_rest L bs u r tail _ _ _ hc ?_ ?_]
    · simp only [encList, List.length_append, List.length_cons]
      congr 1 <;> omega
    · by_cases hr : r = []
      · exact Or.inr hr
      · left
        have := List.length_pos_iff.2 hr
        rw [Nat.add_mod, hd, Nat.mod_eq_of_lt (by omega : 1 < bs)]
        simp [Nat.mod_eq_of_lt (by omega : 1 < bs)]
    · by_cases hr : r = []
      · subst hr
        have := Nat.mod_lt (deg + 1) hbs
        simp; omega
      · have := List.length_pos_iff.2 hr
        rw [Nat.add_mod, hd, Nat.mod_eq_of_lt (by omega : 1 < bs)]
        simp [Nat.mod_eq_of_lt (by omega : 1 < bs)]; omega

theorem drop_eq_block (bs i : Nat) (all : List (Nat × W)) :
    all.drop (i * bs) = blockB bs all i ++ all.drop ((i + 1) * bs) := by
  rw [blockB, show (i + 1) * bs = i * bs + bs from Nat.succ_mul .., ← List.drop_drop,
    List.take_append_drop]

theorem sizeLoop_blocks (L : Lawful c ok) (bs u : Nat) (hbs : 0 < bs) (hu : u < uintEMod)
    (all : List (Nat × W)) (hv : ValidList all) (hok : ∀ e ∈ all, ok e.2)
    (k i total last : Nat) (hi : i * bs ≤ all.length ∨ k = 0)
    (hk : all.length ≤ (i + k) * bs) (hk' : k > 0 → (i + k - 1) * bs ≤ all.length) :
    ∃ t', sizeLoop c bs u (all.drop (i * bs)) total last (min (i * bs) all.length) =
      (t', all.length) ∧ t' + 4 * k = total + (bodyBytes L bs u all k i).length := by
  induction k generalizing i total last with
  | zero =>
    rw [List.drop_eq_nil_of_le (by simpa using hk), Nat.min_eq_right (by simpa using hk)]
    exact ⟨total, rfl, by simp [bodyBytes]⟩
  | succ k ih =>
    have hib : i * bs ≤ all.length := by
      rcases hi with h | h
      · exact h
      · omega
    have hsub := blockB_sub bs all i
    have hm : (i + 1) * bs = i * bs + bs := Nat.succ_mul ..
    obtain ⟨last', hb⟩ := sizeLoop_block L bs u hbs hu (blockB bs all i) (all.drop ((i + 1) * bs))
      total last (i * bs) (ValidList.sublist hsub hv) (fun e he => hok e (hsub.subset he))
      (Nat.mul_mod_left ..) (by simp [blockB]; omega)
    rw [← drop_eq_block] at hb
    rw [Nat.min_eq_left hib, hb]
    have hlen : i * bs + (blockB bs all i).length = min ((i + 1) * bs) all.length := by
      simp only [blockB, List.length_take, List.length_drop]; omega
    rw [hlen]
    obtain ⟨t', h1, h2⟩ := ih (i + 1) (total + (encList L u (blockB bs all i)).length) last'
      (by
        by_cases hk0 : k = 0
        · exact Or.inr hk0
        · left
          refine Nat.le_trans ?_ (hk' (by omega))
          exact Nat.mul_le_mul_right _ (by omega))
      (by rw [show i + 1 + k = i + (k + 1) by omega]; exact hk)
      (by intro _; rw [show i + 1 + k - 1 = i + (k + 1) - 1 by omega]; exact hk' (by omega))
    refine ⟨t', h1, ?_⟩
    simp only [bodyBytes, List.length_append, le32_length]
    omega

/-- The size pass computes the number of bytes that the encoder writes. -/
theorem sizePass_eq (L : Lawful c ok) (bs u : Nat) (hbs : 0 < bs) (hu : u < uintEMod)
    (all : List (Nat × W)) (hv : ValidList all) (hok : ∀ e ∈ all, ok e.2) :
    sizePass c bs u all = ((encBytes L bs u all).length, all.length) := by
  by_cases hp : all.length > 0
  · have hdiv := Nat.div_add_mod (all.length - 1) bs
    have hmod := Nat.mod_lt (all.length - 1) hbs
    have hc : (1 + (all.length - 1) / bs) * bs = bs + bs * ((all.length - 1) / bs) := by
      rw [Nat.add_mul, Nat.one_mul, Nat.mul_comm]
    have hc' : (all.length - 1) / bs * bs = bs * ((all.length - 1) / bs) := Nat.mul_comm ..
    obtain ⟨t', h1, h2⟩ := sizeLoop_blocks L bs u hbs hu all hv hok
      (1 + (all.length - 1) / bs) 0 0 0 (Or.inl (by omega)) (by rw [Nat.zero_add]; omega)
      (fun _ => by
        rw [show 0 + (1 + (all.length - 1) / bs) - 1 = (all.length - 1) / bs by omega]; omega)
    rw [Nat.zero_mul, List.drop_zero, Nat.min_eq_left (by omega)] at h1
    have e0 := offBytes_length L bs u all (1 + (all.length - 1) / bs) 0
      (4 * (1 + (all.length - 1) / bs))
    rw [if_neg (by omega)] at e0
    simp only [sizePass, h1, if_pos hp, encBytes, List.length_append, e0, le32_length]
    congr 1; omega
  · have : all = [] := List.length_eq_zero_iff.1 (by omega)
    subst this
    rfl

end Gbbs.Convert
