import Verif.Encoding.BlockSize

/-!
# Properties of the `bytepd` encoding (C04, C05, C06, C50)

`Far src n`: the neighbour is exactly `2^31` away from the source.  Encoding such a neighbour
as the first entry of a block evaluates `std::abs(INT_MIN)`.
-/

namespace Gbbs.PD

open Gbbs Byte Blk EncSpec

/-- Neighbour exactly `2^31` away from the source. -/
def Far (src n : Nat) : Prop := n + 2147483648 = src ∨ src + 2147483648 = n

section generic

variable {W : Type} {c : PCodec W} {ok : W → Prop}

theorem encode_spec (L : Lawful c.codec ok) (hub : ∀ w, ok w → c.ub w = false)
    (hw : ∀ w, ok w → (L.enc w).length ≤ 5)
    (m : Mem) (a src : Nat) (edges : List (Nat × W)) (hsrc : src < 4294967296)
    (hv : ValidList edges) (hok : ∀ e ∈ edges, ok e.2) (hf : ∀ e ∈ edges, ¬ Far src e.1)
    (hlen : edges.length ≤ 300000000) :
    ∃ m' b, sequentialCompressEdgeSet c m a src edges = some (m', b) ∧ a ≤ b ∧
      (0 < edges.length → b = a + size L src edges) ∧
      (∀ x, x < a ∨ b ≤ x → m' x = m x) ∧
      (0 < edges.length → ∀ m'', AgreeOn m' m'' a b → ∃ offs, Lay L m'' a src edges offs) := by
  rcases Nat.eq_zero_or_pos edges.length with h0 | hp
  · exact ⟨m, a, by simp [sequentialCompressEdgeSet, h0], Nat.le_refl _, by omega,
      fun _ _ => rfl, by omega⟩
  · have hb := blocksLen_le wrapped L hw src 0 hsrc edges hv hok
      (1 + (edges.length - 1) / 1000) 0
    have hs : size L src edges < 4294967296 := by simp only [size]; omega
    obtain ⟨m', h1, h2, h3⟩ := encode_lay L hub m a src edges hsrc hv hok
      (fun e he => ⟨fun h => hf e he (Or.inl h), fun h => hf e he (Or.inr h)⟩) hp hs
    exact ⟨m', _, h1, by omega, fun _ => rfl, h2, fun _ => h3⟩

theorem roundtrip (L : Lawful c.codec ok) (hub : ∀ w, ok w → c.ub w = false)
    (hw : ∀ w, ok w → (L.enc w).length ≤ 5)
    (m : Mem) (a src : Nat) (edges : List (Nat × W)) (hsrc : src < 4294967296)
    (hv : ValidList edges) (hok : ∀ e ∈ edges, ok e.2) (hf : ∀ e ∈ edges, ¬ Far src e.1)
    (hlen : edges.length ≤ 300000000) :
    ∃ m' b, sequentialCompressEdgeSet c m a src edges = some (m', b) ∧ a ≤ b ∧
      (∀ x, x < a ∨ b ≤ x → m' x = m x) ∧
      ∀ m'', AgreeOn m' m'' a b → ∀ ans : Nat → Nat → W → Nat → Bool,
        decode c.codec ans m'' a src edges.length = some (blockedCalls ans src edges) ∧
        ∀ i, i * 1000 < edges.length →
          decodeBlock c.codec ans m'' a src edges.length i =
            some (callsUntil ans src (i * 1000) (block edges i)) := by
  obtain ⟨m', b, h1, h2, _, h3, h4⟩ := encode_spec L hub hw m a src edges hsrc hv hok hf hlen
  refine ⟨m', b, h1, h2, h3, fun m'' hag ans => ?_⟩
  rcases Nat.eq_zero_or_pos edges.length with h0 | hp
  · exact ⟨by simp [decode, blockedCalls, h0], fun i hi => by omega⟩
  · obtain ⟨offs, lay⟩ := h4 hp m'' hag
    exact ⟨decode_lay lay ans, fun i hi => decodeBlock_lay lay ans (by omega)⟩

theorem blockedCalls_true (src : Nat) (edges : List (Nat × W)) :
    (blockedCalls (fun _ _ _ _ => true) src edges).flatten = numbered 0 edges := by
  have key : ∀ k, ((List.range k).map
      (fun i => callsUntil (fun _ _ _ _ => true) src (i * 1000) (block edges i))).flatten =
      numbered 0 (edges.take (k * 1000)) := by
    intro k
    induction k with
    | zero => simp [numbered]
    | succ k ih =>
      have e1 : edges.take ((k + 1) * 1000) = edges.take (k * 1000) ++ block edges k := by
        rw [show (k + 1) * 1000 = k * 1000 + 1000 by omega, List.take_add, block]
      rw [List.range_succ, List.map_append, List.flatten_append, ih, e1, numbered_append,
        callsUntil_true_list]
      rcases Nat.le_total (k * 1000) edges.length with h | h
      · simp [List.length_take, Nat.min_eq_left h]
      · have : block edges k = [] := by simp [block, List.drop_of_length_le h]
        simp [this, numbered]
  rw [blockedCalls]
  split
  · rename_i h0
    have := List.length_eq_zero_iff.1 h0
    subst this; rfl
  · rw [allYes_true, if_pos rfl, key, List.take_of_length_le (numBlocks_cover _)]
where
  callsUntil_true_list {k : Nat} {src : Nat} {edges : List (Nat × W)} :
      (List.map (fun i => callsUntil (fun _ _ _ _ => true) src (i * 1000) (block edges i))
        [k]).flatten = numbered (k * 1000) (block edges k) := by
    simp [callsUntil_true]

end generic

theorem intP_ub {w : Int} (h : Int32NotMin w) : intP.ub w = false := by
  have := h.1
  simp only [intP, beq_eq_false_iff_ne]; omega

/-! ## C05 round trip -/

/-- C05, unweighted: for every strictly increasing list (up to 300 million neighbours, none
exactly `2^31` away from the source), decoding makes block by block exactly the calls of the
original entries, whatever the callback answers; decoding a single block `i` makes exactly the
calls of block `i`.  Only `[a, b)` is written and only `[a, b)` is read. -/
theorem C05_bytepd_roundtrip_unweighted (m : Mem) (a src : Nat) (edges : List (Nat × Unit))
    (hsrc : src < 4294967296) (hv : ValidList edges) (hf : ∀ e ∈ edges, ¬ Far src e.1)
    (hlen : edges.length ≤ 300000000) :
    ∃ m' b, sequentialCompressEdgeSet emptyP m a src edges = some (m', b) ∧ a ≤ b ∧
      (∀ x, x < a ∨ b ≤ x → m' x = m x) ∧
      ∀ m'', AgreeOn m' m'' a b → ∀ ans : Nat → Nat → Unit → Nat → Bool,
        decode emptyCodec ans m'' a src edges.length = some (blockedCalls ans src edges) ∧
        ∀ i, i * 1000 < edges.length →
          decodeBlock emptyCodec ans m'' a src edges.length i =
            some (callsUntil ans src (i * 1000) (block edges i)) :=
  roundtrip (c := emptyP) emptyLawful (fun _ _ => rfl) (fun w _ => emptyLawful_len w) m a src edges
    hsrc hv (fun _ _ => trivial) hf hlen

/-- C05, `intE` weights. -/
theorem C05_bytepd_roundtrip_int (m : Mem) (a src : Nat) (edges : List (Nat × Int))
    (hsrc : src < 4294967296) (hv : ValidList edges) (hok : ∀ e ∈ edges, Int32NotMin e.2)
    (hf : ∀ e ∈ edges, ¬ Far src e.1) (hlen : edges.length ≤ 300000000) :
    ∃ m' b, sequentialCompressEdgeSet intP m a src edges = some (m', b) ∧ a ≤ b ∧
      (∀ x, x < a ∨ b ≤ x → m' x = m x) ∧
      ∀ m'', AgreeOn m' m'' a b → ∀ ans : Nat → Nat → Int → Nat → Bool,
        decode intCodec ans m'' a src edges.length = some (blockedCalls ans src edges) ∧
        ∀ i, i * 1000 < edges.length →
          decodeBlock intCodec ans m'' a src edges.length i =
            some (callsUntil ans src (i * 1000) (block edges i)) :=
  roundtrip (c := intP) intLawful (fun _ h => intP_ub h) intLawful_len m a src edges hsrc hv hok hf hlen

/-- A callback that never stops the traversal sees the whole list with the right edge ids. -/
theorem C05_bytepd_full_traversal (W : Type) (src : Nat) (edges : List (Nat × W)) :
    (blockedCalls (fun _ _ _ _ => true) src edges).flatten = numbered 0 edges :=
  blockedCalls_true src edges

/-- The proviso "not exactly `2^31` away" cannot be dropped: the one-element list `[2^31]` of
vertex 0 makes the encoder undefined. -/
theorem C05_bytepd_far_neighbor_undefined (m : Mem) (a : Nat) :
    sequentialCompressEdgeSet emptyP m a 0 [(2147483648, ())] = none := by
  have h : firstDiff 0 2147483648 = -2147483648 := by decide
  simp [sequentialCompressEdgeSet, compressBlocks, compressBlock, PD.compressFirstEdge,
    parallelDegree, h]

/-- The property demands that a callback answering `false` ends the traversal.  `bytepd` only
ends the current block: a callback that rejects edge 1000 still gets edge 2000. -/
theorem C05_bytepd_stop_is_per_block :
    ∃ (edges : List (Nat × Unit)) (ans : Nat → Nat → Unit → Nat → Bool),
      ValidList edges ∧ (∀ e ∈ edges, ¬ Far 0 e.1) ∧ edges.length = 2001 ∧
      ans 0 1000 () 1000 = false ∧
      (2000, 2000, ()) ∈ (blockedCalls ans 0 edges).flatten := by
  refine ⟨(List.range 2001).map (fun i => (i, ())), fun _ _ _ i => i != 1000, ⟨?_, ?_⟩, ?_,
    by simp, by decide, ?_⟩
  · rw [List.map_map]; simpa [Function.comp_def] using List.pairwise_lt_range (n := 2001)
  · intro e he
    simp only [List.mem_map, List.mem_range] at he
    obtain ⟨i, hi, rfl⟩ := he
    simp; omega
  · intro e he
    simp only [List.mem_map, List.mem_range] at he
    obtain ⟨i, hi, rfl⟩ := he
    simp [Far]; omega
  · decide +kernel

example : ValidList ((List.range 3000).map (fun i => (7 * i, ()))) ∧
    ∀ e ∈ (List.range 3000).map (fun i => (7 * i, ())), ¬ Far 5 e.1 := by
  refine ⟨⟨?_, ?_⟩, ?_⟩
  · rw [List.map_map, List.pairwise_map]
    exact (List.pairwise_lt_range (n := 3000)).imp (fun h => by simp; omega)
  · intro e he
    simp only [List.mem_map, List.mem_range] at he
    obtain ⟨i, hi, rfl⟩ := he
    simp; omega
  · intro e he
    simp only [List.mem_map, List.mem_range] at he
    obtain ⟨i, hi, rfl⟩ := he
    simp [Far]; omega

/-! ## C04 map_reduce -/

/-- C04, blocked: reducing per-block partial results of a `bytepd` list gives, for every
monoid, the left-to-right reduction of the mapped entries. -/
theorem C04_bytepd_map_reduce {E : Type} (f : Nat → Nat → Int → E) (red : E → E → E) (ident : E)
    (hid : ∀ x, red ident x = x) (hid' : ∀ x, red x ident = x)
    (ha : ∀ x y z, red (red x y) z = red x (red y z))
    (m : Mem) (a src : Nat) (edges : List (Nat × Int))
    (hsrc : src < 4294967296) (hv : ValidList edges) (hok : ∀ e ∈ edges, Int32NotMin e.2)
    (hf : ∀ e ∈ edges, ¬ Far src e.1) (hlen : edges.length ≤ 300000000) :
    ∃ m' b, sequentialCompressEdgeSet intP m a src edges = some (m', b) ∧
      mapReduce intCodec f red ident m' a src edges.length =
        some (reduceList f red ident src edges) := by
  obtain ⟨m', b, h1, h2, _, h3, h4⟩ := encode_spec (c := intP) intLawful
    (fun _ h => intP_ub h) intLawful_len m a src edges
    hsrc hv hok hf hlen
  refine ⟨m', b, h1, ?_⟩
  rcases Nat.eq_zero_or_pos edges.length with h0 | hp
  · have := List.length_eq_zero_iff.1 h0
    subst this
    simp [mapReduce, reduceList]
  · obtain ⟨offs, lay⟩ := h4 hp m' (fun _ _ _ => rfl)
    exact mapReduce_lay lay f red ident hid hid' ha

example : (∀ x : Int, 0 + x = x) ∧ (∀ x : Int, x + 0 = x) ∧ (∀ x y z : Int, x + y + z = x + (y + z)) :=
  ⟨Int.zero_add, Int.add_zero, Int.add_assoc⟩

/-! ## C06 block degrees -/

/-- C06 (partial): the reported degree of a block is the number of entries stored in it,
provided the vertex degree is not a multiple of 1000 or the block is not the last. Missing:
degrees that are multiples of 1000, for which it is false (`C06_bytepd_block_degree_wrong`). -/
theorem C06_bytepd_block_degree_partial {W : Type} (edges : List (Nat × W)) (i : Nat)
    (hi : i * 1000 < edges.length)
    (hm : edges.length % 1000 ≠ 0 ∨ (i + 1) * 1000 < edges.length) :
    getBlockDegree edges.length i = (block edges i).length := by
  rw [block_length, getBlockDegree, if_neg (by omega)]
  simp only [parallelDegree]
  split <;> omega

/-- C06 is false for the shipped code: for every positive multiple of 1000 the last block is
reported to be empty, though it holds 1000 entries. -/
theorem C06_bytepd_block_degree_wrong {W : Type} (edges : List (Nat × W)) (k : Nat)
    (h : edges.length = (k + 1) * 1000) :
    getBlockDegree edges.length k = 0 ∧ (block edges k).length = 1000 := by
  rw [block_length, getBlockDegree, if_neg (by omega)]
  simp only [parallelDegree]
  rw [if_neg (by omega)]
  omega

example : (List.replicate 1000 (3, ())).length = (0 + 1) * 1000 := by decide +kernel
example : 1 * 1000 < (List.replicate 1500 (3, ())).length := by decide +kernel

/-! ## C50 pack and filter -/

section generic

variable {W : Type} {c : PCodec W} {ok : W → Prop}

theorem pack_correct (L : Lawful c.codec ok) (hub : ∀ w, ok w → c.ub w = false)
    (hw : ∀ w, ok w → (L.enc w).length ≤ 5) (pred : Nat → Nat → W → Bool)
    (m : Mem) (a src : Nat) (edges : List (Nat × W)) (hsrc : src < 4294967296)
    (hv : ValidList edges) (hok : ∀ e ∈ edges, ok e.2) (hf : ∀ e ∈ edges, ¬ Far src e.1)
    (hpos : 0 < edges.length) (hlen : edges.length ≤ 1000) :
    ∃ m' b m'', sequentialCompressEdgeSet c m a src edges = some (m', b) ∧
      pack c pred m' a src edges.length =
        some (m'', (edges.filter (fun e => pred src e.1 e.2)).length) ∧
      (∀ x, x < a ∨ b ≤ x → m'' x = m' x) ∧
      ∀ ans, decode c.codec ans m'' a src (edges.filter (fun e => pred src e.1 e.2)).length =
        some (blockedCalls ans src (edges.filter (fun e => pred src e.1 e.2))) := by
  obtain ⟨m', b, h1, h2, h3, _, h4⟩ := encode_spec L hub hw m a src edges hsrc hv hok hf (by omega)
  obtain ⟨offs, lay⟩ := h4 hpos m' (fun _ _ _ => rfl)
  obtain ⟨m'', g1, g2, g3⟩ := pack_lay hub lay
    (fun e he => ⟨fun h => hf e he (Or.inl h), fun h => hf e he (Or.inr h)⟩) pred hlen
  rw [← h3 hpos] at g2
  exact ⟨m', b, m'', h1, g1, g2, g3⟩

end generic

/-- C50 (partial): packing a `bytepd` list of 1 to 1000 entries keeps exactly the accepted
ones.  Missing: degree 0 and degrees above 1000, where the property is false
(`C50_bytepd_pack_ignores_predicate`, `C50_bytepd_pack_empty_wrong`). -/
theorem C50_bytepd_pack_partial (pred : Nat → Nat → Int → Bool)
    (m : Mem) (a src : Nat) (edges : List (Nat × Int)) (hsrc : src < 4294967296)
    (hv : ValidList edges) (hok : ∀ e ∈ edges, Int32NotMin e.2) (hf : ∀ e ∈ edges, ¬ Far src e.1)
    (hpos : 0 < edges.length) (hlen : edges.length ≤ 1000) :
    ∃ m' b m'', sequentialCompressEdgeSet intP m a src edges = some (m', b) ∧
      pack intP pred m' a src edges.length =
        some (m'', (edges.filter (fun e => pred src e.1 e.2)).length) ∧
      (∀ x, x < a ∨ b ≤ x → m'' x = m' x) ∧
      ∀ ans, decode intCodec ans m'' a src (edges.filter (fun e => pred src e.1 e.2)).length =
        some (blockedCalls ans src (edges.filter (fun e => pred src e.1 e.2))) :=
  pack_correct (c := intP) intLawful
    (fun _ h => intP_ub h) intLawful_len pred m a src
    edges hsrc hv hok hf hpos hlen

/-- A list of more than 1000 entries is never packed, whatever the predicate. -/
theorem C50_bytepd_pack_ignores_predicate (pred : Nat → Nat → Int → Bool) (m : Mem) (a src : Nat)
    (edges : List (Nat × Int)) (h : 1000 < edges.length) :
    pack intP pred m a src edges.length = some (m, edges.length) := by
  rw [pack, if_neg (by simp [parallelDegree]; omega)]

/-- Packing the empty list of a vertex reads whatever follows it in memory and can report one
neighbour: here vertex 0 has no neighbours and the next bytes encode `[5]`. -/
theorem C50_bytepd_pack_empty_wrong :
    ∃ m : Mem, (sequentialCompressEdgeSet emptyP m 0 0 []) = some (m, 0) ∧
      ∃ m', pack emptyP (fun _ _ _ => true) m 0 0 0 = some (m', 1) := by
  refine ⟨fun _ => 5, rfl, ?_⟩
  have h2 : eatFirstEdge (fun _ => 5) 0 0 = some (5, 1) := by
    simp [eatFirstEdge, eatSigned, lastBitSet, uintEMod]
  have h3 : PD.compressFirstEdge (fun _ => 5) 0 0 5 ≠ none := by
    rw [compressFirstEdge_eq _ _ _ _ (by decide) (by decide) (by simp [NotHalf])]; simp
  obtain ⟨⟨m', p⟩, h4⟩ := Option.ne_none_iff_exists'.1 h3
  exact ⟨m', by
    simp [pack, packBlock, decodeFrom, decodeLoop, keepCb, h2, emptyP, emptyCodec, compressBlock,
      h4, compressWeight, PD.compressRest]⟩

/-- C50: `filter` on a non-empty `bytepd` list of any length emits exactly the accepted
entries, in order. -/
theorem C50_bytepd_filter (pred : Nat → Nat → Int → Bool)
    (m : Mem) (a src : Nat) (edges : List (Nat × Int)) (hsrc : src < 4294967296)
    (hv : ValidList edges) (hok : ∀ e ∈ edges, Int32NotMin e.2) (hf : ∀ e ∈ edges, ¬ Far src e.1)
    (hpos : 0 < edges.length) (hlen : edges.length ≤ 300000000) :
    ∃ m' b, sequentialCompressEdgeSet intP m a src edges = some (m', b) ∧
      filter intCodec pred m' a src edges.length =
        some (edges.filter (fun e => pred src e.1 e.2)) := by
  obtain ⟨m', b, h1, _, _, _, h4⟩ := encode_spec (c := intP) intLawful
    (fun _ h => intP_ub h) intLawful_len m a src edges
    hsrc hv hok hf hlen
  obtain ⟨offs, lay⟩ := h4 hpos m' (fun _ _ _ => rfl)
  exact ⟨m', b, h1, filter_lay lay pred⟩

example : ValidList [(3, (-5 : Int)), (4000000000, 2147483647)] ∧
    (∀ e ∈ [(3, (-5 : Int)), (4000000000, 2147483647)], Int32NotMin e.2) ∧
    (∀ e ∈ [(3, (-5 : Int)), (4000000000, 2147483647)], ¬ Far 7 e.1) :=
  ⟨⟨by decide, by decide⟩, by simp [Int32NotMin], by simp [Far]⟩

end Gbbs.PD
