import Verif.Encoding.AmRepack
import Verif.Encoding.PdTheorems

/-!
# Properties of the `bytepd_amortized` encoding (C03, C04, C06, C07, C51)
-/

namespace Gbbs.AM

open Gbbs Byte Blk EncSpec

section generic

variable {W : Type} {c : WCodec W} {ok : W → Prop}

theorem encode_spec (L : Lawful c ok) (hw : ∀ w, ok w → (L.enc w).length ≤ 5)
    (m : Mem) (a src : Nat) (edges : List (Nat × W)) (hsrc : src < 4294967296)
    (hv : ValidList edges) (hok : ∀ e ∈ edges, ok e.2) (hlen : edges.length ≤ 300000000) :
    ∃ m' b, sequentialCompressEdgeSet c m a src edges = (m', b) ∧ a ≤ b ∧
      (0 < edges.length → b = a + size L src edges) ∧
      (∀ x, x < a ∨ b ≤ x → m' x = m x) ∧
      (0 < edges.length → ∀ m'', AgreeOn m' m'' a b → ∃ offs cap,
        Lay L m'' a src edges.length (size L src edges) offs cap (block edges) (block edges)) := by
  rcases Nat.eq_zero_or_pos edges.length with h0 | hp
  · exact ⟨m, a, by simp [sequentialCompressEdgeSet, h0], Nat.le_refl _, by omega,
      fun _ _ => rfl, by omega⟩
  · have hb := blocksLen_le plain L hw src 4 hsrc edges hv hok (numBlocks edges.length) 0
    have hnb : numBlocks edges.length = 1 + (edges.length - 1) / 1000 := rfl
    have hs : size L src edges < 4294967296 := by simp only [size]; omega
    obtain ⟨m', h1, h2, h3⟩ := encode_lay L m a src edges hsrc hv hok hp (by omega) hs
    exact ⟨m', _, h1, by omega, fun _ => rfl, h2, fun _ => h3⟩

theorem live_block (edges : List (Nat × W)) : live edges.length (block edges) = edges :=
  flatMap_blocks_all edges

theorem unweighted_calls (ans : Nat → Nat → W → Nat → Bool) (src : Nat) (edges : List (Nat × W))
    (hp : 0 < edges.length) :
    (if allYes ans src 0 (block edges 0) then
        (List.range (numBlocks edges.length)).map
          (fun i => callsUntil ans src (st (block edges) i) (block edges i))
      else [callsUntil ans src 0 (block edges 0)]) = blockedCalls ans src edges := by
  have hne : edges.length ≠ 0 := by omega
  simp only [blockedCalls, hne, if_false]
  congr 1
  refine List.map_congr_left (fun i hi => ?_)
  have hi : i < 1 + (edges.length - 1) / 1000 := by simpa [numBlocks] using hi
  rw [scan_block, Nat.min_eq_left (by omega)]

theorem roundtrip (L : Lawful c ok) (hw : ∀ w, ok w → (L.enc w).length ≤ 5)
    (m : Mem) (a src : Nat) (edges : List (Nat × W)) (hsrc : src < 4294967296)
    (hv : ValidList edges) (hok : ∀ e ∈ edges, ok e.2) (hlen : edges.length ≤ 300000000) :
    ∃ m' b, sequentialCompressEdgeSet c m a src edges = (m', b) ∧ a ≤ b ∧
      (∀ x, x < a ∨ b ≤ x → m' x = m x) ∧
      ∀ m'', AgreeOn m' m'' a b → ∀ ans : Nat → Nat → W → Nat → Bool,
        decodeWeighted c ans m'' a src edges.length = some (callsUntil ans src 0 edges) ∧
        decodeUnweighted c ans m'' a src edges.length = some (blockedCalls ans src edges) ∧
        ∀ i, i * 1000 < edges.length →
          decodeBlock c ans m'' a src edges.length i =
            some (callsUntil ans src (i * 1000) (block edges i)) := by
  obtain ⟨m', b, h1, h2, _, h3, h4⟩ := encode_spec L hw m a src edges hsrc hv hok hlen
  refine ⟨m', b, h1, h2, h3, fun m'' hag ans => ?_⟩
  rcases Nat.eq_zero_or_pos edges.length with h0 | hp
  · have := List.length_eq_zero_iff.1 h0
    subst this
    exact ⟨rfl, rfl, fun i hi => by simp at hi⟩
  · obtain ⟨offs, cap, lay⟩ := h4 hp m'' hag
    have e1 := decodeWeighted_lay lay ans
    have e2 := decodeUnweighted_lay lay ans (by rw [live_block]; exact hp)
    rw [unweighted_calls ans src edges hp] at e2
    rw [live_block] at e1 e2
    refine ⟨e1, e2, fun i hi => ?_⟩
    have e3 := decodeBlock_lay lay ans (by rw [live_block]; exact hp) (i := i)
      (show i < 1 + (edges.length - 1) / 1000 by omega)
    rw [live_block, scan_block, Nat.min_eq_left (by omega)] at e3
    exact e3

end generic

/-! ## C07 round trip -/

/-- C07, unweighted: decoding makes, block by block, exactly the calls of the original entries;
only `[a, b)` is written and read. -/
theorem C07_amortized_roundtrip_unweighted (m : Mem) (a src : Nat) (edges : List (Nat × Unit))
    (hsrc : src < 4294967296) (hv : ValidList edges) (hlen : edges.length ≤ 300000000) :
    ∃ m' b, sequentialCompressEdgeSet emptyCodec m a src edges = (m', b) ∧ a ≤ b ∧
      (∀ x, x < a ∨ b ≤ x → m' x = m x) ∧
      ∀ m'', AgreeOn m' m'' a b → ∀ ans : Nat → Nat → Unit → Nat → Bool,
        decodeUnweighted emptyCodec ans m'' a src edges.length =
          some (blockedCalls ans src edges) ∧
        ∀ i, i * 1000 < edges.length →
          decodeBlock emptyCodec ans m'' a src edges.length i =
            some (callsUntil ans src (i * 1000) (block edges i)) := by
  obtain ⟨m', b, h1, h2, h3, h4⟩ := roundtrip emptyLawful (fun w _ => emptyLawful_len w) m a src
    edges hsrc hv (fun _ _ => trivial) hlen
  exact ⟨m', b, h1, h2, h3, fun m'' hag ans => (h4 m'' hag ans).2⟩

/-- C07, `intE` weights: decoding makes exactly the calls of the original entries, in order,
up to the first negative answer. -/
theorem C07_amortized_roundtrip_int (m : Mem) (a src : Nat) (edges : List (Nat × Int))
    (hsrc : src < 4294967296) (hv : ValidList edges) (hok : ∀ e ∈ edges, Int32NotMin e.2)
    (hlen : edges.length ≤ 300000000) :
    ∃ m' b, sequentialCompressEdgeSet intCodec m a src edges = (m', b) ∧ a ≤ b ∧
      (∀ x, x < a ∨ b ≤ x → m' x = m x) ∧
      ∀ m'', AgreeOn m' m'' a b → ∀ ans : Nat → Nat → Int → Nat → Bool,
        decodeWeighted intCodec ans m'' a src edges.length = some (callsUntil ans src 0 edges) ∧
        ∀ i, i * 1000 < edges.length →
          decodeBlock intCodec ans m'' a src edges.length i =
            some (callsUntil ans src (i * 1000) (block edges i)) := by
  obtain ⟨m', b, h1, h2, h3, h4⟩ := roundtrip intLawful intLawful_len m a src
    edges hsrc hv hok hlen
  exact ⟨m', b, h1, h2, h3, fun m'' hag ans => ⟨(h4 m'' hag ans).1, (h4 m'' hag ans).2.2⟩⟩

/-- C07 is false for `float` weights: the encoder stores no weight, so two lists that differ
only in their weights have the same encoding. -/
theorem C07_amortized_float_weights_lost (m : Mem) (a src ngh : Nat)
    (w w' : UInt8 × UInt8 × UInt8 × UInt8) :
    sequentialCompressEdgeSet floatCodecAM m a src [(ngh, w)] =
      sequentialCompressEdgeSet floatCodecAM m a src [(ngh, w')] := by
  simp [sequentialCompressEdgeSet, compressBlocks, Byte.sequentialCompressEdgeSet, floatCodecAM,
    Byte.compressRest, show min parallelDegree 1 = 1 from rfl]

/-! ## C03, C04, C06 -/

/-- C04 for `bytepd_amortized`. -/
theorem C04_amortized_map_reduce {E : Type} (f : Nat → Nat → Int → E) (red : E → E → E) (ident : E)
    (hid : ∀ x, red ident x = x) (hid' : ∀ x, red x ident = x)
    (ha : ∀ x y z, red (red x y) z = red x (red y z))
    (m : Mem) (a src : Nat) (edges : List (Nat × Int))
    (hsrc : src < 4294967296) (hv : ValidList edges) (hok : ∀ e ∈ edges, Int32NotMin e.2)
    (hlen : edges.length ≤ 300000000) :
    mapReduce intCodec f red ident (sequentialCompressEdgeSet intCodec m a src edges).1 a src
      edges.length = some (reduceList f red ident src edges) := by
  obtain ⟨m', b, h1, _, _, _, h4⟩ := encode_spec intLawful intLawful_len m a src edges hsrc hv hok
    hlen
  rw [h1]
  rcases Nat.eq_zero_or_pos edges.length with h0 | hp
  · have := List.length_eq_zero_iff.1 h0
    subst this
    simp [mapReduce, reduceList]
  · obtain ⟨offs, cap, lay⟩ := h4 hp m' (fun _ _ _ => rfl)
    have := mapReduce_lay lay f red ident hid hid' ha
    rwa [live_block] at this

/-- C06 holds for `bytepd_amortized`: the reported degree of a block is the number of entries
stored in it. -/
theorem C06_amortized_block_degree (m : Mem) (a src : Nat) (edges : List (Nat × Int))
    (hsrc : src < 4294967296) (hv : ValidList edges) (hok : ∀ e ∈ edges, Int32NotMin e.2)
    (hlen : edges.length ≤ 300000000) (i : Nat) (hi : i * 1000 < edges.length) :
    getBlockDegree (sequentialCompressEdgeSet intCodec m a src edges).1 a edges.length i =
      (block edges i).length := by
  obtain ⟨m', b, h1, _, _, _, h4⟩ := encode_spec intLawful intLawful_len m a src edges hsrc hv hok
    hlen
  rw [h1]
  obtain ⟨offs, cap, lay⟩ := h4 (by omega) m' (fun _ _ _ => rfl)
  have := getBlockDegree_lay lay (by rw [live_block]; omega) (i := i)
    (show i < 1 + (edges.length - 1) / 1000 by omega)
  rwa [live_block] at this

theorem find_block {n nb : Nat} (p : Nat → Bool) (h : n < nb) (h1 : ∀ j, j < n → p j = false)
    (h2 : p n = true) : (List.range nb).find? p = some n := by
  rw [List.find?_range_eq_some]
  exact ⟨h2, List.mem_range.2 h, fun j hj => by simp [h1 j hj]⟩

/-- C03 for `bytepd_amortized` (what the code does): entry `i` when `i` starts a block, entry
`i - 1` otherwise. Missing: it should be entry `i`. -/
theorem C03_amortized_ith_neighbor_partial (m : Mem) (a src i : Nat) (edges : List (Nat × Int))
    (hsrc : src < 4294967296) (hv : ValidList edges) (hok : ∀ e ∈ edges, Int32NotMin e.2)
    (hlen : edges.length ≤ 300000000) (hi : i < edges.length) :
    getIthNeighbor intCodec (sequentialCompressEdgeSet intCodec m a src edges).1 a src
      edges.length i = if i % 1000 = 0 then edges[i]? else edges[i - 1]? := by
  obtain ⟨m', b, h1, _, _, _, h4⟩ := encode_spec intLawful intLawful_len m a src edges hsrc hv hok
    hlen
  rw [h1]
  obtain ⟨offs, cap, lay⟩ := h4 (by omega) m' (fun _ _ _ => rfl)
  have hnb : numBlocks edges.length = 1 + (edges.length - 1) / 1000 := rfl
  have hb : i / 1000 < numBlocks edges.length := by omega
  have hend : ∀ j, j < numBlocks edges.length →
      blockEnd m' a (numBlocks edges.length) edges.length j = min ((j + 1) * 1000) edges.length := by
    intro j hj
    have := end_eq lay hj
    rw [scan_block, scan_block, Nat.min_eq_right (by omega)] at this
    exact this
  have hfind : (List.range (numBlocks edges.length)).find?
      (fun j => ! decide (blockEnd m' a (numBlocks edges.length) edges.length j ≤ i)) =
        some (i / 1000) := by
    apply find_block _ hb
    · intro j hj
      rw [hend j (by omega)]; simp; omega
    · rw [hend _ hb]; simp; omega
  have hbody := lay.body _ hb
  have hstart := lay.start _ hb
  rw [scan_block, Nat.min_eq_left (by omega)] at hstart
  have hs := block_sublist edges (i / 1000)
  have hvb := ValidList.sublist hs hv
  have hokb : ∀ e ∈ block edges (i / 1000), Int32NotMin e.2 := fun e he => hok e (hs.subset he)
  have hlenb := block_length edges (i / 1000)
  have hget : ∀ k, k < 1000 → (block edges (i / 1000))[k]? = edges[i / 1000 * 1000 + k]? := by
    intro k hk
    simp only [block]
    rw [List.getElem?_take_of_lt hk, List.getElem?_drop]
  simp only [getIthNeighbor, lay.vdEq, hfind, finger_eq lay hb, hstart]
  generalize block edges (i / 1000) = B at *
  rw [encBlk_plain] at hbody
  cases B with
  | nil => simp at hlenb; omega
  | cons e rest =>
    obtain ⟨ngh, w⟩ := e
    have hn : ngh < uintEMod := hvb.bounded _ (List.mem_cons_self ..)
    have hc : Chain Int32NotMin ngh rest :=
      chain_of_valid hvb (fun e he => hokb e (List.mem_cons_of_mem _ he))
    obtain ⟨e1, e2, e3⟩ := eat_first intLawful hsrc hn (hokb (ngh, w) (by simp)) hbody
    simp only [e1, e2]
    simp only [List.length_cons] at hlenb
    by_cases h0 : i % 1000 = 0
    · rw [if_pos (by omega), if_pos h0]
      have := hget 0 (by omega)
      rw [show i / 1000 * 1000 + 0 = i by omega] at this
      rw [← this]; rfl
    · rw [if_neg (by omega), if_neg h0, ithLoop_eq intLawful m' _ ngh _ w rest hc (by omega) e3,
        hget _ (by omega)]
      congr 1; omega

/-- C03 is false for `bytepd_amortized`: every index that does not start a block gets the wrong
neighbour. -/
theorem C03_amortized_ith_neighbor_wrong (m : Mem) (a src i : Nat) (edges : List (Nat × Int))
    (hsrc : src < 4294967296) (hv : ValidList edges) (hok : ∀ e ∈ edges, Int32NotMin e.2)
    (hlen : edges.length ≤ 300000000) (hi : i < edges.length) (h0 : i % 1000 ≠ 0) :
    getIthNeighbor intCodec (sequentialCompressEdgeSet intCodec m a src edges).1 a src
      edges.length i ≠ edges[i]? := by
  rw [C03_amortized_ith_neighbor_partial m a src i edges hsrc hv hok hlen hi, if_neg h0,
    List.getElem?_eq_getElem hi, List.getElem?_eq_getElem (by omega)]
  intro h
  have hs := hv.sorted
  rw [List.pairwise_map, List.pairwise_iff_getElem] at hs
  have := hs (i - 1) i (by omega) hi (by omega)
  simp only [Option.some.injEq] at h
  rw [h] at this
  omega

example : (1 : Nat) < [(3, (-5 : Int)), (4000000000, 2147483647)].length ∧ 1 % 1000 ≠ 0 := by decide

/-! ## C51 repeated packing -/

section history

variable {W : Type}

/-- Runs of `pack` calls on one vertex: state = (memory, degree).  Every call gets its own
predicate and its own schedules of the parallel loops. -/
inductive Packs (c : WCodec W) (a src : Nat) :
    Mem × Nat → List (Nat → Nat → W → Bool) → Mem × Nat → Prop
  | nil (s) : Packs c a src s [] s
  | step {m d m' d' m'' d'' pred preds order1 order2 order3} :
      Schedule (numBlocks (m.load32 a)) order1 → Schedule (numBlocks (m.load32 a)) order2 →
      Schedule (numBlocks d') order3 →
      pack c pred m a src d order1 order2 order3 = some (m', d') →
      Packs c a src (m', d') preds (m'', d'') →
      Packs c a src (m, d) (pred :: preds) (m'', d'')

/-- Entries accepted by all predicates. -/
def acceptedBy (src : Nat) (preds : List (Nat → Nat → W → Bool)) (edges : List (Nat × W)) :
    List (Nat × W) := edges.filter (fun e => preds.all (fun p => p src e.1 e.2))

variable {c : WCodec W} {ok : W → Prop}

theorem pack_step {L : Lawful c ok} {m : Mem} {a src vd ext d d' : Nat} {edges : List (Nat × W)}
    {m' : Mem}
    (h : Represents L m a src ext vd edges) (hd : d = edges.length) (pred : Nat → Nat → W → Bool)
    (order1 order2 order3 : List Nat)
    (ho1 : Schedule (numBlocks (m.load32 a)) order1)
    (ho2 : Schedule (numBlocks (m.load32 a)) order2) (ho3 : Schedule (numBlocks d') order3)
    (hp : pack c pred m a src d order1 order2 order3 = some (m', d')) :
    ∃ vd', d' = (edges.filter (fun e => pred src e.1 e.2)).length ∧
      Represents L m' a src ext vd' (edges.filter (fun e => pred src e.1 e.2)) ∧
      (∀ x, x < a ∨ a + ext ≤ x → m' x = m x) := by
  subst hd
  have hvd : m.load32 a = vd := by obtain ⟨_, _, _, _, lay, _⟩ := h; exact lay.vdEq
  rw [hvd] at ho1 ho2
  by_cases h100 : numBlocks vd = 100
  · rw [pack, hvd] at hp
    split at hp
    · simp at hp
    · rw [if_pos h100] at hp; simp at hp
  · -- the count does not depend on the third schedule
    have hcount : d' = (edges.filter (fun e => pred src e.1 e.2)).length := by
      obtain ⟨offs, cap, orig, blk, lay, rfl⟩ := h
      obtain ⟨m1, cts, g1, g2, _, _⟩ := phase12 lay pred order1 order2 ho1 ho2
      rw [pack, lay.vdEq] at hp
      simp only [g1] at hp
      rw [if_neg h100, g2, ← live_kept] at *
      split at hp
      · split at hp
        · simp at hp
        · simp only [Option.some.injEq, Prod.mk.injEq] at hp; exact hp.2.symm
      · simp only [Option.some.injEq, Prod.mk.injEq] at hp; exact hp.2.symm
    rw [hcount] at ho3
    obtain ⟨m2, vd', g1, g2, _, g3⟩ := pack_lay h pred order1 order2 order3 ho1 ho2 ho3 h100
    rw [g1] at hp
    simp only [Option.some.injEq, Prod.mk.injEq] at hp
    rw [← hp.1]
    exact ⟨vd', hcount, g2, g3⟩

theorem packs_represents {L : Lawful c ok} {a src ext : Nat} {s s' : Mem × Nat}
    {preds : List (Nat → Nat → W → Bool)} (hp : Packs c a src s preds s') :
    ∀ {vd : Nat} {edges : List (Nat × W)}, Represents L s.1 a src ext vd edges →
      s.2 = edges.length →
      ∃ vd', s'.2 = (acceptedBy src preds edges).length ∧
        Represents L s'.1 a src ext vd' (acceptedBy src preds edges) ∧
        (∀ x, x < a ∨ a + ext ≤ x → s'.1 x = s.1 x) := by
  induction hp with
  | nil s =>
    intro vd edges h hd
    have : acceptedBy src [] edges = edges := by simp [acceptedBy]
    exact ⟨vd, by rw [this]; exact hd, by rw [this]; exact h, fun _ _ => rfl⟩
  | @step m d m' d' m'' d'' pred preds o1 o2 o3 h1 h2 h3 h4 _ ih =>
    intro vd edges h hd
    obtain ⟨vd1, g1, g2, g3⟩ := pack_step h hd pred o1 o2 o3 h1 h2 h3 h4
    obtain ⟨vd2, k1, k2, k3⟩ := ih g2 g1
    have : acceptedBy src (pred :: preds) edges =
        acceptedBy src preds (edges.filter (fun e => pred src e.1 e.2)) := by
      simp only [acceptedBy, List.filter_filter, List.all_cons]
      congr 1; funext e; rw [Bool.and_comm]
    rw [this]
    exact ⟨vd2, k1, k2, fun x hx => (k3 x hx).trans (g3 x hx)⟩

end history

/-- C51: take a freshly encoded non-empty list and any history of `pack` calls, with arbitrary
predicates and arbitrary schedules of the parallel block loops, including the calls that
repack (shrink) the representation.  Afterwards the reported degree is the number of entries
accepted by all predicates, traversal, filtering and `map_reduce` see exactly those entries,
in order, and no byte outside the list's original bytes has changed. -/
theorem C51_amortized_pack_history (m : Mem) (a src : Nat) (edges : List (Nat × Int))
    (hsrc : src < 4294967296) (hv : ValidList edges) (hok : ∀ e ∈ edges, Int32NotMin e.2)
    (hpos : 0 < edges.length) (hlen : edges.length ≤ 300000000)
    (m' : Mem) (b : Nat) (henc : sequentialCompressEdgeSet intCodec m a src edges = (m', b))
    (preds : List (Nat → Nat → Int → Bool)) (m'' : Mem) (d : Nat)
    (hp : Packs intCodec a src (m', edges.length) preds (m'', d)) :
    d = (acceptedBy src preds edges).length ∧
    (∀ x, x < a ∨ b ≤ x → m'' x = m' x) ∧
    (∀ ans, decodeWeighted intCodec ans m'' a src d =
      some (callsUntil ans src 0 (acceptedBy src preds edges))) ∧
    (∀ pred, filterSequential intCodec pred m'' a src d =
      some ((acceptedBy src preds edges).filter (fun e => pred src e.1 e.2))) := by
  obtain ⟨m1, b1, h1, _, hb, _, h4⟩ := encode_spec intLawful intLawful_len m a src edges hsrc hv hok
    hlen
  rw [henc] at h1
  simp only [Prod.mk.injEq] at h1
  obtain ⟨rfl, rfl⟩ := h1
  obtain ⟨offs, cap, lay⟩ := h4 hpos m' (fun _ _ _ => rfl)
  have hrep : Represents intLawful m' a src (size intLawful src edges) edges.length edges :=
    ⟨offs, cap, _, _, lay, live_block edges⟩
  obtain ⟨vd', g1, ⟨o, c', og, blk, lay', hl⟩, g3⟩ := packs_represents hp hrep rfl
  simp only at g1 g3
  rw [← hb hpos] at g3
  refine ⟨g1, g3, fun ans => ?_, fun pred => ?_⟩
  · rw [g1, ← hl]; exact decodeWeighted_lay lay' ans
  · rw [g1, ← hl]; exact filterSequential_lay lay' pred

/-- C51, unweighted: the calls of a full traversal are the accepted entries with consecutive
edge ids. -/
theorem C51_amortized_pack_history_unweighted (m : Mem) (a src : Nat) (edges : List (Nat × Unit))
    (hsrc : src < 4294967296) (hv : ValidList edges)
    (hpos : 0 < edges.length) (hlen : edges.length ≤ 300000000)
    (m' : Mem) (b : Nat) (henc : sequentialCompressEdgeSet emptyCodec m a src edges = (m', b))
    (preds : List (Nat → Nat → Unit → Bool)) (m'' : Mem) (d : Nat)
    (hp : Packs emptyCodec a src (m', edges.length) preds (m'', d)) :
    d = (acceptedBy src preds edges).length ∧
    (∀ x, x < a ∨ b ≤ x → m'' x = m' x) ∧
    ∃ css, decodeUnweighted emptyCodec (fun _ _ _ _ => true) m'' a src d = some css ∧
      css.flatten = numbered 0 (acceptedBy src preds edges) := by
  obtain ⟨m1, b1, h1, _, hb, _, h4⟩ := encode_spec emptyLawful (fun w _ => emptyLawful_len w) m a
    src edges hsrc hv (fun _ _ => trivial) hlen
  rw [henc] at h1
  simp only [Prod.mk.injEq] at h1
  obtain ⟨rfl, rfl⟩ := h1
  obtain ⟨offs, cap, lay⟩ := h4 hpos m' (fun _ _ _ => rfl)
  have hrep : Represents emptyLawful m' a src (size emptyLawful src edges) edges.length edges :=
    ⟨offs, cap, _, _, lay, live_block edges⟩
  obtain ⟨vd', g1, ⟨o, c', og, blk, lay', hl⟩, g3⟩ := packs_represents hp hrep rfl
  simp only at g1 g3
  rw [← hb hpos] at g3
  refine ⟨g1, g3, ?_⟩
  rcases Nat.eq_zero_or_pos d with h0 | hd
  · have : acceptedBy src preds edges = [] := List.length_eq_zero_iff.1 (by omega)
    rw [this, h0]
    exact ⟨[], rfl, rfl⟩
  · refine ⟨_, by rw [g1, ← hl]; exact decodeUnweighted_lay lay' _ (by rw [hl]; omega), ?_⟩
    rw [allYes_true, if_pos rfl, ← hl, ← flatMap_map_flatten]
    simp only [callsUntil_true]

/-- The calls of C51 are defined: with fewer than 99001 entries every history can be extended
by any predicate under every schedule. -/
theorem C51_amortized_pack_defined (m : Mem) (a src : Nat) (edges : List (Nat × Int))
    (hsrc : src < 4294967296) (hv : ValidList edges) (hok : ∀ e ∈ edges, Int32NotMin e.2)
    (hpos : 0 < edges.length) (hlen : edges.length ≤ 99000)
    (pred : Nat → Nat → Int → Bool) (order1 order2 order3 : List Nat)
    (ho1 : Schedule (numBlocks edges.length) order1)
    (ho2 : Schedule (numBlocks edges.length) order2)
    (ho3 : Schedule (numBlocks (edges.filter (fun e => pred src e.1 e.2)).length) order3) :
    ∃ m'', pack intCodec pred (sequentialCompressEdgeSet intCodec m a src edges).1 a src
      edges.length order1 order2 order3 =
        some (m'', (edges.filter (fun e => pred src e.1 e.2)).length) := by
  obtain ⟨m1, b1, h1, _, hb, _, h4⟩ := encode_spec intLawful intLawful_len m a src edges hsrc hv hok
    (by omega)
  obtain ⟨offs, cap, lay⟩ := h4 hpos m1 (fun _ _ _ => rfl)
  have hrep : Represents intLawful m1 a src (size intLawful src edges) edges.length edges :=
    ⟨offs, cap, _, _, lay, live_block edges⟩
  obtain ⟨m', _, g, _⟩ := pack_lay hrep pred order1 order2 order3 ho1 ho2 ho3
    (show 1 + (edges.length - 1) / 1000 ≠ 100 by omega)
  rw [h1]
  exact ⟨m', g⟩

/-- For 99001 to 100000 entries (100 blocks) `pack` writes one element past the end of a
100-element stack array: undefined. -/
theorem C51_amortized_pack_stack_overflow (m : Mem) (a src : Nat) (edges : List (Nat × Int))
    (hsrc : src < 4294967296) (hv : ValidList edges) (hok : ∀ e ∈ edges, Int32NotMin e.2)
    (h1 : 99000 < edges.length) (h2 : edges.length ≤ 100000)
    (pred : Nat → Nat → Int → Bool) (order1 order2 order3 : List Nat) :
    pack intCodec pred (sequentialCompressEdgeSet intCodec m a src edges).1 a src
      edges.length order1 order2 order3 = none := by
  obtain ⟨m1, b1, e1, _, hb, _, h4⟩ := encode_spec intLawful intLawful_len m a src edges hsrc hv hok
    (by omega)
  obtain ⟨offs, cap, lay⟩ := h4 (by omega) m1 (fun _ _ _ => rfl)
  rw [e1, pack, lay.vdEq]
  have : numBlocks edges.length = 100 := show 1 + (edges.length - 1) / 1000 = 100 by omega
  simp only [this, if_true]
  split <;> rfl

/-- Schedules exist and are not unique. -/
example : Schedule 3 [0, 1, 2] ∧ Schedule 3 [2, 0, 1] :=
  ⟨⟨by decide, fun i => by simp; omega⟩, ⟨by decide, fun i => by simp; omega⟩⟩

/-- A history with a real deletion exists for a concrete list. -/
example : ∃ m'', Packs intCodec 0 7 ((sequentialCompressEdgeSet intCodec (fun _ => 0) 0 7
    [(3, -5), (9, 1), (4000000000, 2147483647)]).1, 3) [fun _ n _ => n != 9] (m'', 2) := by
  have hv : ValidList [(3, (-5 : Int)), (9, 1), (4000000000, 2147483647)] := ⟨by decide, by decide⟩
  have hs : Schedule 1 [0] := ⟨by decide, fun i => by simp⟩
  obtain ⟨m'', h⟩ := C51_amortized_pack_defined (fun _ => 0) 0 7
    [(3, -5), (9, 1), (4000000000, 2147483647)] (by decide) hv (by simp [Int32NotMin]) (by decide)
    (by decide) (fun _ n _ => n != 9) [0] [0] [0] hs hs hs
  obtain ⟨m1, b1, h1, _, _, _, h4⟩ := encode_spec intLawful intLawful_len (fun _ => 0) 0 7
    [(3, -5), (9, 1), (4000000000, 2147483647)] (by decide) hv (by simp [Int32NotMin]) (by decide)
  obtain ⟨_, _, lay⟩ := h4 (by decide) m1 (fun _ _ _ => rfl)
  have hvd := lay.vdEq
  rw [h1] at h ⊢
  refine ⟨m'', .step (order1 := [0]) (order2 := [0]) (order3 := [0]) ?_ ?_ ?_ h (.nil _)⟩
  · rw [hvd]; exact hs
  · rw [hvd]; exact hs
  · exact hs

end Gbbs.AM
