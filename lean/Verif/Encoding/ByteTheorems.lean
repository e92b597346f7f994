import Verif.Encoding.BytePack
import Verif.Encoding.ByteIntersect

/-!
# Properties of the `byte` encoding (C01–C04, C49)

Statements are about `sequentialCompressEdgeSet`, `decode`, `pack`, … as transcribed in
`ByteModel`, for the three weight types of the library (`empty`, `intE`, `float`).
-/

namespace Gbbs.Byte

open Gbbs EncSpec

/-! ## C01 round trip -/

section generic

variable {W : Type} {c : WCodec W} {ok : W → Prop}

/-- Round trip for any lawful weight codec, with read and write footprints. -/
theorem roundtrip (L : Lawful c ok) (m : Mem) (off src : Nat) (edges : List (Nat × W))
    (hsrc : src < 4294967296) (hv : ValidList edges) (hok : ∀ e ∈ edges, ok e.2) :
    ∃ m' off', sequentialCompressEdgeSet c m off src edges = (m', off') ∧ off ≤ off' ∧
      (∀ i, i < off ∨ off' ≤ i → m' i = m i) ∧
      ∀ (m'' : Mem), AgreeOn m' m'' off off' →
        ∀ (σ : Type) (t : σ → Nat → Nat → W → Nat → σ × Bool) (s : σ),
          decode c t m'' off src edges.length s = some (visit t src 0 edges s) := by
  refine ⟨_, _, sequentialCompressEdgeSet_eq L m off src edges hsrc hv hok, by omega, ?_, ?_⟩
  · intro i hi; exact Mem.write_outside _ _ _ _ hi
  · intro m'' ha σ t s
    exact decode_eq L t m'' src off edges s hsrc hv hok
      (Mem.has_of_agree (fun i h1 h2 => ha i h1 h2) (Mem.write_has _ _ _))

end generic

/-- C01, unweighted graphs: encoding any strictly increasing list of 32-bit ids and
decoding it visits exactly the list; only `[off, off')` is written, and only `[off, off')`
is read by the decoder. -/
theorem C01_byte_roundtrip_unweighted (m : Mem) (off src : Nat) (edges : List (Nat × Unit))
    (hsrc : src < 4294967296) (hv : ValidList edges) :
    ∃ m' off', sequentialCompressEdgeSet emptyCodec m off src edges = (m', off') ∧ off ≤ off' ∧
      (∀ i, i < off ∨ off' ≤ i → m' i = m i) ∧
      ∀ (m'' : Mem), AgreeOn m' m'' off off' →
        ∀ (σ : Type) (t : σ → Nat → Nat → Unit → Nat → σ × Bool) (s : σ),
          decode emptyCodec t m'' off src edges.length s = some (visit t src 0 edges s) :=
  roundtrip emptyLawful m off src edges hsrc hv (fun _ _ => trivial)

/-- C01, `intE` weights: as above for every weight except `INT_MIN` (for which the decoder
negates `INT_MIN`, see `C01_int_min_undefined`). -/
theorem C01_byte_roundtrip_int (m : Mem) (off src : Nat) (edges : List (Nat × Int))
    (hsrc : src < 4294967296) (hv : ValidList edges) (hok : ∀ e ∈ edges, Int32NotMin e.2) :
    ∃ m' off', sequentialCompressEdgeSet intCodec m off src edges = (m', off') ∧ off ≤ off' ∧
      (∀ i, i < off ∨ off' ≤ i → m' i = m i) ∧
      ∀ (m'' : Mem), AgreeOn m' m'' off off' →
        ∀ (σ : Type) (t : σ → Nat → Nat → Int → Nat → σ × Bool) (s : σ),
          decode intCodec t m'' off src edges.length s = some (visit t src 0 edges s) :=
  roundtrip intLawful m off src edges hsrc hv hok

/-- C01, `float` weights (four opaque bytes). -/
theorem C01_byte_roundtrip_float (m : Mem) (off src : Nat)
    (edges : List (Nat × (UInt8 × UInt8 × UInt8 × UInt8)))
    (hsrc : src < 4294967296) (hv : ValidList edges) :
    ∃ m' off', sequentialCompressEdgeSet floatCodec m off src edges = (m', off') ∧ off ≤ off' ∧
      (∀ i, i < off ∨ off' ≤ i → m' i = m i) ∧
      ∀ (m'' : Mem), AgreeOn m' m'' off off' →
        ∀ (σ : Type) (t : σ → Nat → Nat → (UInt8 × UInt8 × UInt8 × UInt8) → Nat → σ × Bool)
          (s : σ),
          decode floatCodec t m'' off src edges.length s = some (visit t src 0 edges s) :=
  roundtrip floatLawful m off src edges hsrc hv (fun _ _ => trivial)

/-- The weight `INT_MIN` is encoded but decoding it is undefined behaviour. -/
theorem C01_int_min_undefined (m : Mem) (off : Nat) :
    intCodec.eat (intCodec.compress m off (-2147483648)).1 off = none := by
  have h := compressFirstEdge_eq m off 0 (-2147483648) (by decide)
  obtain ⟨fb, h1, h2⟩ := eatSigned_encSigned (m.write off (encSigned (-2147483648))) off
    (-2147483648) (by decide) (Mem.write_has _ _ _)
  have h3 : (-2147483648 : Int).natAbs = 2147483648 := by decide
  simp only [intCodec, h, Int.sub_zero, h1, h2]
  simp [h3]

/-- A repeated neighbour is not encodable: a zero difference is written with no bytes at
all, so the proviso "strictly increasing" of C01 cannot be dropped.  Concretely the list
`[5, 5]` of vertex 0 followed in memory by a byte 7 decodes to `[5, 12]`. -/
theorem C01_duplicates_not_encodable :
    let m : Mem := fun _ => 7
    let r := sequentialCompressEdgeSet emptyCodec m 0 0 [(5, ()), (5, ())]
    r.2 = 1 ∧
    decode emptyCodec (fun s _ n _ _ => (s ++ [n], true)) r.1 0 0 2 ([] : List Nat)
      = some [5, 12] := by
  have e0 : ∀ m off, compressEdge m off 0 = (m, off) := by
    intro m off; rw [compressEdge_eq]; simp [encEdge_zero, Mem.write]
  have hr : sequentialCompressEdgeSet emptyCodec (fun _ => 7) 0 0 [(5, ()), (5, ())]
      = (Mem.store (fun _ => 7) 0 5, 1) := by
    simp only [sequentialCompressEdgeSet, compressRest, emptyCodec, compressFirstEdge, uintEMod]
    simp [e0]
  simp only [hr, true_and]
  have h1 : eatEdge (Mem.store (fun _ => 7) 0 5) 1 = some (7, 2) := by
    rw [eatEdge, eatLoop]
    simp [Mem.store, lastBitSet, uintEMod]
  have h2 : eatFirstEdge (Mem.store (fun _ => 7) 0 5) 0 0 = some (5, 1) := by
    simp [eatFirstEdge, eatSigned, Mem.store, lastBitSet, uintEMod]
  simp [decode, decodeLoop, emptyCodec, h1, h2, uintEMod]

example : ValidList [(3, ()), (70, ()), (100000, ())] :=
  ⟨by decide, by decide⟩
example : ValidList [(3, (-5 : Int)), (4000000000, 2147483647)] ∧
    ∀ e ∈ [(3, (-5 : Int)), (4000000000, 2147483647)], Int32NotMin e.2 :=
  ⟨⟨by decide, by decide⟩, by simp [Int32NotMin]⟩

/-! ## C02 pack -/

section generic

variable {W : Type} {c : WCodec W} {ok : W → Prop}

theorem pack_correct (L : Lawful c ok) (pred : Nat → Nat → W → Bool) (m : Mem) (off src : Nat)
    (edges : List (Nat × W)) (hsrc : src < 4294967296) (hv : ValidList edges)
    (hok : ∀ e ∈ edges, ok e.2) :
    ∃ m' off' m'', sequentialCompressEdgeSet c m off src edges = (m', off') ∧
      pack c pred m' off src edges.length =
        some (m'', (edges.filter (fun e => pred src e.1 e.2)).length) ∧
      (∀ i, i < off ∨ off' ≤ i → m'' i = m' i) ∧
      ∀ (σ : Type) (t : σ → Nat → Nat → W → Nat → σ × Bool) (s : σ),
        decode c t m'' off src (edges.filter (fun e => pred src e.1 e.2)).length s =
          some (visit t src 0 (edges.filter (fun e => pred src e.1 e.2)) s) := by
  obtain ⟨m'', h1, h2, h3⟩ := pack_eq L pred (m.write off (encList L src edges)) src off edges
    hsrc hv hok (Mem.write_has _ _ _)
  refine ⟨_, _, m'', sequentialCompressEdgeSet_eq L m off src edges hsrc hv hok, h1, h3, ?_⟩
  intro σ t s
  refine decode_eq L t m'' src off _ s hsrc ⟨?_, ?_⟩ ?_ h2
  · exact hv.sorted.sublist (List.Sublist.map _ List.filter_sublist)
  · intro e he; exact hv.bounded e (List.mem_filter.1 he).1
  · intro e he; exact hok e (List.mem_filter.1 he).1

end generic

/-- C02, unweighted: packing an encoded list in place leaves exactly the accepted entries,
returns their number, and touches no byte outside the list's own bytes. -/
theorem C02_byte_pack_unweighted (pred : Nat → Nat → Unit → Bool) (m : Mem) (off src : Nat)
    (edges : List (Nat × Unit)) (hsrc : src < 4294967296) (hv : ValidList edges) :
    ∃ m' off' m'', sequentialCompressEdgeSet emptyCodec m off src edges = (m', off') ∧
      pack emptyCodec pred m' off src edges.length =
        some (m'', (edges.filter (fun e => pred src e.1 e.2)).length) ∧
      (∀ i, i < off ∨ off' ≤ i → m'' i = m' i) ∧
      ∀ (σ : Type) (t : σ → Nat → Nat → Unit → Nat → σ × Bool) (s : σ),
        decode emptyCodec t m'' off src (edges.filter (fun e => pred src e.1 e.2)).length s =
          some (visit t src 0 (edges.filter (fun e => pred src e.1 e.2)) s) :=
  pack_correct emptyLawful pred m off src edges hsrc hv (fun _ _ => trivial)

/-- C02, `intE` weights. -/
theorem C02_byte_pack_int (pred : Nat → Nat → Int → Bool) (m : Mem) (off src : Nat)
    (edges : List (Nat × Int)) (hsrc : src < 4294967296) (hv : ValidList edges)
    (hok : ∀ e ∈ edges, Int32NotMin e.2) :
    ∃ m' off' m'', sequentialCompressEdgeSet intCodec m off src edges = (m', off') ∧
      pack intCodec pred m' off src edges.length =
        some (m'', (edges.filter (fun e => pred src e.1 e.2)).length) ∧
      (∀ i, i < off ∨ off' ≤ i → m'' i = m' i) ∧
      ∀ (σ : Type) (t : σ → Nat → Nat → Int → Nat → σ × Bool) (s : σ),
        decode intCodec t m'' off src (edges.filter (fun e => pred src e.1 e.2)).length s =
          some (visit t src 0 (edges.filter (fun e => pred src e.1 e.2)) s) :=
  pack_correct intLawful pred m off src edges hsrc hv hok

/-- `filter` (out-of-place) on an encoded list emits the accepted entries in order, the
k-th one in slot k, and returns their number. -/
theorem C02_byte_filter_int (pred : Nat → Nat → Int → Bool) (m : Mem) (off src : Nat)
    (edges : List (Nat × Int)) (hsrc : src < 4294967296) (hv : ValidList edges)
    (hok : ∀ e ∈ edges, Int32NotMin e.2) :
    ∃ out, filter intCodec pred (sequentialCompressEdgeSet intCodec m off src edges).1 off src
        edges.length = some (out, out.length) ∧
      out.map Prod.fst = List.range out.length ∧
      out.map Prod.snd = edges.filter (fun e => pred src e.1 e.2) := by
  rw [sequentialCompressEdgeSet_eq intLawful m off src edges hsrc hv hok]
  exact filter_eq intLawful pred _ src off edges hsrc hv hok (Mem.write_has _ _ _)

/-- As `C02_byte_filter_int`, unweighted. -/
theorem C02_byte_filter_unweighted (pred : Nat → Nat → Unit → Bool) (m : Mem) (off src : Nat)
    (edges : List (Nat × Unit)) (hsrc : src < 4294967296) (hv : ValidList edges) :
    ∃ out, filter emptyCodec pred (sequentialCompressEdgeSet emptyCodec m off src edges).1 off src
        edges.length = some (out, out.length) ∧
      out.map Prod.fst = List.range out.length ∧
      out.map Prod.snd = edges.filter (fun e => pred src e.1 e.2) := by
  rw [sequentialCompressEdgeSet_eq emptyLawful m off src edges hsrc hv (fun _ _ => trivial)]
  exact filter_eq emptyLawful pred _ src off edges hsrc hv (fun _ _ => trivial)
    (Mem.write_has _ _ _)

/-! ## C03 i-th neighbour -/

/-- C03 (what the code does): `get_ith_neighbor(i)` returns entry `i - 1` (entry 0 for
`i = 0`).  Missing w.r.t. the full property: it should return entry `i`. -/
theorem C03_byte_ith_neighbor_partial (m : Mem) (off src i : Nat) (edges : List (Nat × Int))
    (hsrc : src < 4294967296) (hv : ValidList edges) (hok : ∀ e ∈ edges, Int32NotMin e.2)
    (hi : i < edges.length) :
    getIthNeighbor intCodec (sequentialCompressEdgeSet intCodec m off src edges).1 off src
      edges.length i = edges[i - 1]? := by
  rw [sequentialCompressEdgeSet_eq intLawful m off src edges hsrc hv hok]
  exact getIth_eq intLawful _ src off i edges hsrc hv hok hi (Mem.write_has _ _ _)

/-- C03 is false for the shipped code: for *every* valid list and every index `1 ≤ i < deg`
the neighbour returned is not the i-th one. -/
theorem C03_byte_ith_neighbor_wrong (m : Mem) (off src i : Nat) (edges : List (Nat × Int))
    (hsrc : src < 4294967296) (hv : ValidList edges) (hok : ∀ e ∈ edges, Int32NotMin e.2)
    (hi : i < edges.length) (h1 : 1 ≤ i) :
    getIthNeighbor intCodec (sequentialCompressEdgeSet intCodec m off src edges).1 off src
      edges.length i ≠ edges[i]? := by
  rw [C03_byte_ith_neighbor_partial m off src i edges hsrc hv hok hi]
  rw [List.getElem?_eq_getElem hi, List.getElem?_eq_getElem (by omega)]
  intro h
  have hs := hv.sorted
  rw [List.pairwise_map, List.pairwise_iff_getElem] at hs
  have := hs (i - 1) i (by omega) hi (by omega)
  simp only [Option.some.injEq] at h
  rw [h] at this
  omega

example : (1 : Nat) < [(3, (-5 : Int)), (4000000000, 2147483647)].length := by decide

/-! ## C04 map_reduce -/

/-- C04, sequential: `map_reduce` over an encoded list is the left fold of the mapped
entries (the identity for an empty list). -/
theorem C04_byte_map_reduce {E : Type} (f : Nat → Nat → Int → E) (red : E → E → E) (ident : E)
    (m : Mem) (off src : Nat) (edges : List (Nat × Int))
    (hsrc : src < 4294967296) (hv : ValidList edges) (hok : ∀ e ∈ edges, Int32NotMin e.2) :
    mapReduce intCodec f red ident (sequentialCompressEdgeSet intCodec m off src edges).1 off src
      edges.length = some (reduceList f red ident src edges) := by
  rw [sequentialCompressEdgeSet_eq intLawful m off src edges hsrc hv hok]
  exact mapReduce_eq intLawful f red ident _ src off edges hsrc hv hok (Mem.write_has _ _ _)

/-! ## C49 intersection -/

/-- C49 (partial): when the merge of two encoded lists is defined, it reports exactly the
common neighbours.  Missing: definedness – the loop also decodes one entry past the end of
an exhausted list, see `C49_byte_intersect_reads_past_end`. -/
theorem C49_byte_intersect_partial (m : Mem) (p1 p2 s1 s2 : Nat) (l1 l2 : List (Nat × Int))
    (hs1 : s1 < 4294967296) (hs2 : s2 < 4294967296) (h1 : ValidList l1) (h2 : ValidList l2)
    (hok1 : ∀ x ∈ l1, Int32NotMin x.2) (hok2 : ∀ x ∈ l2, Int32NotMin x.2)
    (hsep : (sequentialCompressEdgeSet intCodec m p1 s1 l1).2 ≤ p2) (r : List Nat)
    (hr : intersectF intCodec
      (sequentialCompressEdgeSet intCodec (sequentialCompressEdgeSet intCodec m p1 s1 l1).1 p2 s2
        l2).1 p1 p2 l1.length l2.length s1 s2 = some r) :
    r = common l1 l2 := by
  rw [sequentialCompressEdgeSet_eq intLawful m p1 s1 l1 hs1 h1 hok1] at hr hsep
  rw [sequentialCompressEdgeSet_eq intLawful _ p2 s2 l2 hs2 h2 hok2] at hr
  refine intersectF_eq intLawful _ p1 p2 s1 s2 l1 l2 r hs1 hs2 h1 h2 hok1 hok2 ?_
    (Mem.write_has _ _ _) hr
  exact Mem.has_of_agree
    (fun i _ hi => (Mem.write_outside _ _ _ _ (Or.inl (by simp only at hsep; omega))).symm)
    (Mem.write_has _ _ _)

/-- Reading past the end is real: two one-entry unweighted lists whose last list is
followed by bytes with the continuation bit set make the merge undefined, although both
lists are well-formed. -/
theorem C49_byte_intersect_reads_past_end :
    let m : Mem := fun _ => 255
    let r1 := sequentialCompressEdgeSet emptyCodec m 0 0 [(5, ())]
    let r2 := sequentialCompressEdgeSet emptyCodec r1.1 r1.2 1 [(5, ())]
    intersectF emptyCodec r2.1 0 r1.2 1 1 0 1 = none := by
  have e0 : ∀ m off, compressEdge m off 0 = (m, off) := by
    intro m off; rw [compressEdge_eq]; simp [encEdge_zero, Mem.write]
  have hr1 : sequentialCompressEdgeSet emptyCodec (fun _ => 255) 0 0 [(5, ())]
      = (Mem.store (fun _ => 255) 0 5, 1) := by
    simp only [sequentialCompressEdgeSet, compressRest, emptyCodec, compressFirstEdge, uintEMod]
    simp [e0]
  have hr2 : sequentialCompressEdgeSet emptyCodec (Mem.store (fun _ => 255) 0 5) 1 1 [(5, ())]
      = (Mem.store (Mem.store (fun _ => 255) 0 5) 1 4, 2) := by
    simp only [sequentialCompressEdgeSet, compressRest, emptyCodec, compressFirstEdge, uintEMod]
    simp [e0]
  simp only [hr1, hr2]
  have hi1 : Iter.init emptyCodec (Mem.store (Mem.store (fun _ => 255) 0 5) 1 4) 0 0
      = some ⟨1, (5, ())⟩ := by
    simp [Iter.init, eatFirstEdge, eatSigned, Mem.store, lastBitSet, uintEMod, emptyCodec]
  have hi2 : Iter.init emptyCodec (Mem.store (Mem.store (fun _ => 255) 0 5) 1 4) 1 1
      = some ⟨2, (5, ())⟩ := by
    simp [Iter.init, eatFirstEdge, eatSigned, Mem.store, lastBitSet, uintEMod, emptyCodec]
  have hn2 : Iter.next emptyCodec (Mem.store (Mem.store (fun _ => 255) 0 5) 1 4)
      ⟨2, (5, ())⟩ = none := by
    have : eatEdge (Mem.store (Mem.store (fun _ => 255) 0 5) 1 4) 2 = none := by
      simp [eatEdge, eatLoop, Mem.store, lastBitSet]
    simp [Iter.next, this]
  simp only [intersectF, hi1, hi2]
  rw [if_neg (by decide), intersectLoop]
  simp [hn2]

end Gbbs.Byte
