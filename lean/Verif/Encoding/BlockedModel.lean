import Verif.Encoding.ByteModel
import Verif.Encoding.Mem32

/-!
# Models of the blocked encodings `bytepd` and `bytepd_amortized`

Transcription of `/repo/gbbs/encodings/byte_pd.{h,cc}` and
`/repo/gbbs/encodings/byte_pd_amortized.{h,cc}`.

The reading primitives (`eatEdge`, `eatFirstEdge`, `eatWeight`) of both files are
character-for-character those of `byte.h` and are shared with `Gbbs.Byte`.

Simplifications: buffers are unbounded (the theorems state what is written); local scratch
arrays are lists; an answer-giving callback `t(src, ngh, wgh, edge_id)` that may be run
concurrently is represented by the answers it gives in the run, a function of its arguments
(each edge id is visited at most once in a run, so every stateful callback is covered), and
the observable effect of a traversal is the list of calls made, per block.
-/

namespace Gbbs.Blk

open Gbbs Byte

variable {W : Type}

/-- `PARALLEL_DEGREE`, `gbbs/macros.h:83`. -/
abbrev parallelDegree : Nat := 1000

/-- The traversal loop that occurs in every function of both files: eat the first edge
(`eatFirstEdge`, `eatWeight`), call the body with edge id `o`, then eat the remaining
`deg - 1` edges calling the body with ids `o+1, ...`; stop when the body answers `false`.
E.g. `byte_pd.h:268-274`, `338-346`, `364-372`, `412-420`, `527-538`, `576-587`;
`byte_pd_amortized.h:337-342`, `413-420`, `447-454`, `526-535`, `813-821`, `939-950`,
`1035-1046`. -/
def decodeFrom {σ : Type} (c : WCodec W) (t : σ → Nat → Nat → W → Nat → σ × Bool)
    (m : Mem) (pos source deg o : Nat) (s : σ) : Option σ :=
  match deg with
  | 0 => some s
  | k + 1 =>
    match eatFirstEdge m pos source with
    | none => none
    | some (ngh, pos) =>
      match c.eat m pos with
      | none => none
      | some (w, pos) =>
        match t s source ngh w o with
        | (s, true) => decodeLoop c t m source k (o + 1) pos ngh s
        | (s, false) => some s

/-- One call of a traversal callback: (edge id, neighbour, weight). -/
abbrev Call (W : Type) := Nat × Nat × W

/-- Callback that records its calls; the flag is the last answer. -/
def recordCb (ans : Nat → Nat → W → Nat → Bool) (s : List (Call W) × Bool) (src ngh : Nat) (w : W)
    (i : Nat) : (List (Call W) × Bool) × Bool :=
  let r := ans src ngh w i
  ((s.1 ++ [(i, ngh, w)], r), r)

/-- Body `cur = reduce.f(cur, m(source, ngh, wgh))`. -/
def reduceCb {E : Type} (f : Nat → Nat → W → E) (red : E → E → E) (cur : E) (src ngh : Nat) (w : W)
    (_ : Nat) : E × Bool := (red cur (f src ngh w), true)

/-- Body `if (pred(source, ngh, wgh)) tmp[ct++] = (ngh, wgh)` (also `out(k++, ..)`). -/
def keepCb (pred : Nat → Nat → W → Bool) (tmp : List (Nat × W)) (src ngh : Nat) (w : W) (_ : Nat) :
    List (Nat × W) × Bool :=
  (if pred src ngh w then tmp ++ [(ngh, w)] else tmp, true)

end Gbbs.Blk

namespace Gbbs.PD

open Gbbs Byte Blk

variable {W : Type}

/-- `intE preCompress = (intE)target - source` with `source : uintE`
(`gbbs/encodings/byte_pd.cc:10`): the subtraction is done in 32-bit unsigned arithmetic and
the result converted to `int`. -/
def firstDiff (source target : Nat) : Int :=
  let d := (target + (uintEMod - source)) % uintEMod
  if d < 2147483648 then (d : Int) else (d : Int) - 4294967296

/-- `compressFirstEdge`, `gbbs/encodings/byte_pd.cc:9-39`.  `std::abs(INT_MIN)` is undefined
(`none`); otherwise lines 13-38 are those of `byte.cc:11-36` applied to `preCompress`. -/
def compressFirstEdge (m : Mem) (off source target : Nat) : Option (Mem × Nat) :=
  let pre := firstDiff source target
  if pre = -2147483648 then none else some (Byte.compressFirstEdge m off 0 pre)

/-- Weight types: `eatWeight`/`compressWeight` of `byte_pd.h:49-84`, `128-138`.  `ub w` marks
the weights on which `compressWeight` is undefined. -/
structure PCodec (W : Type) where
  codec : WCodec W
  ub : W → Bool

/-- Unweighted. -/
def emptyP : PCodec Unit := ⟨emptyCodec, fun _ => false⟩

/-- `W = intE`: `compressFirstEdge(start, offset, 0, weight)`; the argument is converted to
`uintE` and back, so `preCompress = weight`; `std::abs(INT_MIN)` undefined. -/
def intP : PCodec Int := ⟨intCodec, fun w => w == -2147483648⟩

def compressWeight (c : PCodec W) (m : Mem) (off : Nat) (w : W) : Option (Mem × Nat) :=
  if c.ub w then none else some (c.codec.compress m off w)

/-- Inner loop of `sequentialCompressEdgeSet`, `gbbs/encodings/byte_pd.h:506-513` (the same
loop as `packBlock`'s `548-554` and `compress_edges`' `644-651`). -/
def compressRest (c : PCodec W) (m : Mem) (off prev : Nat) : List (Nat × W) → Option (Mem × Nat)
  | [] => some (m, off)
  | (ngh, w) :: rest =>
    let difference := (ngh + (uintEMod - prev)) % uintEMod
    let (m, off) := compressEdge m off difference
    match compressWeight c m off w with
    | none => none
    | some (m, off) => compressRest c m off ngh rest

/-- One block, `gbbs/encodings/byte_pd.h:500-513` (also `545-554`, `639-651`). -/
def compressBlock (c : PCodec W) (m : Mem) (off src : Nat) : List (Nat × W) → Option (Mem × Nat)
  | [] => some (m, off)
  | (ngh, w) :: rest =>
    match PD.compressFirstEdge m off src ngh with
    | none => none
    | some (m, off) =>
      match compressWeight c m off w with
      | none => none
      | some (m, off) => PD.compressRest c m off ngh rest

/-- Loop over the blocks in `sequentialCompressEdgeSet`, `gbbs/encodings/byte_pd.h:491-514`,
for the remaining `k` blocks starting with block `i`; `off`/`start` are the addresses
`edgeArray + current_offset` / `edgeArray + start_offset`; the iterator is the list of
entries not yet consumed. -/
def compressBlocks (c : PCodec W) (a src degree start : Nat) :
    (k i : Nat) → Mem → Nat → List (Nat × W) → Option (Mem × Nat)
  | 0, _, m, off, _ => some (m, off)
  | k + 1, i, m, off, edges =>
    let o := i * parallelDegree
    let e := min parallelDegree (degree - o)
    let m := if i > 0 then m.store32 (a + 4 * (i - 1)) (off - start) else m
    match compressBlock c m off src (edges.take e) with
    | none => none
    | some (m, off) => compressBlocks c a src degree start k (i + 1) m off (edges.drop e)

/-- `sequentialCompressEdgeSet`, `gbbs/encodings/byte_pd.h:482-517`, with
`current_offset = 0` as passed by every caller (`utils/converter.h:152,227,331,479`) and
`encoded_degree = PARALLEL_DEGREE` (the default).  Returns memory and end address. -/
def sequentialCompressEdgeSet (c : PCodec W) (m : Mem) (a src : Nat) (edges : List (Nat × W)) :
    Option (Mem × Nat) :=
  let degree := edges.length
  if degree > 0 then
    let nb := 1 + (degree - 1) / parallelDegree
    compressBlocks c a src degree a nb 0 m (a + (nb - 1) * 4) edges
  else some (m, a)

/-- Address of block `i`: `byte_pd.h:248`, `266`, `334-336`, `408-409`, `571-572`. -/
def blockFinger (m : Mem) (a nb i : Nat) : Nat :=
  if i = 0 then a + (nb - 1) * 4 else a + m.load32 (a + 4 * (i - 1))

/-- Traversal of block `i`, recording calls: `byte_pd.h:264-274`, `332-346`, `358-372`. -/
def decodeBlockAt (c : WCodec W) (ans : Nat → Nat → W → Nat → Bool) (m : Mem)
    (a source degree nb i : Nat) : Option (List (Call W) × Bool) :=
  let o := i * parallelDegree
  let e := min (o + parallelDegree) degree
  decodeFrom c (recordCb ans) m (blockFinger m a nb i) source (e - o) o ([], true)

/-- `decode`, `gbbs/encodings/byte_pd.h:238-322` (unweighted and weighted versions): the
first block runs first and a negative answer in it ends the whole traversal; the other
blocks run in parallel and a negative answer ends only its block.  Result: the calls made,
per block. -/
def decode (c : WCodec W) (ans : Nat → Nat → W → Nat → Bool) (m : Mem) (a source degree : Nat) :
    Option (List (List (Call W))) :=
  if degree > 0 then
    let nb := 1 + (degree - 1) / parallelDegree
    match decodeBlockAt c ans m a source degree nb 0 with
    | none => none
    | some (cs, false) => some [cs]
    | some (cs, true) =>
      match (List.range (nb - 1)).mapM
          (fun j => (decodeBlockAt c ans m a source degree nb (j + 1)).map Prod.fst) with
      | none => none
      | some css => some (cs :: css)
  else some []

/-- `decode_block` (`byte_pd.h:324-348`, `ans` constantly true) and `decode_block_cond`
(`350-374`). -/
def decodeBlock (c : WCodec W) (ans : Nat → Nat → W → Nat → Bool) (m : Mem)
    (a source degree blockNum : Nat) : Option (List (Call W)) :=
  if degree > 0 then
    (decodeBlockAt c ans m a source degree (1 + (degree - 1) / parallelDegree) blockNum).map Prod.fst
  else some []

/-- `map_reduce`, `gbbs/encodings/byte_pd.h:386-430`.  `parlay::reduce` is the fold of the
monoid. -/
def mapReduce {E : Type} (c : WCodec W) (f : Nat → Nat → W → E) (red : E → E → E) (ident : E)
    (m : Mem) (a source degree : Nat) : Option E :=
  if degree > 0 then
    let nb := 1 + (degree - 1) / parallelDegree
    match (List.range nb).mapM (fun i =>
        let start := i * parallelDegree
        let e := min (start + parallelDegree) degree
        decodeFrom c (reduceCb f red) m (blockFinger m a nb i) source (e - start) start ident) with
    | none => none
    | some outs => some (outs.foldl red ident)
  else some ident

/-- `get_block_degree`, `gbbs/encodings/byte_pd.cc:63-73`; `get_num_blocks` (`59-61`) is
`parlay::num_blocks(degree, 1000)`, i.e. the quotient rounded up. -/
def getBlockDegree (degree blockNum : Nat) : Nat :=
  if degree = 0 then 0
  else
    let nb := (degree + parallelDegree - 1) / parallelDegree
    if blockNum < nb - 1 then parallelDegree else degree % parallelDegree

/-- `packBlock`, `gbbs/encodings/byte_pd.h:519-560`.  The first edge is eaten without
checking that `degree > 0`. -/
def packBlock (c : PCodec W) (pred : Nat → Nat → W → Bool) (m : Mem) (pos source degree : Nat) :
    Option (Mem × Nat) :=
  match decodeFrom c.codec (keepCb pred) m pos source (max 1 degree) 0 [] with
  | none => none
  | some tmp =>
    if tmp.length = 0 then some (m, 0)
    else
      match compressBlock c m pos source tmp with
      | none => none
      | some (m, _) => some (m, tmp.length)

/-- `pack`, `gbbs/encodings/byte_pd.h:658-714`: lines 669-712 are unreachable. -/
def pack (c : PCodec W) (pred : Nat → Nat → W → Bool) (m : Mem) (pos source degree : Nat) :
    Option (Mem × Nat) :=
  if degree ≤ parallelDegree then packBlock c pred m pos source degree
  else some (m, degree)

/-- `filter` = `filterBlock`, `gbbs/encodings/byte_pd.h:562-590`, `716-719`, for
`degree > 0` (for `degree = 0` the C++ expression `degree - 1` wraps to `2^32 - 1` and
4294968 blocks of garbage are read: `none`).  Result: the entries passed to `out(0, ..),
out(1, ..), ...`; the returned count is the length. -/
def filter (c : WCodec W) (pred : Nat → Nat → W → Bool) (m : Mem) (a source degree : Nat) :
    Option (List (Nat × W)) :=
  if degree = 0 then none
  else
    let nb := 1 + (degree - 1) / parallelDegree
    (List.range nb).foldlM (fun out i =>
      let start := i * parallelDegree
      let e := min (start + parallelDegree) degree
      decodeFrom c (keepCb pred) m (blockFinger m a nb i) source (e - start) start out) []

end Gbbs.PD

namespace Gbbs.AM

open Gbbs Byte Blk

variable {W : Type}

/-- Loop over the blocks in `sequentialCompressEdgeSet`,
`gbbs/encodings/byte_pd_amortized.h:1119-1159`.  `compressFirstEdge`/`compressEdge` of
`byte_pd_amortized.cc:6-55` are those of `byte.cc`/`byte.h`, hence one block (lines
1131-1158, without the debugging read-back of 1137-1141, 1150-1154) is
`Byte.sequentialCompressEdgeSet`. -/
def compressBlocks (c : WCodec W) (a src degree start : Nat) :
    (k i : Nat) → Mem → Nat → List (Nat × W) → Mem × Nat
  | 0, _, m, off, _ => (m, off)
  | k + 1, i, m, off, edges =>
    let o := i * parallelDegree
    let e := min parallelDegree (degree - o)
    let m := if i > 0 then m.store32 (a + 4 + 4 * (i - 1)) (off - start) else m
    let m := m.store32 off o
    let off := off + 4
    let (m, off) := Byte.sequentialCompressEdgeSet c m off src (edges.take e)
    compressBlocks c a src degree start k (i + 1) m off (edges.drop e)

/-- `sequentialCompressEdgeSet`, `gbbs/encodings/byte_pd_amortized.h:1106-1162`, with
`current_offset = 0` as passed by every caller (`utils/converter.h:567,646,753`). -/
def sequentialCompressEdgeSet (c : WCodec W) (m : Mem) (a src : Nat) (edges : List (Nat × W)) :
    Mem × Nat :=
  let degree := edges.length
  if degree > 0 then
    let nb := 1 + (degree - 1) / parallelDegree
    let m := m.store32 a degree
    compressBlocks c a src degree a nb 0 m (a + 4 + (nb - 1) * 4) edges
  else (m, a)

/-- `get_virtual_degree`, `byte_pd_amortized.h:41-46`. -/
def getVirtualDegree (m : Mem) (d a : Nat) : Nat := if d > 0 then m.load32 a else 0

/-- `1 + (virtual_degree - 1) / PARALLEL_DEGREE` (for `virtual_degree > 0`). -/
def numBlocks (vd : Nat) : Nat := 1 + (vd - 1) / parallelDegree

/-- `(i > 0) ? (edge_start + block_offsets[i - 1]) : nghs_start`,
e.g. `byte_pd_amortized.h:404-405`. -/
def blockFinger (m : Mem) (a nb i : Nat) : Nat :=
  if i > 0 then a + m.load32 (a + 4 + 4 * (i - 1)) else a + (nb - 1) * 4 + 4

/-- `end_offset`, e.g. `byte_pd_amortized.h:407-409`. -/
def blockEnd (m : Mem) (a nb degree i : Nat) : Nat :=
  if i = nb - 1 then degree else m.load32 (a + m.load32 (a + 4 + 4 * i))

/-- Body of block `i` under an arbitrary loop body `t`: `if (start_offset < end_offset)
{...}`, e.g. `byte_pd_amortized.h:404-421`, `446-455`, `525-536`, `812-822`, `1034-1047`. -/
def blockRun {σ : Type} (c : WCodec W) (t : σ → Nat → Nat → W → Nat → σ × Bool) (m : Mem)
    (a source degree nb i : Nat) (s : σ) : Option σ :=
  let finger := blockFinger m a nb i
  let startOff := m.load32 finger
  let endOff := blockEnd m a nb degree i
  if startOff < endOff then decodeFrom c t m (finger + 4) source (endOff - startOff) startOff s
  else some s

/-- `decode`, unweighted: `byte_pd_amortized.h:314-387`; both the parallel and the
sequential branch make the same calls. -/
def decodeUnweighted (c : WCodec W) (ans : Nat → Nat → W → Nat → Bool) (m : Mem)
    (a source degree : Nat) : Option (List (List (Call W))) :=
  if degree > 0 then
    let nb := numBlocks (m.load32 a)
    match blockRun c (recordCb ans) m a source degree nb 0 ([], true) with
    | none => none
    | some (cs, false) => some [cs]
    | some (cs, true) =>
      match (List.range (nb - 1)).mapM
          (fun j => (blockRun c (recordCb ans) m a source degree nb (j + 1) ([], true)).map
            Prod.fst) with
      | none => none
      | some css => some (cs :: css)
  else some []

/-- Block loop of the weighted `decode`, `byte_pd_amortized.h:403-422`: sequential, a negative
answer ends everything.  State: calls so far and last answer. -/
def decodeSeqLoop (c : WCodec W) (ans : Nat → Nat → W → Nat → Bool) (m : Mem)
    (a source degree nb : Nat) : (k i : Nat) → List (Call W) × Bool →
    Option (List (Call W))
  | 0, _, s => some s.1
  | k + 1, i, s =>
    match blockRun c (recordCb ans) m a source degree nb i s with
    | none => none
    | some (cs, false) => some cs
    | some (cs, true) => decodeSeqLoop c ans m a source degree nb k (i + 1) (cs, true)

/-- `decode`, weighted: `byte_pd_amortized.h:389-424`. -/
def decodeWeighted (c : WCodec W) (ans : Nat → Nat → W → Nat → Bool) (m : Mem)
    (a source degree : Nat) : Option (List (Call W)) :=
  if degree > 0 then
    let nb := numBlocks (m.load32 a)
    decodeSeqLoop c ans m a source degree nb nb 0 ([], true)
  else some []

/-- `decode_block` / `decode_block_cond`, `byte_pd_amortized.h:426-457`, `459-490`. -/
def decodeBlock (c : WCodec W) (ans : Nat → Nat → W → Nat → Bool) (m : Mem)
    (a source degree i : Nat) : Option (List (Call W)) :=
  if degree > 0 then
    (blockRun c (recordCb ans) m a source degree (numBlocks (m.load32 a)) i ([], true)).map Prod.fst
  else some []

/-- `map_reduce`, `byte_pd_amortized.h:492-546`. -/
def mapReduce {E : Type} (c : WCodec W) (f : Nat → Nat → W → E) (red : E → E → E) (ident : E)
    (m : Mem) (a source degree : Nat) : Option E :=
  if degree > 0 then
    let nb := numBlocks (m.load32 a)
    match (List.range nb).mapM
        (fun i => blockRun c (reduceCb f red) m a source degree nb i ident) with
    | none => none
    | some outs => some (outs.foldl red ident)
  else some ident

/-- `get_block_degree`, `byte_pd_amortized.cc:57-74`. -/
def getBlockDegree (m : Mem) (a degree i : Nat) : Nat :=
  if degree = 0 then 0
  else
    let nb := numBlocks (m.load32 a)
    let blockStart := if i = 0 then 0 else blockEnd m a nb degree (i - 1)
    blockEnd m a nb degree i - blockStart

/-- Loop `for (edgeID = start + 1; edgeID < i; edgeID++)` and the rest of
`get_ith_neighbor`, `byte_pd_amortized.h:605-640`.  `parlay::binary_search(seq, i, <=)`
returns the first `j` with `!(seq[j] <= i)`. -/
def getIthNeighbor (c : WCodec W) (m : Mem) (a source degree i : Nat) : Option (Nat × W) :=
  let nb := numBlocks (m.load32 a)
  match (List.range nb).find? (fun j => ! decide (blockEnd m a nb degree j ≤ i)) with
  | none => none
  | some block =>
    let finger := blockFinger m a nb block
    let start := m.load32 finger
    match eatFirstEdge m (finger + 4) source with
    | none => none
    | some (ngh, pos) =>
      match c.eat m pos with
      | none => none
      | some (w, pos) =>
        if i = start then some (ngh, w) else ithLoop c m (i - (start + 1)) pos ngh w

/-- `filter_sequential`, `byte_pd_amortized.h:1017-1049`. -/
def filterSequential (c : WCodec W) (pred : Nat → Nat → W → Bool) (m : Mem)
    (a source degree : Nat) : Option (List (Nat × W)) :=
  let nb := numBlocks (m.load32 a)
  (List.range nb).foldlM (fun out i => blockRun c (keepCb pred) m a source degree nb i out) []

/-- Phase 1 of `pack` for block `i`, `byte_pd_amortized.h:920-977`: new memory and
`block_cts[i]`. -/
def packBlock (c : WCodec W) (pred : Nat → Nat → W → Bool) (a source degree nb : Nat) (m : Mem)
    (i : Nat) : Option (Mem × Nat) :=
  let finger := blockFinger m a nb i
  let startOff := m.load32 finger
  let endOff := blockEnd m a nb degree i
  let blockDeg := (endOff + (uintEMod - startOff)) % uintEMod
  match decodeFrom c (keepCb pred) m (finger + 4) source blockDeg startOff [] with
  | none => none
  | some tmp =>
    if tmp.length > 0 ∧ tmp.length < blockDeg then
      some ((Byte.sequentialCompressEdgeSet c m (finger + 4) source tmp).1, tmp.length)
    else some (m, tmp.length)

/-- Phase 1 for the blocks in the order given by a schedule. -/
def packPhase1 (c : WCodec W) (pred : Nat → Nat → W → Bool) (a source degree nb : Nat) :
    (order : List Nat) → Mem → (Nat → Nat) → Option (Mem × (Nat → Nat))
  | [], m, cts => some (m, cts)
  | i :: order, m, cts =>
    match packBlock c pred a source degree nb m i with
    | none => none
    | some (m, ct) =>
      packPhase1 c pred a source degree nb order m (fun j => if j = i then ct else cts j)

/-- `parlay::scan_inplace` (exclusive sum). -/
def scan (cts : Nat → Nat) : Nat → Nat
  | 0 => 0
  | k + 1 => scan cts k + cts k

/-- Phase 2, `byte_pd_amortized.h:984-988`: store the new block starts (any order). -/
def packPhase2 (a nb : Nat) (starts : Nat → Nat) : (order : List Nat) → Mem → Mem
  | [], m => m
  | i :: order, m => packPhase2 a nb starts order (m.store32 (blockFinger m a nb i) (starts i))

/-- Copy of the live edges into `U`, `byte_pd_amortized.h:803-823`: block `i` writes
`U[start_offset..end_offset)`; the result is the list `U[0..degree)`.  Blocks are
concatenated in index order (their slots are disjoint). -/
def liveEdges (c : WCodec W) (m : Mem) (a source degree nb : Nat) : Option (List (Nat × W)) :=
  (List.range nb).foldlM
    (fun out i => blockRun c (keepCb (fun _ _ _ => true)) m a source degree nb i out) []

/-- Bytes of new block `i`, `byte_pd_amortized.h:836-855`, computed by encoding into a
scratch buffer. -/
def blockBytes (c : WCodec W) (source : Nat) (blk : List (Nat × W)) : Nat :=
  4 + (Byte.sequentialCompressEdgeSet c (fun _ => 0) 0 source blk).2

/-- `U[start..end)` for new block `i`. -/
def chunk (l : List (Nat × W)) (i : Nat) : List (Nat × W) :=
  (l.drop (i * parallelDegree)).take parallelDegree

/-- One block of step 5 of `repack`, `byte_pd_amortized.h:868-896`. -/
def repackBlock (c : WCodec W) (a source nb' : Nat) (offs : Nat → Nat) (U : List (Nat × W))
    (m : Mem) (i : Nat) : Mem :=
  let finger := a + (nb' - 1) * 4 + 4 + offs i
  let m := if i > 0 then m.store32 (a + 4 + 4 * (i - 1)) (finger - a) else m
  let m := m.store32 finger (i * parallelDegree)
  (Byte.sequentialCompressEdgeSet c m (finger + 4) source (chunk U i)).1

/-- `repack`, `byte_pd_amortized.h:782-898`; `order` is the schedule of the last loop. -/
def repack (c : WCodec W) (m : Mem) (a source degree : Nat) (order : List Nat) : Option Mem :=
  if degree > 0 then
    match liveEdges c m a source degree (numBlocks (m.load32 a)) with
    | none => none
    | some U =>
      let nb' := 1 + (degree - 1) / parallelDegree
      let offs := scan (fun i => blockBytes c source (chunk U i))
      let m := m.store32 a degree
      some (order.foldl (repackBlock c a source nb' offs U) m)
  else some m

/-- `pack`, `byte_pd_amortized.h:900-997`.  `block_cts_stack` has 100 entries and is used when
`num_blocks <= 100`, but entry `num_blocks` is written (line 980): out of bounds (`none`)
when `num_blocks = 100`.  `order1`, `order2`, `order3` are the schedules of the three
parallel loops. -/
def pack (c : WCodec W) (pred : Nat → Nat → W → Bool) (m : Mem) (a source degree : Nat)
    (order1 order2 order3 : List Nat) : Option (Mem × Nat) :=
  let vd := m.load32 a
  let nb := numBlocks vd
  match packPhase1 c pred a source degree nb order1 m (fun _ => 0) with
  | none => none
  | some (m, cts) =>
    if nb = 100 then none
    else
      let starts := scan cts
      let degRemaining := starts nb
      let m := packPhase2 a nb starts order2 m
      if degRemaining < vd / 10 then
        match repack c m a source degRemaining order3 with
        | none => none
        | some m => some (m, degRemaining)
      else some (m, degRemaining)

/-- `bytepd_amortized`'s `float` weights: `compressWeight` (`byte_pd_amortized.h:154-158`)
writes nothing, `eatWeight` (`121-128`) reads four bytes. -/
def floatCodecAM : WCodec (UInt8 × UInt8 × UInt8 × UInt8) where
  compress m off _ := (m, off)
  eat m pos := some ((m pos, m (pos + 1), m (pos + 2), m (pos + 3)), pos + 4)

end Gbbs.AM
