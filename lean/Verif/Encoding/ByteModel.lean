import Verif.Encoding.Mem

/-!
# Model of the `byte` encoding

Transcription of `/repo/gbbs/encodings/byte.h` and `byte.cc`.
`uintE` values are naturals below `2^32` (wrap-around written explicitly), `intE`
values are integers.  A decoder returns `none` when the C++ execution would be
undefined: a shift count of 32 or more, or the negation of `INT_MIN`.
-/

namespace Gbbs.Byte

open Gbbs

/-- The loop writing 7-bit groups, `gbbs/encodings/byte.h:202-218` (`compressEdge`) and
identically `byte.cc:23-35` (tail of `compressFirstEdge`).  In the C++ loop condition
`(curByte > 0) || (diff > 0)`, `curByte = diff & 0x7f`, so it is equivalent to
`diff > 0`. -/
def compressEdge (m : Mem) (off : Nat) (diff : Nat) : Mem × Nat :=
  let curByte := diff &&& 0x7f
  if h : curByte > 0 ∨ diff > 0 then
    let diff' := diff >>> 7
    let toWrite := if diff' > 0 then curByte ||| 0x80 else curByte
    compressEdge (m.store off (UInt8.ofNat toWrite)) (off + 1) diff'
  else (m, off)
termination_by diff
decreasing_by
  have hd : diff > 0 := by
    rcases h with h | h
    · rcases Nat.eq_zero_or_pos diff with h0 | h0
      · subst h0; simp [curByte] at h
      · exact h0
    · exact h
  show diff >>> 7 < diff
  rw [Nat.shiftRight_eq_div_pow]
  exact Nat.div_lt_self hd (by decide)

/-- `compressFirstEdge`, `gbbs/encodings/byte.cc:6-37`.  `source`/`target` are C++
`long`s; `toCompress` is a `uintE`, so the absolute difference is reduced mod 2^32. -/
def compressFirstEdge (m : Mem) (off : Nat) (source target : Int) : Mem × Nat :=
  let preCompress := target - source
  let toCompress := preCompress.natAbs % uintEMod
  let firstByte := toCompress &&& 0x3f
  let firstByte := if preCompress < 0 then firstByte ||| 0x40 else firstByte
  let toCompress := toCompress >>> 6
  let firstByte := if toCompress > 0 then firstByte ||| 0x80 else firstByte
  compressEdge (m.store off (UInt8.ofNat firstByte)) (off + 1) toCompress

/-- `LAST_BIT_SET(b)`, `gbbs/macros.h`. -/
def lastBitSet (b : UInt8) : Bool := b.toNat &&& 0x80 != 0

/-- Loop shared by `eatEdge` (`byte.h:102-115`, accumulating with `+=` from shift 0) and
the tails of `eatFirstEdge`/`eatWeight` (`byte.h:58-67`, `87-96`, accumulating with `|=`
from shift 6).  Accumulated groups occupy disjoint bit ranges, so `|=` and `+=` agree;
the accumulator is a 32-bit register (`% 2^32`).  A shift of 32 or more is undefined. -/
def eatLoop (m : Mem) (pos : Nat) (shift : Nat) (acc : Nat) : Option (Nat × Nat) :=
  if _h : shift ≥ 32 then none
  else
    let b := m pos
    let acc := (acc + ((b.toNat &&& 0x7f) <<< shift)) % uintEMod
    if lastBitSet b then eatLoop m (pos + 1) (shift + 7) acc
    else some (acc, pos + 1)
termination_by 32 - shift

/-- `eatEdge`, `gbbs/encodings/byte.h:102-115`. Returns value and advanced pointer. -/
def eatEdge (m : Mem) (pos : Nat) : Option (Nat × Nat) := eatLoop m pos 0 0

/-- Magnitude part shared by `eatFirstEdge` and `eatWeight`
(`gbbs/encodings/byte.h:55-68`, `84-97`): first byte, 32-bit pattern of `edgeRead`,
advanced pointer. -/
def eatSigned (m : Mem) (pos : Nat) : Option (UInt8 × Nat × Nat) :=
  let fb := m pos
  let edgeRead := fb.toNat &&& 0x3f
  if lastBitSet fb then
    match eatLoop m (pos + 1) 6 edgeRead with
    | none => none
    | some (e, p) => some (fb, e, p)
  else some (fb, edgeRead, pos + 1)

/-- `eatFirstEdge`, `gbbs/encodings/byte.h:83-99`: the result (an `intE` converted to
`uintE` by every caller) is `source ∓ edgeRead` in 32-bit unsigned arithmetic. -/
def eatFirstEdge (m : Mem) (pos : Nat) (source : Nat) : Option (Nat × Nat) :=
  match eatSigned m pos with
  | none => none
  | some (fb, e, p) =>
    if fb.toNat &&& 0x40 != 0 then some ((source + (uintEMod - e)) % uintEMod, p)
    else some ((source + e) % uintEMod, p)

/-- A weight type together with its reader and writer (the overloads of
`eatWeight`/`compressWeight` selected by `std::enable_if`). -/
structure WCodec (W : Type) where
  /-- `compressWeight<W>(start, offset, weight)` -/
  compress : Mem → Nat → W → Mem × Nat
  /-- `eatWeight<W>(start)` -/
  eat : Mem → Nat → Option (W × Nat)

/-- `W = gbbs::empty`: `byte.h:44-48`, `182-186`. -/
def emptyCodec : WCodec Unit where
  compress m off _ := (m, off)
  eat _ pos := some ((), pos)

/-- `W = intE`: `byte.h:52-70`, `188-192`.  The bit pattern `edgeRead` is an `intE`;
`-edgeRead` on `INT_MIN` is undefined. -/
def intCodec : WCodec Int where
  compress m off w := compressFirstEdge m off 0 w
  eat m pos :=
    match eatSigned m pos with
    | none => none
    | some (fb, e, p) =>
      let v : Int := if e < 2147483648 then (e : Int) else (e : Int) - 4294967296
      if fb.toNat &&& 0x40 != 0 then
        if v = -2147483648 then none else some (-v, p)
      else some (v, p)

/-- `W = float`: `byte.h:73-79`, `194-200`: the four bytes are copied verbatim
(alignment ignored). -/
def floatCodec : WCodec (UInt8 × UInt8 × UInt8 × UInt8) where
  compress m off w :=
    ((((m.store off w.1).store (off + 1) w.2.1).store (off + 2) w.2.2.1).store (off + 3) w.2.2.2,
      off + 4)
  eat m pos := some ((m pos, m (pos + 1), m (pos + 2), m (pos + 3)), pos + 4)

variable {W : Type}

/-- The loop of `sequentialCompressEdgeSet`, `gbbs/encodings/byte.h:289-296`; the
iterator `it` is modelled by the list of remaining entries. -/
def compressRest (c : WCodec W) (m : Mem) (off : Nat) (prev : Nat) :
    List (Nat × W) → Mem × Nat
  | [] => (m, off)
  | (ngh, w) :: rest =>
    let difference := (ngh + (uintEMod - prev)) % uintEMod
    let (m, off) := compressEdge m off difference
    let (m, off) := c.compress m off w
    compressRest c m off ngh rest

/-- `sequentialCompressEdgeSet`, `gbbs/encodings/byte.h:280-299`. -/
def sequentialCompressEdgeSet (c : WCodec W) (m : Mem) (off : Nat) (src : Nat) :
    List (Nat × W) → Mem × Nat
  | [] => (m, off)
  | (prev, w) :: rest =>
    let (m, off) := compressFirstEdge m off src prev
    let (m, off) := c.compress m off w
    compressRest c m off prev rest

/-- Loop of `decode`, `gbbs/encodings/byte.h:126-132`.  The callback `t` is modelled as a
state transformer; it receives `(source, ngh, wgh, i)` and returns whether to go on. -/
def decodeLoop {σ : Type} (c : WCodec W) (t : σ → Nat → Nat → W → Nat → σ × Bool)
    (m : Mem) (source : Nat) : (remaining : Nat) → (i pos ngh : Nat) → σ → Option σ
  | 0, _, _, _, s => some s
  | k + 1, i, pos, ngh, s =>
    match eatEdge m pos with
    | none => none
    | some (d, pos) =>
      let ngh := (ngh + d) % uintEMod
      match c.eat m pos with
      | none => none
      | some (w, pos) =>
        match t s source ngh w i with
        | (s, true) => decodeLoop c t m source k (i + 1) pos ngh s
        | (s, false) => some s

/-- `decode`, `gbbs/encodings/byte.h:117-134`. -/
def decode {σ : Type} (c : WCodec W) (t : σ → Nat → Nat → W → Nat → σ × Bool)
    (m : Mem) (edgeStart : Nat) (source degree : Nat) (s : σ) : Option σ :=
  match degree with
  | 0 => some s
  | k + 1 =>
    match eatFirstEdge m edgeStart source with
    | none => none
    | some (ngh, pos) =>
      match c.eat m pos with
      | none => none
      | some (w, pos) =>
        match t s source ngh w 0 with
        | (s, true) => decodeLoop c t m source k 1 pos ngh s
        | (s, false) => some s

/-- Loop `for (k = 1; k < i; k++)` of `get_ith_neighbor`, `byte.h:144-147`. -/
def ithLoop (c : WCodec W) (m : Mem) : (iters : Nat) → (pos ngh : Nat) → W → Option (Nat × W)
  | 0, _, ngh, w => some (ngh, w)
  | k + 1, pos, ngh, _ =>
    match eatEdge m pos with
    | none => none
    | some (d, pos) =>
      match c.eat m pos with
      | none => none
      | some (w, pos) => ithLoop c m k pos ((ngh + d) % uintEMod) w

/-- `get_ith_neighbor`, `gbbs/encodings/byte.h:136-149`: the loop runs `i - 1` times
(truncated).  `degree = 0` is an assertion failure (`none`). -/
def getIthNeighbor (c : WCodec W) (m : Mem) (edgeStart source degree i : Nat) :
    Option (Nat × W) :=
  if degree = 0 then none
  else
    match eatFirstEdge m edgeStart source with
    | none => none
    | some (ngh, pos) =>
      match c.eat m pos with
      | none => none
      | some (w, pos) => ithLoop c m (i - 1) pos ngh w

/-- Loop of `map_reduce`, `gbbs/encodings/byte.h:167-171`. -/
def mapReduceLoop {E : Type} (c : WCodec W) (f : Nat → Nat → W → E) (red : E → E → E)
    (m : Mem) (source : Nat) : (remaining : Nat) → (pos ngh : Nat) → E → Option E
  | 0, _, _, cur => some cur
  | k + 1, pos, ngh, cur =>
    match eatEdge m pos with
    | none => none
    | some (d, pos) =>
      let ngh := (ngh + d) % uintEMod
      match c.eat m pos with
      | none => none
      | some (w, pos) => mapReduceLoop c f red m source k pos ngh (red cur (f source ngh w))

/-- `map_reduce`, `gbbs/encodings/byte.h:158-175`. -/
def mapReduce {E : Type} (c : WCodec W) (f : Nat → Nat → W → E) (red : E → E → E) (ident : E)
    (m : Mem) (edgeStart source degree : Nat) : Option E :=
  match degree with
  | 0 => some ident
  | k + 1 =>
    match eatFirstEdge m edgeStart source with
    | none => none
    | some (ngh, pos) =>
      match c.eat m pos with
      | none => none
      | some (w, pos) => mapReduceLoop c f red m source k pos ngh (f source ngh w)

/-- State of `pack`: memory, read finger, current neighbour, write offset (relative to
`edge_start`), last neighbour written, number written.
`gbbs/encodings/byte.h:223-230`. -/
structure PackState where
  mem : Mem
  finger : Nat
  ngh : Nat
  offset : Nat
  lastNgh : Nat
  newDeg : Nat

/-- The write done for an accepted neighbour, `gbbs/encodings/byte.h:231-236` and
`240-250` (for the first entry `new_deg == 0` holds, so both are the same code). -/
def packWrite (c : WCodec W) (edgeStart source : Nat) (w : W) (s : PackState) : PackState :=
  let (m, off) :=
    if s.newDeg = 0 then compressFirstEdge s.mem (edgeStart + s.offset) source s.ngh
    else compressEdge s.mem (edgeStart + s.offset) ((s.ngh + (uintEMod - s.lastNgh)) % uintEMod)
  let (m, off) := c.compress m off w
  { s with mem := m, offset := off - edgeStart, lastNgh := s.ngh, newDeg := s.newDeg + 1 }

/-- Loop of `pack`, `gbbs/encodings/byte.h:237-251`. -/
def packLoop (c : WCodec W) (pred : Nat → Nat → W → Bool) (edgeStart source : Nat) :
    (remaining : Nat) → PackState → Option PackState
  | 0, s => some s
  | k + 1, s =>
    match eatEdge s.mem s.finger with
    | none => none
    | some (d, pos) =>
      let ngh := (s.ngh + d) % uintEMod
      match c.eat s.mem pos with
      | none => none
      | some (w, pos) =>
        let s := { s with finger := pos, ngh := ngh }
        if pred source ngh w then
          packLoop c pred edgeStart source k (packWrite c edgeStart source w s)
        else packLoop c pred edgeStart source k s

/-- `pack`, `gbbs/encodings/byte.h:220-254`.  Result: new memory and new degree. -/
def pack (c : WCodec W) (pred : Nat → Nat → W → Bool) (m : Mem) (edgeStart source degree : Nat) :
    Option (Mem × Nat) :=
  match degree with
  | 0 => some (m, 0)
  | k + 1 =>
    match eatFirstEdge m edgeStart source with
    | none => none
    | some (ngh, pos) =>
      match c.eat m pos with
      | none => none
      | some (w, pos) =>
        let s : PackState := ⟨m, pos, ngh, 0, 0, 0⟩
        let s := if pred source ngh w then packWrite c edgeStart source w s else s
        match packLoop c pred edgeStart source k s with
        | none => none
        | some s => some (s.mem, s.newDeg)

/-- Loop of `filter`, `gbbs/encodings/byte.h:268-274`; `out(k++, ..)` calls are collected
as a list (slot, entry). -/
def filterLoop (c : WCodec W) (pred : Nat → Nat → W → Bool) (m : Mem) (source : Nat) :
    (remaining : Nat) → (pos ngh k : Nat) → List (Nat × Nat × W) →
    Option (List (Nat × Nat × W) × Nat)
  | 0, _, _, k, out => some (out, k)
  | r + 1, pos, ngh, k, out =>
    match eatEdge m pos with
    | none => none
    | some (d, pos) =>
      let ngh := (ngh + d) % uintEMod
      match c.eat m pos with
      | none => none
      | some (w, pos) =>
        if pred source ngh w then
          filterLoop c pred m source r pos ngh (k + 1) (out ++ [(k, ngh, w)])
        else filterLoop c pred m source r pos ngh k out

/-- `filter`, `gbbs/encodings/byte.h:256-278`. -/
def filter (c : WCodec W) (pred : Nat → Nat → W → Bool) (m : Mem)
    (edgeStart source degree : Nat) : Option (List (Nat × Nat × W) × Nat) :=
  match degree with
  | 0 => some ([], 0)
  | r + 1 =>
    match eatFirstEdge m edgeStart source with
    | none => none
    | some (ngh, pos) =>
      match c.eat m pos with
      | none => none
      | some (w, pos) =>
        if pred source ngh w then filterLoop c pred m source r pos ngh 1 [(0, ngh, w)]
        else filterLoop c pred m source r pos ngh 0 []

/-- `iter`, `gbbs/encodings/byte.h:301-328` (field `proc` is not used by `intersect`). -/
structure Iter (W : Type) where
  finger : Nat
  last : Nat × W

/-- `iter::iter` for `degree > 0`, `byte.h:309-316`. -/
def Iter.init (c : WCodec W) (m : Mem) (pos src : Nat) : Option (Iter W) :=
  match eatFirstEdge m pos src with
  | none => none
  | some (ngh, pos) =>
    match c.eat m pos with
    | none => none
    | some (w, pos) => some ⟨pos, (ngh, w)⟩

/-- `iter::next`, `byte.h:320-325`. -/
def Iter.next (c : WCodec W) (m : Mem) (it : Iter W) : Option (Iter W) :=
  match eatEdge m it.finger with
  | none => none
  | some (d, pos) =>
    match c.eat m pos with
    | none => none
    | some (w, pos) => some ⟨pos, ((it.last.1 + d) % uintEMod, w)⟩

/-- Loop of `intersect`/`intersect_f`, `byte.h:337-347`, `358-369`.  `f` calls are
collected in a list.  Note that `next()` is called even when the list is exhausted
(it then decodes the bytes that follow the list).  Each iteration increments `i` or
`j`. -/
def intersectLoop (c : WCodec W) (m : Mem) (n1 n2 : Nat) (i j : Nat) (it1 it2 : Iter W)
    (acc : List Nat) : Option (List Nat) :=
  if _h : i < n1 ∧ j < n2 then
    let e1 := it1.last.1
    let e2 := it2.last.1
    if e1 = e2 then
      match it1.next c m, it2.next c m with
      | some it1, some it2 => intersectLoop c m n1 n2 (i + 1) (j + 1) it1 it2 (acc ++ [e1])
      | _, _ => none
    else if e1 < e2 then
      match it1.next c m with
      | some it1 => intersectLoop c m n1 n2 (i + 1) j it1 it2 acc
      | none => none
    else
      match it2.next c m with
      | some it2 => intersectLoop c m n1 n2 i (j + 1) it1 it2 acc
      | none => none
  else some acc
termination_by (n1 - i) + (n2 - j)

/-- `intersect_f`, `byte.h:351-371` (and `intersect`, `330-349`, whose result is the
length): the list of common neighbours passed to `f`; the count returned is its length. -/
def intersectF (c : WCodec W) (m : Mem) (l1 l2 n1 n2 src1 src2 : Nat) : Option (List Nat) :=
  if n1 = 0 ∨ n2 = 0 then some []
  else
    match Iter.init c m l1 src1, Iter.init c m l2 src2 with
    | some it1, some it2 => intersectLoop c m n1 n2 0 0 it1 it2 []
    | _, _ => none

end Gbbs.Byte
