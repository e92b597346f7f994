/-
Model of the bucketing structure of `gbbs/bucket.h` (bucket contents as lists; the array level and
the parallel insertion are in `Verif/Buckets/Parallel.lean`).
-/
import Verif.Common

namespace Gbbs.Buckets

/-- The constants of a bucket structure, `bucket.h:85-93`: iteration order, `open_buckets`
(= `total_buckets - 1`), and `null_bkt = numeric_limits<bucket_id>::max()` (`bucket.h:73`). -/
structure Cfg where
  inc : Bool
  opn : Nat
  null : Nat

/-- The mutable state, `bucket.h:288-300`.  The identifiers array of a bucket is its list. -/
structure BS where
  bkts : Nat → List Nat
  curBkt : Nat
  curRange : Nat
  numElms : Nat

/-- `bucket.h:383-400` (`to_range`). -/
def toRange (c : Cfg) (r bkt : Nat) : Nat :=
  if c.inc then
    if bkt < r * c.opn then c.null
    else if bkt < (r + 1) * c.opn then bkt % c.opn else c.opn
  else
    if bkt ≥ r * c.opn then c.null
    else if bkt ≥ (r - 1) * c.opn then (c.opn - bkt % c.opn) - 1 else c.opn

/-- `bucket.h:152-161` (`get_bucket(prev, next)`). -/
def getBucket2 (c : Cfg) (st : BS) (prev next : Nat) : Nat :=
  let pb := toRange c st.curRange prev
  let nb := toRange c st.curRange next
  if nb ≠ c.null ∧ (prev = c.null ∨ pb ≠ nb ∨ nb = st.curBkt) then nb else c.null

/-- `bucket.h:164-182` (`get_bucket(next)`). -/
def getBucket1 (c : Cfg) (st : BS) (next : Nat) : Nat :=
  let nb := toRange c st.curRange next
  if c.inc then if nb ≠ c.null ∧ nb ≠ c.opn then nb else c.null
  else if nb ≠ c.null then nb else c.null

/-- `bucket.h:302-324` (`update_buckets_seq` with `insert_in_bucket`): one identifier.  `none` is
an out-of-range access to `bkts`.  (The code dereferences the optional before testing it; an empty
optional is represented by the destination `null`, which is skipped either way.) -/
def insertOne (c : Cfg) (st : BS) (e : Nat × Nat) : Option BS :=
  if e.2 = c.null then some st
  else if c.opn < e.2 then none
  else some { st with bkts := upd st.bkts e.2 (st.bkts e.2 ++ [e.1]), numElms := st.numElms + 1 }

/-- `bucket.h:302-315` (`update_buckets_seq`).  The value returned by the code is the growth of
`numElms`. -/
def updateBuckets (c : Cfg) (st : BS) (es : List (Nat × Nat)) : Option BS :=
  es.foldlM (insertOne c) st

/-- `parlay::reduce(.., minimum)` on a non-empty sequence (`z` is the first element). -/
def minOf (z : Nat) (l : List Nat) : Nat := l.foldl min z

/-- `parlay::reduce(.., maxm)` on a non-empty sequence. -/
def maxOf (z : Nat) (l : List Nat) : Nat := l.foldl max z

/-- `bucket.h:349-368`: when nothing of the overflow bucket fell in the new range, move the range
next to the closest remaining bucket.  `none` marks unsigned underflow. -/
def adjust (c : Cfg) (d : Nat → Nat) (inRange : Nat) (st : BS) : Option BS :=
  match st.bkts c.opn with
  | [] => some st
  | v :: vs =>
    if inRange = 0 then
      if c.inc then
        let mn := minOf (d v) (vs.map d)
        if mn / c.opn = 0 then none else some { st with curRange := mn / c.opn - 1 }
      else
        let mx := maxOf (d v) (vs.map d)
        some { st with curRange := (c.opn + mx) / c.opn + 1 }
    else some st

/-- `bucket.h:326-371` (`unpack`).  `none` marks the failing assertion at line 347 or an unsigned
underflow of `cur_range`. -/
def unpack (c : Cfg) (d : Nat → Nat) (st : BS) : Option BS :=
  let tmp := st.bkts c.opn
  let m := tmp.length
  if c.inc = false ∧ st.curRange = 0 then none
  else
    let r := if c.inc then st.curRange + 1 else st.curRange - 1
    let st1 : BS := { st with bkts := upd st.bkts c.opn [], curRange := r }
    if m ≠ st.numElms then none
    else
      match updateBuckets c st1 (tmp.map fun v => (v, toRange c r (d v))) with
      | none => none
      | some st2 =>
        let updated := st2.numElms - st1.numElms
        match adjust c d (updated - (st2.bkts c.opn).length) st2 with
        | none => none
        | some st3 => some { st3 with numElms := st3.numElms - m }

/-- `bucket.h:373-379` (`_next_bucket`). -/
def stepBucket (c : Cfg) (d : Nat → Nat) (st : BS) : Option BS :=
  let st1 := { st with curBkt := st.curBkt + 1 }
  if st1.curBkt = c.opn then
    match unpack c d st1 with
    | none => none
    | some st2 => some { st2 with curBkt := 0 }
  else some st1

/-- `bucket.h:402-408` (`get_cur_bucket_num`). -/
def curNum (c : Cfg) (st : BS) : Nat :=
  if c.inc then st.curRange * c.opn + st.curBkt else st.curRange * c.opn - st.curBkt - 1

/-- `bucket.h:139-148` (`next_bucket`) and `410-426` (`get_cur_bucket`), which call each other.
The result is the bucket id, the identifiers, and the new state; `fuel` bounds the number of loop
iterations and recursive calls (`none` when exhausted). -/
def nextBucket (c : Cfg) (d : Nat → Nat) : Nat → BS → Option (Nat × List Nat × BS)
  | 0, _ => none
  | fuel + 1, st =>
    if st.bkts st.curBkt = [] ∧ 0 < st.numElms then
      match stepBucket c d st with
      | none => none
      | some st' => nextBucket c d fuel st'
    else if st.numElms = 0 then some (c.null, [], st)
    else
      let bkt := st.bkts st.curBkt
      let num := curNum c st
      let st' : BS := { st with bkts := upd st.bkts st.curBkt [], numElms := st.numElms - bkt.length }
      let filtered := bkt.filter fun v => d v == num
      if filtered = [] then nextBucket c d fuel st'
      else some (num, filtered, st')

/-- `bucket.h:85-128` (constructor) on `n` identifiers. -/
def create (c : Cfg) (n : Nat) (d : Nat → Nat) : Option BS :=
  let r :=
    if c.inc then minOf c.null ((List.range n).map d) / c.opn
    else (maxOf 0 ((List.range n).map fun i => if d i = c.null then 0 else d i) + c.opn) / c.opn
  updateBuckets c { bkts := fun _ => [], curBkt := 0, curRange := r, numElms := 0 }
    ((List.range n).map fun i => (i, if d i = c.null then c.null else toRange c r (d i)))

/-- What a client does between extractions: for each move `(v, next)` it computes the destination
with `get_bucket(d[v], next)`, stores `next` in `d[v]`, and then calls `update_buckets`
(e.g. `wBFS.h:99-130`, `KCore.h:120-138`). -/
def moveTo2 (c : Cfg) (d : Nat → Nat) (st : BS) (moves : List (Nat × Nat)) : Option BS :=
  updateBuckets c st (moves.map fun mv => (mv.1, getBucket2 c st (d mv.1) mv.2))

/-- The same with the one-argument `get_bucket(next)` (e.g. `KCore.h:50-69`,
`ApproximateSetCover.h:180-191`). -/
def moveTo1 (c : Cfg) (st : BS) (moves : List (Nat × Nat)) : Option BS :=
  updateBuckets c st (moves.map fun mv => (mv.1, getBucket1 c st mv.2))

/-- The client's array after the moves. -/
def setAll (d : Nat → Nat) (moves : List (Nat × Nat)) : Nat → Nat :=
  moves.foldl (fun d mv => upd d mv.1 mv.2) d

end Gbbs.Buckets
