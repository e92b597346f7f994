/-
Model of the concurrent union-find rules: `benchmarks/Connectivity/UnionFind/union_find_rules.h`, the
copies in `benchmarks/SpanningForest/UnionFind/union_find_rules.h` and
`benchmarks/Connectivity/SimpleUnionAsync/Connectivity.h`.

Every access to `parents`, `hooks` and `locks` is one step. `fuel` bounds the number of iterations of the
loops. `UINT_E_MAX` as a return value ("nothing hooked") is `none`.
-/
import Verif.Conc.Prog

namespace Gbbs.UF

open Conc Conc.Prog

/-- Locations: `parents[x]`; `hooks[x]` (`union_find_rules.h:242`) or `locks[x]` (`128`). -/
inductive Loc
  | par (x : Nat)
  | aux (x : Nat)
  deriving DecidableEq

abbrev P (α : Type) := Prog Loc Nat α

/-! ### find -/

/-- `find_naive`, `union_find_rules.h:11-16`. -/
def findNaive : Nat → Nat → P Nat
  | 0, _ => stuck
  | f + 1, i => read (.par i) fun p => if i = p then ret i else read (.par i) fun p => findNaive f p

/-- First loop of `find_compress`, `union_find_rules.h:21-23`: `do j = parents[j] while (parents[j] != j)`. -/
def climb : Nat → Nat → P Nat
  | 0, _ => stuck
  | f + 1, j => read (.par j) fun j => read (.par j) fun p => if p ≠ j then climb f j else ret j

/-- Second loop, `union_find_rules.h:24-28`. -/
def compressLoop : Nat → Nat → Nat → P Unit
  | 0, _, _ => stuck
  | f + 1, i, j => read (.par i) fun tmp =>
      if tmp > j then write (.par i) j (compressLoop f tmp j) else ret ()

/-- `find_compress`, `union_find_rules.h:18-30` and `SimpleUnionAsync/Connectivity.h:32-45`. -/
def findCompress (f : Nat) (i : Nat) : P Nat :=
  read (.par i) fun p => if p = i then ret i
    else (climb f i).bind fun j => (compressLoop f i j).bind fun _ => ret j

/-- Second loop of `find_compress_atomic`, `SimpleUnionAsync/Connectivity.h:72-78`: a CAS, giving up
when it fails. -/
def compressLoopA : Nat → Nat → Nat → P Unit
  | 0, _, _ => stuck
  | f + 1, i, j => read (.par i) fun tmp =>
      if tmp > j then cas (.par i) tmp j fun b => if b then compressLoopA f tmp j else ret ()
      else ret ()

/-- `find_compress_atomic`, `SimpleUnionAsync/Connectivity.h:65-80`. -/
def findCompressAtomic (f : Nat) (i : Nat) : P Nat :=
  read (.par i) fun p => if p = i then ret i
    else (climb f i).bind fun j => (compressLoopA f i j).bind fun _ => ret j

/-- `find_atomic_split`, `union_find_rules.h:32-44`. -/
def findSplit : Nat → Nat → P Nat
  | 0, _ => stuck
  | f + 1, i => read (.par i) fun v => read (.par v) fun w =>
      if v = w then ret v else cas (.par i) v w fun _ => findSplit f v

/-- `find_atomic_halve`, `union_find_rules.h:46-58`. -/
def findHalve : Nat → Nat → P Nat
  | 0, _ => stuck
  | f + 1, i => read (.par i) fun v => read (.par v) fun w =>
      if v = w then ret v else cas (.par i) v w fun _ => read (.par i) fun i => findHalve f i

/-! ### splice -/

/-- `split_atomic_one`, `union_find_rules.h:64-74`. -/
def splitOne (i _x : Nat) : P Nat :=
  read (.par i) fun v => read (.par v) fun w =>
    if v = w then ret v else cas (.par i) v w fun _ => ret v

/-- `halve_atomic_one`, `union_find_rules.h:77-87`. -/
def halveOne (i _x : Nat) : P Nat :=
  read (.par i) fun v => read (.par v) fun w =>
    if v = w then ret v else cas (.par i) v w fun _ => ret w

/-- `splice_atomic`, `union_find_rules.h:90-94`. -/
def spliceAtomic (u v : Nat) : P Nat :=
  read (.par u) fun z => read (.par v) fun w => cas (.par u) z w fun _ => ret z

/-! ### unite -/

/-- `Unite`, `union_find_rules.h:99-123`. -/
def unite (find : Nat → P Nat) : Nat → Nat → Nat → P (Option Nat)
  | 0, _, _ => stuck
  | f + 1, u, v => (find u).bind fun u => (find v).bind fun v =>
      if u = v then ret none
      else if u > v then
        read (.par u) fun p => if p = u then
          cas (.par u) u v fun b => if b then ret (some u) else unite find f u v
        else unite find f u v
      else
        read (.par v) fun p => if p = v then
          cas (.par v) v u fun b => if b then ret (some v) else unite find f u v
        else unite find f u v

/-- `unite_impl` (and `unite_impl_atomic`) of `SimpleUnionAsync/Connectivity.h:47-63, 82-99`: the loop
tests `u != v` before the first find; returns whether something was hooked (here: what). -/
def uniteImpl (find : Nat → P Nat) : Nat → Nat → Nat → P (Option Nat)
  | 0, _, _ => stuck
  | f + 1, u, v =>
      if u = v then ret none
      else (find u).bind fun u => (find v).bind fun v =>
        if u > v then
          read (.par u) fun p => if p = u then
            cas (.par u) u v fun b => if b then ret (some u) else uniteImpl find f u v
          else uniteImpl find f u v
        else if v > u then
          read (.par v) fun p => if p = v then
            cas (.par v) v u fun b => if b then ret (some v) else uniteImpl find f u v
          else uniteImpl find f u v
        else uniteImpl find f u v

/-- `UniteEarly`, `union_find_rules.h:211-237`; `post` are the two finds at the end
(`ret ()` for `find_naive`). -/
def uniteEarly : Nat → Nat → Nat → P (Option Nat)
  | 0, _, _ => stuck
  | f + 1, u, v =>
      if u = v then ret none
      else
        let a := if v > u then v else u
        let b := if v > u then u else v
        let rest := read (.par a) fun z => read (.par z) fun w => cas (.par a) z w fun _ =>
          uniteEarly f w b
        read (.par a) fun p => if p = a then
          cas (.par a) a b fun ok => if ok then ret (some a) else rest
        else rest

/-- `UniteEarly` with the forced finds, `union_find_rules.h:229-235`. -/
def uniteEarlyForce (find : Nat → P Nat) (f u v : Nat) : P (Option Nat) :=
  (uniteEarly f u v).bind fun r => (find u).bind fun _ => (find v).bind fun _ => ret r

/-- The constant `UINT_E_MAX`. -/
def uMax : Nat := 4294967295

/-- `UniteND`, `union_find_rules.h:239-265`: `aux` holds `hooks`, initially `UINT_E_MAX`. -/
def uniteND (find : Nat → P Nat) : Nat → Nat → Nat → P (Option Nat)
  | 0, _, _ => stuck
  | f + 1, u, v => (find u).bind fun u => (find v).bind fun v =>
      if u = v then ret none
      else
        let a := if u < v then v else u
        let b := if u < v then u else v
        read (.aux a) fun h => if h = uMax then
          cas (.aux a) uMax b fun ok =>
            if ok then write (.par a) b (ret (some a)) else uniteND find f a b
        else uniteND find f a b

/-- `UniteRemCAS`, `union_find_rules.h:176-209`. `fin` is the compression after success
(`compress(x); compress(y)`, or nothing). -/
def uniteRemCAS (splice : Nat → Nat → P Nat) (fin : P Unit) : Nat → Nat → Nat → P (Option Nat)
  | 0, _, _ => stuck
  | f + 1, rx, ry => read (.par rx) fun a => read (.par ry) fun b =>
      if a = b then ret none
      else read (.par ry) fun pry => read (.par rx) fun prx =>
        let sw := prx < pry
        let rx' := if sw then ry else rx
        let ry' := if sw then rx else ry
        let pry' := if sw then prx else pry
        let other := (splice rx' ry').bind fun z => uniteRemCAS splice fin f z ry'
        read (.par rx') fun p => if p = rx' then
          cas (.par rx') rx' pry' fun ok => if ok then fin.bind fun _ => ret (some rx') else other
        else other

/-- `UniteRemCAS` of `SpanningForest/UnionFind/union_find_rules.h`: as above, but `p_ry` is not swapped
along with `rx` and `ry`. The result is the index at which the edge is recorded. -/
def uniteRemCASsf (splice : Nat → Nat → P Nat) (fin : P Unit) : Nat → Nat → Nat → P (Option Nat)
  | 0, _, _ => stuck
  | f + 1, rx, ry => read (.par rx) fun a => read (.par ry) fun b =>
      if a = b then ret none
      else read (.par ry) fun pry => read (.par rx) fun prx =>
        let sw := prx < pry
        let rx' := if sw then ry else rx
        let ry' := if sw then rx else ry
        let other := (splice rx' ry').bind fun z => uniteRemCASsf splice fin f z ry'
        read (.par rx') fun p => if p = rx' then
          cas (.par rx') rx' pry fun ok => if ok then fin.bind fun _ => ret (some rx') else other
        else other

/-- `UniteRemLock`, `union_find_rules.h:125-174`: `aux` holds `locks` (0 is free). It always returns
`UINT_E_MAX`; here the hooked vertices are not reported. `fin` as above. -/
def uniteRemLock (splice : Nat → Nat → P Nat) (fin : P Unit) : Nat → Nat → Nat → P (Option Nat)
  | 0, _, _ => stuck
  | f + 1, rx, ry => read (.par rx) fun a => read (.par ry) fun b =>
      if a = b then fin.bind fun _ => ret none
      else read (.par rx) fun prx => read (.par ry) fun pry =>
        let rx' := if prx < pry then ry else rx
        let ry' := if prx < pry then rx else ry
        read (.par rx') fun p =>
          if rx' = p then
            read (.aux rx') fun l =>
              if l = 0 then
                cas (.aux rx') 0 1 fun ok =>
                  if ok then
                    read (.par ry') fun py => read (.par rx') fun q =>
                      if rx' = q ∧ rx' > py then
                        write (.par rx') py (write (.aux rx') 0 (uniteRemLock splice fin f rx' ry'))
                      else write (.aux rx') 0 (uniteRemLock splice fin f rx' ry')
                  else uniteRemLock splice fin f rx' ry'
              else uniteRemLock splice fin f rx' ry'
          else (splice rx' ry').bind fun z => uniteRemLock splice fin f z ry'

/-- `UniteRemLock` of `SpanningForest/UnionFind/union_find_rules.h:132-170`: as above; the result is the index at which the
edge was recorded last (`r` so far). -/
def uniteRemLockSF (splice : Nat → Nat → P Nat) (fin : P Unit) : Nat → Option Nat → Nat → Nat → P (Option Nat)
  | 0, _, _, _ => stuck
  | f + 1, r, rx, ry => read (.par rx) fun a => read (.par ry) fun b =>
      if a = b then fin.bind fun _ => ret r
      else read (.par rx) fun prx => read (.par ry) fun pry =>
        let rx' := if prx < pry then ry else rx
        let ry' := if prx < pry then rx else ry
        read (.par rx') fun p =>
          if rx' = p then
            read (.aux rx') fun l =>
              if l = 0 then
                cas (.aux rx') 0 1 fun ok =>
                  if ok then
                    read (.par ry') fun py => read (.par rx') fun q =>
                      if rx' = q ∧ rx' > py then
                        write (.par rx') py (write (.aux rx') 0 (uniteRemLockSF splice fin f (some rx') rx' ry'))
                      else write (.aux rx') 0 (uniteRemLockSF splice fin f r rx' ry')
                  else uniteRemLockSF splice fin f r rx' ry'
              else uniteRemLockSF splice fin f r rx' ry'
          else (splice rx' ry').bind fun z => uniteRemLockSF splice fin f r z ry'

end Gbbs.UF
