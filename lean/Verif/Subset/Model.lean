/-
Model of `gbbs/vertex_subset.h`: vertex subsets with optional data, their two representations, the
conversions, `vertexMap`, `vertexFilter`, `add_to_vsubset`.
-/
import Verif.Common
import Mathlib.Data.List.Nodup

namespace Gbbs.VSub

/-- `vertex_subset.h:37-196` (and the specialisation for no data, 199-370, with `α = Unit`).  An
absent representation is an empty sequence, as in the code.  `sum_out_degrees` is a cache of a
degree sum that plays no role for membership. -/
structure VS (α : Type) where
  n : Nat
  m : Nat
  s : List (Nat × α)
  d : List (Bool × α)
  isDense : Bool

variable {α : Type}

/-- `vertex_subset.h:65-69` (empty set). -/
def empty (n : Nat) : VS α := { n := n, m := 0, s := [], d := [], isDense := false }

/-- `vertex_subset.h:80-85` (from a sequence of vertices). -/
def ofSparse (n : Nat) (A : List (Nat × α)) : VS α :=
  { n := n, m := A.length, s := A, d := [], isDense := false }

/-- `vertex_subset.h:97-106` (from an array of flags, counting them). -/
def ofDense (n : Nat) (A : List (Bool × α)) : VS α :=
  { n := n, m := (A.filter fun x => x.1).length, s := [], d := A, isDense := true }

/-- `vertex_subset.h:88-94` (from an array of flags and the number of members). -/
def ofDenseCount (n m : Nat) (A : List (Bool × α)) : VS α :=
  { n := n, m := m, s := [], d := A, isDense := true }

/-- `parlay::pack_index_and_data` / `pack_index` on the flags: the members in index order. -/
def packIndex (d : List (Bool × α)) : List (Nat × α) :=
  (d.zipIdx.filter fun x => x.1.1).map fun x => (x.2, x.1.2)

/-- `vertex_subset.h:165-179` / `338-353` (`toSparse`); `none` is the `abort()`. -/
def toSparse (V : VS α) : Option (VS α) :=
  if V.s.length = 0 ∧ V.m > 0 then
    let s := packIndex V.d
    if s.length ≠ V.m then none else some { V with s := s, isDense := false }
  else some { V with isDense := false }

/-- One iteration of `vertex_subset.h:186-188`; `none` is an access outside `s` or `d`. -/
def markOne (s : List (Nat × α)) (d : List (Bool × α)) (i : Nat) : Option (List (Bool × α)) :=
  match s[i]? with
  | none => none
  | some (v, a) => if v < d.length then some (d.set v (true, a)) else none

/-- `vertex_subset.h:182-191` / `356-363` (`toDense`), the second parallel loop in the given order.
`dflt` is the default value of the data. -/
def toDense (dflt : α) (order : List Nat) (V : VS α) : Option (VS α) :=
  if V.d.length = 0 then
    match order.foldlM (markOne V.s) (List.replicate V.n (false, dflt)) with
    | none => none
    | some d => some { V with d := d, isDense := true }
  else some { V with isDense := true }

/-- All `(vertex, data)` pairs a client sees when it iterates over the subset through
`get_fn_repr()`/`vtx`/`vtxData`/`isIn`/`ithData` (`vertex_subset.h:119-150`), i.e. over
`0..n-1` when dense and `0..m-1` when sparse.  `none` is an access outside a sequence. -/
def entries (V : VS α) : Option (List (Nat × α)) :=
  if V.isDense then
    ((List.range V.n).mapM fun v => (V.d[v]?).map fun x => (v, x)).map fun l =>
      (l.filter fun x => x.2.1).map fun x => (x.1, x.2.2)
  else (List.range V.m).mapM fun i => V.s[i]?

/-- `vertex_subset.h:376-412` (`vertexMap`): the calls of `f`, up to order. -/
def vertexMap (V : VS α) : Option (List (Nat × α)) := entries V

/-- `vertex_subset.h:414-431` (`vertexFilter_dense`). -/
def vertexFilterDense (dflt : α) (order : List Nat) (p : Nat → α → Bool) (V : VS α) :
    Option (VS Unit × VS α) :=
  match toDense dflt order V with
  | none => none
  | some V =>
    match (List.range V.n).mapM (fun v => V.d[v]?) with
    | none => none
    | some l => some (ofDense V.n (l.mapIdx fun v x => (x.1 && p v x.2, ())), V)

/-- `vertex_subset.h:433-458` (`vertexFilter_sparse`). -/
def vertexFilterSparse (p : Nat → α → Bool) (V : VS α) : Option (VS Unit × VS α) :=
  if V.m = 0 then some (empty V.n, V)
  else
    match toSparse V with
    | none => none
    | some V =>
      match (List.range V.m).mapM (fun i => V.s[i]?) with
      | none => none
      | some l => some (ofSparse V.n ((l.filter fun x => p x.1 x.2).map fun x => (x.1, ())), V)

/-- `vertex_subset.h:463-477` (`vertexFilter`); the flag is `dense_only`, `no_dense` or neither. -/
def vertexFilter (dflt : α) (order : List Nat) (fl : Option Bool) (p : Nat → α → Bool) (V : VS α) :
    Option (VS Unit × VS α) :=
  match fl with
  | some true => vertexFilterDense dflt order p V
  | some false => vertexFilterSparse p V
  | none => if V.isDense then vertexFilterDense dflt order p V else vertexFilterSparse p V

/-- `vertex_subset.h:479-500` (`add_to_vsubset`). -/
def add (V : VS Unit) (new : List Nat) : Option (VS Unit) :=
  if V.isDense then
    match new.foldlM (fun d v => if v < d.length then some (d.set v (true, ())) else none) V.d with
    | none => none
    | some d => some { V with d := d, m := V.m + new.length }
  else
    match (List.range V.m).mapM (fun i => V.s[i]?) with
    | none => none
    | some l => some { V with s := l ++ new.map fun v => (v, ()), m := new.length + V.m }

end Gbbs.VSub
