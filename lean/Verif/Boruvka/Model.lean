/-
C106: `MinimumSpanningForest` in `benchmarks/MinimumSpanningForest/Boruvka/MinimumSpanningForest.h`.
-/
import Verif.Common
import Verif.Conc.Par
import Verif.Algo.Forest

namespace Gbbs.Boruvka

open Forest (E)
open Conc (Par compress)
open Conc.Prog (ret)

/-! ### Model

Weights are integers. The graph is the list of its arcs `(source, neighbour, weight)` in the order of the vertices.
Values that are computed per index of a `parallel_for` without any access to what another index writes are computed by
one function. -/

/-- `UINT_E_MAX`. -/
def noE : Nat := 2 ^ 32 - 1

/-- `std::numeric_limits<int32_t>::max()`, line 77. -/
def infW : Int := 2 ^ 31 - 1

/-- `TOP_BIT`, line 34. -/
def topBit : Nat := 2 ^ 31

/-- Lines 51-54: order of the pairs of edge number and weight. -/
def less (a b : Nat × Int) : Bool := decide (a.2 < b.2) || (decide (a.2 = b.2) && decide (a.1 < b.1))

/-- One `gbbs::write_min(min_edges + v, x, less)`, lines 89-90, as one atomic action (see C10 for the loop around the
compare-and-swap). -/
def wmin (a : Nat → Nat × Int) (ev : Nat × (Nat × Int)) : Nat → Nat × Int :=
  if less ev.2 (a ev.1) then upd a ev.1 ev.2 else a

/-- State of `Boruvka`, lines 43-65: active vertices `vtxs[0..n)`, live edge numbers `edge_ids[0..m)`, the edges (which
are relabelled), `parents`, `exhausted` and the edge numbers in `mst`. -/
structure St where
  vt : List Nat
  ids : List Nat
  ed : Nat → E
  p : Nat → Nat
  ex : Nat → Bool
  T : List Nat

/-- The calls of `write_min` in lines 85-91. -/
def events (s : St) : List (Nat × (Nat × Int)) :=
  s.ids.flatMap fun i => [((s.ed i).1, (i, (s.ed i).2.2)), ((s.ed i).2.1, (i, (s.ed i).2.2))]

/-- What a vertex does in lines 98-123. -/
inductive Mark where
  | gone
  | root
  | hook (u i : Nat)
  deriving DecidableEq

/-- Lines 99-122. -/
def mark (ed : Nat → E) (me : Nat → Nat × Int) (v : Nat) : Mark :=
  if (me v).1 = noE then .gone
  else
    let u := (ed (me v).1).1 ^^^ (ed (me v).1).2.1 ^^^ v
    if v < u ∧ (me v).1 = (me u).1 then .root else .hook u (me v).1

/-- `parents` after lines 98-123. -/
def hooked (s : St) (me : Nat → Nat × Int) (v : Nat) : Nat :=
  if v ∈ s.vt then
    match mark s.ed me v with
    | .gone => s.p v
    | .root => v
    | .hook u _ => u
  else s.p v

/-- The edge numbers that lines 98-131 add to `mst`. -/
def newEdge (s : St) (me : Nat → Nat × Int) (v : Nat) : Option Nat :=
  match mark s.ed me v with
  | .hook _ i => some i
  | _ => none

/-- Lines 151-192 and the flags of lines 98-123, given `parents` after the pointer jumping.  `pack_out` (trusted) takes
the length from its first argument, so that the length `n` of the flags in line 186 does not matter. -/
def finish (s : St) (me : Nat → Nat × Int) (p2 : Nat → Nat) : St where
  vt := s.vt.filter fun v => decide (mark s.ed me v = .root)
  ids := (s.ids.map fun i => if p2 (s.ed i).1 = p2 (s.ed i).2.1 then i ||| topBit else i).filter fun i =>
    decide (i &&& topBit = 0)
  ed := fun i => if i ∈ s.ids then (p2 (s.ed i).1, p2 (s.ed i).2.1, (s.ed i).2.2) else s.ed i
  p := p2
  ex := fun v => s.ex v || (decide (v ∈ s.vt) && decide (mark s.ed me v = .gone))
  T := s.T ++ s.vt.filterMap (newEdge s me)

/-- `min_edges` after lines 73-91, for the order `evs` of the calls of `write_min`; `old` is what the array held. -/
def minEdges (s : St) (old : Nat → Nat × Int) (evs : List (Nat × (Nat × Int))) : Nat → Nat × Int :=
  evs.foldl wmin fun v => if v ∈ s.vt then (noE, infW) else old v

/-- The pointer jumping of the vertices `act`, lines 140-147 and 425-431, in any interleaving. All the loops end. -/
def Jump (act : Nat → Bool) (p p' : Nat → Nat) : Prop :=
  ∃ f out, Par (fun u => if act u then compress f u else ret none) p p' out ∧ ∀ u, act u = true → out u ≠ none

/-- One round of `Boruvka`, lines 68-193. -/
def Round (s s' : St) : Prop :=
  ∃ old evs p2, evs.Perm (events s) ∧ Jump (fun u => decide (u ∈ s.vt)) (hooked s (minEdges s old evs)) p2 ∧
    s' = finish s (minEdges s old evs) p2

/-- The loop of line 67. -/
inductive Loop : St → St → Prop
  | done {s} : ¬ (1 < s.vt.length ∧ 0 < s.ids.length) → Loop s s
  | step {s s1 s2} : 1 < s.vt.length ∧ 0 < s.ids.length → Round s s1 → Loop s1 s2 → Loop s s2

/-- `filter_pred` in lines 291-298 (`h` always true) and 309-319 (`h` the comparison of the hash). -/
def splitPred (ws : Int) (h : E → Bool) (e : E) : Nat :=
  if e.2.1 < e.1 then 1 else if e.2.2 < ws then 2 else if e.2.2 = ws then (if h e then 2 else 0) else 0

/-- The edges that a round takes out of the graph, and what remains: lines 374-375, 214-322 with `filter_all_edges` and
`filter_edges` (`graph_mutation.h:187-325`, C28). `ch` is the outcome of the sampling: `none` if the number of edges
wanted is the number of edges, otherwise the weight of the splitter and which of the edges of that weight are taken.
Any outcome is allowed. -/
def take (k : Nat) (ch : Option (Int × (E → Bool))) (G : List E) : List E × List E :=
  match ch with
  | some (ws, h) =>
    if k < 5 then (G.filter fun e => decide (splitPred ws h e = 2), G.filter fun e => decide (splitPred ws h e = 0))
    else (G, [])
  | none => (G, [])

/-- State of the outer loop, lines 332-357: the graph, `mst_edges`, `parents`, `vtxs[0..n_active)`, `exhausted`. -/
structure OSt where
  G : List E
  F : List E
  p : Nat → Nat
  vt : List Nat
  ex : Nat → Bool

/-- `E.E[i]`, lines 383-384. -/
def edgeAt (l : List E) (i : Nat) : E := l.getD i (0, 0, 0)

/-- Lines 366-399: the call of `Boruvka` in round `k` on the edges `l`. -/
def start (k : Nat) (o : OSt) (l : List E) : St where
  vt := o.vt
  ids := List.range l.length
  ed := fun i => if 0 < k then (o.p (edgeAt l i).1, o.p (edgeAt l i).2.1, (edgeAt l i).2.2) else edgeAt l i
  p := o.p
  ex := o.ex
  T := []

/-- One round of the outer loop, lines 358-451. -/
def Iter (n k : Nat) (ch : Option (Int × (E → Bool))) (o o' : OSt) : Prop :=
  ∃ s p', Loop (start k o (take k ch o.G).1) s ∧ Jump (fun u => decide (u < n)) s.p p' ∧
    o' = { G := (take k ch o.G).2.filter fun e => decide (p' e.1 ≠ p' e.2.1)
           F := o.F ++ s.T.map (edgeAt (take k ch o.G).1)
           p := p'
           vt := s.vt ++ (List.range n).filter s.ex
           ex := fun v => if v < n then false else s.ex v }

/-- The loop of line 357, from round `k` on. -/
inductive Rounds (n : Nat) (ch : Nat → Option (Int × (E → Bool))) : Nat → OSt → List E → Prop
  | done {k o} : o.G = [] → Rounds n ch k o o.F
  | step {k o o' F} : o.G ≠ [] → Iter n k (ch k) o o' → Rounds n ch (k + 1) o' F → Rounds n ch k o F

/-- `MinimumSpanningForest` on `n` vertices and the arcs `A` returns `F`, lines 327-460. -/
def Run (n : Nat) (ch : Nat → Option (Int × (E → Bool))) (A F : List E) : Prop :=
  Rounds n ch 0 { G := A, F := [], p := fun v => v, vt := List.range n, ex := fun _ => false } F

end Gbbs.Boruvka
