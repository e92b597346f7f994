/-
C107: the SCAN index and its queries, `benchmarks/SCAN/IndexBased/scan_helpers.h`, `scan_helpers.cc` and `scan.cc`.

Similarities are elements of a linear order `S` (finite floats; the code only compares them). `m1` and `z` stand for the constants -1 and 0.
The library sorts (`sample_sort_inplace`, `integer_sort_inplace`) are any permutation that is sorted by the comparison of the call;
`parlay::binary_search` is the length of the longest prefix with the predicate, which is what it returns on the sequences that are
sorted for it. The hash set `cores_set` is the set of the cores (its operations are C13).
-/
import Verif.Common
import Verif.Algo.UFSample
import Mathlib.Order.Defs.LinearOrder

namespace Gbbs.Scan

open UF Conc Conc.Prog
open Atomics (Steps)

variable {S : Type} [LinearOrder S]

/-! ### The index -/

/-- `EdgeSimilarity`, `similarity_measure.h:25-34`. -/
structure Es (S : Type) where
  src : Nat
  ngh : Nat
  sim : S
  deriving DecidableEq

/-- The comparison of `NeighborOrder`, `scan_helpers.h:85-89`: ascending source, then descending similarity. -/
def before (l r : Es S) : Prop := l.src < r.src ∨ l.src = r.src ∧ r.sim < l.sim

/-- `NeighborOrder::NeighborOrder`, `scan_helpers.h:79-104`, for the similarities `sims` returned by `AllEdges`: they are sorted, and
`nbr i` is the slice of vertex `i`, found from the degrees. -/
structure NeighborOrder (n : Nat) (deg : Nat → Nat) (sims : List (Es S)) (nbr : Nat → List (Es S)) : Prop where
  ex : ∃ out : List (Es S), out.Perm sims ∧ out.Pairwise (fun l r => ¬ before r l) ∧
    ∀ i < n, nbr i = (out.take (if i + 1 = n then out.length else exScan deg (i + 1))).drop (exScan deg i)

/-- `parlay::binary_search`: the number of leading elements with the predicate. -/
def bsearch {α : Type} (p : α → Bool) (l : List α) : Nat := (l.takeWhile p).length

/-- `degree_offsets`, `scan_helpers.cc:73-88`, of the list of the sorted degrees: entries up to the least degree are 0; at every
position `i` in `s` (the iterations in some order) where the degree changes, the entries from above the previous degree up to the new one
become `i`. `u0` is the uninitialised array. -/
def degreeOffsets (ds : List Nat) (u0 : Nat → Nat) (s : List Nat) : Nat → Nat :=
  s.foldl (fun o i => fun j => if ds.getD i 0 ≠ ds.getD (i - 1) 0 ∧ ds.getD (i - 1) 0 + 1 ≤ j ∧ j < ds.getD i 0 + 1 then i else o j)
    fun j => if j < ds.getD 0 0 + 1 then 0 else u0 j

/-- `get_core_order`, `scan_helpers.cc:90-114`: one list of the core order. The read of the threshold must be in range. -/
def CoreList (nbr : Nat → List (Es S)) (vd : List Nat) (off : Nat → Nat) (mu : Nat) (l : List (Nat × S)) : Prop :=
  if mu ≤ 1 then l = []
  else ∃ t, ((vd.drop (off (mu - 1))).mapM fun v => ((nbr v)[mu - 2]?).map fun e => (v, e.sim)) = some t ∧
    l.Perm t ∧ l.Pairwise fun a b => b.2 ≤ a.2

/-- `ComputeCoreOrder`, `scan_helpers.cc:52-121`: `vd` are the vertices sorted by degree. -/
structure CoreOrder (n : Nat) (nbr : Nat → List (Es S)) (ord : List (List (Nat × S))) : Prop where
  none : n = 0 → ord = []
  ex : n ≠ 0 → ∃ (vd : List Nat) (u0 : Nat → Nat) (s : List Nat), vd.Perm (List.range n) ∧
    vd.Pairwise (fun a b => (nbr a).length ≤ (nbr b).length) ∧ s.Perm (List.range' 1 (n - 1)) ∧
    ord.length = (vd.map fun v => (nbr v).length).getD (n - 1) 0 + 2 ∧
    ∀ mu l, ord[mu]? = some l → CoreList nbr vd (degreeOffsets (vd.map fun v => (nbr v).length) u0 s) mu l

/-- `CoreOrder::GetCores`, `scan_helpers.cc:127-145`. -/
def getCores (n : Nat) (ord : List (List (Nat × S))) (mu : Nat) (eps : S) : List Nat :=
  if mu ≤ 1 then List.range n
  else match ord[mu]? with
    | none => []
    | some l => (l.take (bsearch (fun c => decide (eps ≤ c.2)) l)).map (·.1)

/-- `core_similar_edge_counts`, `scan.cc:185-194`. -/
def simCount (nbr : Nat → List (Es S)) (eps : S) (v : Nat) : Nat := bsearch (fun e => decide (eps ≤ e.sim)) (nbr v)

/-! ### The clusters of the cores -/

/-- The pairs for which `ClusterCores` calls `unite`, `scan.cc:59-71`. -/
def callsOne (nbr : Nat → List (Es S)) (eps : S) (cores : List Nat) : List (Nat × Nat) :=
  cores.flatMap fun core => ((nbr core).take (simCount nbr eps core)).filterMap fun e =>
    if core > e.ngh ∧ e.ngh ∈ cores then some (core, e.ngh) else none

/-- The array when the calls start: `scan.cc:53-56` on `labels`. Positions from `n` on do not exist; they are roots here. -/
def start (n : Nat) (labels : Nat → Nat) (new : List Nat) : Nat → Nat :=
  fun x => if n ≤ x then x else if x ∈ new then x else labels x

/-- An array of `kUnclustered`. -/
def blank : Nat → Nat := fun _ => uMax

/-- The concurrent calls of `Unite` with `find_compress` on the array `P0`, `scan.cc:57-71`, and then the loop
`clustering[core] = find(core)`, `:72-75`. All threads return. `lab` is the array afterwards. -/
def Unites (P0 : Nat → Nat) (calls : List (Nat × Nat)) (cores : List Nat) (lab : Nat → Nat) : Prop :=
  ∃ (f f' : Fin calls.length → Nat) (g : Fin cores.length → Nat) (c1 : Conf (Fin calls.length) Loc Nat (Option Nat))
    (c2 : Conf (Fin cores.length) Loc Nat Unit),
    Steps Step ⟨memS P0 0, fun i => unite (findCompress (f' i)) (f i) calls[i].1 calls[i].2⟩ c1 ∧ (∀ i, ∃ a, c1.th i = .ret a) ∧
    Steps Step ⟨c1.mem, fun i => finalStep (findCompress (g i)) cores[i]⟩ c2 ∧ (∀ i, c2.th i = .ret ()) ∧ lab = par c2.mem

/-! ### Attaching the other vertices -/

/-- The body of the loop over the neighbours, `scan.cc:106-116`. -/
def attachLoop (k : Nat) : List (Es S) → Prog Nat Nat Unit
  | [] => ret ()
  | e :: l => read e.ngh fun a => if a = uMax then cas e.ngh uMax k fun _ => attachLoop k l else attachLoop k l

/-- One iteration of `AttachNoncoresToClusters`, `scan.cc:101-118`: the accesses to `clustering`. -/
def attach (nbr : Nat → List (Es S)) (eps : S) (core : Nat) : Prog Nat Nat Unit :=
  read core fun k => attachLoop k ((nbr core).take (simCount nbr eps core))

/-- `AttachNoncoresToClusters`. -/
def Attach (nbr : Nat → List (Es S)) (eps : S) (cores : List Nat) (cl cl' : Nat → Nat) : Prop :=
  ∃ c : Conf (Fin cores.length) Nat Nat Unit, Steps Step ⟨cl, fun i => attach nbr eps cores[i]⟩ c ∧ (∀ i, c.th i = .ret ()) ∧ cl' = c.mem

/-- The loop of compare-and-swaps, `scan.cc:149-165`, on `tentative_attachments`. -/
def offer (x : Nat) (s : S) (core : Nat) : Nat → Prog Nat (S × Nat) Unit → Prog Nat (S × Nat) Unit
  | 0, _ => stuck
  | f + 1, k => read x fun cur =>
      if cur.1 < s ∨ s = cur.1 ∧ core < cur.2 then cas x cur (s, core) fun b => if b then k else offer x s core f k
      else k

/-- The body of the loop over the neighbours, `scan.cc:144-168`. `clustering` is only read in this loop, so it is a parameter. -/
def offerLoop (cl : Nat → Nat) (core f : Nat) : List (Es S) → Prog Nat (S × Nat) Unit
  | [] => ret ()
  | e :: l => if cl e.ngh = uMax then offer e.ngh e.sim core f (offerLoop cl core f l) else offerLoop cl core f l

/-- `AttachNoncoresToClustersDeterministic`, `scan.cc:122-178`. In the last loop only entries without an attachment are read, the others
are written by their own iteration. -/
def AttachDet (m1 z : S) (n : Nat) (nbr : Nat → List (Es S)) (eps : S) (cores : List Nat) (cl cl' : Nat → Nat) : Prop :=
  ∃ (f : Fin cores.length → Nat) (c : Conf (Fin cores.length) Nat (S × Nat) Unit),
    Steps Step ⟨fun _ => (m1, uMax), fun i => offerLoop cl cores[i] (f i) ((nbr cores[i]).take (simCount nbr eps cores[i]))⟩ c ∧
    (∀ i, c.th i = .ret ()) ∧ cl' = fun v => if v < n ∧ z < (c.mem v).1 then cl (c.mem v).2 else cl v

/-- The choice between the two, `scan.cc:199-205`. -/
def AttachAny (det : Bool) (m1 z : S) (n : Nat) (nbr : Nat → List (Es S)) (eps : S) (cores : List Nat) (cl cl' : Nat → Nat) : Prop :=
  match det with
  | true => AttachDet m1 z n nbr eps cores cl cl'
  | false => Attach nbr eps cores cl cl'

/-! ### The queries -/

/-- `Index::Cluster(mu, epsilon, get_deterministic_result)`, `scan.cc:175-207`. -/
def ClusterQ (det : Bool) (m1 z : S) (n : Nat) (nbr : Nat → List (Es S)) (ord : List (List (Nat × S))) (mu : Nat) (eps : S)
    (cl' : Nat → Nat) : Prop :=
  let cores := getCores n ord mu eps
  if cores = [] then cl' = blank
  else ∃ lab, Unites (start n blank cores) (callsOne nbr eps cores) cores lab ∧ AttachAny det m1 z n nbr eps cores lab cl'

/-- The pairs for which the query for several thresholds calls `unite`, `scan.cc:249-275`: `prev` are the cores of the last threshold and
`pcnt` its `core_similar_edge_counts`, by position. -/
def callsInc (nbr : Nat → List (Es S)) (eps : S) (cores prev : List Nat) (pcnt : Nat → Nat) : List (Nat × Nat) :=
  cores.zipIdx.flatMap fun c => (((nbr c.1).take (simCount nbr eps c.1)).drop (if c.2 < prev.length then pcnt c.2 else 0)).filterMap fun e =>
    if (c.2 ≥ prev.length ∨ c.1 > e.ngh) ∧ e.ngh ∈ cores then some (c.1, e.ngh) else none

/-- The loop of `Index::Cluster` over the sorted thresholds, `scan.cc:229-300`: `labels` is `previous_core_clustering`. `outs` are the arguments
of the calls of `f`, with the indices. -/
inductive ClusterLoop (det : Bool) (m1 z : S) (n : Nat) (nbr : Nat → List (Es S)) (ord : List (List (Nat × S))) (mu : Nat) :
    (labels : Nat → Nat) → (prev : List Nat) → (pcnt : Nat → Nat) → List (S × Nat) → List ((Nat → Nat) × Nat) → Prop
  | nil (labels prev pcnt) : ClusterLoop det m1 z n nbr ord mu labels prev pcnt [] []
  | cons {labels prev pcnt eps idx rest lab cl outs} (cores : List Nat) (hcores : cores = getCores n ord mu eps)
      (huf : Unites (start n labels (cores.drop prev.length)) (callsInc nbr eps cores prev pcnt) cores lab)
      (hat : AttachAny det m1 z n nbr eps cores lab cl)
      (hrest : ClusterLoop det m1 z n nbr ord mu lab cores (fun j => simCount nbr eps (cores.getD j 0)) rest outs) :
      ClusterLoop det m1 z n nbr ord mu labels prev pcnt ((eps, idx) :: rest) ((cl, idx) :: outs)

/-- `Index::Cluster(mu, epsilons, f, get_deterministic_result)`, `scan.cc:209-301`: the thresholds are sorted in decreasing order. -/
def ClusterMany (det : Bool) (m1 z : S) (n : Nat) (nbr : Nat → List (Es S)) (ord : List (List (Nat × S))) (mu : Nat) (epss : List S)
    (outs : List ((Nat → Nat) × Nat)) : Prop :=
  ∃ se : List (S × Nat), se.Perm epss.zipIdx ∧ se.Pairwise (fun a b => b.1 ≤ a.1) ∧ ClusterLoop det m1 z n nbr ord mu blank [] (fun _ => 0) se outs

/-! ### Specification -/

/-- The graph with the similarity of every edge. -/
structure SG (S : Type) where
  n : Nat
  nb : Nat → List Nat
  sim : Nat → Nat → S

/-- Symmetric, with neighbours in range; vertices fit into `uintE`. -/
structure SG.Ok (G : SG S) : Prop where
  fits : G.n ≤ uMax
  lt : ∀ u v, u < G.n → v ∈ G.nb u → v < G.n
  symm : ∀ u v, u < G.n → v ∈ G.nb u → u ∈ G.nb v ∧ G.sim v u = G.sim u v

/-- The similarities of all arcs. -/
def SG.arcs (G : SG S) : List (Es S) := (List.range G.n).flatMap fun u => (G.nb u).map fun v => ⟨u, v, G.sim u v⟩

/-- A core has, counting itself, at least `mu` similar neighbours. -/
def Core (G : SG S) (mu : Nat) (eps : S) (u : Nat) : Prop := u < G.n ∧ mu ≤ ((G.nb u).filter fun v => decide (eps ≤ G.sim u v)).length + 1

/-- A core and a similar neighbour. -/
def Near (G : SG S) (mu : Nat) (eps : S) (u v : Nat) : Prop := Core G mu eps u ∧ v ∈ G.nb u ∧ eps ≤ G.sim u v

/-- Cores connected through similar cores. -/
def Linked (G : SG S) (mu : Nat) (eps : S) : Nat → Nat → Prop := Relation.EqvGen fun u v => Near G mu eps u v ∧ Core G mu eps v

/-- A SCAN clustering: a core is in the cluster named after the least core linked to it; another vertex is in the cluster of a core
that is a similar neighbour, if there is one. -/
structure IsScan (G : SG S) (mu : Nat) (eps : S) (cl : Nat → Nat) : Prop where
  core : ∀ u, Core G mu eps u → Core G mu eps (cl u) ∧ Linked G mu eps u (cl u) ∧ ∀ v, Core G mu eps v → Linked G mu eps u v → cl u ≤ v
  border : ∀ v, v < G.n → ¬ Core G mu eps v → (∃ u, Near G mu eps u v) → ∃ u, Near G mu eps u v ∧ cl v = cl u
  none : ∀ v, v < G.n → ¬ Core G mu eps v → (¬ ∃ u, Near G mu eps u v) → cl v = uMax

/-- The deterministic choice: the most similar neighbouring core, with ties the least one. -/
def Best (G : SG S) (mu : Nat) (eps : S) (u v : Nat) : Prop :=
  Near G mu eps u v ∧ ∀ w, Near G mu eps w v → G.sim w v < G.sim u v ∨ G.sim w v = G.sim u v ∧ u ≤ w

end Gbbs.Scan
