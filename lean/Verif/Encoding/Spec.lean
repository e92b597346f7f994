/-!
# Specification vocabulary for compressed adjacency lists

Independent of the encoders: what it means to traverse a plain list of
(neighbour, weight) entries with an early-exit callback.
-/

namespace Gbbs.EncSpec

variable {W σ : Type}

/-- Traversing the entries in order, the callback getting `(source, ngh, wgh, index)`,
stopping as soon as it answers `false`. -/
def visit (t : σ → Nat → Nat → W → Nat → σ × Bool) (source : Nat) :
    Nat → List (Nat × W) → σ → σ
  | _, [], s => s
  | i, (ngh, w) :: rest, s =>
    match t s source ngh w i with
    | (s, true) => visit t source (i + 1) rest s
    | (s, false) => s

/-- A neighbour list acceptable to the encoders: 32-bit ids, strictly increasing. -/
structure ValidList (edges : List (Nat × W)) : Prop where
  sorted : (edges.map Prod.fst).Pairwise (· < ·)
  bounded : ∀ e ∈ edges, e.1 < 4294967296

/-- Values of type `int` other than `INT_MIN`. -/
def Int32NotMin (w : Int) : Prop := -2147483648 < w ∧ w < 2147483648

/-- Folding a monoid over the mapped entries, from the left, starting with the first. -/
def reduceList {E : Type} (f : Nat → Nat → W → E) (red : E → E → E) (ident : E) (source : Nat) :
    List (Nat × W) → E
  | [] => ident
  | (ngh, w) :: rest => rest.foldl (fun a e => red a (f source e.1 e.2)) (f source ngh w)

/-- Common neighbour ids of two lists, in increasing order of the first list. -/
def common (l1 l2 : List (Nat × W)) : List Nat :=
  (l1.map Prod.fst).filter (fun x => x ∈ l2.map Prod.fst)

/-- Calls a traversal makes when the callback's answers are `ans src ngh wgh id`: up to and
including the first negative answer.  Each call is (edge id, neighbour, weight). -/
def callsUntil (ans : Nat → Nat → W → Nat → Bool) (src : Nat) :
    Nat → List (Nat × W) → List (Nat × Nat × W)
  | _, [] => []
  | i, (ngh, w) :: rest =>
    (i, ngh, w) :: (if ans src ngh w i then callsUntil ans src (i + 1) rest else [])

/-- All answers over the entries numbered from `i` are positive. -/
def allYes (ans : Nat → Nat → W → Nat → Bool) (src : Nat) : Nat → List (Nat × W) → Bool
  | _, [] => true
  | i, (ngh, w) :: rest => ans src ngh w i && allYes ans src (i + 1) rest

/-- The entries with their positions. -/
def numbered : Nat → List (Nat × W) → List (Nat × Nat × W)
  | _, [] => []
  | i, (ngh, w) :: rest => (i, ngh, w) :: numbered (i + 1) rest

/-- Block `i` of a list cut into blocks of 1000 entries. -/
def block (edges : List (Nat × W)) (i : Nat) : List (Nat × W) := (edges.drop (i * 1000)).take 1000

/-- Calls made, block by block, by a traversal that runs the first block to completion, gives up
if some answer in it was negative, and otherwise runs all other blocks, each one stopping at
its first negative answer. -/
def blockedCalls (ans : Nat → Nat → W → Nat → Bool) (src : Nat) (edges : List (Nat × W)) :
    List (List (Nat × Nat × W)) :=
  if edges.length = 0 then []
  else if allYes ans src 0 (block edges 0) then
    (List.range (1 + (edges.length - 1) / 1000)).map
      (fun i => callsUntil ans src (i * 1000) (block edges i))
  else [callsUntil ans src 0 (block edges 0)]

/-- Two memories agree on the address range `[a, b)`. -/
def AgreeOn (m m' : Nat → UInt8) (a b : Nat) : Prop := ∀ i, a ≤ i → i < b → m i = m' i

end Gbbs.EncSpec
