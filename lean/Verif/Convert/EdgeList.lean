import Verif.Convert.ToChars

/-!
# Files with one edge per line

The writers `edgearray` (`utils/converter.h:1085-1114`), `print_edge_list` and
`print_edge_list_matrixmarket` (`utils/to_edge_list.cc`), and the readers
`read_unweighted_edge_list` (`gbbs/graph_io.cc:254-269`) and `read_weighted_edge_list`
(`gbbs/graph_io.h:332-349`), which `snap_converter` uses.
-/

namespace Gbbs.EdgeList

open Gbbs Text ToChars

/-! ## Model: writers -/

/-- The writes of a parallel loop over `[0, n)` whose iteration `i` writes the elements of `f i`
one after the other from `off i` on (`utils/converter.h:1098-1107`, `utils/to_edge_list.cc:37-52`). -/
def writesOf {A : Type} (f : Nat → List A) (off : Nat → Nat) (n : Nat) : List (Nat × A) :=
  (List.range n).flatMap fun i => (f i).zipIdx.map fun e => (off i + e.2, e.1)

/-- The exclusive prefix sums of the lengths.  (`uintT` in `edgearray` is 64 bits wide with
`GBBSLONG`, which the makefiles set; sums are unbounded here.) -/
def offs {A : Type} (f : Nat → List A) : Nat → Nat := AM.scan fun i => (f i).length

/-- `edgearray`, `utils/converter.h:1085-1114`: `f i` are the triples of vertex `i`, `ws` the order
in which they are written to the array of `m` value-initialised triples `d`; `none` if one is
written past its end. -/
def edgearray {E : Type} (P : Printer E) (d : E) (n m : Nat) (f : Nat → List E)
    (ws : List (Nat × E)) (orders : Nat → List Nat) : Option (List Nat) :=
  if offs f n ≤ m then writeArray P 1000000 ((List.range m).map (fill d ws)) orders (m + 1) 0
  else none

/-- The arcs written for vertex `i`, `utils/to_edge_list.cc:22-33`, `41-51`. -/
def listed (direct : Bool) (out : Nat → List Nat) (i : Nat) : List (Nat × Nat) :=
  ((out i).filter fun v => !direct || decide (i < v)).map fun v => (i, v)

/-- `file << n << " " << m_out << std::endl`. -/
def headerLine (n mOut : Nat) : List Nat := dec n ++ ([32] ++ (dec mOut ++ [10]))

/-- `print_edge_list`, `utils/to_edge_list.cc:13-67`. -/
def printEdgeList (direct header : Bool) (n m : Nat) (out : Nat → List Nat)
    (ws : List (Nat × (Nat × Nat))) (order : List Nat) : Option (List Nat) :=
  if offs (listed direct out) n ≤ m then
    (seqToString edgeP ((List.range m).map (fill (0, 0) ws)) order).map fun s =>
      (if header then headerLine n (offs (listed direct out) n) else []) ++ s
  else none

/-- `print_edge_list_matrixmarket`, `utils/to_edge_list.cc:73-115`: the same with `direct_sym` and
the header, unconditionally. -/
def printMatrixMarket (n m : Nat) (out : Nat → List Nat)
    (ws : List (Nat × (Nat × Nat))) (order : List Nat) : Option (List Nat) :=
  printEdgeList true true n m out ws order

/-! ## Model: readers -/

/-- `std::isspace` in the C locale, which `>>` skips. -/
def isWs (c : Nat) : Bool := decide (9 ≤ c ∧ c ≤ 13) || c == 32

def isDigit (c : Nat) : Bool := decide (48 ≤ c ∧ c ≤ 57)

/-- The optional sign and the digits that `>>` extracts for an integer; `none`: it fails. -/
def readNum (s : List Nat) : Option (Bool × Nat × List Nat) :=
  let s := s.dropWhile isWs
  let (neg, s) := match s with
    | 45 :: t => (true, t)
    | 43 :: t => (false, t)
    | t => (false, t)
  let d := s.takeWhile isDigit
  if d = [] then none
  else some (neg, d.foldl (fun r c => r * 10 + (c - 48)) 0, s.drop d.length)

/-- `file >> x` for a `uintE`: a value that does not fit fails, a negative one wraps around. -/
def readU32 (s : List Nat) : Option (Nat × List Nat) :=
  match readNum s with
  | none => none
  | some (neg, x, rest) =>
    if x < 4294967296 then some (if neg then (4294967296 - x) % 4294967296 else x, rest) else none

/-- `file >> x` for an `int32_t`. -/
def readI32 (s : List Nat) : Option (Int × List Nat) :=
  match readNum s with
  | none => none
  | some (true, x, rest) => if x ≤ 2147483648 then some (-(x : Int), rest) else none
  | some (false, x, rest) => if x < 2147483648 then some ((x : Int), rest) else none

/-- `skip_ifstream_comments`, `gbbs/graph_io.cc:17-27`; `fuel` bounds the number of lines.  At the
end of the file `getline` fails, and so does every later extraction. -/
def skipComments : (fuel : Nat) → List Nat → List Nat
  | 0, s => s
  | fuel + 1, s =>
    if s = [] then []
    else
      let l := s.takeWhile fun c => decide (c ≠ 10)
      if l = [] ∨ l.head? = some 35 then skipComments fuel (s.drop (l.length + 1)) else s

/-- The loop of `read_unweighted_edge_list`, `gbbs/graph_io.cc:265-267`. -/
def readPairs : (fuel : Nat) → List Nat → List (Nat × Nat)
  | 0, _ => []
  | fuel + 1, s =>
    match readU32 s with
    | none => []
    | some (u, s) =>
      match readU32 s with
      | none => []
      | some (v, s) => (u, v) :: readPairs fuel s

/-- `read_unweighted_edge_list`, `gbbs/graph_io.cc:254-269`. -/
def readUnweighted (file : List Nat) : List (Nat × Nat) :=
  readPairs (file.length + 1) (skipComments (file.length + 1) file)

/-- The loop of `read_weighted_edge_list<int32_t>`, `gbbs/graph_io.h:345-347`. -/
def readTriples : (fuel : Nat) → List Nat → List (Nat × Nat × Int)
  | 0, _ => []
  | fuel + 1, s =>
    match readU32 s with
    | none => []
    | some (u, s) =>
      match readU32 s with
      | none => []
      | some (v, s) =>
        match readI32 s with
        | none => []
        | some (w, s) => (u, v, w) :: readTriples fuel s

/-- `read_weighted_edge_list<int32_t>`, `gbbs/graph_io.h:332-349`. -/
def readWeighted (file : List Nat) : List (Nat × Nat × Int) :=
  readTriples (file.length + 1) (skipComments (file.length + 1) file)

/-! ## Specification: the format -/

/-- White space between two numbers. -/
def Sep (s : List Nat) : Prop := s ≠ [] ∧ ∀ c ∈ s, isWs c = true

/-- A line of comments, or an empty one, at the top of the file. -/
def Comment (l : List Nat) : Prop := 10 ∉ l ∧ (l = [] ∨ l.head? = some 35)

/-- An edge and the white space in and after it. -/
structure Entry where
  u : Nat
  v : Nat
  s1 : List Nat
  s2 : List Nat

/-- An edge with a weight and the white space in and after it. -/
structure WEntry where
  u : Nat
  v : Nat
  w : Int
  s1 : List Nat
  s2 : List Nat
  s3 : List Nat

def Entry.text (e : Entry) : List Nat := dec e.u ++ (e.s1 ++ (dec e.v ++ e.s2))

def WEntry.text (e : WEntry) : List Nat :=
  dec e.u ++ (e.s1 ++ (dec e.v ++ (e.s2 ++ (decInt e.w ++ e.s3))))

def Entry.Ok (e : Entry) : Prop := e.u < 4294967296 ∧ e.v < 4294967296 ∧ Sep e.s1 ∧ Sep e.s2

def WEntry.Ok (e : WEntry) : Prop :=
  e.u < 4294967296 ∧ e.v < 4294967296 ∧ -2147483648 ≤ e.w ∧ e.w ≤ 2147483647 ∧
    Sep e.s1 ∧ Sep e.s2 ∧ Sep e.s3

/-! ## Readers -/

/-- What follows a number. -/
def Stops (rest : List Nat) : Prop := ∀ c, rest.head? = some c → isDigit c = false

theorem isDigit_of_ws {c : Nat} (h : isWs c = true) : isDigit c = false := by
  simp only [isWs, Bool.or_eq_true, decide_eq_true_eq, beq_iff_eq] at h
  simp only [isDigit, decide_eq_false_iff_not]
  omega

theorem sep_stops {s rest : List Nat} (h : Sep s) : Stops (s ++ rest) := by
  intro c hc
  cases s with
  | nil => exact absurd rfl h.1
  | cons x s =>
    simp only [List.cons_append, List.head?_cons, Option.some.injEq] at hc
    subst hc
    exact isDigit_of_ws (h.2 x (by simp))

theorem dropWhile_ws {s rest : List Nat} (h : ∀ c ∈ s, isWs c = true)
    (hr : ∀ c, rest.head? = some c → isWs c = false) : (s ++ rest).dropWhile isWs = rest := by
  rw [List.dropWhile_append_of_pos h]
  cases rest with
  | nil => rfl
  | cons x rest => rw [List.dropWhile_cons_of_neg]; simp [hr x rfl]

theorem takeWhile_digits {d rest : List Nat} (h : ∀ c ∈ d, isDigit c = true) (hr : Stops rest) :
    (d ++ rest).takeWhile isDigit = d := by
  rw [List.takeWhile_append_of_pos h]
  cases rest with
  | nil => simp
  | cons x rest => rw [List.takeWhile_cons_of_neg (by simp [hr x rfl]), List.append_nil]

theorem digit_dec (n : Nat) : ∀ c ∈ dec n, isDigit c = true := fun c hc => by
  have := dec_digits n c hc
  simp only [isDigit, decide_eq_true_eq]; omega

theorem dec_cons (n : Nat) : ∃ c t, dec n = c :: t ∧ 48 ≤ c ∧ c < 58 := by
  cases h : dec n with
  | nil => exact absurd h (dec_ne_nil n)
  | cons c t => exact ⟨c, t, rfl, dec_digits n c (by rw [h]; simp)⟩

theorem readNum_dec {ws rest : List Nat} (n : Nat) (hw : ∀ c ∈ ws, isWs c = true)
    (hr : Stops rest) : readNum (ws ++ (dec n ++ rest)) = some (false, n, rest) := by
  obtain ⟨c, t, hc, h1, h2⟩ := dec_cons n
  have e1 : (ws ++ (dec n ++ rest)).dropWhile isWs = dec n ++ rest := by
    refine dropWhile_ws hw (fun x hx => ?_)
    rw [hc, List.cons_append, List.head?_cons, Option.some.injEq] at hx
    subst hx
    simp only [isWs, Bool.or_eq_false_iff, decide_eq_false_iff_not, beq_eq_false_iff_ne]; omega
  have e2 : (match dec n ++ rest with
      | 45 :: t => (true, t)
      | 43 :: t => (false, t)
      | t => (false, t)) = (false, dec n ++ rest) := by
    rw [hc, List.cons_append]
    split
    · rename_i heq; simp only [List.cons.injEq] at heq; omega
    · rename_i heq; simp only [List.cons.injEq] at heq; omega
    · rfl
  rw [readNum]
  dsimp only
  rw [e1, e2]
  dsimp only
  rw [takeWhile_digits (digit_dec n) hr, if_neg (dec_ne_nil n), foldl_dec, List.drop_left]

theorem readNum_neg {ws rest : List Nat} (n : Nat) (hw : ∀ c ∈ ws, isWs c = true)
    (hr : Stops rest) : readNum (ws ++ (45 :: dec n ++ rest)) = some (true, n, rest) := by
  have e1 : (ws ++ (45 :: dec n ++ rest)).dropWhile isWs = 45 :: dec n ++ rest := by
    refine dropWhile_ws hw (fun x hx => ?_)
    rw [List.cons_append, List.head?_cons, Option.some.injEq] at hx
    subst hx; rfl
  rw [readNum]
  dsimp only
  rw [e1]
  change (if (dec n ++ rest).takeWhile isDigit = [] then none
    else some (true, ((dec n ++ rest).takeWhile isDigit).foldl (fun r c => r * 10 + (c - 48)) 0,
      (dec n ++ rest).drop ((dec n ++ rest).takeWhile isDigit).length)) = _
  rw [takeWhile_digits (digit_dec n) hr, if_neg (dec_ne_nil n), foldl_dec, List.drop_left]

theorem readU32_dec {ws rest : List Nat} {n : Nat} (hn : n < 4294967296)
    (hw : ∀ c ∈ ws, isWs c = true) (hr : Stops rest) :
    readU32 (ws ++ (dec n ++ rest)) = some (n, rest) := by
  rw [readU32, readNum_dec n hw hr]
  simp [hn]

theorem readI32_dec {ws rest : List Nat} {z : Int} (h1 : -2147483648 ≤ z) (h2 : z ≤ 2147483647)
    (hw : ∀ c ∈ ws, isWs c = true) (hr : Stops rest) :
    readI32 (ws ++ (decInt z ++ rest)) = some (z, rest) := by
  rw [readI32, decInt]
  by_cases hz : z < 0
  · rw [if_pos hz, readNum_neg _ hw hr]
    dsimp only
    rw [if_pos (by omega)]
    congr 2; omega
  · rw [if_neg hz, readNum_dec _ hw hr]
    dsimp only
    rw [if_pos (by omega)]
    congr 2; omega

theorem readU32_end {ws : List Nat} (hw : ∀ c ∈ ws, isWs c = true) : readU32 ws = none := by
  have : ws.dropWhile isWs = [] := by
    have := dropWhile_ws (rest := []) hw (by simp)
    rwa [List.append_nil] at this
  simp [readU32, readNum, this]

/-- Extraction of edges until something that is not a number, or does not fit. -/
theorem readPairs_eq (es : List Entry) (h : ∀ e ∈ es, e.Ok) (ws rest : List Nat)
    (hw : ∀ c ∈ ws, isWs c = true) (hr : ∀ ws', (∀ c ∈ ws', isWs c = true) → readU32 (ws' ++ rest) = none)
    (fuel : Nat) (hf : es.length < fuel) :
    readPairs fuel (ws ++ (es.flatMap Entry.text ++ rest)) = es.map fun e => (e.u, e.v) := by
  induction es generalizing ws fuel with
  | nil =>
    obtain ⟨f, rfl⟩ : ∃ f, fuel = f + 1 := ⟨fuel - 1, by simp at hf; omega⟩
    rw [readPairs, List.flatMap_nil, List.nil_append, hr ws hw]; rfl
  | cons e es ih =>
    obtain ⟨f, rfl⟩ : ∃ f, fuel = f + 1 := ⟨fuel - 1, by omega⟩
    obtain ⟨h1, h2, h3, h4⟩ := h e (by simp)
    rw [readPairs, List.flatMap_cons, Entry.text]
    simp only [List.append_assoc]
    rw [readU32_dec h1 hw (sep_stops h3)]
    dsimp only
    rw [readU32_dec h2 h3.2 (sep_stops h4)]
    dsimp only
    rw [ih (fun x hx => h x (by simp [hx])) _ h4.2 f (by simp at hf; omega)]
    rfl

theorem readTriples_eq (es : List WEntry) (h : ∀ e ∈ es, e.Ok) (ws rest : List Nat)
    (hw : ∀ c ∈ ws, isWs c = true) (hr : ∀ ws', (∀ c ∈ ws', isWs c = true) → readU32 (ws' ++ rest) = none)
    (fuel : Nat) (hf : es.length < fuel) :
    readTriples fuel (ws ++ (es.flatMap WEntry.text ++ rest)) = es.map fun e => (e.u, e.v, e.w) := by
  induction es generalizing ws fuel with
  | nil =>
    obtain ⟨f, rfl⟩ : ∃ f, fuel = f + 1 := ⟨fuel - 1, by simp at hf; omega⟩
    rw [readTriples, List.flatMap_nil, List.nil_append, hr ws hw]; rfl
  | cons e es ih =>
    obtain ⟨f, rfl⟩ : ∃ f, fuel = f + 1 := ⟨fuel - 1, by omega⟩
    obtain ⟨h1, h2, w1, w2, h3, h4, h5⟩ := h e (by simp)
    rw [readTriples, List.flatMap_cons, WEntry.text]
    simp only [List.append_assoc]
    rw [readU32_dec h1 hw (sep_stops h3)]
    dsimp only
    rw [readU32_dec h2 h3.2 (sep_stops h4)]
    dsimp only
    rw [readI32_dec w1 w2 h4.2 (sep_stops h5)]
    dsimp only
    rw [ih (fun x hx => h x (by simp [hx])) _ h5.2 f (by simp at hf; omega)]
    rfl

theorem takeWhile_line {l rest : List Nat} (h : 10 ∉ l) :
    (line l ++ rest).takeWhile (fun c => decide (c ≠ 10)) = l := by
  rw [line, List.append_assoc, List.takeWhile_append_of_pos
    (fun c hc => by simp only [ne_eq, decide_eq_true_eq]; intro e; exact h (e ▸ hc))]
  simp

/-- Comments are skipped, and nothing else if the first line of the rest starts with a digit. -/
theorem skipComments_eq (cs : List (List Nat)) (h : ∀ l ∈ cs, Comment l) (rest : List Nat)
    (hr : rest = [] ∨ ∃ c t, rest = c :: t ∧ 48 ≤ c ∧ c < 58) (fuel : Nat) (hf : cs.length < fuel) :
    skipComments fuel (cs.flatMap line ++ rest) = rest := by
  induction cs generalizing fuel with
  | nil =>
    obtain ⟨f, rfl⟩ : ∃ f, fuel = f + 1 := ⟨fuel - 1, by simp at hf; omega⟩
    rw [List.flatMap_nil, List.nil_append]
    rcases hr with rfl | ⟨c, t, rfl, h1, h2⟩
    · rfl
    · rw [skipComments, if_neg (by simp)]
      simp only [List.takeWhile_cons, show c ≠ 10 by omega, ne_eq, not_false_eq_true, decide_true,
        if_true, List.head?_cons, Option.some.injEq]
      rw [if_neg (by simp; omega)]
  | cons l cs ih =>
    obtain ⟨f, rfl⟩ : ∃ f, fuel = f + 1 := ⟨fuel - 1, by omega⟩
    obtain ⟨h1, h2⟩ := h l (by simp)
    rw [List.flatMap_cons, List.append_assoc, skipComments, if_neg (by simp [line])]
    dsimp only
    rw [takeWhile_line h1, if_pos h2]
    have : (line l ++ (cs.flatMap line ++ rest)).drop (l.length + 1) = cs.flatMap line ++ rest := by
      rw [show l.length + 1 = (line l).length by simp [line], List.drop_left]
    rw [this]
    exact ih (fun x hx => h x (by simp [hx])) f (by simp at hf; omega)

theorem flatMap_line_length (cs : List (List Nat)) : cs.length ≤ (cs.flatMap line).length := by
  induction cs with
  | nil => simp
  | cons l cs ih =>
    have : (line l).length = l.length + 1 := by simp [line]
    rw [List.flatMap_cons, List.length_append, List.length_cons]; omega

theorem entries_length (es : List Entry) : es.length ≤ (es.flatMap Entry.text).length := by
  induction es with
  | nil => simp
  | cons e es ih =>
    obtain ⟨c, t, hc, _⟩ := dec_cons e.u
    have : 0 < e.text.length := by rw [Entry.text, hc]; simp
    rw [List.flatMap_cons, List.length_append, List.length_cons]; omega

theorem wentries_length (es : List WEntry) : es.length ≤ (es.flatMap WEntry.text).length := by
  induction es with
  | nil => simp
  | cons e es ih =>
    obtain ⟨c, t, hc, _⟩ := dec_cons e.u
    have : 0 < e.text.length := by rw [WEntry.text, hc]; simp
    rw [List.flatMap_cons, List.length_append, List.length_cons]; omega

theorem entries_head (es : List Entry) :
    es.flatMap Entry.text = [] ∨ ∃ c t, es.flatMap Entry.text = c :: t ∧ 48 ≤ c ∧ c < 58 := by
  cases es with
  | nil => exact Or.inl rfl
  | cons e es =>
    obtain ⟨c, t, hc, h⟩ := dec_cons e.u
    refine Or.inr ⟨c, t ++ (e.s1 ++ (dec e.v ++ e.s2)) ++ es.flatMap Entry.text, ?_, h⟩
    rw [List.flatMap_cons, Entry.text, hc, List.cons_append, List.cons_append]

theorem wentries_head (es : List WEntry) :
    es.flatMap WEntry.text = [] ∨ ∃ c t, es.flatMap WEntry.text = c :: t ∧ 48 ≤ c ∧ c < 58 := by
  cases es with
  | nil => exact Or.inl rfl
  | cons e es =>
    obtain ⟨c, t, hc, h⟩ := dec_cons e.u
    refine Or.inr ⟨c, t ++ (e.s1 ++ (dec e.v ++ (e.s2 ++ (decInt e.w ++ e.s3)))) ++
      es.flatMap WEntry.text, ?_, h⟩
    rw [List.flatMap_cons, WEntry.text, hc, List.cons_append, List.cons_append]

/-- C130, no weights: a file of comments and edges is read as these edges. -/
theorem C130_unweighted (cs : List (List Nat)) (hc : ∀ l ∈ cs, Comment l) (es : List Entry)
    (he : ∀ e ∈ es, e.Ok) :
    readUnweighted (cs.flatMap line ++ es.flatMap Entry.text) = es.map fun e => (e.u, e.v) := by
  have l1 := flatMap_line_length cs
  have l2 := entries_length es
  rw [readUnweighted, skipComments_eq cs hc _ (entries_head es) _
    (by rw [List.length_append]; omega)]
  have := readPairs_eq es he [] [] (by simp) (fun ws hw => by
    rw [List.append_nil]; exact readU32_end hw)
    ((cs.flatMap line ++ es.flatMap Entry.text).length + 1) (by rw [List.length_append]; omega)
  rwa [List.nil_append, List.append_nil] at this

/-- C130, 32-bit weights. -/
theorem C130_weighted (cs : List (List Nat)) (hc : ∀ l ∈ cs, Comment l) (es : List WEntry)
    (he : ∀ e ∈ es, e.Ok) :
    readWeighted (cs.flatMap line ++ es.flatMap WEntry.text) = es.map fun e => (e.u, e.v, e.w) := by
  have l1 := flatMap_line_length cs
  have l2 := wentries_length es
  rw [readWeighted, skipComments_eq cs hc _ (wentries_head es) _
    (by rw [List.length_append]; omega)]
  have := readTriples_eq es he [] [] (by simp) (fun ws hw => by
    rw [List.append_nil]; exact readU32_end hw)
    ((cs.flatMap line ++ es.flatMap WEntry.text).length + 1) (by rw [List.length_append]; omega)
  rwa [List.nil_append, List.append_nil] at this

/-- "# a", an empty line, "3 4", "10 2" with other white space, "4 -7". -/
example : (∀ l ∈ [[35, 32, 97], []], Comment l) ∧
    (∀ e ∈ [(⟨3, 4, [32], [10]⟩ : Entry), ⟨10, 2, [9, 32], [13, 10, 10]⟩], e.Ok) ∧
    (∀ e ∈ [(⟨3, 4, -7, [32], [32], [10]⟩ : WEntry)], e.Ok) := by
  refine ⟨?_, ?_, ?_⟩ <;>
    simp [Comment, Entry.Ok, WEntry.Ok, Sep, isWs]

/-- A vertex that does not fit into 32 bits ends the reading, without a message: the edges from
there on are lost. -/
theorem C130_truncated (es : List Entry) (he : ∀ e ∈ es, e.Ok) (hne : es ≠ []) (x : Nat)
    (hx : 4294967296 ≤ x) (rest : List Nat) (hr : Stops rest) :
    readUnweighted (es.flatMap Entry.text ++ (dec x ++ rest)) = es.map fun e => (e.u, e.v) := by
  have l2 := entries_length es
  have hh := entries_head es
  have hsk := skipComments_eq [] (by simp) (es.flatMap Entry.text ++ (dec x ++ rest))
    (by
      rcases hh with h | ⟨c, t, h, hc⟩
      · cases es with
        | nil => exact absurd rfl hne
        | cons e es =>
          obtain ⟨c, t, hc, _⟩ := dec_cons e.u
          rw [List.flatMap_cons, Entry.text, hc] at h
          simp at h
      · exact Or.inr ⟨c, t ++ (dec x ++ rest), by rw [h, List.cons_append], hc⟩)
    ((es.flatMap Entry.text ++ (dec x ++ rest)).length + 1) (by simp)
  rw [List.flatMap_nil, List.nil_append] at hsk
  rw [readUnweighted, hsk]
  have := readPairs_eq es he [] (dec x ++ rest) (by simp) (fun ws hw => by
    rw [readU32, readNum_dec x hw hr]
    dsimp only
    rw [if_neg (by omega)])
    ((es.flatMap Entry.text ++ (dec x ++ rest)).length + 1) (by rw [List.length_append]; omega)
  rwa [List.nil_append] at this

example : (⟨3, 4, [32], [10]⟩ : Entry).Ok ∧ Stops [32, 53, 10] := by
  refine ⟨by simp [Entry.Ok, Sep, isWs], ?_⟩
  intro c hc; simp at hc; subst hc; rfl

/-! ## Writers -/

theorem writesOf_eq {A : Type} (f : Nat → List A) (n : Nat) :
    writesOf f (offs f) n = (((List.range n).flatMap f).zipIdx.map fun e => (e.2, e.1)) ∧
    ((List.range n).flatMap f).length = offs f n := by
  induction n with
  | zero => exact ⟨rfl, rfl⟩
  | succ n ih =>
    obtain ⟨h1, h2⟩ := ih
    have hs : offs f (n + 1) = offs f n + (f n).length := rfl
    rw [writesOf] at h1 ⊢
    rw [List.range_succ, List.flatMap_append, h1, List.flatMap_append, List.zipIdx_append,
      List.map_append, List.length_append, h2, hs]
    simp only [List.flatMap_cons, List.flatMap_nil, List.append_nil, Nat.zero_add]
    refine ⟨?_, trivial⟩
    congr 1
    rw [List.zipIdx_eq_map_add (i := offs f n), List.map_map]
    refine List.map_congr_left (fun e _ => ?_)
    simp [Nat.add_comm]

/-- The array that is printed: the elements in order, then value-initialised ones. -/
theorem filled {A : Type} (d : A) (f : Nat → List A) (n m : Nat) (ws : List (Nat × A))
    (hw : ws.Perm (writesOf f (offs f) n)) (hm : offs f n ≤ m) :
    (List.range m).map (fill d ws) =
      (List.range n).flatMap f ++ List.replicate (m - offs f n) d := by
  obtain ⟨h1, h2⟩ := writesOf_eq f n
  rw [h1] at hw
  rw [fill_eq d _ ws hw m (by omega), h2]

/-- `u v` and a newline. -/
def edgeLine (e : Nat × Nat) : List Nat := dec e.1 ++ ([32] ++ (dec e.2 ++ [10]))

/-- `u v w` and a newline. -/
def weightLine (e : Nat × Nat × Int) : List Nat :=
  dec e.1 ++ ([32] ++ (dec e.2.1 ++ ([32] ++ (decInt e.2.2 ++ [10]))))

theorem edgeLine_def : edgeLine = fun e : Nat × Nat => dec e.1 ++ ([32] ++ (dec e.2 ++ [10])) := rfl

theorem weightLine_def : weightLine = fun e : Nat × Nat × Int =>
    dec e.1 ++ ([32] ++ (dec e.2.1 ++ ([32] ++ (decInt e.2.2 ++ [10])))) := rfl

theorem edgeP_good : edgeP.Good (fun x => dec x.1 ++ ([32] ++ dec x.2))
    (fun x => x.1 < 4294967296 ∧ x.2 < 4294967296) := pairP_good uintP_fits uintP_fits

/-- The arcs `(i, v)` of a graph, vertex by vertex. -/
def arcs (n : Nat) (out : Nat → List Nat) : List (Nat × Nat) :=
  (List.range n).flatMap fun i => (out i).map fun v => (i, v)

def warcs (n : Nat) (out : Nat → List (Nat × Int)) : List (Nat × Nat × Int) :=
  (List.range n).flatMap fun i => (out i).map fun e => (i, e.1, e.2)

/-- The orders of the iterations in the calls of `arrayToString`. -/
def ChunksOk (m : Nat) (orders : Nat → List Nat) : Prop :=
  ∀ o, o < m → AM.Schedule (min 1000000 (m - o) - 1) (orders o)

theorem chunks_exist (m : Nat) : ∃ orders, ChunksOk m orders :=
  ⟨fun o => List.range (min 1000000 (m - o) - 1), fun _ _ => ⟨List.nodup_range, by simp⟩⟩

theorem edgearray_eq {E : Type} {P : Printer E} {text : E → List Nat} {ok : E → Prop}
    (hP : P.Good text ok) (d : E) (n m : Nat) (f : Nat → List E)
    (hm : ((List.range n).flatMap f).length = m) (hok : ∀ i, i < n → ∀ x ∈ f i, ok x)
    (ws : List (Nat × E)) (hw : ws.Perm (writesOf f (offs f) n)) (orders : Nat → List Nat)
    (ho : ChunksOk m orders) :
    edgearray P d n m f ws orders =
      some (((List.range n).flatMap f).flatMap fun x => text x ++ [10]) := by
  have h2 := (writesOf_eq f n).2
  rw [edgearray, if_pos (by omega), filled _ _ n m ws hw (by omega),
    show m - offs f n = 0 by omega, List.replicate_zero, List.append_nil,
    writeArray_eq hP 1000000 (by decide) _ _ orders (by rw [hm]; exact ho) (m + 1) 0 (by omega),
    List.drop_zero]
  intro x hx
  rw [List.mem_flatMap] at hx
  obtain ⟨i, hi, hx⟩ := hx
  exact hok i (List.mem_range.1 hi) x hx

/-- C127, no weights: exactly one line per arc, in order. -/
theorem C127_unweighted (n m : Nat) (out : Nat → List Nat) (hn : n ≤ 4294967296)
    (hv : ∀ i, i < n → ∀ v ∈ out i, v < 4294967296) (hm : (arcs n out).length = m)
    (ws : List (Nat × (Nat × Nat)))
    (hw : ws.Perm (writesOf (fun i => (out i).map fun v => (i, v))
      (offs fun i => (out i).map fun v => (i, v)) n))
    (orders : Nat → List Nat) (ho : ChunksOk m orders) :
    edgearray edgeP (0, 0) n m (fun i => (out i).map fun v => (i, v)) ws orders =
      some ((arcs n out).flatMap edgeLine) := by
  rw [edgearray_eq edgeP_good _ n m _ hm _ ws hw orders ho]
  · simp only [arcs, edgeLine_def, List.append_assoc]
  · intro i hi x hx
    obtain ⟨v, hv', rfl⟩ := List.mem_map.1 hx
    exact ⟨by dsimp only; omega, hv i hi v hv'⟩

/-- C127, 32-bit weights. -/
theorem C127_weighted (n m : Nat) (out : Nat → List (Nat × Int)) (hn : n ≤ 4294967296)
    (hv : ∀ i, i < n → ∀ e ∈ out i, e.1 < 4294967296 ∧ -2147483648 ≤ e.2 ∧ e.2 ≤ 2147483647)
    (hm : (warcs n out).length = m) (ws : List (Nat × (Nat × Nat × Int)))
    (hw : ws.Perm (writesOf (fun i => (out i).map fun e => (i, e.1, e.2))
      (offs fun i => (out i).map fun e => (i, e.1, e.2)) n))
    (orders : Nat → List Nat) (ho : ChunksOk m orders) :
    edgearray (tripleP intP) (0, 0, 0) n m (fun i => (out i).map fun e => (i, e.1, e.2)) ws orders =
      some ((warcs n out).flatMap weightLine) := by
  rw [edgearray_eq (tripleP_good intP_fits) _ n m _ hm _ ws hw orders ho]
  · simp only [warcs, weightLine_def, List.append_assoc]
  · intro i hi x hx
    obtain ⟨v, hv', rfl⟩ := List.mem_map.1 hx
    exact ⟨by dsimp only; omega, (hv i hi v hv').1, (hv i hi v hv').2⟩

/-- A path with three vertices. -/
def path3 : Nat → List Nat := fun i => if i = 0 then [1] else if i = 1 then [0, 2] else [1]

/-- The same with weights, one of them the least. -/
def wpath3 : Nat → List (Nat × Int) :=
  fun i => if i = 0 then [(1, 5)] else if i = 1 then [(0, 5), (2, -2147483648)] else [(1, -2147483648)]

example : (∀ i, i < 3 → ∀ v ∈ path3 i, v < 4294967296) ∧ (arcs 3 path3).length = 4 ∧
    (∃ orders, ChunksOk 4 orders) ∧
    (∀ i, i < 3 → ∀ e ∈ wpath3 i, e.1 < 4294967296 ∧ -2147483648 ≤ e.2 ∧ e.2 ≤ 2147483647) ∧
    (warcs 3 wpath3).length = 4 :=
  ⟨by decide, by decide, chunks_exist 4, by decide, by decide⟩

/-- The written file is read back by the reader of edge lists. -/
theorem C127_read (es : List (Nat × Nat)) (h : ∀ e ∈ es, e.1 < 4294967296 ∧ e.2 < 4294967296) :
    readUnweighted (es.flatMap edgeLine) = es := by
  have := C130_unweighted [] (by simp) (es.map fun e => ⟨e.1, e.2, [32], [10]⟩) (fun e he => by
    obtain ⟨x, hx, rfl⟩ := List.mem_map.1 he
    exact ⟨(h x hx).1, (h x hx).2, by simp [Sep, isWs], by simp [Sep, isWs]⟩)
  rw [List.flatMap_nil, List.nil_append, List.flatMap_map, List.map_map] at this
  refine Eq.trans this ?_
  rw [show ((fun e : Entry => (e.u, e.v)) ∘ fun e : Nat × Nat => (⟨e.1, e.2, [32], [10]⟩ : Entry)) = id
    from rfl, List.map_id]

theorem C127_read_weighted (es : List (Nat × Nat × Int)) (h : ∀ e ∈ es, e.1 < 4294967296 ∧
    e.2.1 < 4294967296 ∧ -2147483648 ≤ e.2.2 ∧ e.2.2 ≤ 2147483647) :
    readWeighted (es.flatMap weightLine) = es := by
  have := C130_weighted [] (by simp) (es.map fun e => ⟨e.1, e.2.1, e.2.2, [32], [32], [10]⟩)
    (fun e he => by
      obtain ⟨x, hx, rfl⟩ := List.mem_map.1 he
      obtain ⟨h1, h2, h3, h4⟩ := h x hx
      exact ⟨h1, h2, h3, h4, by simp [Sep, isWs], by simp [Sep, isWs], by simp [Sep, isWs]⟩)
  rw [List.flatMap_nil, List.nil_append, List.flatMap_map, List.map_map] at this
  refine Eq.trans this ?_
  rw [show ((fun e : WEntry => (e.u, e.v, e.w)) ∘ fun e : Nat × Nat × Int =>
    (⟨e.1, e.2.1, e.2.2, [32], [32], [10]⟩ : WEntry)) = id from rfl, List.map_id]

example : ∀ e ∈ arcs 3 path3, e.1 < 4294967296 ∧ e.2 < 4294967296 := by decide

example : ∀ e ∈ warcs 3 wpath3, e.1 < 4294967296 ∧ e.2.1 < 4294967296 ∧ -2147483648 ≤ e.2.2 ∧
    e.2.2 ≤ 2147483647 := by decide

/-- The 18 characters `"%.11le"` makes of `-12.0`: `-1.20000000000e+01`. -/
def minus12 : List Nat := [45, 49, 46, 50, 48, 48, 48, 48, 48, 48, 48, 48, 48, 48, 101, 43, 48, 49]

/-- Weights of type `double` (or `float`): the terminating zero of a negative number is written past
the slot, and the newline replaces the last digit of the exponent.  With the iterations in the order
1, 0 the second line has also lost its first number. -/
theorem C127_double_refuted :
    seqToString (tripleP doubleP) [(0, 1, minus12), (1, 2, minus12), (3, 4, minus12)] [1, 0] =
      some ((dec 0 ++ ([32] ++ (dec 1 ++ ([32] ++ (minus12.take 17 ++ [10]))))) ++
        (([] ++ ([32] ++ (dec 2 ++ ([32] ++ (minus12.take 17 ++ [10]))))) ++
        (dec 3 ++ ([32] ++ (dec 4 ++ ([32] ++ (minus12.take 17 ++ [10]))))))) ∧
    ∀ C : Nat → Nat, (tripleP doubleP).put C 0 (0, 1, minus12) ((tripleP doubleP).len + 1) = 0 := by
  constructor
  · decide +kernel
  · intro C; rfl

end Gbbs.EdgeList
