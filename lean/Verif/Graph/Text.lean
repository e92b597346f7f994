/-
C25, C26, C57: the AdjacencyGraph text format (`gbbs/graph_io.h`, `gbbs/graph_io.cc`).
-/
import Verif.Common
import Mathlib.Data.List.Basic

namespace Gbbs.Text

/-! ### Characters, numbers, tokens

Characters are their codes: digits 48..57, newline 10, minus 45. -/

/-- `file << n` for an unsigned integer: decimal digits, most significant first. -/
def dec (n : Nat) : List Nat := if _h : n < 10 then [48 + n] else dec (n / 10) ++ [48 + n % 10]
termination_by n

/-- `file << z` for a signed integer. -/
def decInt (z : Int) : List Nat := if z < 0 then 45 :: dec z.natAbs else dec z.natAbs

/-- `parlay::is_whitespace` (trusted): `\r`, `\t`, `\n`, `0`, space. -/
def isSpace (c : Nat) : Bool := c == 13 || c == 9 || c == 10 || c == 0 || c == 32

/-- `parlay::map_tokens` (trusted): the maximal runs of other characters. -/
def tokensGo (cur : List Nat) : List Nat → List (List Nat)
  | [] => if cur = [] then [] else [cur]
  | c :: l =>
    if isSpace c then if cur = [] then tokensGo [] l else cur :: tokensGo [] l
    else tokensGo (cur ++ [c]) l

def tokens (s : List Nat) : List (List Nat) := tokensGo [] s

/-- `parlay::internal::chars_to_int_t<unsigned long>` (trusted), 64 bits. -/
def charsToInt (bits : Nat) (t : List Nat) : Nat :=
  t.foldl (fun r c => (r * 10 + (c - 48)) % 2 ^ bits) 0

/-- A line: a token and a newline. -/
def line (t : List Nat) : List Nat := t ++ [10]

/-- "AdjacencyGraph", `graph_io.h:62`. -/
def header : List Nat := [65, 100, 106, 97, 99, 101, 110, 99, 121, 71, 114, 97, 112, 104]

/-- "WeightedAdjacencyGraph", `graph_io.h:64`. -/
def wheader : List Nat := [87, 101, 105, 103, 104, 116, 101, 100] ++ header

/-! ### Writing -/

/-- Exclusive prefix sums, `graph_io.h:519-523`. -/
def exclusive : Nat → List Nat → List Nat
  | _, [] => []
  | a, x :: l => a :: exclusive (a + x) l

/-- `write_graph_to_file`, `graph_io.h:504-536`, unweighted: the adjacency lists `nb`. -/
def write (nb : List (List Nat)) : List Nat :=
  line header ++ line (dec nb.length) ++ line (dec (nb.map List.length).sum) ++
  ((exclusive 0 (nb.map List.length)).flatMap fun o => line (dec o)) ++
  (nb.flatMap fun l => l.flatMap fun v => line (dec v))

/-- `write_graph_to_file`, `graph_io.h:504-547`, with integer weights. -/
def writeW (nb : List (List (Nat × Int))) : List Nat :=
  line wheader ++ line (dec nb.length) ++ line (dec (nb.map List.length).sum) ++
  ((exclusive 0 (nb.map List.length)).flatMap fun o => line (dec o)) ++
  (nb.flatMap fun l => l.flatMap fun v => line (dec v.1)) ++
  (nb.flatMap fun l => l.flatMap fun v => line (decInt v.2))

/-! ### Parsing -/

/-- The characters parsed: `graph_io.cc:41-57`, `graph_io.h:629-643`.  With `bytes != nullptr` the
sequence `S` is left empty. -/
def input (file : List Nat) (bytes : Option (List Nat)) : List Nat :=
  match bytes with
  | none => file
  | some _ => []

/-- `parse_unweighted_graph`, `graph_io.cc:34-100`, text: `(n, m, offsets, edges)`.  `none`: a token
outside the file is accessed. -/
def parse (file : List Nat) (bytes : Option (List Nat)) :
    Option (Nat × Nat × List Nat × List Nat) := do
  let ts := tokens (input file bytes)
  let n := charsToInt 64 (← ts[1]?)
  let m := charsToInt 64 (← ts[2]?)
  let offs ← (List.range n).mapM fun i => do some (charsToInt 64 (← ts[i + 3]?))
  let es ← (List.range m).mapM fun i => do some (charsToInt 64 (← ts[i + n + 3]?) % 2 ^ 32)
  some (n, m, offs ++ [m], es)

/-- Rounding of a natural number to the nearest number with 24 significant bits, ties to even:
`std::stof` on an integer literal (trusted to round correctly). -/
def round24 (a : Nat) : Nat :=
  if a < 2 ^ 24 then a
  else
    let s := Nat.log2 a - 23
    let q := a / 2 ^ s
    let r := a % 2 ^ s
    let up := 2 * r > 2 ^ s ∨ (2 * r = 2 ^ s ∧ q % 2 = 1)
    (if up then q + 1 else q) * 2 ^ s

/-- `std::stof` on a decimal integer followed by the conversion to a 32-bit integer,
`graph_io.h:668-673`.  `none`: the conversion of a float out of the range of `int` is undefined. -/
def stofInt (t : List Nat) : Option Int :=
  match t with
  | [] => none
  | c :: t' =>
    let z : Int := if c = 45 then - (round24 (t'.foldl (fun r c => r * 10 + (c - 48)) 0) : Nat)
      else (round24 ((c :: t').foldl (fun r c => r * 10 + (c - 48)) 0) : Nat)
    if -2 ^ 31 ≤ z ∧ z < 2 ^ 31 then some z else none

/-- `parse_weighted_graph`, `graph_io.h:616-688`, text, integer weights. `none` also for a wrong
number of tokens. -/
def parseW (file : List Nat) (bytes : Option (List Nat)) :
    Option (Nat × Nat × List Nat × List (Nat × Int)) := do
  let ts := tokens (input file bytes)
  let n := charsToInt 64 (← ts[1]?)
  let m := charsToInt 64 (← ts[2]?)
  if ts.length - 1 ≠ n + 2 * m + 2 then none
  else
    let offs ← (List.range n).mapM fun i => do some (charsToInt 64 (← ts[i + 3]?))
    let es ← (List.range m).mapM fun i => do
      some (charsToInt 32 (← ts[i + n + 3]?), ← stofInt (← ts[i + n + m + 3]?))
    some (n, m, offs ++ [m], es)

/-- The adjacency lists of the graph made of parsed offsets and edges, `graph_io.cc:110-114`,
`graph_io.h:119-123`: degrees are 32-bit differences of consecutive offsets. -/
def adj {E : Type} (g : Nat × Nat × List Nat × List E) : List (List E) :=
  (List.range g.1).map fun i =>
    (g.2.2.2.drop (g.2.2.1.getD i 0)).take ((g.2.2.1.getD (i + 1) 0 - g.2.2.1.getD i 0) % 2 ^ 32)

/-! ### Numbers -/

theorem dec_digits (n : Nat) : ∀ c ∈ dec n, 48 ≤ c ∧ c < 58 := by
  induction n using Nat.strongRecOn with
  | _ n ih =>
    unfold dec
    split
    · intro c hc
      rw [List.mem_singleton] at hc
      omega
    · intro c hc
      rcases List.mem_append.1 hc with hc | hc
      · exact ih (n / 10) (by omega) c hc
      · rw [List.mem_singleton] at hc; omega

theorem dec_ne_nil (n : Nat) : dec n ≠ [] := by
  unfold dec
  split <;> simp

theorem foldl_dec (n : Nat) : (dec n).foldl (fun r c => r * 10 + (c - 48)) 0 = n := by
  induction n using Nat.strongRecOn with
  | _ n ih =>
    unfold dec
    split
    · simp
    · rw [List.foldl_append, ih (n / 10) (by omega)]
      simp only [List.foldl_cons, List.foldl_nil]
      omega

theorem charsToInt_eq (bits : Nat) (t : List Nat) :
    charsToInt bits t = t.foldl (fun r c => r * 10 + (c - 48)) 0 % 2 ^ bits := by
  unfold charsToInt
  have key : ∀ (t : List Nat) (a b : Nat), a = b % 2 ^ bits →
      t.foldl (fun r c => (r * 10 + (c - 48)) % 2 ^ bits) a =
        t.foldl (fun r c => r * 10 + (c - 48)) b % 2 ^ bits := by
    intro t
    induction t with
    | nil => intro a b h; exact h
    | cons c t ih =>
      intro a b h
      simp only [List.foldl_cons]
      apply ih
      rw [h, Nat.add_mod, Nat.mul_mod, Nat.mod_mod, ← Nat.mul_mod, ← Nat.add_mod]
  exact key t 0 0 (by simp)

theorem charsToInt_dec {bits n : Nat} (h : n < 2 ^ bits) : charsToInt bits (dec n) = n := by
  rw [charsToInt_eq, foldl_dec, Nat.mod_eq_of_lt h]

/-! ### Tokens -/

/-- A non-empty word without white space. -/
def Word (t : List Nat) : Prop := t ≠ [] ∧ ∀ c ∈ t, isSpace c = false

theorem tokensGo_word (cur t rest : List Nat) (ht : ∀ c ∈ t, isSpace c = false) :
    tokensGo cur (t ++ rest) = tokensGo (cur ++ t) rest := by
  induction t generalizing cur with
  | nil => simp
  | cons c t ih =>
    rw [List.cons_append, tokensGo, ht c List.mem_cons_self]
    simp only [Bool.false_eq_true, if_false]
    rw [ih _ fun c hc => ht c (List.mem_cons_of_mem _ hc), List.append_assoc]
    rfl

theorem tokens_line (t rest : List Nat) (ht : Word t) : tokens (line t ++ rest) = t :: tokens rest := by
  unfold tokens line
  rw [List.append_assoc, tokensGo_word [] t _ ht.2, List.nil_append]
  show tokensGo t (10 :: rest) = _
  rw [tokensGo]
  have : isSpace 10 = true := rfl
  rw [this, if_pos rfl, if_neg ht.1]

theorem tokens_lines (ts : List (List Nat)) (rest : List Nat) (h : ∀ t ∈ ts, Word t) :
    tokens (ts.flatMap line ++ rest) = ts ++ tokens rest := by
  induction ts with
  | nil => simp
  | cons t ts ih =>
    rw [List.flatMap_cons, List.append_assoc, tokens_line _ _ (h t List.mem_cons_self),
      ih fun t ht => h t (List.mem_cons_of_mem _ ht)]
    rfl

theorem dec_word (n : Nat) : Word (dec n) := by
  refine ⟨dec_ne_nil n, fun c hc => ?_⟩
  have := dec_digits n c hc
  unfold isSpace
  simp only [Bool.or_eq_false_iff, beq_eq_false_iff_ne]
  omega

theorem decInt_word (z : Int) : Word (decInt z) := by
  unfold decInt
  split
  · refine ⟨by simp, fun c hc => ?_⟩
    rcases List.mem_cons.1 hc with rfl | hc
    · rfl
    · exact (dec_word _).2 c hc
  · exact dec_word _

theorem header_word : Word header := by
  refine ⟨by decide, by decide⟩

theorem wheader_word : Word wheader := by
  refine ⟨by decide, by decide⟩

theorem flatMap_flatMap_line {A : Type} (f : A → List Nat) (nb : List (List A)) :
    (nb.flatMap fun l => l.flatMap fun v => line (f v)) = (nb.flatten.map f).flatMap line := by
  induction nb with
  | nil => rfl
  | cons l nb ih =>
    rw [List.flatMap_cons, List.flatten_cons, List.map_append, List.flatMap_append, ih]
    congr 1
    rw [List.flatMap_map]

theorem tokens_write (nb : List (List Nat)) :
    tokens (write nb) = [header, dec nb.length, dec (nb.map List.length).sum] ++
      (exclusive 0 (nb.map List.length)).map dec ++ nb.flatten.map dec := by
  unfold write
  rw [List.append_assoc, List.append_assoc, List.append_assoc, tokens_line _ _ header_word,
    tokens_line _ _ (dec_word _), tokens_line _ _ (dec_word _), flatMap_flatMap_line]
  have e : ((exclusive 0 (nb.map List.length)).flatMap fun o => line (dec o)) =
      ((exclusive 0 (nb.map List.length)).map dec).flatMap line := by rw [List.flatMap_map]
  rw [e, tokens_lines _ _ (by
    intro t ht; obtain ⟨n, _, rfl⟩ := List.mem_map.1 ht; exact dec_word n)]
  have e2 := tokens_lines (nb.flatten.map dec) [] (by
    intro t ht; obtain ⟨n, _, rfl⟩ := List.mem_map.1 ht; exact dec_word n)
  rw [List.append_nil] at e2
  rw [e2]
  simp [tokens, tokensGo]

theorem tokens_writeW (nb : List (List (Nat × Int))) :
    tokens (writeW nb) = [wheader, dec nb.length, dec (nb.map List.length).sum] ++
      (exclusive 0 (nb.map List.length)).map dec ++ nb.flatten.map (fun v => dec v.1) ++
      nb.flatten.map (fun v => decInt v.2) := by
  unfold writeW
  simp only [List.append_assoc]
  rw [tokens_line _ _ wheader_word,
    tokens_line _ _ (dec_word _), tokens_line _ _ (dec_word _),
    flatMap_flatMap_line (fun v : Nat × Int => dec v.1),
    flatMap_flatMap_line (fun v : Nat × Int => decInt v.2)]
  have e : ((exclusive 0 (nb.map List.length)).flatMap fun o => line (dec o)) =
      ((exclusive 0 (nb.map List.length)).map dec).flatMap line := by rw [List.flatMap_map]
  rw [e, tokens_lines _ _ (by
    intro t ht; obtain ⟨n, _, rfl⟩ := List.mem_map.1 ht; exact dec_word n)]
  rw [tokens_lines _ _ (by
    intro t ht; obtain ⟨n, _, rfl⟩ := List.mem_map.1 ht; exact dec_word _)]
  have e2 := tokens_lines (nb.flatten.map fun v : Nat × Int => decInt v.2) [] (by
    intro t ht; obtain ⟨n, _, rfl⟩ := List.mem_map.1 ht; exact decInt_word _)
  rw [List.append_nil] at e2
  rw [e2]
  simp [tokens, tokensGo]

theorem exclusive_length (a : Nat) (l : List Nat) : (exclusive a l).length = l.length := by
  induction l generalizing a with
  | nil => rfl
  | cons x l ih => simp [exclusive, ih]

theorem exclusive_getElem? (a : Nat) (l : List Nat) (i : Nat) (hi : i < l.length) :
    (exclusive a l)[i]? = some (a + (l.take i).sum) := by
  induction l generalizing a i with
  | nil => simp at hi
  | cons x l ih =>
    cases i with
    | zero => simp [exclusive]
    | succ i =>
      simp only [exclusive, List.getElem?_cons_succ, List.take_succ_cons, List.sum_cons]
      rw [ih _ _ (by simpa using hi)]
      congr 1; omega

theorem take_sum_le (l : List Nat) (i : Nat) : (l.take i).sum ≤ l.sum := by
  conv_rhs => rw [← List.take_append_drop i l, List.sum_append]
  omega

theorem mapM_range {B : Type} (f : Nat → Option B) (ys : List B) (n : Nat) (hl : ys.length = n)
    (h : ∀ i, i < n → f i = ys[i]?) : (List.range n).mapM f = some ys := by
  have key : ∀ k, k ≤ n → (List.range k).mapM f = some (ys.take k) := by
    intro k
    induction k with
    | zero => intro _; simp
    | succ k ih =>
      intro hk
      rw [List.range_succ, List.mapM_append, ih (by omega)]
      have hk' : k < ys.length := by omega
      simp [h k (by omega), List.getElem?_eq_getElem hk']
  rw [key n (Nat.le_refl _), List.take_of_length_le (by omega)]

/-- Offsets with the last one are prefix sums. -/
theorem offsets_getD (l : List Nat) (i : Nat) (hi : i ≤ l.length) :
    (exclusive 0 l ++ [l.sum]).getD i 0 = (l.take i).sum := by
  rw [List.getD_eq_getElem?_getD]
  rcases Nat.lt_or_ge i l.length with h | h
  · rw [List.getElem?_append_left (by rw [exclusive_length]; exact h), exclusive_getElem? 0 l i h]
    simp
  · have : i = l.length := by omega
    subst this
    rw [List.getElem?_append_right (by rw [exclusive_length])]
    simp [exclusive_length]

/-- Prefix sums of the lengths delimit the lists in their concatenation. -/
theorem slice_flatten {E : Type} (nb : List (List E)) (i : Nat) (hi : i < nb.length) :
    (nb.flatten.drop ((nb.map List.length).take i).sum).take nb[i].length = nb[i] := by
  induction nb generalizing i with
  | nil => simp at hi
  | cons l nb ih =>
    cases i with
    | zero => simp
    | succ i =>
      simp only [List.map_cons, List.take_succ_cons, List.sum_cons, List.flatten_cons,
        List.getElem_cons_succ]
      rw [List.drop_append, List.drop_of_length_le (by omega), List.nil_append, Nat.add_sub_cancel_left]
      exact ih i (by simpa using hi)

/-- The adjacency lists read back from prefix sums and the concatenation. -/
theorem adj_eq {E : Type} (nb : List (List E)) (m : Nat) (hdeg : ∀ l ∈ nb, l.length < 2 ^ 32) :
    adj (nb.length, m, exclusive 0 (nb.map List.length) ++ [(nb.map List.length).sum], nb.flatten) =
      nb := by
  apply List.ext_getElem
  · simp [adj]
  · intro i h1 h2
    simp only [adj, List.getElem_map, List.getElem_range]
    rw [offsets_getD _ _ (by simp; omega), offsets_getD _ _ (by simp; omega)]
    have e : ((nb.map List.length).take (i + 1)).sum - ((nb.map List.length).take i).sum =
        nb[i].length := by
      rw [List.take_succ_eq_append_getElem (by simpa using h2), List.sum_append]
      simp
    rw [e, Nat.mod_eq_of_lt (hdeg _ (List.getElem_mem h2))]
    exact slice_flatten nb i h2

/-! ### Round trip -/

/-- C25: writing a graph and parsing the file gives the offsets (prefix sums of the degrees), the
concatenation of the neighbour lists, hence the same graph. -/
theorem write_parse (nb : List (List Nat)) (hn : nb.length < 2 ^ 64)
    (hm : (nb.map List.length).sum < 2 ^ 64) (hv : ∀ l ∈ nb, ∀ v ∈ l, v < 2 ^ 32) :
    parse (write nb) none = some (nb.length, (nb.map List.length).sum,
      exclusive 0 (nb.map List.length) ++ [(nb.map List.length).sum], nb.flatten) := by
  have hts := tokens_write nb
  have hlen : nb.flatten.length = (nb.map List.length).sum := List.length_flatten
  set offs := exclusive 0 (nb.map List.length) with hoffs
  have hol : offs.length = nb.length := by rw [hoffs, exclusive_length, List.length_map]
  unfold parse
  simp only [input, hts]
  have h1 : ([header, dec nb.length, dec (nb.map List.length).sum] ++ offs.map dec ++
      nb.flatten.map dec)[1]? = some (dec nb.length) := by simp
  have h2 : ([header, dec nb.length, dec (nb.map List.length).sum] ++ offs.map dec ++
      nb.flatten.map dec)[2]? = some (dec (nb.map List.length).sum) := by simp
  rw [h1, h2]
  simp only [Option.bind_eq_bind, Option.bind_some, charsToInt_dec hn, charsToInt_dec hm]
  rw [mapM_range _ offs nb.length hol, mapM_range _ nb.flatten _ hlen]
  · rfl
  · intro i hi
    have hi' : i < nb.flatten.length := by omega
    rw [List.getElem?_append_right (by simp [hol])]
    have e : i + nb.length + 3 - ([header, dec nb.length, dec (nb.map List.length).sum] ++
        offs.map dec).length = i := by simp [hol]
    rw [e, List.getElem?_map, List.getElem?_eq_getElem hi']
    have hb : nb.flatten[i] < 2 ^ 32 := by
      obtain ⟨l, hl, hv'⟩ := List.mem_flatten.1 (List.getElem_mem hi')
      exact hv l hl _ hv'
    simp only [Option.map_some, Option.bind_some]
    rw [charsToInt_dec (by omega), Nat.mod_eq_of_lt hb]
  · intro i hi
    have hi' : i < offs.length := by omega
    rw [List.append_assoc, List.getElem?_append_right (by simp),
      List.getElem?_append_left (by simp; omega)]
    have e : i + 3 - [header, dec nb.length, dec (nb.map List.length).sum].length = i := by simp
    rw [e, List.getElem?_map, List.getElem?_eq_getElem hi']
    have hb : offs[i] < 2 ^ 64 := by
      have h := exclusive_getElem? 0 (nb.map List.length) i (by simpa using hi)
      rw [← hoffs, List.getElem?_eq_getElem hi'] at h
      injection h with h
      rw [h]
      have := take_sum_le (nb.map List.length) i
      omega
    simp only [Option.map_some, Option.bind_some]
    rw [charsToInt_dec hb]

/-- C25: the graph read from a written file has the adjacency lists written. -/
theorem write_read (nb : List (List Nat)) (hn : nb.length < 2 ^ 64)
    (hm : (nb.map List.length).sum < 2 ^ 64) (hv : ∀ l ∈ nb, ∀ v ∈ l, v < 2 ^ 32)
    (hdeg : ∀ l ∈ nb, l.length < 2 ^ 32) : (parse (write nb) none).map adj = some nb := by
  rw [write_parse nb hn hm hv]
  exact congrArg some (adj_eq nb _ hdeg)

/-! ### Weights -/

/-- The integer a weight becomes. -/
def viaFloat (z : Int) : Int := if z < 0 then - (round24 z.natAbs : Nat) else (round24 z.natAbs : Nat)

theorem stofInt_decInt (z : Int) : stofInt (decInt z) =
    if -2 ^ 31 ≤ viaFloat z ∧ viaFloat z < 2 ^ 31 then some (viaFloat z) else none := by
  unfold decInt viaFloat
  by_cases hz : z < 0
  · rw [if_pos hz, if_pos hz]
    unfold stofInt
    simp only [if_true, foldl_dec]
  · rw [if_neg hz, if_neg hz]
    unfold stofInt
    cases hd : dec z.natAbs with
    | nil => exact absurd hd (dec_ne_nil _)
    | cons c t =>
      have hc := dec_digits z.natAbs c (by rw [hd]; exact List.mem_cons_self)
      simp only
      have hc45 : c ≠ 45 := by omega
      simp only [hc45, if_false]
      rw [← hd, foldl_dec]

theorem viaFloat_small {z : Int} (h : z.natAbs < 2 ^ 24) : viaFloat z = z := by
  unfold viaFloat round24
  rw [if_pos h]
  split <;> omega

/-- Parsing a written weighted graph gives the weights rounded to 24 significant bits (if this is
defined for all of them). -/
theorem writeW_parseW (nb : List (List (Nat × Int))) (hn : nb.length < 2 ^ 64)
    (hm : (nb.map List.length).sum < 2 ^ 64) (hv : ∀ l ∈ nb, ∀ v ∈ l, v.1 < 2 ^ 32)
    (hw : ∀ l ∈ nb, ∀ v ∈ l, -2 ^ 31 ≤ viaFloat v.2 ∧ viaFloat v.2 < 2 ^ 31) :
    parseW (writeW nb) none = some (nb.length, (nb.map List.length).sum,
      exclusive 0 (nb.map List.length) ++ [(nb.map List.length).sum],
      nb.flatten.map fun v => (v.1, viaFloat v.2)) := by
  have hts := tokens_writeW nb
  have hlen : nb.flatten.length = (nb.map List.length).sum := List.length_flatten
  set offs := exclusive 0 (nb.map List.length) with hoffs
  have hol : offs.length = nb.length := by rw [hoffs, exclusive_length, List.length_map]
  unfold parseW
  simp only [input, hts]
  have h1 : ([wheader, dec nb.length, dec (nb.map List.length).sum] ++ offs.map dec ++
      nb.flatten.map (fun v => dec v.1) ++ nb.flatten.map (fun v => decInt v.2))[1]? =
      some (dec nb.length) := by simp
  have h2 : ([wheader, dec nb.length, dec (nb.map List.length).sum] ++ offs.map dec ++
      nb.flatten.map (fun v => dec v.1) ++ nb.flatten.map (fun v => decInt v.2))[2]? =
      some (dec (nb.map List.length).sum) := by simp
  rw [h1, h2]
  simp only [Option.bind_eq_bind, Option.bind_some, charsToInt_dec hn, charsToInt_dec hm]
  rw [if_neg (by simp only [List.length_append, List.length_map, hol, hlen, List.length_cons, List.length_nil]; omega)]
  rw [mapM_range _ offs nb.length hol,
    mapM_range _ (nb.flatten.map fun v => (v.1, viaFloat v.2)) _ (by rw [List.length_map, hlen])]
  · rfl
  · intro i hi
    have hi' : i < nb.flatten.length := by omega
    have hmem : ∃ l ∈ nb, nb.flatten[i] ∈ l := by
      obtain ⟨l, hl, hv'⟩ := List.mem_flatten.1 (List.getElem_mem hi')
      exact ⟨l, hl, hv'⟩
    obtain ⟨l, hl, hvl⟩ := hmem
    have hb := hv l hl _ hvl
    have e1 : ([wheader, dec nb.length, dec (nb.map List.length).sum] ++ offs.map dec ++
      nb.flatten.map (fun v => dec v.1) ++ nb.flatten.map (fun v => decInt v.2))[i + nb.length + 3]? =
      some (dec nb.flatten[i].1) := by
      rw [List.getElem?_append_left (by simp only [List.length_append, List.length_map, hol,
          List.length_cons, List.length_nil]; omega),
        List.getElem?_append_right (by simp [hol])]
      have e : i + nb.length + 3 - ([wheader, dec nb.length, dec (nb.map List.length).sum] ++
        offs.map dec).length = i := by simp [hol]
      rw [e, List.getElem?_map, List.getElem?_eq_getElem hi']; rfl
    have e2 : ([wheader, dec nb.length, dec (nb.map List.length).sum] ++ offs.map dec ++
      nb.flatten.map (fun v => dec v.1) ++ nb.flatten.map (fun v => decInt v.2))[
        i + nb.length + (nb.map List.length).sum + 3]? = some (decInt nb.flatten[i].2) := by
      rw [List.getElem?_append_right (by simp only [List.length_append, List.length_map, hol,
          List.length_cons, List.length_nil]; omega)]
      have e : i + nb.length + (nb.map List.length).sum + 3 -
        ([wheader, dec nb.length, dec (nb.map List.length).sum] ++
        offs.map dec ++ nb.flatten.map fun v => dec v.1).length = i := by
        simp only [List.length_append, List.length_map, hol, List.length_cons, List.length_nil]; omega
      rw [e, List.getElem?_map, List.getElem?_eq_getElem hi']; rfl
    rw [e1, e2]
    simp only [Option.bind_some]
    rw [stofInt_decInt, if_pos (hw l hl _ hvl), charsToInt_dec hb, List.getElem?_map,
      List.getElem?_eq_getElem hi']
    rfl
  · intro i hi
    have hi' : i < offs.length := by omega
    rw [List.append_assoc, List.append_assoc, List.getElem?_append_right (by simp),
      List.getElem?_append_left (by simp; omega)]
    have e : i + 3 - [wheader, dec nb.length, dec (nb.map List.length).sum].length = i := by simp
    rw [e, List.getElem?_map, List.getElem?_eq_getElem hi']
    have hb : offs[i] < 2 ^ 64 := by
      have h := exclusive_getElem? 0 (nb.map List.length) i (by simpa using hi)
      rw [← hoffs, List.getElem?_eq_getElem hi'] at h
      injection h with h
      rw [h]
      have := take_sum_le (nb.map List.length) i
      omega
    simp only [Option.map_some, Option.bind_some]
    rw [charsToInt_dec hb]

/-- Multiples of a power of two with a 24-bit quotient are not changed by rounding. -/
theorem round24_exact {q k : Nat} (hq : q < 2 ^ 24) : round24 (q * 2 ^ k) = q * 2 ^ k := by
  unfold round24
  split
  · rfl
  · rename_i h
    have h0 : q * 2 ^ k ≠ 0 := by omega
    have hlog : Nat.log2 (q * 2 ^ k) < 24 + k := by
      rw [Nat.log2_lt h0, Nat.pow_add]
      exact Nat.mul_lt_mul_of_pos_right hq (Nat.two_pow_pos k)
    obtain ⟨d, hd⟩ : ∃ d, k = (Nat.log2 (q * 2 ^ k) - 23) + d :=
      ⟨k - (Nat.log2 (q * 2 ^ k) - 23), by omega⟩
    generalize Nat.log2 (q * 2 ^ k) - 23 = s at hd
    have hpos := Nat.two_pow_pos s
    have hdvd : 2 ^ s ∣ q * 2 ^ k := by
      rw [hd, Nat.pow_add]
      exact ⟨q * 2 ^ d, by rw [Nat.mul_left_comm, Nat.mul_left_comm]⟩
    have hmod : q * 2 ^ k % 2 ^ s = 0 := Nat.mod_eq_zero_of_dvd hdvd
    simp only [hmod, Nat.mul_zero]
    rw [if_neg (by omega)]
    exact Nat.div_mul_cancel hdvd

/-- An `int` that single precision represents exactly. -/
def Representable (z : Int) : Prop :=
  -2 ^ 31 ≤ z ∧ z < 2 ^ 31 ∧ ∃ q k, q < 2 ^ 24 ∧ z.natAbs = q * 2 ^ k

theorem viaFloat_exact {z : Int} (h : Representable z) : viaFloat z = z := by
  obtain ⟨-, -, q, k, hq, hz⟩ := h
  unfold viaFloat
  rw [hz, round24_exact hq, ← hz]
  split <;> omega

/-- C26, what holds: every weight that single precision represents exactly survives writing and
parsing; in particular every weight of absolute value below 2^24. -/
theorem weights_roundtrip_partial (nb : List (List (Nat × Int))) (hn : nb.length < 2 ^ 64)
    (hm : (nb.map List.length).sum < 2 ^ 64) (hv : ∀ l ∈ nb, ∀ v ∈ l, v.1 < 2 ^ 32)
    (hw : ∀ l ∈ nb, ∀ v ∈ l, Representable v.2) (hdeg : ∀ l ∈ nb, l.length < 2 ^ 32) :
    (parseW (writeW nb) none).map adj = some nb := by
  have e : nb.flatten.map (fun v => (v.1, viaFloat v.2)) = nb.flatten := by
    conv_rhs => rw [← List.map_id nb.flatten]
    apply List.map_congr_left
    intro v hv'
    obtain ⟨l, hl, hvl⟩ := List.mem_flatten.1 hv'
    rw [viaFloat_exact (hw l hl v hvl)]; rfl
  rw [writeW_parseW nb hn hm hv (by
    intro l hl v hvl
    have := hw l hl v hvl
    rw [viaFloat_exact this]; exact ⟨this.1, this.2.1⟩), e]
  exact congrArg some (adj_eq nb _ hdeg)

theorem representable_small {z : Int} (h : z.natAbs < 2 ^ 24) : Representable z :=
  ⟨by omega, by omega, z.natAbs, 0, h, by simp⟩

/-- C26, negative: the weight 2^24 + 1 is read back as 2^24. -/
theorem weights_wrong :
    (parseW (writeW [[(1, 16777217)], [(0, 16777217)]]) none).map adj =
      some [[(1, 16777216)], [(0, 16777216)]] := by
  have h : viaFloat 16777217 = 16777216 := by decide +kernel
  rw [writeW_parseW _ (by decide) (by decide) (by decide) (by
    intro l hl v hvl
    simp only [List.mem_cons, List.not_mem_nil, or_false] at hl
    rcases hl with rfl | rfl <;>
    · simp only [List.mem_cons, List.not_mem_nil, or_false] at hvl
      subst hvl
      rw [h]; decide)]
  simp only [List.flatten_cons, List.flatten_nil, List.cons_append, List.nil_append, List.map_cons,
    List.map_nil, h]
  decide +kernel

/-- C26, negative: the largest integer is rounded to 2^31, whose conversion to `int` is undefined. -/
theorem weights_undefined : stofInt (decInt 2147483647) = none := by
  rw [stofInt_decInt]; decide +kernel

/-! ### Reading from memory -/

/-- C57, negative: with a byte buffer the parser looks at an empty text and accesses tokens that do
not exist, whatever the buffer and the file. -/
theorem parse_bytes_undefined (file bytes : List Nat) :
    parse file (some bytes) = none ∧ parseW file (some bytes) = none := ⟨rfl, rfl⟩

/-! ### Examples -/

/-- A path with three vertices meets the hypotheses of `write_read`. -/
example : parse (write [[1], [0, 2], [1]]) none = some (3, 4, [0, 1, 3, 4], [1, 0, 2, 1]) := by
  have := write_parse [[1], [0, 2], [1]] (by decide) (by decide) (by decide)
  exact this

/-- A weighted edge with a negative weight. -/
example : (parseW (writeW [[(1, -5)], [(0, 77)], []]) none).map adj = some [[(1, -5)], [(0, 77)], []] :=
  weights_roundtrip_partial _ (by decide) (by decide) (by decide)
    (by
      intro l hl v hvl
      apply representable_small
      revert v l
      decide) (by decide)

end Gbbs.Text
