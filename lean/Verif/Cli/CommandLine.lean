/-
Model of `gbbs/helpers/parse_command_line.h` and of the `main` functions of `gbbs/benchmark.h`, proofs for
C138.  An argument is the list of its character codes, without the terminating zero.
-/
import Verif.Common
import Verif.Graph.Text

namespace Gbbs.Cli

open Gbbs Gbbs.Text

/-- A string. -/
abbrev Str := List Nat

/-- What a call does: returns, aborts in `badArgument`, or is undefined. -/
inductive Res (α : Type) where
  | val (a : α)
  | abort
  | undef
deriving DecidableEq, Repr

/-! ### Model; `argv` has `argc` entries, the first is the name of the program -/

/-- `getArgument(i)`, `parse_command_line.h:50-53`. -/
def getArgument (argv : List Str) (i : Nat) : Res Str :=
  if argv.length < 2 + i then .abort
  else match argv[argv.length - 1 - i]? with
    | some a => .val a
    | none => .undef

/-- The loop of `getOption`, `parse_command_line.h:67-69`. -/
def optLoop (argv : List Str) (option : Str) : (rounds i : Nat) → Bool
  | 0, _ => false
  | r + 1, i => if argv[i]? = some option then true else optLoop argv option r (i + 1)

/-- `getOption`, `parse_command_line.h:66-70`: `i` runs from 1 to `argc - 1`. -/
def getOption (argv : List Str) (option : Str) : Bool := optLoop argv option (argv.length - 1) 1

/-- The loop of the functions that look for a value, `parse_command_line.h:73-74`, `80-81`, `86-90`,
`96-100`, `106-113`: the argument after the first occurrence. -/
def valLoop (argv : List Str) (option : Str) : (rounds i : Nat) → Option Str
  | 0, _ => none
  | r + 1, i => if argv[i]? = some option then argv[i + 1]? else valLoop argv option r (i + 1)

/-- `getOptionValue(option)`, `parse_command_line.h:72-76`: `i` runs from 1 to `argc - 2`; `none` is `NULL`. -/
def getOptionValue (argv : List Str) (option : Str) : Option Str :=
  valLoop argv option (argv.length - 1 - 1) 1

/-- `getOptionValue(option, defaultValue)`, `parse_command_line.h:78-83`. -/
def getOptionValueD (argv : List Str) (option default : Str) : Str :=
  (getOptionValue argv option).getD default

/-- `isspace` in the C locale. -/
def isSpaceC (c : Nat) : Bool := c == 32 || (9 ≤ c && c ≤ 13)

/-- A decimal digit. -/
def isDigit (c : Nat) : Bool := 48 ≤ c && c ≤ 57

/-- The value of the digits at the front. -/
def leadingNat (s : Str) : Nat := (s.takeWhile isDigit).foldl (fun r c => r * 10 + (c - 48)) 0

/-- The number that `atoi` and `atol` read: blanks, a sign, digits; what follows is ignored, and without
digits it is 0. -/
def leadingInt (s : Str) : Int :=
  match s.dropWhile isSpaceC with
  | 45 :: t => -(leadingNat t : Int)
  | 43 :: t => (leadingNat t : Int)
  | t => (leadingNat t : Int)

/-- `atoi` (32 bits) and `atol` (64 bits) of the C library: undefined if the value does not fit. -/
def atoX (bits : Nat) (s : Str) : Option Int :=
  let v := leadingInt s
  if -(2 ^ (bits - 1) : Int) ≤ v ∧ v < (2 ^ (bits - 1) : Int) then some v else none

/-- `getOptionIntValue`, `parse_command_line.h:85-92`. -/
def getOptionInt (argv : List Str) (option : Str) (default : Int) : Res Int :=
  match getOptionValue argv option with
  | none => .val default
  | some s => match atoX 32 s with
    | none => .undef
    | some v => .val v

/-- `getOptionLongValue`, `parse_command_line.h:94-102`: the `long` is converted to `size_t`. -/
def getOptionLong (argv : List Str) (option : Str) (default : Nat) : Res Nat :=
  match getOptionValue argv option with
  | none => .val default
  | some s => match atoX 64 s with
    | none => .undef
    | some v => .val (v % (2 ^ 64 : Int)).toNat

/-- What `sscanf(s, "%lf", &val)` does (C library): end of input, no number, or a number. -/
inductive Scan (D : Type) where
  | eof
  | noMatch
  | num (d : D)

/-- `getOptionDoubleValue`, `parse_command_line.h:104-115`.  When `sscanf` returns 0, `val` was never set
and is returned. -/
def getOptionDouble {D : Type} (scanf : Str → Scan D) (argv : List Str) (option : Str) (default : D) : Res D :=
  match getOptionValue argv option with
  | none => .val default
  | some s => match scanf s with
    | .eof => .abort
    | .noMatch => .undef
    | .num d => .val d

/-- `"-s"`. -/
def optS : Str := [45, 115]
/-- `"-c"`. -/
def optC : Str := [45, 99]
/-- `"-m"`. -/
def optM : Str := [45, 109]
/-- `"-b"`. -/
def optB : Str := [45, 98]
/-- `"-rounds"`. -/
def optRounds : Str := [45, 114, 111, 117, 110, 100, 115]

/-- What a `main` does before the application runs: the file, the reader called, its flags, and the number
of times the application is run.  The compressed readers take no `binary`. -/
structure Job where
  file : Str
  symmetric : Bool
  compressed : Bool
  mmap : Bool
  binary : Bool
  rounds : Nat
deriving DecidableEq, Repr

/-- Sequencing. -/
def Res.bind {α β : Type} (x : Res α) (f : α → Res β) : Res β :=
  match x with
  | .val a => f a
  | .abort => .abort
  | .undef => .undef

/-- `generate_main`, `benchmark.h:102-133`; `generate_weighted_main` (211-243), `generate_float_main`
(247-279) and `generate_coo_main` (26-57) choose in the same way. -/
def mainJob (argv : List Str) : Res Job :=
  (getArgument argv 0).bind fun iFile =>
    let symmetric := (getOptionValue argv optS).isSome
    let compressed := (getOptionValue argv optC).isSome
    let binary := (getOptionValue argv optB).isSome
    let mmap := (getOptionValue argv optM).isSome
    (getOptionLong argv optRounds 3).bind fun rounds =>
      .val ⟨iFile, symmetric, compressed, mmap, if compressed then false else binary, rounds⟩

/-- `generate_symmetric_main`, `benchmark.h:158-183`: without `-s` it prints a message (second component
`true`) and goes on with the symmetric reader. -/
def symmetricJob (argv : List Str) : Res (Job × Bool) :=
  (getArgument argv 0).bind fun iFile =>
    let symmetric := (getOptionValue argv optS).isSome
    let compressed := (getOptionValue argv optC).isSome
    let mmap := (getOptionValue argv optM).isSome
    let binary := (getOptionValue argv optB).isSome
    (getOptionLong argv optRounds 3).bind fun rounds =>
      .val (⟨iFile, true, compressed, mmap, if compressed then false else binary, rounds⟩, !symmetric)

/-! ### Specification: a command line is options, with or without a value, and the file -/

/-- An option with its value, if any. -/
abbrev Opt := Str × Option Str

/-- The arguments of one option. -/
def renderOpt : Opt → List Str
  | (k, none) => [k]
  | (k, some v) => [k, v]

/-- The whole command line. -/
def render (prog : Str) (opts : List Opt) (file : Str) : List Str :=
  prog :: (opts.flatMap renderOpt ++ [file])

/-- Option `k` is given. -/
def given (opts : List Opt) (k : Str) : Bool := opts.any (fun o => o.1 == k)

/-- No value is spelled like option `k`. -/
def NoClash (opts : List Opt) (k : Str) : Prop := ∀ o ∈ opts, ∀ v, o.2 = some v → v ≠ k

/-! ### Proofs -/

/-- The value after the first occurrence. -/
def scan (k : Str) : List Str → Option Str
  | [] => none
  | [_] => none
  | a :: b :: l => if a = k then some b else scan k (b :: l)

theorem valLoop_scan (k : Str) (l : List Str) : ∀ pre : List Str,
    valLoop (pre ++ l) k (l.length - 1) pre.length = scan k l := by
  induction l with
  | nil => intro pre; rfl
  | cons a l ih =>
    intro pre
    cases l with
    | nil => rfl
    | cons b l =>
      have hlen : (a :: b :: l).length - 1 = ((b :: l).length - 1) + 1 := by simp
      rw [hlen, valLoop, scan]
      have e1 : (pre ++ a :: b :: l)[pre.length]? = some a := by simp
      have e2 : (pre ++ a :: b :: l)[pre.length + 1]? = some b := by
        rw [List.getElem?_append_right (by omega)]; simp
      rw [e1, e2]
      by_cases h : a = k
      · rw [if_pos h, if_pos (by rw [h])]
      · rw [if_neg h, if_neg (fun h' => h (Option.some.inj h'))]
        have := ih (pre ++ [a])
        simpa using this

theorem getOptionValue_scan (prog : Str) (l : List Str) (k : Str) :
    getOptionValue (prog :: l) k = scan k l := by
  have := valLoop_scan k l [prog]
  simpa [getOptionValue] using this

theorem optLoop_mem (k : Str) (l : List Str) : ∀ pre : List Str,
    optLoop (pre ++ l) k l.length pre.length = decide (k ∈ l) := by
  induction l with
  | nil => intro pre; simp [optLoop]
  | cons a l ih =>
    intro pre
    rw [List.length_cons, optLoop]
    have e1 : (pre ++ a :: l)[pre.length]? = some a := by simp
    rw [e1]
    by_cases h : a = k
    · rw [if_pos (by rw [h])]; simp [h]
    · rw [if_neg (fun h' => h (Option.some.inj h'))]
      have := ih (pre ++ [a])
      simp only [List.append_assoc, List.singleton_append, List.length_append, List.length_singleton] at this
      rw [this]
      simp [Ne.symm h]

theorem getOption_mem (prog : Str) (l : List Str) (k : Str) :
    getOption (prog :: l) k = decide (k ∈ l) := by
  have := optLoop_mem k l [prog]
  simpa [getOption] using this

theorem scan_cons (k a : Str) (l : List Str) (hl : l ≠ []) :
    scan k (a :: l) = if a = k then l.head? else scan k l := by
  cases l with
  | nil => exact absurd rfl hl
  | cons b l => rfl

theorem scan_render (opts : List Opt) (file k : Str) (hc : NoClash opts k) :
    (scan k (opts.flatMap renderOpt ++ [file])).isSome = given opts k := by
  induction opts with
  | nil => rfl
  | cons o opts ih =>
    have ih := ih (fun o' ho' => hc o' (List.mem_cons_of_mem _ ho'))
    have hne : opts.flatMap renderOpt ++ [file] ≠ [] := by simp
    obtain ⟨b, t, hbt⟩ := List.exists_cons_of_ne_nil hne
    rcases o with ⟨n, v⟩
    cases v with
    | none =>
      simp only [List.flatMap_cons, renderOpt, List.cons_append, List.nil_append, given, List.any_cons]
      rw [scan_cons _ _ _ hne]
      by_cases h : n = k
      · simp [h, hbt]
      · simp only [if_neg h, beq_eq_false_iff_ne.2 h, Bool.false_or]; exact ih
    | some v =>
      have hv : v ≠ k := hc (n, some v) List.mem_cons_self v rfl
      simp only [List.flatMap_cons, renderOpt, List.cons_append, List.nil_append, given, List.any_cons]
      rw [scan_cons _ _ _ (by simp)]
      by_cases h : n = k
      · simp [h]
      · rw [if_neg h, scan_cons _ _ _ hne, if_neg hv, beq_eq_false_iff_ne.2 h, Bool.false_or]; exact ih

theorem scan_value (opts : List Opt) (file k : Str) (hc : NoClash opts k)
    (hv : ∀ o ∈ opts, o.1 = k → o.2 ≠ none) :
    scan k (opts.flatMap renderOpt ++ [file]) = (opts.find? (fun o => o.1 == k)).bind Prod.snd := by
  induction opts with
  | nil => rfl
  | cons o opts ih =>
    have ih := ih (fun o' ho' => hc o' (List.mem_cons_of_mem _ ho')) (fun o' ho' => hv o' (List.mem_cons_of_mem _ ho'))
    have hne : opts.flatMap renderOpt ++ [file] ≠ [] := by simp
    rcases o with ⟨n, v⟩
    cases v with
    | none =>
      have h : n ≠ k := fun h => hv (n, none) List.mem_cons_self h rfl
      simp only [List.flatMap_cons, renderOpt, List.cons_append, List.nil_append]
      rw [scan_cons _ _ _ hne, if_neg h, List.find?_cons_of_neg (by simpa using h)]
      exact ih
    | some v =>
      have hvk : v ≠ k := hc (n, some v) List.mem_cons_self v rfl
      simp only [List.flatMap_cons, renderOpt, List.cons_append, List.nil_append]
      rw [scan_cons _ _ _ (by simp)]
      by_cases h : n = k
      · rw [if_pos h, List.find?_cons_of_pos (by simpa using h)]; rfl
      · rw [if_neg h, scan_cons _ _ _ hne, if_neg hvk, List.find?_cons_of_neg (by simpa using h)]
        exact ih

theorem getArgument_render (prog : Str) (opts : List Opt) (file : Str) :
    getArgument (render prog opts file) 0 = .val file := by
  rw [getArgument, if_neg (by simp [render])]
  simp only [render]
  have : (prog :: (opts.flatMap renderOpt ++ [file])).length - 1 - 0 =
      (prog :: opts.flatMap renderOpt).length := by simp
  rw [this, ← List.cons_append, List.getElem?_append_right (Nat.le_refl _)]
  simp

theorem mem_render (opts : List Opt) (k : Str) (hc : NoClash opts k) :
    k ∈ opts.flatMap renderOpt ↔ given opts k = true := by
  simp only [List.mem_flatMap, given, List.any_eq_true, beq_iff_eq]
  constructor
  · rintro ⟨o, ho, hk⟩
    refine ⟨o, ho, ?_⟩
    rcases o with ⟨n, v⟩
    cases v with
    | none => simp only [renderOpt, List.mem_singleton] at hk; exact hk.symm
    | some v =>
      simp only [renderOpt, List.mem_cons, List.not_mem_nil, or_false] at hk
      rcases hk with hk | hk
      · exact hk.symm
      · exact absurd hk.symm (hc _ ho v rfl)
  · rintro ⟨o, ho, rfl⟩
    refine ⟨o, ho, ?_⟩
    rcases o with ⟨n, v⟩
    cases v <;> simp [renderOpt]

/-- C138 (partial): on a command line of options and a file, where no value is spelled like `k`: the last
argument is the file; `getOption(k)` and `getOptionValue(k) != NULL` say whether `k` is given (`getOption`
needs a file not spelled like `k`); if `k` always comes with a value, `getOptionValue` returns the first
one given, or the default.  Missing: `C138_value_taken_as_flag`, `C138_flag_after_file`,
`C138_missing_value`. -/
theorem C138_options_partial (prog : Str) (opts : List Opt) (file k : Str) (hc : NoClash opts k) :
    getArgument (render prog opts file) 0 = .val file ∧
    (getOptionValue (render prog opts file) k).isSome = given opts k ∧
    (file ≠ k → getOption (render prog opts file) k = given opts k) ∧
    ((∀ o ∈ opts, o.1 = k → o.2 ≠ none) → ∀ default,
      getOptionValueD (render prog opts file) k default =
        ((opts.find? (fun o => o.1 == k)).bind Prod.snd).getD default) := by
  refine ⟨getArgument_render prog opts file, ?_, fun hf => ?_, fun hv default => ?_⟩
  · rw [render, getOptionValue_scan, scan_render opts file k hc]
  · rw [render, getOption_mem, Bool.eq_iff_iff, decide_eq_true_iff, List.mem_append, mem_render opts k hc]
    simp [Ne.symm hf]
  · rw [getOptionValueD, render, getOptionValue_scan, scan_value opts file k hc hv]

theorem digits_dec (n : Nat) : ∀ c ∈ dec n, isDigit c = true := by
  intro c hc
  have := dec_digits n c hc
  simp only [isDigit, Bool.and_eq_true, decide_eq_true_eq]
  omega

theorem takeWhile_all {p : Nat → Bool} {l : Str} (h : ∀ c ∈ l, p c = true) : l.takeWhile p = l := by
  induction l with
  | nil => rfl
  | cons a l ih =>
    rw [List.takeWhile_cons_of_pos (h a List.mem_cons_self), ih (fun c hc => h c (List.mem_cons_of_mem _ hc))]

theorem atoX32 {s : Str} {z : Int} (hz : leadingInt s = z) (h1 : -2147483648 ≤ z) (h2 : z < 2147483648) :
    atoX 32 s = some z := by
  have e : (2 ^ (32 - 1) : Int) = 2147483648 := by decide
  rw [atoX]
  simp only [hz, e]
  rw [if_pos ⟨h1, h2⟩]

theorem atoX64 {s : Str} {z : Int} (hz : leadingInt s = z) (h1 : -9223372036854775808 ≤ z)
    (h2 : z < 9223372036854775808) : atoX 64 s = some z := by
  have e : (2 ^ (64 - 1) : Int) = 9223372036854775808 := by decide
  rw [atoX]
  simp only [hz, e]
  rw [if_pos ⟨h1, h2⟩]

theorem leadingNat_dec (n : Nat) : leadingNat (dec n) = n := by
  rw [leadingNat, takeWhile_all (digits_dec n)]
  exact foldl_dec n

theorem leadingInt_decInt (z : Int) : leadingInt (decInt z) = z := by
  by_cases h : z < 0
  · rw [decInt, if_pos h, leadingInt]
    have : (45 :: dec z.natAbs).dropWhile isSpaceC = 45 :: dec z.natAbs := by
      rw [List.dropWhile_cons_of_neg (by decide)]
    rw [this]
    simp only [leadingNat_dec]
    omega
  · rw [decInt, if_neg h, leadingInt]
    obtain ⟨c, t, hct⟩ := List.exists_cons_of_ne_nil (dec_ne_nil z.natAbs)
    have hc := dec_digits z.natAbs c (by rw [hct]; exact List.mem_cons_self)
    have hdw : (dec z.natAbs).dropWhile isSpaceC = dec z.natAbs := by
      rw [hct, List.dropWhile_cons_of_neg]
      simp only [isSpaceC, Bool.or_eq_true, beq_iff_eq, Bool.and_eq_true, decide_eq_true_eq]
      omega
    rw [hdw]
    split
    · rename_i t' h'; rw [hct] at h'; obtain ⟨h1, -⟩ := List.cons.inj h'; omega
    · rename_i t' h'; rw [hct] at h'; obtain ⟨h1, -⟩ := List.cons.inj h'; omega
    · rw [leadingNat_dec]; omega

/-- C138 (partial): an integer option gives the number written after its first occurrence, if it fits the
type and is not negative for `getOptionLongValue`; otherwise the default.  Missing:
`C138_negative_long`, `C138_not_a_number`. -/
theorem C138_numbers_partial (prog : Str) (opts : List Opt) (file k : Str) (hc : NoClash opts k)
    (hv : ∀ o ∈ opts, o.1 = k → o.2 ≠ none) :
    (∀ z : Int, opts.find? (fun o => o.1 == k) = some (k, some (decInt z)) → -2147483648 ≤ z → z < 2147483648 →
      ∀ default, getOptionInt (render prog opts file) k default = .val z) ∧
    (∀ n : Nat, opts.find? (fun o => o.1 == k) = some (k, some (dec n)) → n < 9223372036854775808 →
      ∀ default, getOptionLong (render prog opts file) k default = .val n) ∧
    (given opts k = false → (∀ default, getOptionInt (render prog opts file) k default = .val default) ∧
      ∀ default, getOptionLong (render prog opts file) k default = .val default) := by
  have hg : getOptionValue (render prog opts file) k = (opts.find? (fun o => o.1 == k)).bind Prod.snd := by
    rw [render, getOptionValue_scan, scan_value opts file k hc hv]
  refine ⟨fun z hz h1 h2 default => ?_, fun n hn h1 default => ?_, fun hno => ?_⟩
  · rw [hz] at hg
    have : atoX 32 (decInt z) = some z := atoX32 (leadingInt_decInt z) h1 h2
    simp only [getOptionInt, hg, Option.bind_some, this]
  · rw [hn] at hg
    have hd : dec n = decInt (n : Int) := by simp [decInt, show ¬ ((n : Int) < 0) by omega]
    have : atoX 64 (dec n) = some (n : Int) :=
      atoX64 (by rw [hd]; exact leadingInt_decInt _) (by omega) (by omega)
    simp only [getOptionLong, hg, Option.bind_some, this]
    congr 1
    omega
  · have hf : opts.find? (fun o => o.1 == k) = none := by
      rw [List.find?_eq_none]
      intro o ho h
      have : given opts k = true := List.any_eq_true.2 ⟨o, ho, h⟩
      rw [hno] at this
      cases this
    rw [hf] at hg
    exact ⟨fun _ => by simp only [getOptionInt, hg, Option.bind_none],
      fun _ => by simp only [getOptionLong, hg, Option.bind_none]⟩

/-- C138 (partial): with options in any order, `main` reads the given file, with the reader and the flags
asked for, and runs the application as often as asked for, three times by default.  `-b` has no effect
together with `-c`. -/
theorem C138_main_partial (prog : Str) (opts : List Opt) (file : Str)
    (hc : ∀ k ∈ [optS, optC, optM, optB, optRounds], NoClash opts k)
    (hr : ∀ o ∈ opts, o.1 = optRounds → ∃ n, n < 9223372036854775808 ∧ o.2 = some (dec n)) :
    ∃ job, mainJob (render prog opts file) = .val job ∧ job.file = file ∧
      job.symmetric = given opts optS ∧ job.compressed = given opts optC ∧ job.mmap = given opts optM ∧
      (given opts optC = false → job.binary = given opts optB) ∧
      (given opts optRounds = false → job.rounds = 3) ∧
      (∀ n, opts.find? (fun o => o.1 == optRounds) = some (optRounds, some (dec n)) → job.rounds = n) ∧
      symmetricJob (render prog opts file) = .val ({ job with symmetric := true }, !given opts optS) := by
  have hv : ∀ o ∈ opts, o.1 = optRounds → o.2 ≠ none := by
    intro o ho h1 h2
    obtain ⟨n, -, h3⟩ := hr o ho h1
    rw [h2] at h3; cases h3
  obtain ⟨-, n2, n3⟩ := C138_numbers_partial prog opts file optRounds (hc _ (by simp)) hv
  have hs := (C138_options_partial prog opts file optS (hc _ (by simp))).2.1
  have hcc := (C138_options_partial prog opts file optC (hc _ (by simp))).2.1
  have hm := (C138_options_partial prog opts file optM (hc _ (by simp))).2.1
  have hb := (C138_options_partial prog opts file optB (hc _ (by simp))).2.1
  have ha := getArgument_render prog opts file
  have hround : ∃ r, getOptionLong (render prog opts file) optRounds 3 = .val r ∧
      (given opts optRounds = false → r = 3) ∧
      (∀ n, opts.find? (fun o => o.1 == optRounds) = some (optRounds, some (dec n)) → r = n) := by
    cases hf : opts.find? (fun o => o.1 == optRounds) with
    | none =>
      have hno : given opts optRounds = false := by
        rw [List.find?_eq_none] at hf
        rw [given, List.any_eq_false]
        exact hf
      exact ⟨3, (n3 hno).2 3, fun _ => rfl, fun n h => by cases h⟩
    | some o =>
      have ho := List.mem_of_find?_eq_some hf
      have hk : o.1 = optRounds := by simpa using List.find?_some hf
      obtain ⟨n, hn, hon⟩ := hr o ho hk
      have hoe : o = (optRounds, some (dec n)) := Prod.ext hk hon
      rw [hoe] at hf
      refine ⟨n, n2 n hf hn 3, fun hno => ?_, fun n' h => ?_⟩
      · have : given opts optRounds = true := List.any_eq_true.2 ⟨o, ho, by simpa using hk⟩
        rw [hno] at this; cases this
      · rw [hoe] at h
        have h5 : dec n = dec n' := by simpa using h
        rw [← leadingNat_dec n, ← leadingNat_dec n', h5]
  obtain ⟨r, r1, r2, r3⟩ := hround
  refine ⟨⟨file, given opts optS, given opts optC, given opts optM,
    if given opts optC then false else given opts optB, r⟩, ?_, rfl, rfl, rfl, rfl, ?_, r2, r3, ?_⟩
  · simp only [mainJob, ha, Res.bind, hs, hcc, hm, hb, r1]
  · intro h; simp only [h]; rfl
  · simp only [symmetricJob, ha, Res.bind, hs, hcc, hm, hb, r1]

/-- Non-trivial instance: `-s -rounds 12 -src 5 g` runs 12 times on the symmetric graph `g`. -/
example : mainJob (render [112] [(optS, none), (optRounds, some (dec 12)), ([45, 115, 114, 99], some (dec 5))] [103]) =
    .val ⟨[103], true, false, false, false, 12⟩ := by
  rw [show dec 12 = [49, 50] by simp [dec], show dec 5 = [53] by simp [dec]]
  decide +kernel

/-- C138: a value spelled like a flag sets the flag: `-o -s g` is taken as symmetric. -/
theorem C138_value_taken_as_flag (prog o k file : Str) (h : o ≠ k) :
    given [(o, some k)] k = false ∧
    (getOptionValue (render prog [(o, some k)] file) k).isSome = true ∧
    getOption (render prog [(o, some k)] file) k = true := by
  refine ⟨by simp [given, h], ?_, ?_⟩
  · rw [render, getOptionValue_scan]
    simp [renderOpt, scan, h]
  · rw [render, getOption_mem]
    simp [renderOpt]

/-- C138: a flag after the file is taken for the file, and is not seen as a flag by `main`. -/
theorem C138_flag_after_file (prog file k : Str) (hp : file ≠ k) :
    getArgument [prog, file, k] 0 = .val k ∧ getOptionValue [prog, file, k] k = none ∧
    getOption [prog, file, k] k = true := by
  refine ⟨rfl, ?_, ?_⟩
  · rw [getOptionValue_scan]; simp [scan, hp]
  · rw [getOption_mem]; simp

/-- C138: an option without its value takes the file as value. -/
theorem C138_missing_value (prog file k : Str) : getOptionValue [prog, k, file] k = some file := by
  rw [getOptionValue_scan]; simp [scan]

/-- C138: a negative number becomes a huge one: `-rounds -1` asks for `2^64 - 1` rounds. -/
theorem C138_negative_long (prog file k : Str) (n : Nat) (h0 : 0 < n) (h1 : n ≤ 9223372036854775808)
    (default : Nat) :
    getOptionLong [prog, k, decInt (-(n : Int)), file] k default = .val (18446744073709551616 - n) := by
  have hg : getOptionValue [prog, k, decInt (-(n : Int)), file] k = some (decInt (-(n : Int))) := by
    rw [getOptionValue_scan]; simp [scan]
  have : atoX 64 (decInt (-(n : Int))) = some (-(n : Int)) :=
    atoX64 (leadingInt_decInt _) (by omega) (by omega)
  simp only [getOptionLong, hg, this]
  congr 1
  omega

/-- C138: what does not start with a number counts as 0, without a message: `-rounds x` runs 0 times. -/
theorem C138_not_a_number (prog file k s : Str) (c : Nat) (hs : isSpaceC c = false) (hd : isDigit c = false)
    (hc : c ≠ 45 ∧ c ≠ 43) (default : Nat) :
    getOptionLong [prog, k, c :: s, file] k default = .val 0 := by
  have hg : getOptionValue [prog, k, c :: s, file] k = some (c :: s) := by
    rw [getOptionValue_scan]; simp [scan]
  have h0 : leadingInt (c :: s) = 0 := by
    rw [leadingInt, List.dropWhile_cons_of_neg (by simp [hs])]
    split
    · rename_i t' h'; exact absurd (List.cons.inj h').1 hc.1
    · rename_i t' h'; exact absurd (List.cons.inj h').1 hc.2
    · simp [leadingNat, hd]
  have : atoX 64 (c :: s) = some 0 := atoX64 h0 (by omega) (by omega)
  simp only [getOptionLong, hg, this]
  rfl

/-- C138: `getOptionDoubleValue` returns an uninitialised number if the value is not a number. -/
theorem C138_double_uninitialised {D : Type} (scanf : Str → Scan D) (prog file k s : Str) (default : D)
    (h : scanf s = .noMatch) : getOptionDouble scanf [prog, k, s, file] k default = .undef := by
  have hg : getOptionValue [prog, k, s, file] k = some s := by
    rw [getOptionValue_scan]; simp [scan]
  simp only [getOptionDouble, hg, h]

end Gbbs.Cli
