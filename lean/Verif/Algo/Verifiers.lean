/-
C143: the built-in verification of results: `verify_coloring`, `verify_mis`, `verify_MaximalIndependentSet`,
`verify_matching`, `check_spanning_forest`, and the options that call them.
-/
import Verif.Algo.CCCheck
import Verif.Algo.SpanForest
import Verif.Cli.CommandLine

namespace Gbbs.Verify

open Relation Comp

/-! ### Model; `nbrs v` are the out-neighbours of `v` in the order of the list -/

/-- `count`, `gbbs/vertex.h:124-133`: the sum over the list of the values (converted to 0 or 1) of `f`. -/
def count (f : Nat → Bool) (l : List Nat) : Nat := (l.map fun x => (f x).toNat).sum

/-- `verify_coloring`, `benchmarks/GraphColoring/Hasenplaugh14/GraphColoring.h:165-190`: `true` for "Valid
coloring".  The loop writes `ok[i]` for different `i`. -/
def verifyColoring (n : Nat) (nbrs : Nat → List Nat) (colors : Nat → Nat) : Bool :=
  let ok := fun i => decide (0 < count (fun ngh => colors i == colors ngh) (nbrs i))
  let ct := ((List.range n).map fun i => (ok i).toNat).sum
  !decide (0 < ct)

/-- `verify_MaximalIndependentSet`, `benchmarks/MaximalIndependentSet/RandomGreedy/MaximalIndependentSet.h:240-263`:
`true` for "valid MaximalIndependentSet". -/
def verifyMISet (n : Nat) (nbrs : Nat → List Nat) (mis : Nat → Bool) : Bool :=
  let ok := fun i =>
    let ct := count mis (nbrs i)
    if mis i then decide (ct = 0) else decide (0 < ct)
  let nOk := ((List.range n).map fun i => (ok i).toNat).sum
  decide (nOk = n)

/-- What a checker prints or does. -/
inductive Out where
  /-- A failed `assert`, or `exit(-1)`, or `abort()`. -/
  | stopped
  /-- The messages, `true` for a positive one. -/
  | says (l : List Bool)
  /-- An access outside of an array. -/
  | undef
deriving DecidableEq, Repr

/-- `d[v]` after the first loop of `verify_mis`, `MaximalIndependentSet.h:35-45`: whether a member has `v` as
neighbour (all writers write 1). -/
def hit (n : Nat) (nbrs : Nat → List Nat) (mis : Nat → Bool) (v : Nat) : Bool :=
  (List.range n).any fun i => mis i && (nbrs i).contains v

/-- `verify_mis`, `MaximalIndependentSet.h:32-61`.  `asserts = false` if `NDEBUG` is defined, as in the shipped builds (`.bazelrc` with
`-c opt`, `makefile.variables:23`). -/
def verifyMis (asserts : Bool) (n : Nat) (nbrs : Nat → List Nat) (mis : Nat → Bool) : Out :=
  if asserts && (List.range n).any fun i => mis i && hit n nbrs mis i then .stopped
  else
    let size := ((List.range n).map fun i => (mis i).toNat).sum
    if ((List.range n).map fun v => (hit n nbrs mis v).toNat).sum ≠ n - size then
      if asserts then .stopped else .says [false, true]
    else .says [true]

/-- `matched[v]` after the first loop of `verify_matching`, `benchmarks/MaximalMatching/RandomGreedy/MaximalMatching.h:255-259`:
concurrent `write_add` on 32-bit counters loses nothing (C11). -/
def matched (matching : List (Nat × Nat)) (v : Nat) : Nat :=
  (matching.map fun e => (if e.1 = v then 1 else 0) + (if e.2 = v then 1 else 0)).sum % 4294967296

/-- `verify_matching`, `MaximalMatching.h:248-288`; the weights of the edges play no role. -/
def verifyMatching (asserts : Bool) (n : Nat) (nbrs : Nat → List Nat) (matching : List (Nat × Nat)) : Out :=
  if matching.any fun e => decide (n ≤ e.1) || decide (n ≤ e.2) then .undef
  else
    let valid := (List.range n).all fun i => !decide (1 < matched matching i)
    if asserts && !valid then .stopped
    else
      let bad := fun src ngh => decide (matched matching src = 0) && decide (matched matching ngh = 0)
      let ok := fun v => !((List.range n).any fun src => (nbrs src).any fun ngh =>
        (v == src || v == ngh) && bad src ngh)
      let nOk := ((List.range n).map fun i => (ok i).toNat).sum
      .says [decide (n = nOk)]

/-- `check_spanning_forest`, `benchmarks/SpanningForest/check.h:89-116`.  `cc l` are the labels that
`workefficient_cc::CC` returns for the graph of the edges `l` (both directions are stored,
`double_edges`, `check.h:73-87`; C22, C75); `cc_check` is the model of C92. -/
def checkForest (cc : List (Nat × Nat) → List Nat) (correct check : List (Nat × Nat)) : Out :=
  if correct.length ≠ check.length then .stopped
  else match CCCheck.ccCheck (cc correct) (cc check) with
    | none => .undef
    | some true => .says [true]
    | some false => .stopped

/-- `"-verify"`. -/
def optVerify : Cli.Str := [45, 118, 101, 114, 105, 102, 121]

/-- `Coloring_runner`, `GraphColoring.cc:64`, looks for `"-verify)"`. -/
def optVerifyParen : Cli.Str := [45, 118, 101, 114, 105, 102, 121, 41]

/-- Whether `Coloring_runner` verifies, `GraphColoring.cc:64-66`. -/
def coloringVerifies (argv : List Cli.Str) : Bool := Cli.getOption argv optVerifyParen

/-- Whether `MaximalIndependentSet_runner` verifies, `MaximalIndependentSet.cc:71`, `86`. -/
def misVerifies (argv : List Cli.Str) : Bool := (Cli.getOptionValue argv optVerify).isSome

/-! ### Specification -/

/-- Adjacent vertices differ. -/
def Proper (n : Nat) (nbrs : Nat → List Nat) (colors : Nat → Nat) : Prop :=
  ∀ u v, u < n → v ∈ nbrs u → colors u ≠ colors v

/-- No edge inside the set. -/
def Independent (n : Nat) (nbrs : Nat → List Nat) (s : Nat → Prop) : Prop :=
  ∀ u v, u < n → v ∈ nbrs u → ¬ (s u ∧ s v)

/-- Independent, and no larger set of vertices is. -/
def MaxIndependent (n : Nat) (nbrs : Nat → List Nat) (s : Nat → Prop) : Prop :=
  Independent n nbrs s ∧
    ∀ t : Nat → Prop, Independent n nbrs t → (∀ v, v < n → s v → t v) → ∀ v, v < n → t v → s v

/-- Two edges share no endpoint. -/
def Disjoint' (e f : Nat × Nat) : Prop := e.1 ≠ f.1 ∧ e.1 ≠ f.2 ∧ e.2 ≠ f.1 ∧ e.2 ≠ f.2

/-- Edges of the graph, pairwise disjoint, and every edge of the graph meets one of them. -/
structure MaxMatching (n : Nat) (nbrs : Nat → List Nat) (l : List (Nat × Nat)) : Prop where
  sub : ∀ e ∈ l, e.1 < n ∧ e.2 ∈ nbrs e.1
  disj : l.Pairwise Disjoint'
  maxi : ∀ u v, u < n → v ∈ nbrs u → ∃ e ∈ l, ¬ Disjoint' (u, v) e

/-- The graph: symmetric, without self-loops, all neighbours are vertices. -/
structure Simple (n : Nat) (nbrs : Nat → List Nat) : Prop where
  lt : ∀ u v, u < n → v ∈ nbrs u → v < n
  sym : ∀ u v, u < n → v ∈ nbrs u → u ∈ nbrs v
  loop : ∀ u, u < n → u ∉ nbrs u

/-- `cc` labels the components of the graphs of edge lists, with labels up to `n`. -/
def Labels (n : Nat) (cc : List (Nat × Nat) → List Nat) : Prop :=
  ∀ l : List (Nat × Nat), (∀ e ∈ l, e.1 < n ∧ e.2 < n) → ∃ f : Nat → Nat, cc l = (List.range n).map f ∧
    (∀ v, v < n → f v ≤ n) ∧ ∀ u v, u < n → v < n → (f u = f v ↔ SF.LConn l u v)

/-! ### Proofs -/

theorem simple_of {n : Nat} {nbrs : Nat → List Nat}
    (h : ∀ u, u < n → (∀ v ∈ nbrs u, v < n ∧ u ∈ nbrs v) ∧ u ∉ nbrs u) : Simple n nbrs :=
  ⟨fun u v hu hv => ((h u hu).1 v hv).1, fun u v hu hv => ((h u hu).1 v hv).2, fun u hu => (h u hu).2⟩

theorem count_zero (f : Nat → Bool) (l : List Nat) : count f l = 0 ↔ ∀ x ∈ l, f x = false := by
  induction l with
  | nil => simp [count]
  | cons x l ih =>
    simp only [count, List.map_cons, List.sum_cons] at ih ⊢
    rw [Nat.add_eq_zero_iff, ih]
    simp

theorem count_pos (f : Nat → Bool) (l : List Nat) : 0 < count f l ↔ ∃ x ∈ l, f x = true := by
  rw [Nat.pos_iff_ne_zero, ne_eq, count_zero]
  simp

theorem sum_full (n : Nat) (f : Nat → Bool) :
    ((List.range n).map fun i => (f i).toNat).sum = n ↔ ∀ i, i < n → f i = true := by
  have hle : ∀ n, ((List.range n).map fun i => (f i).toNat).sum ≤ n := by
    intro n
    induction n with
    | zero => simp
    | succ n ih =>
      simp only [List.range_succ, List.map_append, List.sum_append, List.map_cons, List.map_nil, List.sum_cons,
        List.sum_nil]
      have : (f n).toNat ≤ 1 := Bool.toNat_le _
      omega
  induction n with
  | zero => simp
  | succ n ih =>
    simp only [List.range_succ, List.map_append, List.sum_append, List.map_cons, List.map_nil, List.sum_cons,
      List.sum_nil]
    have h1 : (f n).toNat ≤ 1 := Bool.toNat_le _
    have h2 := hle n
    constructor
    · intro h i hi
      have h3 : (f n).toNat = 1 := by omega
      have h4 := ih.1 (by omega)
      rcases Nat.lt_succ_iff_lt_or_eq.1 hi with h5 | rfl
      · exact h4 i h5
      · simpa using h3
    · intro h
      rw [ih.2 fun i hi => h i (by omega), h n (by omega)]
      rfl

/-- C143, colouring: the verification accepts exactly the proper colourings. -/
theorem C143_coloring (n : Nat) (nbrs : Nat → List Nat) (colors : Nat → Nat) :
    verifyColoring n nbrs colors = true ↔ Proper n nbrs colors := by
  have h := count_zero (fun i => decide (0 < count (fun ngh => colors i == colors ngh) (nbrs i))) (List.range n)
  unfold verifyColoring Proper
  simp only [Bool.not_eq_true', decide_eq_false_iff_not, Nat.not_lt, Nat.le_zero]
  rw [show ((List.range n).map fun i =>
    (decide (0 < count (fun ngh => colors i == colors ngh) (nbrs i))).toNat).sum =
    count (fun i => decide (0 < count (fun ngh => colors i == colors ngh) (nbrs i))) (List.range n) from rfl, h]
  simp only [List.mem_range, decide_eq_false_iff_not, Nat.not_lt, Nat.le_zero, count_zero, beq_eq_false_iff_ne]
  exact ⟨fun h u v hu hv => h u hu v hv, fun h u hu v hv => h u v hu hv⟩

/-- But it is never run: `-verify` has no effect on `GraphColoring`; only the argument `-verify)` has. -/
theorem C143_coloring_not_run (prog : Cli.Str) (args : List Cli.Str) :
    (coloringVerifies (prog :: args) = true ↔ optVerifyParen ∈ args) ∧
    (coloringVerifies (prog :: args ++ [optVerify]) = coloringVerifies (prog :: args)) := by
  have hm : ∀ l : List Cli.Str, coloringVerifies (prog :: l) = true ↔ optVerifyParen ∈ l := by
    intro l
    unfold coloringVerifies
    rw [Cli.getOption_mem]
    simp
  refine ⟨hm args, ?_⟩
  rw [Bool.eq_iff_iff, List.cons_append, hm, hm, List.mem_append]
  constructor
  · rintro (h | h)
    · exact h
    · simp [optVerifyParen, optVerify] at h
  · exact Or.inl

theorem maxIndependent_iff {n : Nat} {nbrs : Nat → List Nat} (hG : Simple n nbrs) (s : Nat → Prop) :
    MaxIndependent n nbrs s ↔ Independent n nbrs s ∧ ∀ v, v < n → ¬ s v → ∃ u ∈ nbrs v, s u := by
  classical
  constructor
  · rintro ⟨h1, h2⟩
    refine ⟨h1, fun v hv hsv => ?_⟩
    by_contra hno
    have hno' : ∀ u ∈ nbrs v, ¬ s u := fun u hu hs => hno ⟨u, hu, hs⟩
    refine hsv (h2 (fun x => (x < n ∧ s x) ∨ x = v) ?_ (fun x hx hs => Or.inl ⟨hx, hs⟩) v hv (Or.inr rfl))
    rintro a b ha hab ⟨h3 | h3, h4 | h4⟩
    · exact h1 a b ha hab ⟨h3.2, h4.2⟩
    · subst h4
      exact hno' a (hG.sym _ _ ha hab) h3.2
    · subst h3
      exact hno' b hab h4.2
    · subst h3; subst h4
      exact hG.loop _ ha hab
  · rintro ⟨h1, h2⟩
    refine ⟨h1, fun t ht hst v hv htv => ?_⟩
    by_contra hsv
    obtain ⟨u, hu, hsu⟩ := h2 v hv hsv
    exact ht v u hv hu ⟨htv, hst u (hG.lt _ _ hv hu) hsu⟩

/-- C143, independent sets: on simple symmetric graphs, `verify_MaximalIndependentSet` accepts exactly the maximal
independent sets. -/
theorem C143_mis (n : Nat) (nbrs : Nat → List Nat) (hG : Simple n nbrs) (mis : Nat → Bool) :
    verifyMISet n nbrs mis = true ↔ MaxIndependent n nbrs fun v => mis v = true := by
  rw [maxIndependent_iff hG]
  unfold verifyMISet
  simp only [decide_eq_true_eq]
  rw [sum_full]
  constructor
  · intro h
    refine ⟨fun u v hu hv hs => ?_, fun v hv hs => ?_⟩
    · have := h u hu
      rw [if_pos hs.1, decide_eq_true_eq, count_zero] at this
      have h3 : mis v = true := hs.2
      rw [this v hv] at h3
      exact absurd h3 (by decide)
    · have := h v hv
      rw [if_neg hs, decide_eq_true_eq, count_pos] at this
      exact this
  · rintro ⟨h1, h2⟩ i hi
    by_cases hs : mis i = true
    · rw [if_pos hs, decide_eq_true_eq, count_zero]
      intro x hx
      rw [← Bool.not_eq_true]
      exact fun hx' => h1 i x hi hx ⟨hs, hx'⟩
    · rw [if_neg hs, decide_eq_true_eq, count_pos]
      exact h2 i hi hs

/-- With a vertex whose only neighbour is itself, every set is rejected. -/
theorem C143_mis_loop (n v : Nat) (nbrs : Nat → List Nat) (hv : v < n) (hl : nbrs v = [v]) (mis : Nat → Bool) :
    verifyMISet n nbrs mis = false := by
  rw [← Bool.not_eq_true]
  unfold verifyMISet
  simp only [decide_eq_true_eq]
  rw [sum_full]
  intro h
  have := h v hv
  rw [hl] at this
  cases hm : mis v <;> simp [count, hm] at this

/-- It is run exactly if `-verify` is given (before the file, C138). -/
theorem C143_mis_run (prog : Cli.Str) (opts : List Cli.Opt) (file : Cli.Str)
    (hc : Cli.NoClash opts optVerify) :
    misVerifies (Cli.render prog opts file) = Cli.given opts optVerify :=
  (Cli.C138_options_partial prog opts file optVerify hc).2.1

theorem sum_disj (n : Nat) (f g : Nat → Bool) (h : ∀ i, i < n → ¬ (f i = true ∧ g i = true)) :
    ((List.range n).map fun i => (f i).toNat).sum + ((List.range n).map fun i => (g i).toNat).sum =
      ((List.range n).map fun i => (f i || g i).toNat).sum := by
  induction n with
  | zero => rfl
  | succ n ih =>
    have := ih fun i hi => h i (by omega)
    have hn := h n (by omega)
    simp only [List.range_succ, List.map_append, List.sum_append, List.map_cons, List.map_nil, List.sum_cons,
      List.sum_nil]
    have : (f n).toNat + (g n).toNat = (f n || g n).toNat := by
      revert hn; cases f n <;> cases g n <;> simp
    omega

theorem any_d {n : Nat} {nbrs : Nat → List Nat} (hG : Simple n nbrs) (mis : Nat → Bool) {v : Nat} (hv : v < n) :
    hit n nbrs mis v = true ↔ ∃ u ∈ nbrs v, mis u = true := by
  unfold hit
  simp only [List.any_eq_true, List.mem_range, Bool.and_eq_true, List.contains_iff_mem]
  constructor
  · rintro ⟨i, hi, h1, h2⟩
    exact ⟨i, hG.sym _ _ hi h2, h1⟩
  · rintro ⟨u, hu, h1⟩
    exact ⟨u, hG.lt _ _ hv hu, h1, hG.sym _ _ hv hu⟩

/-- C143, `verify_mis` with assertions: it stops for all sets other than the maximal independent ones. -/
theorem C143_verify_mis_asserts (n : Nat) (nbrs : Nat → List Nat) (hG : Simple n nbrs) (mis : Nat → Bool) :
    (MaxIndependent n nbrs (fun v => mis v = true) → verifyMis true n nbrs mis = .says [true]) ∧
    (¬ MaxIndependent n nbrs (fun v => mis v = true) → verifyMis true n nbrs mis = .stopped) := by
  rw [maxIndependent_iff hG]
  unfold verifyMis
  simp only [Bool.true_and, if_true]
  generalize hd : hit n nbrs mis = d
  have hdv : ∀ v, v < n → (d v = true ↔ ∃ u ∈ nbrs v, mis u = true) := fun v hv => by
    rw [← hd]; exact any_d hG mis hv
  have hind : Independent n nbrs (fun v => mis v = true) ↔ ∀ i, i < n → ¬ (d i = true ∧ mis i = true) := by
    constructor
    · rintro h i hi ⟨h1, h2⟩
      obtain ⟨u, hu, h3⟩ := (hdv i hi).1 h1
      exact h i u hi hu ⟨h2, h3⟩
    · rintro h u v hu hv ⟨h1, h2⟩
      exact h u hu ⟨(hdv u hu).2 ⟨v, hv, h2⟩, h1⟩
  have hany : ((List.range n).any fun i => mis i && d i) = true ↔
      ¬ Independent n nbrs (fun v => mis v = true) := by
    rw [hind]
    simp only [List.any_eq_true, List.mem_range, Bool.and_eq_true]
    constructor
    · rintro ⟨i, hi, h1, h2⟩ h
      exact h i hi ⟨h2, h1⟩
    · intro h
      by_contra hn
      exact h fun i hi ⟨h1, h2⟩ => hn ⟨i, hi, h2, h1⟩
  by_cases hI : Independent n nbrs (fun v => mis v = true)
  · rw [if_neg fun h => hany.1 h hI]
    have hs := sum_disj n d mis (hind.1 hI)
    have hf := sum_full n (fun i => d i || mis i)
    have hmax : (∀ v, v < n → ¬ mis v = true → ∃ u ∈ nbrs v, mis u = true) ↔
        ∀ i, i < n → (d i || mis i) = true := by
      constructor
      · intro h i hi
        by_cases hm : mis i = true
        · rw [hm, Bool.or_true]
        · rw [(hdv i hi).2 (h i hi hm), Bool.true_or]
      · intro h v hv hm
        have := h v hv
        rw [Bool.or_eq_true] at this
        exact (hdv v hv).1 (this.resolve_right hm)
    constructor
    · rintro ⟨_, h⟩
      have := hf.2 (hmax.1 h)
      rw [if_neg (by omega)]
    · intro h
      rw [if_pos]
      intro heq
      refine h ⟨hI, hmax.2 (hf.1 ?_)⟩
      have hle : ((List.range n).map fun i => (mis i).toNat).sum ≤ n := by
        have : ∀ k, ((List.range k).map fun i => (mis i).toNat).sum ≤ k := by
          intro k
          induction k with
          | zero => simp
          | succ k ih =>
            simp only [List.range_succ, List.map_append, List.sum_append, List.map_cons, List.map_nil,
              List.sum_cons, List.sum_nil]
            have : (mis k).toNat ≤ 1 := Bool.toNat_le _
            omega
        exact this n
      omega
  · rw [if_pos (hany.2 hI)]
    exact ⟨fun h => absurd h.1 hI, fun _ => rfl⟩

/-- C143 is false for `verify_mis` in the shipped builds: it always ends with "Ok", and reports only "Ok" for a set with
adjacent vertices that is not maximal either. -/
theorem C143_verify_mis_release :
    (∀ n nbrs mis, verifyMis false n nbrs mis = .says [true] ∨ verifyMis false n nbrs mis = .says [false, true]) ∧
    ∃ nbrs : Nat → List Nat, Simple 4 nbrs ∧ verifyMis false 4 nbrs (fun v => v < 2) = .says [true] ∧
      ¬ Independent 4 nbrs (fun v => decide (v < 2) = true) := by
  refine ⟨fun n nbrs mis => ?_, fun v => if v = 0 then [1] else if v = 1 then [0] else [], ?_, by decide +kernel, ?_⟩
  · unfold verifyMis
    simp only [Bool.false_and, Bool.false_eq_true, if_false]
    split
    · exact Or.inr rfl
    · exact Or.inl rfl
  · exact simple_of (by decide +kernel)
  · intro h
    exact h 0 1 (by decide) (by simp) (by simp)

/-! ### Matchings -/

/-- How often `v` is an endpoint. -/
def cnt (l : List (Nat × Nat)) (v : Nat) : Nat :=
  (l.map fun e => (if e.1 = v then 1 else 0) + (if e.2 = v then 1 else 0)).sum

theorem cnt_cons (e : Nat × Nat) (l : List (Nat × Nat)) (v : Nat) :
    cnt (e :: l) v = (if e.1 = v then 1 else 0) + (if e.2 = v then 1 else 0) + cnt l v := rfl

theorem cnt_le (l : List (Nat × Nat)) (v : Nat) : cnt l v ≤ 2 * l.length := by
  induction l with
  | nil => simp [cnt]
  | cons e l ih =>
    rw [cnt_cons, List.length_cons]
    split <;> split <;> omega

theorem cnt_zero (l : List (Nat × Nat)) (v : Nat) : cnt l v = 0 ↔ ∀ e ∈ l, e.1 ≠ v ∧ e.2 ≠ v := by
  induction l with
  | nil => simp [cnt]
  | cons e l ih =>
    rw [cnt_cons, List.forall_mem_cons, ← ih]
    by_cases h1 : e.1 = v <;> by_cases h2 : e.2 = v <;> simp [h1, h2]

theorem cnt_disj {l : List (Nat × Nat)} (hl : ∀ e ∈ l, e.1 ≠ e.2) :
    (∀ v, cnt l v ≤ 1) ↔ l.Pairwise Disjoint' := by
  induction l with
  | nil => simp [cnt]
  | cons e l ih =>
    have hne := hl e List.mem_cons_self
    rw [List.pairwise_cons, ← ih fun f hf => hl f (List.mem_cons_of_mem _ hf)]
    constructor
    · intro h
      refine ⟨fun f hf => ?_, fun v => by have := h v; rw [cnt_cons] at this; omega⟩
      have key : ∀ v, (e.1 = v ∨ e.2 = v) → f.1 ≠ v ∧ f.2 ≠ v := by
        intro v hv
        have h1 := h v
        rw [cnt_cons] at h1
        have h2 : cnt l v = 0 := by
          rcases hv with hv | hv
          · rw [if_pos hv] at h1; omega
          · rw [if_pos hv] at h1; omega
        exact (cnt_zero l v).1 h2 f hf
      have k1 := key e.1 (Or.inl rfl)
      have k2 := key e.2 (Or.inr rfl)
      exact ⟨Ne.symm k1.1, Ne.symm k1.2, Ne.symm k2.1, Ne.symm k2.2⟩
    · rintro ⟨h1, h2⟩ v
      rw [cnt_cons]
      by_cases hv : e.1 = v ∨ e.2 = v
      · have h0 : cnt l v = 0 := by
          rw [cnt_zero]
          intro f hf
          obtain ⟨a, b, c, d⟩ := h1 f hf
          rcases hv with rfl | rfl
          · exact ⟨Ne.symm a, Ne.symm b⟩
          · exact ⟨Ne.symm c, Ne.symm d⟩
        rw [h0]
        by_cases h3 : e.1 = v
        · rw [if_pos h3, if_neg (by rw [← h3]; exact Ne.symm hne)]
        · rw [if_neg h3]; split <;> omega
      · rw [if_neg fun h => hv (Or.inl h), if_neg fun h => hv (Or.inr h)]
        have := h2 v
        omega

theorem matched_eq {l : List (Nat × Nat)} (h : l.length < 2147483648) (v : Nat) : matched l v = cnt l v := by
  have := cnt_le l v
  show cnt l v % 4294967296 = _
  exact Nat.mod_eq_of_lt (by omega)

/-- What `verify_matching` decides. -/
theorem verifyMatching_iff (asserts : Bool) {n : Nat} {nbrs : Nat → List Nat}
    {l : List (Nat × Nat)} (hr : ∀ e ∈ l, e.1 < n ∧ e.2 < n) (hlen : l.length < 2147483648) :
    (verifyMatching asserts n nbrs l = .says [true] ↔ (asserts = true → ∀ v, cnt l v ≤ 1) ∧
      ∀ u v, u < n → v ∈ nbrs u → ¬ (cnt l u = 0 ∧ cnt l v = 0)) := by
  have h0 : (l.any fun e => decide (n ≤ e.1) || decide (n ≤ e.2)) = false := by
    rw [List.any_eq_false]
    intro e he
    have := hr e he
    simp; omega
  have hv : ((List.range n).all fun i => !decide (1 < matched l i)) = true ↔ ∀ v, cnt l v ≤ 1 := by
    simp only [List.all_eq_true, List.mem_range, Bool.not_eq_true', decide_eq_false_iff_not, Nat.not_lt,
      matched_eq hlen]
    refine ⟨fun h v => ?_, fun h v _ => h v⟩
    by_cases hvn : v < n
    · exact h v hvn
    · have : cnt l v = 0 := (cnt_zero l v).2 fun e he => by have := hr e he; omega
      omega
  unfold verifyMatching
  rw [h0]
  simp only [Bool.false_eq_true, if_false]
  by_cases ha : asserts = true ∧ ¬ ∀ v, cnt l v ≤ 1
  · rw [if_pos]
    · constructor
      · intro h; cases h
      · rintro ⟨h, _⟩; exact absurd (h ha.1) ha.2
    · rw [Bool.and_eq_true, Bool.not_eq_true', ← Bool.not_eq_true, hv]
      exact ha
  · rw [if_neg (by rw [Bool.and_eq_true, Bool.not_eq_true', ← Bool.not_eq_true, hv]; exact ha)]
    have ha' : asserts = true → ∀ v, cnt l v ≤ 1 := fun h => by
      by_contra h2; exact ha ⟨h, h2⟩
    simp only [Out.says.injEq, List.cons.injEq, and_true, decide_eq_true_eq]
    rw [eq_comm, sum_full]
    simp only [matched_eq hlen, Bool.not_eq_true']
    constructor
    · intro h
      refine ⟨ha', fun u v hu hv hc => ?_⟩
      have := h u hu
      rw [List.any_eq_false] at this
      refine this u (List.mem_range.2 hu) (List.any_eq_true.2 ⟨v, hv, ?_⟩)
      simp [hc.1, hc.2]
    · rintro ⟨_, h⟩ i hi
      rw [← Bool.not_eq_true]
      intro hc
      simp only [List.any_eq_true, List.mem_range, Bool.and_eq_true, decide_eq_true_eq] at hc
      obtain ⟨u, hu, v, hv, _, hc⟩ := hc
      exact h u v hu hv hc

theorem not_disjoint_iff (u v : Nat) (e : Nat × Nat) :
    ¬ Disjoint' (u, v) e ↔ (e.1 = u ∨ e.2 = u) ∨ e.1 = v ∨ e.2 = v := by
  unfold Disjoint'
  simp only
  omega

theorem meets_iff (l : List (Nat × Nat)) (u v : Nat) :
    ¬ (cnt l u = 0 ∧ cnt l v = 0) ↔ ∃ e ∈ l, ¬ Disjoint' (u, v) e := by
  rw [cnt_zero, cnt_zero]
  simp only [not_disjoint_iff]
  constructor
  · intro h
    by_contra hn
    refine h ⟨fun e he => ?_, fun e he => ?_⟩
    · exact ⟨fun h1 => hn ⟨e, he, Or.inl (Or.inl h1)⟩, fun h1 => hn ⟨e, he, Or.inl (Or.inr h1)⟩⟩
    · exact ⟨fun h1 => hn ⟨e, he, Or.inr (Or.inl h1)⟩, fun h1 => hn ⟨e, he, Or.inr (Or.inr h1)⟩⟩
  · rintro ⟨e, he, h⟩ ⟨h1, h2⟩
    have a := h1 e he
    have b := h2 e he
    omega

/-- C143, matchings, partial: with assertions, among the lists of edges of a simple graph `verify_matching` reports "OK"
exactly for the maximal matchings.  Missing: lists with pairs that are no edges (`C143_matching_non_edges`), and builds
without assertions (`C143_matching_release`). -/
theorem C143_matching_partial (n : Nat) (nbrs : Nat → List Nat) (hG : Simple n nbrs) (l : List (Nat × Nat))
    (hsub : ∀ e ∈ l, e.1 < n ∧ e.2 ∈ nbrs e.1) (hlen : l.length < 2147483648) :
    verifyMatching true n nbrs l = .says [true] ↔ MaxMatching n nbrs l := by
  have hr : ∀ e ∈ l, e.1 < n ∧ e.2 < n := fun e he => ⟨(hsub e he).1, hG.lt _ _ (hsub e he).1 (hsub e he).2⟩
  have hne : ∀ e ∈ l, e.1 ≠ e.2 := fun e he h => hG.loop e.1 (hsub e he).1 (by
    have := (hsub e he).2
    rwa [← h] at this)
  rw [verifyMatching_iff true hr hlen]
  simp only [meets_iff, forall_const, cnt_disj hne]
  exact ⟨fun h => ⟨hsub, h.1, h.2⟩, fun h => ⟨h.disj, h.maxi⟩⟩

/-- C143 is false for `verify_matching` in the shipped builds: every list of vertex pairs that meets all edges is
reported "OK", whether matching or not; so is the list of all three edges of a path. -/
theorem C143_matching_release :
    (∀ (n : Nat) (nbrs : Nat → List Nat), Simple n nbrs → ∀ l : List (Nat × Nat), (∀ e ∈ l, e.1 < n ∧ e.2 < n) →
      l.length < 2147483648 → (∀ u v, u < n → v ∈ nbrs u → ∃ e ∈ l, ¬ Disjoint' (u, v) e) →
      verifyMatching false n nbrs l = .says [true]) ∧
    ∃ nbrs : Nat → List Nat, Simple 4 nbrs ∧ verifyMatching false 4 nbrs [(0, 1), (1, 2), (2, 3)] = .says [true] ∧
      ¬ MaxMatching 4 nbrs [(0, 1), (1, 2), (2, 3)] := by
  refine ⟨fun n nbrs hG l hr hlen h => ?_, fun v => if v = 0 then [1] else if v = 1 then [0, 2] else
    if v = 2 then [1, 3] else if v = 3 then [2] else [], ?_, by decide +kernel, fun h => ?_⟩
  · rw [verifyMatching_iff false hr hlen]
    exact ⟨fun h => Bool.noConfusion h, fun u v hu hv => (meets_iff l u v).2 (h u v hu hv)⟩
  · exact simple_of (by decide +kernel)
  · have := h.disj
    rw [List.pairwise_cons] at this
    exact (this.1 (1, 2) (by simp)).2.2.1 rfl

/-- C143 is false for `verify_matching` also with assertions: it does not look whether the pairs are edges.  In the
graph with the edge `0 - 1` the pairs `(0, 2), (1, 3)` are "OK". -/
theorem C143_matching_non_edges : ∃ nbrs : Nat → List Nat, Simple 4 nbrs ∧
    verifyMatching true 4 nbrs [(0, 2), (1, 3)] = .says [true] ∧ ¬ MaxMatching 4 nbrs [(0, 2), (1, 3)] := by
  refine ⟨fun v => if v = 0 then [1] else if v = 1 then [0] else [], ?_, by decide +kernel, fun h => ?_⟩
  · exact simple_of (by decide +kernel)
  · have := (h.sub (0, 2) (by simp)).2
    simp at this

/-! ### Spanning forests -/

/-- What `check_spanning_forest` decides: the numbers of edges, and the partitions of the vertices other than 0. -/
theorem C143_forest_decides (n : Nat) (cc : List (Nat × Nat) → List Nat) (hcc : Labels n cc)
    (correct check : List (Nat × Nat)) (h1 : ∀ e ∈ correct, e.1 < n ∧ e.2 < n) (h2 : ∀ e ∈ check, e.1 < n ∧ e.2 < n) :
    (checkForest cc correct check = .says [true] ∨ checkForest cc correct check = .stopped) ∧
    (checkForest cc correct check = .says [true] ↔ correct.length = check.length ∧
      ∀ u v, 0 < u → u < n → 0 < v → v < n → (SF.LConn correct u v ↔ SF.LConn check u v)) := by
  obtain ⟨f, e1, b1, c1⟩ := hcc correct h1
  obtain ⟨g, e2, b2, c2⟩ := hcc check h2
  unfold checkForest
  by_cases hl : correct.length = check.length
  swap
  · rw [if_pos hl]
    exact ⟨Or.inr rfl, by simp [hl]⟩
  rw [if_neg (by simpa using hl)]
  cases n with
  | zero =>
    rw [e1, e2]
    exact ⟨Or.inl rfl, fun _ => ⟨hl, fun u v _ h => absurd h (by omega)⟩, fun _ => rfl⟩
  | succ n =>
    obtain ⟨r, hr, hiff⟩ := CCCheck.ccCheck_iff (a := f 0) (b := g 0)
      (l := (List.range n).map fun i => (f (i + 1), g (i + 1))) (by
        have := b1 0 (by omega)
        have := b2 0 (by omega)
        simp; omega) (by
        intro p hp
        obtain ⟨i, hi, rfl⟩ := List.mem_map.1 hp
        have hi := List.mem_range.1 hi
        have := b1 (i + 1) (by omega)
        have := b2 (i + 1) (by omega)
        simp; omega)
    have e3 : cc correct = f 0 :: ((List.range n).map fun i => (f (i + 1), g (i + 1))).map Prod.fst := by
      rw [e1, List.range_succ_eq_map, List.map_cons, List.map_map, List.map_map]; rfl
    have e4 : cc check = g 0 :: ((List.range n).map fun i => (f (i + 1), g (i + 1))).map Prod.snd := by
      rw [e2, List.range_succ_eq_map, List.map_cons, List.map_map, List.map_map]; rfl
    rw [e3, e4, hr]
    have hsp : CCCheck.SamePartition ((List.range n).map fun i => (f (i + 1), g (i + 1))) ↔
        ∀ u v, 0 < u → u < n + 1 → 0 < v → v < n + 1 → (SF.LConn correct u v ↔ SF.LConn check u v) := by
      constructor
      · intro h u v hu0 hu hv0 hv
        have := h (f u, g u) (List.mem_map.2 ⟨u - 1, List.mem_range.2 (by omega), by
          rw [Nat.sub_add_cancel hu0]⟩) (f v, g v) (List.mem_map.2 ⟨v - 1, List.mem_range.2 (by omega), by
          rw [Nat.sub_add_cancel hv0]⟩)
        rw [← c1 u v hu hv, ← c2 u v hu hv]
        exact this
      · intro h p hp q hq
        obtain ⟨i, hi, rfl⟩ := List.mem_map.1 hp
        obtain ⟨j, hj, rfl⟩ := List.mem_map.1 hq
        have hi := List.mem_range.1 hi
        have hj := List.mem_range.1 hj
        show f (i + 1) = f (j + 1) ↔ g (i + 1) = g (j + 1)
        rw [c1 _ _ (by omega) (by omega), c2 _ _ (by omega) (by omega)]
        exact h _ _ (by omega) (by omega) (by omega) (by omega)
    cases r with
    | true =>
      exact ⟨Or.inl rfl, fun _ => ⟨hl, hsp.1 (hiff.1 rfl)⟩, fun _ => rfl⟩
    | false =>
      refine ⟨Or.inr rfl, ⟨fun h => ?_, fun h => ?_⟩⟩
      · cases h
      · exact absurd (hiff.2 (hsp.2 h.2)) (by decide)

theorem isForest_toE {l : List (Nat × Nat)} (h : ∀ pre e post, l = pre ++ e :: post → ¬ SF.LConn (pre ++ post) e.1 e.2) :
    Forest.IsForest (l.map SF.toE) := by
  intro pre e post hpe
  obtain ⟨p1, p2, rfl, rfl, h3⟩ := List.map_eq_append_iff.1 hpe
  obtain ⟨e', p3, rfl, rfl, rfl⟩ := List.map_eq_cons_iff.1 h3
  rw [← List.map_append, show (SF.toE e').1 = e'.1 from rfl, show (SF.toE e').2.1 = e'.2 from rfl, ← SF.lconn_iff]
  exact h _ _ _ rfl

theorem below_toE {n : Nat} {l : List (Nat × Nat)} (h : ∀ e ∈ l, e.1 < n ∧ e.2 < n) : Forest.Below n (l.map SF.toE) := by
  intro e he
  obtain ⟨e', h1, rfl⟩ := List.mem_map.1 he
  exact h _ h1

/-- C143, spanning forests, partial.  Every spanning forest of the graph is accepted.  A list of edges of the graph that
is accepted is a spanning forest if it has no cycle.  Missing: other lists (`C143_forest_accepts_cycle`,
`C143_forest_accepts_non_edges`). -/
theorem C143_forest_partial (n : Nat) (cc : List (Nat × Nat) → List Nat) (hcc : Labels n cc)
    (adj : Nat → Nat → Prop) (hb : ∀ x y, adj x y → x < n ∧ y < n)
    (correct check : List (Nat × Nat)) (hc : SF.IsSF adj correct) :
    (SF.IsSF adj check → checkForest cc correct check = .says [true]) ∧
    (checkForest cc correct check = .says [true] → (∀ e ∈ check, adj e.1 e.2) →
      (∀ pre e post, check = pre ++ e :: post → ¬ SF.LConn (pre ++ post) e.1 e.2) → SF.IsSF adj check) := by
  have r1 : ∀ e ∈ correct, e.1 < n ∧ e.2 < n := fun e he => hb _ _ (hc.sub e he)
  have hin : ∀ {l : List (Nat × Nat)}, (∀ e ∈ l, adj e.1 e.2) → ∀ {x y}, SF.LConn l x y → Conn adj x y :=
    fun h _ _ hxy => conn_le (s := Conn adj) (conn_equiv adj) (fun a b hab => .rel _ _ (h _ hab)) hxy
  constructor
  · intro hk
    have r2 : ∀ e ∈ check, e.1 < n ∧ e.2 < n := fun e he => hb _ _ (hk.sub e he)
    refine (C143_forest_decides n cc hcc correct check r1 r2).2.2 ⟨?_, fun u v _ _ _ _ =>
      ⟨fun h => hk.spans _ _ (hin hc.sub h), fun h => hc.spans _ _ (hin hk.sub h)⟩⟩
    have f1 := (Forest.forest_iff (below_toE r1)).1 (isForest_toE hc.forest)
    have f2 := (Forest.forest_iff (below_toE r2)).1 (isForest_toE hk.forest)
    have hcong := Forest.ncomp_congr n (A := correct.map SF.toE) (B := check.map SF.toE) (by
      intro e he
      obtain ⟨e', h1, rfl⟩ := List.mem_map.1 he
      exact (SF.lconn_iff _ _ _).1 (hk.spans _ _ (.rel _ _ (hc.sub _ h1)))) (by
      intro e he
      obtain ⟨e', h1, rfl⟩ := List.mem_map.1 he
      exact (SF.lconn_iff _ _ _).1 (hc.spans _ _ (.rel _ _ (hk.sub _ h1))))
    rw [List.length_map] at f1 f2
    omega
  · intro hacc hsub hfor
    have r2 : ∀ e ∈ check, e.1 < n ∧ e.2 < n := fun e he => hb _ _ (hsub e he)
    have hlen := ((C143_forest_decides n cc hcc correct check r1 r2).2.1 hacc).1
    refine ⟨hsub, hfor, fun x y hxy => conn_le (SF.lconn_equiv check) (fun a b hab => ?_) hxy⟩
    by_contra hn
    have hsn := Forest.forest_snoc (e := SF.toE (a, b)) (below_toE r2) (hb _ _ hab).1 (hb _ _ hab).2
      (isForest_toE hfor) (fun h => hn ((SF.lconn_iff _ _ _).2 h))
    have hle := Forest.forest_le (n := n) (A := check.map SF.toE ++ [SF.toE (a, b)]) (B := correct.map SF.toE) (by
      intro e he
      rcases List.mem_append.1 he with he | he
      · exact below_toE r2 e he
      · rw [List.mem_singleton] at he
        subst he
        exact hb _ _ hab) (below_toE r1) hsn (by
      intro e he
      rcases List.mem_append.1 he with he | he
      · obtain ⟨e', h1, rfl⟩ := List.mem_map.1 he
        exact (SF.lconn_iff _ _ _).1 (hc.spans _ _ (.rel _ _ (hsub _ h1)))
      · rw [List.mem_singleton] at he
        subst he
        exact (SF.lconn_iff _ _ _).1 (hc.spans _ _ (.rel _ _ hab)))
    simp only [List.length_append, List.length_map, List.length_singleton] at hle
    omega

theorem lconn_123 {l : List (Nat × Nat)} (h12 : (1, 2) ∈ l) (h23 : (2, 3) ∈ l) {u v : Nat} (hu0 : 0 < u) (hu : u < 4)
    (hv0 : 0 < v) (hv : v < 4) : SF.LConn l u v := by
  have e := SF.lconn_equiv l
  have a1 : SF.LConn l 1 2 := .rel _ _ h12
  have a2 : SF.LConn l 2 3 := .rel _ _ h23
  have key : ∀ w, 0 < w → w < 4 → SF.LConn l w 2 := by
    intro w h0 h1
    obtain rfl | rfl | rfl : w = 1 ∨ w = 2 ∨ w = 3 := by omega
    · exact a1
    · exact e.refl _
    · exact e.symm a2
  exact e.trans (key u hu0 hu) (e.symm (key v hv0 hv))

/-- C143 is false for `check_spanning_forest`: in the graph `0 - 1`, `1 - 2`, `2 - 3`, `1 - 3`, the triangle is accepted
as a spanning forest, whatever labels the components get. -/
theorem C143_forest_accepts_cycle (cc : List (Nat × Nat) → List Nat) (hcc : Labels 4 cc) :
    let adj := fun x y => (x, y) ∈ [(0, 1), (1, 2), (2, 3), (1, 3)]
    checkForest cc [(0, 1), (1, 2), (2, 3)] [(1, 2), (2, 3), (1, 3)] = .says [true] ∧
      (∀ e ∈ [(1, 2), (2, 3), (1, 3)], adj e.1 e.2) ∧ ¬ SF.IsSF adj [(1, 2), (2, 3), (1, 3)] := by
  refine ⟨(C143_forest_decides 4 cc hcc _ _ (by decide) (by decide)).2.2 ⟨rfl, fun u v h1 h2 h3 h4 => ?_⟩, by decide,
    fun h => ?_⟩
  · exact iff_of_true (lconn_123 (by decide) (by decide) h1 h2 h3 h4) (lconn_123 (by decide) (by decide) h1 h2 h3 h4)
  · have := h.spans 0 1 (.rel _ _ (by decide))
    have h1 := conn_isolated (adj := fun a b => (a, b) ∈ [(1, 2), (2, 3), (1, 3)]) (x := 0) (by
      intro y _
      simp) this
    exact absurd h1 (by decide)

/-- The edges of the result are not compared with the graph either: in the graph `0 - 1`, `2 - 3` the list `0 - 2`,
`2 - 3` is accepted, though it connects other vertices. -/
theorem C143_forest_accepts_non_edges (cc : List (Nat × Nat) → List Nat) (hcc : Labels 4 cc) :
    let adj := fun x y => (x, y) ∈ [(0, 1), (2, 3)]
    SF.IsSF adj [(0, 1), (2, 3)] ∧ checkForest cc [(0, 1), (2, 3)] [(0, 2), (2, 3)] = .says [true] ∧
      ¬ SF.IsSF adj [(0, 2), (2, 3)] ∧ SF.LConn [(0, 2), (2, 3)] 0 2 ∧ ¬ SF.LConn [(0, 1), (2, 3)] 0 2 := by
  have hS : ∀ {l : List (Nat × Nat)} (S : Nat → Prop), (∀ e ∈ l, S e.1 ↔ S e.2) → ∀ {x y}, SF.LConn l x y → (S x ↔ S y) :=
    fun S h _ _ hxy => conn_closed (S := S) (fun a b hab => h _ hab) hxy
  refine ⟨⟨by decide, fun pre e post hpe hc => ?_, fun x y h => h⟩,
    (C143_forest_decides 4 cc hcc _ _ (by decide) (by decide)).2.2 ⟨rfl, fun u v h1 h2 h3 h4 => ?_⟩,
    fun h => absurd (h.sub (0, 2) (by decide)) (by decide), .rel _ _ (by decide), fun h => ?_⟩
  · match pre, hpe with
    | [], hpe =>
      simp only [List.nil_append, List.cons.injEq] at hpe
      obtain ⟨rfl, rfl⟩ := hpe
      have := hS (fun x => x = 0) (by decide) hc
      simp at this
    | [_], hpe =>
      simp only [List.cons_append, List.nil_append, List.cons.injEq] at hpe
      obtain ⟨rfl, rfl, rfl⟩ := hpe
      have := hS (fun x => x = 2) (by decide) hc
      simp at this
    | _ :: _ :: _, hpe => simp at hpe
  · have hA := fun h => hS (l := [(0, 1), (2, 3)]) (fun x => x = 1 ∨ x = 0) (by decide) (x := u) (y := v) h
    have hB := fun h => hS (l := [(0, 2), (2, 3)]) (fun x => x = 1) (by decide) (x := u) (y := v) h
    have k1 : SF.LConn [(0, 1), (2, 3)] 2 3 := .rel _ _ (by decide)
    have k2 : SF.LConn [(0, 2), (2, 3)] 2 3 := .rel _ _ (by decide)
    have e1 := SF.lconn_equiv [(0, 1), (2, 3)]
    have e2 := SF.lconn_equiv [(0, 2), (2, 3)]
    by_cases hu : u = 1 <;> by_cases hv : v = 1
    · subst hu; subst hv
      exact iff_of_true (e1.refl _) (e2.refl _)
    · exact iff_of_false (fun h => by have := hA h; omega) (fun h => by have := hB h; omega)
    · exact iff_of_false (fun h => by have := hA h; omega) (fun h => by have := hB h; omega)
    · obtain rfl | rfl : u = 2 ∨ u = 3 := by omega
      · obtain rfl | rfl : v = 2 ∨ v = 3 := by omega
        · exact iff_of_true (e1.refl _) (e2.refl _)
        · exact iff_of_true k1 k2
      · obtain rfl | rfl : v = 2 ∨ v = 3 := by omega
        · exact iff_of_true (e1.symm k1) (e2.symm k2)
        · exact iff_of_true (e1.refl _) (e2.refl _)
  · have := hS (fun x => x = 0 ∨ x = 1) (by decide) h
    simp at this

/-! ### The hypotheses are met -/

/-- Labellings exist: the least connected vertex. -/
example (n : Nat) : ∃ cc, Labels n cc := by
  classical
  have hex : ∀ l v, ∃ u, SF.LConn l u v := fun l v => ⟨v, (SF.lconn_equiv l).refl v⟩
  refine ⟨fun l => (List.range n).map fun v => Nat.find (hex l v), fun l _ => ⟨fun v => Nat.find (hex l v), rfl,
    fun v hv => ?_, fun u v _ _ => ⟨fun h => ?_, fun h => ?_⟩⟩⟩
  · have : Nat.find (hex l v) ≤ v := Nat.find_min' (hex l v) ((SF.lconn_equiv l).refl v)
    show Nat.find (hex l v) ≤ n
    omega
  · have e := SF.lconn_equiv l
    have h1 := Nat.find_spec (hex l u)
    have h2 := Nat.find_spec (hex l v)
    have h : Nat.find (hex l u) = Nat.find (hex l v) := h
    rw [← h] at h2
    exact e.trans (e.symm h1) h2
  · have e := SF.lconn_equiv l
    exact Nat.le_antisymm (Nat.find_min' _ (e.trans (Nat.find_spec (hex l v)) (e.symm h)))
      (Nat.find_min' _ (e.trans (Nat.find_spec (hex l u)) h))

/-- A simple graph, the path `0 - 1 - 2 - 3`, with the answers of the checkers. -/
example : ∃ nbrs : Nat → List Nat, Simple 4 nbrs ∧
    verifyColoring 4 nbrs (fun v => v % 2) = true ∧ verifyColoring 4 nbrs (fun v => v / 2) = false ∧
    verifyMISet 4 nbrs (fun v => v == 0 || v == 3) = true ∧ verifyMISet 4 nbrs (fun v => v == 0) = false ∧
    verifyMatching true 4 nbrs [(1, 2)] = .says [true] ∧ verifyMatching true 4 nbrs [(0, 1), (1, 2)] = .stopped ∧
    verifyMatching true 4 nbrs [(0, 1)] = .says [false] := by
  refine ⟨fun v => if v = 0 then [1] else if v = 1 then [0, 2] else if v = 2 then [1, 3] else if v = 3 then [2] else [],
    ?_, by decide +kernel⟩
  exact simple_of (by decide +kernel)

end Gbbs.Verify
