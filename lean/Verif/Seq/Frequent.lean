/-
C152: `sample_frequent_element`, `benchmarks/Connectivity/connectit.h:88-118`, and the batches of `annotate_updates`,
`benchmarks/Connectivity/common.h:15-67` and `common.cc`.
-/
import Verif.Common
import Mathlib.Data.Rat.Floor
import Mathlib.Data.List.Count
import Mathlib.Tactic.Linarith
import Mathlib.Tactic.Positivity
import Mathlib.Tactic.NormNum

namespace Gbbs.Frequent

/-! ### Model of `sample_frequent_element` -/

/-- What a call does: returns a label and its count (the fraction returned is the count divided by `num_samples`), reads outside of `S`,
overflows an `int`, dereferences `end()`, or is still in its loop. -/
inductive Out
  | ok (label count : Nat)
  | oob
  | overflow
  | endIt
  | running
deriving DecidableEq, Repr

/-- `sample_counts[k]++`, `connectit.h:103`, on the entries of the map in some order: a new entry starts at 0; the values are `int`. -/
def bump : List (Nat × Nat) → Nat → Option (List (Nat × Nat))
  | [], k => some [(k, 1)]
  | (a, c) :: m, k =>
    if a = k then (if c + 1 < 2 ^ 31 then some ((a, c + 1) :: m) else none) else (bump m k).map ((a, c) :: ·)

/-- The upper end of the distribution, `connectit.h:100`: `S.size() - 1` in `size_t`, converted to `T`, here the 32-bit `uintE`. -/
def top (len : Nat) : Nat := (len + 2 ^ 64 - 1) % 2 ^ 64 % 2 ^ 32

/-- The loop, `connectit.h:101-104`: `i` is the counter of type `T`, `t` the number of draws so far, `rand t` the next draw. -/
def loop (S : Nat → Nat) (len num : Nat) (rand : Nat → Nat) : Nat → Nat → Nat → List (Nat × Nat) → Except Out (List (Nat × Nat))
  | 0, _, _, _ => .error .running
  | fuel + 1, i, t, m =>
    if i < num then
      if rand t < len then
        match bump m (S (rand t)) with
        | none => .error .overflow
        | some m' => loop S len num rand fuel ((i + 1) % 2 ^ 32) (t + 1) m'
      else .error .oob
    else .ok m

/-- `std::max_element` with the comparison of the counts, `connectit.h:106-108`: the first greatest in the order of iteration. -/
def maxElem : List (Nat × Nat) → Option (Nat × Nat)
  | [] => none
  | x :: l => some (l.foldl (fun b y => if b.2 < y.2 then y else b) x)

/-- `sample_frequent_element(S, num_samples)`, `connectit.h:88-118`; `it` is the order in which the hash table is iterated. -/
def frequent (S : Nat → Nat) (len num : Nat) (rand : Nat → Nat) (it : List (Nat × Nat) → List (Nat × Nat)) (fuel : Nat) : Out :=
  match loop S len num rand fuel 0 0 [] with
  | .error o => o
  | .ok m =>
    match maxElem (it m) with
    | none => .endIt
    | some (k, c) => .ok k c

/-! ### Specification -/

/-- The values drawn. -/
def drawn (S : Nat → Nat) (rand : Nat → Nat) (num : Nat) : List Nat := (List.range num).map fun t => S (rand t)

/-! ### Proof -/

/-- The map holds the number of occurrences in `xs`. -/
structure Tally (m : List (Nat × Nat)) (xs : List Nat) : Prop where
  val : ∀ k c, (k, c) ∈ m → c = xs.count k ∧ 0 < c
  mem : ∀ k ∈ xs, ∃ c, (k, c) ∈ m
  nodup : (m.map Prod.fst).Nodup

theorem bump_spec (m : List (Nat × Nat)) (k : Nat) (hn : (m.map Prod.fst).Nodup) (hb : ∀ k c, (k, c) ∈ m → c + 1 < 2 ^ 31) :
    ∃ m', bump m k = some m' ∧ (m'.map Prod.fst).Nodup ∧
      ∀ a c, (a, c) ∈ m' ↔ (a ≠ k ∧ (a, c) ∈ m) ∨ (a = k ∧ ((k, c - 1) ∈ m ∧ 0 < c ∨ (∀ d, (k, d) ∉ m) ∧ c = 1)) := by
  induction m with
  | nil =>
    refine ⟨[(k, 1)], rfl, by simp, fun a c => ?_⟩
    simp
  | cons x m ih =>
    obtain ⟨a0, c0⟩ := x
    rw [List.map_cons, List.nodup_cons] at hn
    by_cases h : a0 = k
    · subst h
      refine ⟨(a0, c0 + 1) :: m, ?_, ?_, fun a c => ?_⟩
      · rw [bump, if_pos rfl, if_pos (hb a0 c0 List.mem_cons_self)]
      · rw [List.map_cons, List.nodup_cons]; exact hn
      · have hno : ∀ d, (a0, d) ∉ m := fun d hd => hn.1 (List.mem_map.2 ⟨_, hd, rfl⟩)
        constructor
        · intro hm
          rcases List.mem_cons.1 hm with he | hm'
          · obtain ⟨rfl, rfl⟩ := Prod.mk.injEq .. ▸ he
            exact Or.inr ⟨rfl, Or.inl ⟨by simp, by omega⟩⟩
          · by_cases ha : a = a0
            · subst ha; exact absurd hm' (hno c)
            · exact Or.inl ⟨ha, List.mem_cons_of_mem _ hm'⟩
        · rintro (⟨ha, hm⟩ | ⟨rfl, ⟨hm, hc⟩ | ⟨hm, _⟩⟩)
          · rcases List.mem_cons.1 hm with he | hm
            · exact absurd (Prod.mk.injEq .. ▸ he).1 ha
            · exact List.mem_cons_of_mem _ hm
          · rcases List.mem_cons.1 hm with he | hm
            · have := (Prod.mk.injEq .. ▸ he).2
              have hc' : c = c0 + 1 := by omega
              rw [hc']; exact List.mem_cons_self
            · exact absurd hm (hno _)
          · exact absurd List.mem_cons_self (hm c0)
    · obtain ⟨m', h1, h2, h3⟩ := ih hn.2 fun k c hm => hb k c (List.mem_cons_of_mem _ hm)
      refine ⟨(a0, c0) :: m', ?_, ?_, fun a c => ?_⟩
      · rw [bump, if_neg h, h1]; rfl
      · rw [List.map_cons, List.nodup_cons]
        refine ⟨fun hm => ?_, h2⟩
        obtain ⟨⟨a, c⟩, hm', he'⟩ := List.mem_map.1 hm
        have he' : a = a0 := he'
        subst he'
        rcases (h3 a c).1 hm' with ⟨_, hm2⟩ | ⟨he, _⟩
        · exact hn.1 (List.mem_map.2 ⟨_, hm2, rfl⟩)
        · exact h he
      · simp only [List.mem_cons, h3, Prod.mk.injEq]
        have hk : ∀ d, ¬ (k = a0 ∧ d = c0) := fun d hd => h hd.1.symm
        constructor
        · rintro (⟨rfl, rfl⟩ | ⟨h4, h5⟩ | ⟨h4, h5 | h5⟩)
          · exact Or.inl ⟨h, Or.inl ⟨rfl, rfl⟩⟩
          · exact Or.inl ⟨h4, Or.inr h5⟩
          · exact Or.inr ⟨h4, Or.inl ⟨Or.inr h5.1, h5.2⟩⟩
          · exact Or.inr ⟨h4, Or.inr ⟨fun d hd => hd.elim (hk d) (h5.1 d), h5.2⟩⟩
        · rintro (⟨h4, h5 | h5⟩ | ⟨h4, ⟨h5 | h5, h6⟩ | ⟨h5, h6⟩⟩)
          · exact Or.inl h5
          · exact Or.inr (Or.inl ⟨h4, h5⟩)
          · exact absurd h5 (hk _)
          · exact Or.inr (Or.inr ⟨h4, Or.inl ⟨h5, h6⟩⟩)
          · exact Or.inr (Or.inr ⟨h4, Or.inr ⟨fun d hd => h5 d (Or.inr hd), h6⟩⟩)

theorem bump_tally {m : List (Nat × Nat)} {xs : List Nat} (h : Tally m xs) (hl : xs.length + 1 < 2 ^ 31) (k : Nat) :
    ∃ m', bump m k = some m' ∧ Tally m' (xs ++ [k]) := by
  obtain ⟨m', h1, h2, h3⟩ := bump_spec m k h.nodup fun a c hm => by
    rw [(h.val a c hm).1]
    have := List.count_le_length (a := a) (l := xs)
    omega
  refine ⟨m', h1, ⟨fun a c hm => ?_, fun a ha => ?_, h2⟩⟩
  · rw [List.count_append]
    rcases (h3 a c).1 hm with ⟨h4, h5⟩ | ⟨rfl, ⟨h5, h6⟩ | ⟨h5, rfl⟩⟩
    · have := h.val a c h5
      rw [List.count_singleton, if_neg (by simpa using fun he => h4 he.symm)]
      exact ⟨this.1, this.2⟩
    · have := h.val a _ h5
      rw [List.count_singleton_self]
      omega
    · have : xs.count a = 0 := List.count_eq_zero.2 fun hx => by
        obtain ⟨c, hc⟩ := h.mem a hx
        exact h5 c hc
      rw [List.count_singleton_self, this]
      exact ⟨rfl, Nat.one_pos⟩
  · by_cases hk : a = k
    · subst hk
      by_cases he : ∃ d, (a, d) ∈ m
      · obtain ⟨d, hd⟩ := he
        exact ⟨d + 1, (h3 _ _).2 (Or.inr ⟨rfl, Or.inl ⟨by simpa using hd, by omega⟩⟩)⟩
      · exact ⟨1, (h3 _ _).2 (Or.inr ⟨rfl, Or.inr ⟨fun d hd => he ⟨d, hd⟩, rfl⟩⟩)⟩
    · rcases List.mem_append.1 ha with ha | ha
      · obtain ⟨c, hc⟩ := h.mem a ha
        exact ⟨c, (h3 _ _).2 (Or.inl ⟨hk, hc⟩)⟩
      · exact absurd (List.mem_singleton.1 ha) hk

theorem top_lt {len : Nat} (h0 : 0 < len) (h1 : len ≤ 2 ^ 32) : top len = len - 1 := by
  unfold top; omega

theorem loop_spec {S : Nat → Nat} {len num : Nat} {rand : Nat → Nat} (hn : num < 2 ^ 31) (hr : ∀ t, rand t < len) :
    ∀ (fuel i : Nat) (m : List (Nat × Nat)), i ≤ num → num - i < fuel → Tally m (drawn S rand i) →
      ∃ m', loop S len num rand fuel i i m = .ok m' ∧ Tally m' (drawn S rand num) := by
  intro fuel
  induction fuel with
  | zero => intro i m _ h; omega
  | succ fuel ih =>
    intro i m hi hf ht
    by_cases h : i < num
    · obtain ⟨m', h1, h2⟩ := bump_tally ht (by simp [drawn]; omega) (S (rand i))
      rw [loop, if_pos h, if_pos (hr i), h1]
      have he : (i + 1) % 2 ^ 32 = i + 1 := Nat.mod_eq_of_lt (by omega)
      show ∃ m'', loop S len num rand fuel ((i + 1) % 2 ^ 32) (i + 1) m' = .ok m'' ∧ _
      rw [he]
      refine ih (i + 1) m' (by omega) (by omega) ?_
      have : drawn S rand (i + 1) = drawn S rand i ++ [S (rand i)] := by
        simp [drawn, List.range_succ]
      rwa [this]
    · have : i = num := by omega
      subst this
      rw [loop, if_neg h]
      exact ⟨m, rfl, ht⟩

theorem foldl_max (l : List (Nat × Nat)) (x : Nat × Nat) :
    let r := l.foldl (fun b y => if b.2 < y.2 then y else b) x
    (r ∈ x :: l) ∧ ∀ y ∈ x :: l, y.2 ≤ r.2 := by
  induction l generalizing x with
  | nil => simp
  | cons z l ih =>
    simp only [List.foldl_cons]
    obtain ⟨h1, h2⟩ := ih (if x.2 < z.2 then z else x)
    have hx := h2 _ List.mem_cons_self
    refine ⟨?_, fun y hy => ?_⟩
    · rcases List.mem_cons.1 h1 with h | h
      · rw [h]; split <;> simp
      · exact List.mem_cons_of_mem _ (List.mem_cons_of_mem _ h)
    · rcases List.mem_cons.1 hy with rfl | hy
      · refine Nat.le_trans ?_ hx
        split <;> omega
      · rcases List.mem_cons.1 hy with rfl | hy
        · refine Nat.le_trans ?_ hx
          split <;> omega
        · exact h2 _ (List.mem_cons_of_mem _ hy)

/-- C152: for 1 to 2^31 - 1 samples of a non-empty sequence with at most 2^32 elements, whatever is drawn from the distribution and in whatever order the
hash table is iterated: the label returned occurs in the sequence, the count is the number of times it was drawn, and no label was drawn more often. -/
theorem C152_frequent (S : Nat → Nat) (len num : Nat) (rand : Nat → Nat) (it : List (Nat × Nat) → List (Nat × Nat)) (fuel : Nat)
    (h0 : 0 < len) (h1 : len ≤ 2 ^ 32) (hn0 : 0 < num) (hn : num < 2 ^ 31) (hr : ∀ t, rand t ≤ top len) (hit : ∀ m, (it m).Perm m)
    (hf : num < fuel) :
    ∃ x c, frequent S len num rand it fuel = .ok x c ∧ (∃ i, i < len ∧ S i = x) ∧ c = (drawn S rand num).count x ∧ 0 < c ∧ c ≤ num ∧
      ∀ y, (drawn S rand num).count y ≤ c := by
  have hr' : ∀ t, rand t < len := fun t => by have := hr t; rw [top_lt h0 h1] at this; omega
  obtain ⟨m, hm, ht⟩ := loop_spec (S := S) hn hr' fuel 0 [] (by omega) (by omega)
    ⟨fun _ _ h => absurd h (by simp), fun k h => absurd h (by simp [drawn]), by simp⟩
  have hne : it m ≠ [] := fun he => by
    have hp := hit m
    rw [he] at hp
    obtain ⟨c, hc⟩ := ht.mem (S (rand 0)) (by simp only [drawn, List.mem_map, List.mem_range]; exact ⟨0, hn0, rfl⟩)
    rw [hp.symm.eq_nil] at hc
    exact absurd hc (by simp)
  obtain ⟨x, l, hl⟩ := List.exists_cons_of_ne_nil hne
  obtain ⟨h2, h3⟩ := foldl_max l x
  rw [← hl] at h2 h3
  generalize hg : l.foldl (fun b y => if b.2 < y.2 then y else b) x = r at h2 h3
  obtain ⟨k, c⟩ := r
  have hk := ht.val k c ((hit m).mem_iff.1 h2)
  have hlen : (drawn S rand num).length = num := by simp [drawn]
  refine ⟨k, c, ?_, ?_, hk.1, hk.2, ?_, fun y => ?_⟩
  · simp only [frequent, hm, hl, maxElem, hg]
  · have : k ∈ drawn S rand num := List.count_pos_iff.1 (by omega)
    simp only [drawn, List.mem_map] at this
    obtain ⟨t, _, he⟩ := this
    exact ⟨rand t, hr' t, he⟩
  · have := List.count_le_length (a := k) (l := drawn S rand num)
    omega
  · by_cases hy : y ∈ drawn S rand num
    · obtain ⟨d, hd⟩ := ht.mem y hy
      rw [← (ht.val y d hd).1]
      exact h3 (y, d) ((hit m).mem_iff.2 hd)
    · rw [List.count_eq_zero.2 hy]; exact Nat.zero_le _

theorem count_add_le {l : List Nat} {x y : Nat} (h : x ≠ y) : l.count x + l.count y ≤ l.length := by
  induction l with
  | nil => simp
  | cons a l ih =>
    rw [List.count_cons, List.count_cons, List.length_cons]
    by_cases h1 : a = x
    · subst h1; simp [h]; omega
    · simp [h1]; split <;> omega

/-- C152: a label drawn in more than half of the samples is the one returned. -/
theorem C152_majority (S : Nat → Nat) (len num : Nat) (rand : Nat → Nat) (it : List (Nat × Nat) → List (Nat × Nat)) (fuel x : Nat)
    (h0 : 0 < len) (h1 : len ≤ 2 ^ 32) (hn : num < 2 ^ 31) (hr : ∀ t, rand t ≤ top len) (hit : ∀ m, (it m).Perm m)
    (hf : num < fuel) (hx : num < 2 * (drawn S rand num).count x) :
    frequent S len num rand it fuel = .ok x ((drawn S rand num).count x) := by
  have hlen : (drawn S rand num).length = num := by simp [drawn]
  have hn0 : 0 < num := by
    have := List.count_le_length (a := x) (l := drawn S rand num)
    omega
  obtain ⟨y, c, h2, _, h4, _, _, h5⟩ := C152_frequent S len num rand it fuel h0 h1 hn0 hn hr hit hf
  by_cases hy : x = y
  · rw [h2, h4, hy]
  · have := count_add_le (l := drawn S rand num) hy
    have := h5 x
    omega

/-- C152: on a sequence with a single label this label is returned with fraction 1. -/
theorem C152_const (S : Nat → Nat) (len num : Nat) (rand : Nat → Nat) (it : List (Nat × Nat) → List (Nat × Nat)) (fuel x : Nat)
    (h0 : 0 < len) (h1 : len ≤ 2 ^ 32) (hn0 : 0 < num) (hn : num < 2 ^ 31) (hr : ∀ t, rand t ≤ top len) (hit : ∀ m, (it m).Perm m)
    (hf : num < fuel) (hx : ∀ i, i < len → S i = x) : frequent S len num rand it fuel = .ok x num := by
  have hc : (drawn S rand num).count x = num := by
    have : drawn S rand num = List.replicate num x := by
      apply List.eq_replicate_iff.2
      refine ⟨by simp [drawn], fun b hb => ?_⟩
      simp only [drawn, List.mem_map] at hb
      obtain ⟨t, _, rfl⟩ := hb
      have := hr t
      rw [top_lt h0 h1] at this
      exact hx _ (by omega)
    rw [this, List.count_replicate_self]
  have := C152_majority S len num rand it fuel x h0 h1 hn hr hit hf (by omega)
  rwa [hc] at this

example : frequent (fun i => [7, 3, 7].getD i 0) 3 5 (fun t => t % 3) List.reverse 6 = .ok 7 3 := by decide

/-- C152, refuted for an empty sequence: the distribution then runs up to 2^32 - 1, and the first sample is read outside of the sequence. -/
theorem C152_empty_refuted (S : Nat → Nat) (num : Nat) (rand : Nat → Nat) (it : List (Nat × Nat) → List (Nat × Nat)) (fuel : Nat) (hn : 0 < num) :
    top 0 = 2 ^ 32 - 1 ∧ frequent S 0 num rand it (fuel + 1) = .oob :=
  ⟨by decide, by rw [frequent, loop, if_pos hn, if_neg (Nat.not_lt_zero _)]⟩

/-- C152, refuted for no samples: `max_element` returns `end()`, which is dereferenced. -/
theorem C152_zero_refuted (S : Nat → Nat) (len : Nat) (rand : Nat → Nat) (it : List (Nat × Nat) → List (Nat × Nat)) (hit : ∀ m, (it m).Perm m) (fuel : Nat) :
    frequent S len 0 rand it (fuel + 1) = .endIt := by
  rw [frequent, loop, if_neg (Nat.not_lt_zero _)]
  show (match maxElem (it []) with | none => Out.endIt | some (k, c) => .ok k c) = _
  rw [(hit []).eq_nil]; rfl

/-- C152, refuted for 2^32 samples or more: the counter has 32 bits and never reaches the bound, so the call does not return. -/
theorem C152_loop_refuted (S : Nat → Nat) (len num : Nat) (rand : Nat → Nat) (it : List (Nat × Nat) → List (Nat × Nat)) (hn : 2 ^ 32 ≤ num) (fuel : Nat) :
    ∀ x c, frequent S len num rand it fuel ≠ .ok x c := by
  have key : ∀ fuel i t m, i < 2 ^ 32 → ∀ m', loop S len num rand fuel i t m ≠ .ok m' := by
    intro fuel
    induction fuel with
    | zero => intro i t m _ m'; simp [loop]
    | succ fuel ih =>
      intro i t m hi m'
      rw [loop, if_pos (by omega)]
      by_cases hr : rand t < len
      · rw [if_pos hr]
        cases bump m (S (rand t)) with
        | none => simp
        | some m2 => exact ih _ _ _ (Nat.mod_lt _ (by decide)) m'
      · rw [if_neg hr]; simp
  have err : ∀ fuel i t m o, loop S len num rand fuel i t m = .error o → ∀ x c, o ≠ .ok x c := by
    intro fuel
    induction fuel with
    | zero => intro i t m o h x c; simp [loop] at h; subst h; simp
    | succ fuel ih =>
      intro i t m o h x c
      rw [loop] at h
      by_cases h1 : i < num
      · rw [if_pos h1] at h
        by_cases hr : rand t < len
        · rw [if_pos hr] at h
          cases hb : bump m (S (rand t)) with
          | none => rw [hb] at h; simp at h; subst h; simp
          | some m2 => rw [hb] at h; exact ih _ _ _ o h x c
        · rw [if_neg hr] at h; simp at h; subst h; simp
      · rw [if_neg h1] at h; simp at h
  intro x c
  rw [frequent]
  cases hl : loop S len num rand fuel 0 0 [] with
  | error o => exact err _ _ _ _ o hl x c
  | ok m => exact absurd hl (key _ _ _ _ (by decide) m)

/-! ### Batches of updates -/

/-- `UpdateType`, `connectit.h:64`. -/
inductive Kind
  | insertion
  | query
deriving DecidableEq, Repr

/-- `annotate_updates_insert(updates, n)`, `common.h:23-33` and `common.cc:5-15`; `none` is a read outside of `updates`. -/
def annotateInsert (us : List (Nat × Nat)) (n : Nat) : Option (List (Nat × Nat × Kind)) :=
  (List.range n).mapM fun i => (us[i]?).map fun e => (e.1, e.2, Kind.insertion)

/-- What `annotate_updates` does otherwise: a conversion to `size_t` without a value, `abort`, a write outside of `result`, a division by 0. -/
inductive Fail
  | convert
  | abort
  | oob
  | divZero
deriving DecidableEq, Repr

/-- The queries of one iteration, `common.h:52-57`: `n` is the number of vertices, the values are stored in a 32-bit `uintE`. -/
def mkQuery (rnd : Nat → Nat → Nat) (n i : Nat) : Nat × Nat × Kind := (rnd i 0 % n % 2 ^ 32, rnd i 1 % n % 2 ^ 32, .query)

/-- `annotate_updates(updates, insert_to_query, n, permute)`, `common.h:35-63` and `common.cc:17-44`. `rd` is the rounding of a quotient to a `double`, `o1` and
`o2` are the orders of the loops, `shuf` is `random_shuffle` if `permute` is set. NaN and quotients of 2^64 or more are left out. -/
def annotate (rd : ℚ → ℚ) (us : List (Nat × Nat)) (q : ℚ) (n : Nat) (rnd : Nat → Nat → Nat) (o1 o2 : List Nat)
    (shuf : List (Nat × Nat × Kind) → List (Nat × Nat × Kind)) (permute : Bool) : Except Fail (List (Nat × Nat × Kind)) :=
  if q ≤ 0 then .error .convert
  else
    let size := ⌊rd (us.length / q)⌋.toNat
    if 1 < q then .error .abort
    else if size < us.length then .error .oob
    else if n = 0 ∧ us.length < size then .error .divZero
    else
      let a0 : Nat → Nat × Nat × Kind := fun _ => (0, 0, .insertion)
      let a1 := o1.foldl (fun a i => upd a i ((us.getD i (0, 0)).1, (us.getD i (0, 0)).2, .insertion)) a0
      let a2 := o2.foldl (fun a i => upd a i (mkQuery rnd n i)) a1
      let r := slice a2 0 size
      .ok (if permute then shuf r else r)

theorem foldl_upd {α : Type} (f : Nat → α) (o : List Nat) (a : Nat → α) (x : Nat) :
    o.foldl (fun a i => upd a i (f i)) a x = if x ∈ o then f x else a x := by
  induction o generalizing a with
  | nil => simp
  | cons i o ih =>
    rw [List.foldl_cons, ih]
    by_cases h : x ∈ o
    · rw [if_pos h, if_pos (List.mem_cons_of_mem _ h)]
    · rw [if_neg h]
      by_cases h2 : x = i
      · subst h2; rw [upd_same, if_pos List.mem_cons_self]
      · rw [upd_of_ne _ _ h2, if_neg (by simp [h, h2])]

/-- C152: `annotate_updates_insert` marks the first `n` updates as insertions; `n` is a number of updates here, and a greater one reads out of bounds. -/
theorem C152_insert (us : List (Nat × Nat)) (n : Nat) :
    annotateInsert us n = if n ≤ us.length then some ((us.take n).map fun e => (e.1, e.2, Kind.insertion)) else none := by
  unfold annotateInsert
  induction n with
  | zero => simp
  | succ n ih =>
    rw [List.range_succ, List.mapM_append, ih]
    by_cases h : n + 1 ≤ us.length
    · rw [if_pos h, if_pos (by omega)]
      have hn : n < us.length := by omega
      rw [List.mapM_cons, List.mapM_nil, List.getElem?_eq_getElem hn, List.take_succ_eq_append_getElem hn, List.map_append]
      rfl
    · rw [if_neg h]
      by_cases h2 : n ≤ us.length
      · have he : us[n]? = none := List.getElem?_eq_none (by omega)
        rw [if_pos h2]
        simp [List.mapM_cons, he]
      · rw [if_neg h2]; rfl

example : annotateInsert [(1, 2), (3, 4)] 1 = some [(1, 2, .insertion)] ∧ annotateInsert [(1, 2), (3, 4)] 3 = none := by decide

/-- C152: with a ratio in (0, 1] and at least one vertex, for every monotone rounding that is exact on the number of updates, the batch has ⌊m / ratio⌋ entries;
its insertions are the updates, in order unless permuted, and its other entries are queries between vertices of the graph. -/
theorem C152_annotate (rd : ℚ → ℚ) (us : List (Nat × Nat)) (q : ℚ) (n : Nat) (rnd : Nat → Nat → Nat) (o1 o2 : List Nat)
    (shuf : List (Nat × Nat × Kind) → List (Nat × Nat × Kind)) (permute : Bool)
    (hq : 0 < q) (hq1 : q ≤ 1) (hn : 0 < n) (hmono : ∀ x y, x ≤ y → rd x ≤ rd y) (hex : rd us.length = us.length)
    (h1 : ∀ i, i ∈ o1 ↔ i < us.length) (h2 : ∀ i, i ∈ o2 ↔ us.length ≤ i ∧ i < ⌊rd (us.length / q)⌋.toNat)
    (hs : ∀ r, (shuf r).Perm r) :
    ∃ r, annotate rd us q n rnd o1 o2 shuf permute = .ok r ∧ r.length = ⌊rd (us.length / q)⌋.toNat ∧
      (r.filter fun e => e.2.2 = .insertion).Perm (us.map fun e => (e.1, e.2, Kind.insertion)) ∧
      (permute = false → r.take us.length = us.map fun e => (e.1, e.2, Kind.insertion)) ∧
      ∀ e ∈ r, e.2.2 = .query → e.1 < n ∧ e.2.1 < n := by
  have hsz : us.length ≤ ⌊rd (us.length / q)⌋.toNat := by
    have hle : (us.length : ℚ) ≤ us.length / q := by
      rw [le_div_iff₀ hq]
      exact mul_le_of_le_one_right (by positivity) hq1
    have h3 := hmono _ _ hle
    rw [hex] at h3
    have h4 : (us.length : ℤ) ≤ ⌊rd (us.length / q)⌋ := Int.le_floor.2 (by exact_mod_cast h3)
    omega
  generalize hS : ⌊rd (us.length / q)⌋.toNat = size at hsz h2
  let a0 : Nat → Nat × Nat × Kind := fun _ => (0, 0, .insertion)
  let a1 := o1.foldl (fun a i => upd a i ((us.getD i (0, 0)).1, (us.getD i (0, 0)).2, Kind.insertion)) a0
  let a2 := o2.foldl (fun a i => upd a i (mkQuery rnd n i)) a1
  have hrun : annotate rd us q n rnd o1 o2 shuf permute = .ok (if permute then shuf (slice a2 0 size) else slice a2 0 size) := by
    unfold annotate
    simp only [hS]
    rw [if_neg (not_le.2 hq), if_neg (not_lt.2 hq1), if_neg (by omega), if_neg (by omega)]
  have hv1 : ∀ i, i < us.length → a2 i = ((us.getD i (0, 0)).1, (us.getD i (0, 0)).2, Kind.insertion) := fun i hi => by
    show o2.foldl (fun a i => upd a i (mkQuery rnd n i)) a1 i = _
    rw [foldl_upd, if_neg (fun h => by have := (h2 i).1 h; omega)]
    show o1.foldl _ a0 i = _
    rw [foldl_upd (fun i => ((us.getD i (0, 0)).1, (us.getD i (0, 0)).2, Kind.insertion)), if_pos ((h1 i).2 hi)]
  have hv2 : ∀ i, us.length ≤ i → i < size → a2 i = mkQuery rnd n i := fun i hi hi2 => by
    show o2.foldl (fun a i => upd a i (mkQuery rnd n i)) a1 i = _
    rw [foldl_upd, if_pos ((h2 i).2 ⟨hi, hi2⟩)]
  have hsl : slice a2 0 size = (us.map fun e => (e.1, e.2, Kind.insertion)) ++ slice (mkQuery rnd n) us.length (size - us.length) := by
    have : size = us.length + (size - us.length) := by omega
    rw [this, slice_add, Nat.zero_add]
    congr 1
    · apply List.ext_getElem?
      intro i
      by_cases hi : i < us.length
      · rw [slice_getElem? _ _ _ _ hi, Nat.zero_add, hv1 i hi]
        simp [hi]
      · rw [List.getElem?_eq_none (by simpa using hi), List.getElem?_eq_none (by simpa using hi)]
    · rw [show us.length + (size - us.length) - us.length = size - us.length by omega]
      exact slice_congr fun x hx hx2 => hv2 x hx (by omega)
  have hperm : (if permute then shuf (slice a2 0 size) else slice a2 0 size).Perm (slice a2 0 size) := by
    cases permute
    · exact List.Perm.refl _
    · exact hs _
  refine ⟨_, hrun, ?_, ?_, ?_, ?_⟩
  · rw [hperm.length_eq, slice_length]
  · refine (hperm.filter _).trans ?_
    rw [hsl, List.filter_append]
    have e1 : (us.map fun e => (e.1, e.2, Kind.insertion)).filter (fun e => e.2.2 = .insertion) = us.map fun e => (e.1, e.2, Kind.insertion) := by
      rw [List.filter_eq_self]
      intro e he
      obtain ⟨u, _, rfl⟩ := List.mem_map.1 he
      simp
    have e2 : (slice (mkQuery rnd n) us.length (size - us.length)).filter (fun e => e.2.2 = .insertion) = [] := by
      rw [List.filter_eq_nil_iff]
      intro e he
      obtain ⟨x, _, _, rfl⟩ := mem_slice.1 he
      simp [mkQuery]
    rw [e1, e2, List.append_nil]
  · intro hp
    subst hp
    show (slice a2 0 size).take us.length = _
    rw [hsl, List.take_left' (by simp)]
  · intro e he hk
    have he := hperm.mem_iff.1 he
    rw [hsl, List.mem_append] at he
    rcases he with he | he
    · simp only [List.mem_map] at he
      obtain ⟨u, _, rfl⟩ := he
      exact absurd hk (by simp)
    · obtain ⟨x, _, _, rfl⟩ := mem_slice.1 he
      exact ⟨Nat.lt_of_le_of_lt (Nat.mod_le _ _) (Nat.mod_lt _ hn), Nat.lt_of_le_of_lt (Nat.mod_le _ _) (Nat.mod_lt _ hn)⟩

/-- The hypotheses hold for two updates and the ratio 1/2, without rounding. -/
example : ∃ r, annotate id [(1, 2), (3, 4)] (1 / 2) 5 (fun i j => 10 * i + j) [1, 0] [3, 2] id false = .ok r ∧ r.length = 4 := by
  have hf : ⌊id ((([(1, 2), (3, 4)] : List (Nat × Nat)).length : ℚ) / (1 / 2))⌋.toNat = 4 := by norm_num; rfl
  obtain ⟨r, h1, h2, _⟩ := C152_annotate id [(1, 2), (3, 4)] (1 / 2) 5 (fun i j => 10 * i + j) [1, 0] [3, 2] id false
    (by norm_num) (by norm_num) (by norm_num) (fun _ _ h => h) rfl (by simp; omega) (by rw [hf]; simp; omega) (fun r => List.Perm.refl r)
  exact ⟨r, h1, h2.trans hf⟩

/-- C152, refuted without vertices: if there is a query to generate, its end points are computed modulo 0. A ratio of 0 or less has no size, and one above 1 aborts. -/
theorem C152_annotate_refuted (rd : ℚ → ℚ) (us : List (Nat × Nat)) (q : ℚ) (n : Nat) (rnd : Nat → Nat → Nat) (o1 o2 : List Nat)
    (shuf : List (Nat × Nat × Kind) → List (Nat × Nat × Kind)) (permute : Bool) :
    (0 < q → q ≤ 1 → us.length < ⌊rd (us.length / q)⌋.toNat → annotate rd us q 0 rnd o1 o2 shuf permute = .error .divZero) ∧
    (q ≤ 0 → annotate rd us q n rnd o1 o2 shuf permute = .error .convert) ∧
    (1 < q → annotate rd us q n rnd o1 o2 shuf permute = .error .abort) := by
  refine ⟨fun h0 h1 h2 => ?_, fun h => ?_, fun h => ?_⟩
  · unfold annotate
    rw [if_neg (not_le.2 h0)]
    simp only []
    rw [if_neg (not_lt.2 h1), if_neg (by omega), if_pos (by simpa using h2)]
  · unfold annotate; rw [if_pos h]
  · unfold annotate
    rw [if_neg (not_le.2 (lt_trans one_pos h))]
    simp only []
    rw [if_pos h]

end Gbbs.Frequent
