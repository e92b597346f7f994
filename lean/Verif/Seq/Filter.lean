/-
Model of `filter_seq`, `filterf` (both overloads) and `filter_index` of `gbbs/bridge.h`, proofs
for C09.  Arrays are functions from index to value.
-/
import Verif.Common

namespace Gbbs.Filter

variable {T : Type}

/-! ### Model -/

/-- `bridge.h:448-453` (`num_blocks`). -/
def numBlocks (n b : Nat) : Nat := if n = 0 then 0 else 1 + (n - 1) / b

/-- `bridge.h:564-570` (`filter_seq`): `c` iterations from index `i`, next output position `k`. -/
def filterSeq (p : T → Bool) (inp : Nat → T) : (c i k : Nat) → (out : Nat → T) → (Nat → T) × Nat
  | 0, _, k, out => (out, k)
  | c + 1, i, k, out =>
    if p (inp i) then filterSeq p inp c (i + 1) (k + 1) (upd out k (inp i))
    else filterSeq p inp c (i + 1) k out

/-- `bridge.h:585-587` (and 624-626): in-place compaction of a block; `c` iterations from `j`. -/
def compact (p : T → Bool) : (c j k : Nat) → (a : Nat → T) → (Nat → T) × Nat
  | 0, _, k, a => (a, k)
  | c + 1, j, k, a =>
    if p (a j) then compact p c (j + 1) (k + 1) (upd a k (a j))
    else compact p c (j + 1) k a

/-- `bridge.h:580-590`: the body of the first `parallel_for`. -/
def countBlock (p : T → Bool) (b n i : Nat) (st : (Nat → T) × (Nat → Nat)) :
    (Nat → T) × (Nat → Nat) :=
  let s := i * b
  let e := min (s + b) n
  let r := compact p (e - s) s s st.1
  (r.1, upd st.2 i (r.2 - s))

/-- First `parallel_for`, iterations in the given order. -/
def phase1 (p : T → Bool) (b n : Nat) (order : List Nat) (st : (Nat → T) × (Nat → Nat)) :
    (Nat → T) × (Nat → Nat) :=
  order.foldl (fun st i => countBlock p b n i st) st

/-- `bridge.h:599-601`: `O[j] = I[j]` for `j < c`, starting at `j`. -/
def copyLoop (a : Nat → T) (src dst : Nat) : (c j : Nat) → (Nat → T) → (Nat → T)
  | 0, _, out => out
  | c + 1, j, out => copyLoop a src dst c (j + 1) (upd out (dst + j) (a (src + j)))

/-- Second `parallel_for` of `bridge.h:595-603`; `sums` after the scan. -/
def phase2 (b : Nat) (a : Nat → T) (sums : Nat → Nat) (order : List Nat) (out : Nat → T) : Nat → T :=
  order.foldl (fun out i => copyLoop a (i * b) (sums i) (sums (i + 1) - sums i) 0 out) out

/-- `bridge.h:591-594`: `Sums[l] = 0; m = scan_inplace(Sums); Sums[l] = m` on `l+1` entries;
returns the scanned array and `m`. -/
def scanSums (l : Nat) (sums : Nat → Nat) : (Nat → Nat) × Nat :=
  let s0 := upd sums l 0
  let m := exScan s0 (l + 1)
  (upd (fun i => if i ≤ l then exScan s0 i else sums i) l m, m)

/-- `bridge.h:574-604` (`filterf(In, Out, n, p)`) with block size `b`; `sums0` is the uninitialised
`Sums` array, `o1`, `o2` the schedules of the two loops.  Result: `Out` and the returned size. -/
def filterfOut (b : Nat) (p : T → Bool) (n : Nat) (o1 o2 : List Nat) (sums0 : Nat → Nat)
    (inp out : Nat → T) : (Nat → T) × Nat :=
  if n < b then filterSeq p inp n 0 0 out
  else
    let l := numBlocks n b
    let st := phase1 p b n o1 (inp, sums0)
    let s := scanSums l st.2
    (phase2 b st.1 s.1 o2 out, s.2)

/-- `bridge.h:612-616`: the sequential branch of the second overload; records `out(k, v)` calls. -/
def callSeq (p : T → Bool) (inp : Nat → T) : (c i k : Nat) → List (Nat × T) × Nat
  | 0, _, k => ([], k)
  | c + 1, i, k =>
    if p (inp i) then
      let r := callSeq p inp c (i + 1) (k + 1)
      ((k, inp i) :: r.1, r.2)
    else callSeq p inp c (i + 1) k

/-- `bridge.h:608-644` (`filterf(In, n, p, out, out_off)`): the calls to `out` (one linearisation)
and the returned size. -/
def filterfCall (b : Nat) (p : T → Bool) (n off : Nat) (o1 o2 : List Nat) (sums0 : Nat → Nat)
    (inp : Nat → T) : List (Nat × T) × Nat :=
  if n < b then
    let r := callSeq p inp n 0 off
    (r.1, r.2 - off)
  else
    let l := numBlocks n b
    let st := phase1 p b n o1 (inp, sums0)
    let s := scanSums l st.2
    (o2.flatMap fun i =>
      (List.range (s.1 (i + 1) - s.1 i)).map fun j => (off + s.1 i + j, st.1 (i * b + j)), s.2)

/-! ### Sequential parts -/

theorem filterSeq_spec (p : T → Bool) (inp : Nat → T) (c : Nat) : ∀ (i k : Nat) (out : Nat → T),
    (filterSeq p inp c i k out).2 = k + ((slice inp i c).filter p).length ∧
    slice (filterSeq p inp c i k out).1 k ((slice inp i c).filter p).length =
      (slice inp i c).filter p ∧
    ∀ x, (x < k ∨ k + ((slice inp i c).filter p).length ≤ x) →
      (filterSeq p inp c i k out).1 x = out x := by
  induction c with
  | zero => intro i k out; simp [filterSeq]
  | succ c ih =>
    intro i k out
    by_cases hp : p (inp i) = true
    · obtain ⟨h1, h2, h3⟩ := ih (i + 1) (k + 1) (upd out k (inp i))
      simp only [filterSeq, hp, if_true, slice_succ inp i c, List.filter_cons_of_pos hp,
        List.length_cons]
      refine ⟨by omega, ?_, ?_⟩
      · rw [slice_succ, h2, h3 k (by omega)]; simp
      · intro x hx
        rw [h3 x (by omega), upd_of_ne _ _ (by omega)]
    · obtain ⟨h1, h2, h3⟩ := ih (i + 1) k out
      simp only [filterSeq, if_neg hp, slice_succ inp i c, List.filter_cons_of_neg hp]
      exact ⟨h1, h2, h3⟩

theorem compact_spec (p : T → Bool) (c : Nat) : ∀ (j k : Nat) (a : Nat → T), k ≤ j →
    (compact p c j k a).2 = k + ((slice a j c).filter p).length ∧
    slice (compact p c j k a).1 k ((slice a j c).filter p).length = (slice a j c).filter p ∧
    ∀ x, (x < k ∨ j + c ≤ x) → (compact p c j k a).1 x = a x := by
  induction c with
  | zero => intro j k a _; simp [compact]
  | succ c ih =>
    intro j k a hk
    by_cases hp : p (a j) = true
    · obtain ⟨h1, h2, h3⟩ := ih (j + 1) (k + 1) (upd a k (a j)) (by omega)
      have hs : slice (upd a k (a j)) (j + 1) c = slice a (j + 1) c :=
        slice_congr fun x hx _ => upd_of_ne _ _ (by omega)
      rw [hs] at h1 h2
      simp only [compact, hp, if_true, slice_succ a j c, List.filter_cons_of_pos hp,
        List.length_cons]
      refine ⟨by omega, ?_, ?_⟩
      · rw [slice_succ, h2, h3 k (by omega)]; simp
      · intro x hx
        rw [h3 x (by omega), upd_of_ne _ _ (by omega)]
    · obtain ⟨h1, h2, h3⟩ := ih (j + 1) k a (by omega)
      simp only [compact, if_neg hp, slice_succ a j c, List.filter_cons_of_neg hp]
      exact ⟨h1, h2, fun x hx => h3 x (by omega)⟩

theorem copyLoop_apply (a : Nat → T) (src dst c : Nat) : ∀ (j : Nat) (out : Nat → T) (x : Nat),
    copyLoop a src dst c j out x =
      if dst + j ≤ x ∧ x < dst + j + c then a (src + (x - dst)) else out x := by
  induction c with
  | zero => intro j out x; rw [copyLoop, if_neg (by omega)]
  | succ c ih =>
    intro j out x
    rw [copyLoop, ih]
    by_cases h1 : dst + (j + 1) ≤ x ∧ x < dst + (j + 1) + c
    · rw [if_pos h1, if_pos (by omega)]
    · rw [if_neg h1]
      by_cases h2 : x = dst + j
      · subst h2
        rw [upd_same, if_pos (by omega)]; congr 1; omega
      · rw [upd_of_ne _ _ h2, if_neg (by omega)]

/-! ### Blocks -/

/-- The size of block `i`. -/
def blen (b n i : Nat) : Nat := min (i * b + b) n - i * b

/-- What block `i` keeps. -/
def keptBlock (p : T → Bool) (b n : Nat) (inp : Nat → T) (i : Nat) : List T :=
  (slice inp (i * b) (blen b n i)).filter p

theorem numBlocks_bounds {n b : Nat} (hb : 0 < b) (hn : 0 < n) :
    (numBlocks n b - 1) * b < n ∧ n ≤ numBlocks n b * b ∧ 0 < numBlocks n b := by
  have h0 : n ≠ 0 := by omega
  simp only [numBlocks, h0, if_false]
  have h1 := Nat.div_add_mod (n - 1) b
  have h2 := Nat.mod_lt (n - 1) hb
  rw [Nat.mul_comm] at h1
  refine ⟨?_, ?_, Nat.add_pos_left Nat.one_pos _⟩
  · rw [Nat.add_sub_cancel_left]; omega
  · rw [Nat.add_mul]; omega

theorem block_lt {b i j x : Nat} (h : i < j) (hx : x < i * b + b) : x < j * b := by
  have := Nat.mul_le_mul_right b (show i + 1 ≤ j by omega)
  rw [Nat.add_mul] at this; omega

/-- The concatenation of the blocks is the whole input. -/
theorem kept_flatMap (p : T → Bool) (b n : Nat) (inp : Nat → T) (hb : 0 < b) :
    (List.range (numBlocks n b)).flatMap (keptBlock p b n inp) = (slice inp 0 n).filter p := by
  rcases Nat.eq_zero_or_pos n with rfl | hn
  · simp [numBlocks]
  obtain ⟨h1, h2, h3⟩ := numBlocks_bounds hb hn
  have key : ∀ k, k ≤ numBlocks n b →
      (List.range k).flatMap (keptBlock p b n inp) = (slice inp 0 (min (k * b) n)).filter p := by
    intro k
    induction k with
    | zero => intro _; simp
    | succ k ih =>
      intro hk
      rw [List.range_succ, List.flatMap_append, ih (by omega)]
      have hkb : k * b < n := by
        have := Nat.mul_le_mul_right b (show k ≤ numBlocks n b - 1 by omega)
        omega
      have : min ((k + 1) * b) n = k * b + blen b n k := by
        rw [Nat.add_mul, blen]; omega
      rw [this, slice_add, List.filter_append, show min (k * b) n = k * b by omega]
      simp [keptBlock]
  rw [key _ (Nat.le_refl _), show min (numBlocks n b * b) n = n by omega]

/-! ### The parallel loops -/

theorem phase1_spec (p : T → Bool) (b n : Nat) (inp : Nat → T) (order : List Nat) :
    ∀ (st : (Nat → T) × (Nat → Nat)), order.Nodup →
    (∀ i ∈ order, ∀ x, i * b ≤ x → x < i * b + b → st.1 x = inp x) →
    (∀ i ∈ order, (phase1 p b n order st).2 i = (keptBlock p b n inp i).length ∧
      slice (phase1 p b n order st).1 (i * b) (keptBlock p b n inp i).length =
        keptBlock p b n inp i) ∧
    (∀ i, i ∉ order → (phase1 p b n order st).2 i = st.2 i) ∧
    (∀ x, (∀ i ∈ order, ¬ (i * b ≤ x ∧ x < i * b + b)) → (phase1 p b n order st).1 x = st.1 x) := by
  induction order with
  | nil => intro st _ _; simp [phase1]
  | cons i order ih =>
    intro st hnd hst
    rw [List.nodup_cons] at hnd
    have hkb : (slice st.1 (i * b) (blen b n i)).filter p = keptBlock p b n inp i := by
      rw [keptBlock]; congr 1
      exact slice_congr fun x h1 h2 => hst i (List.mem_cons_self) x h1 (by simp [blen] at h2; omega)
    obtain ⟨c1, c2, c3⟩ := compact_spec p (blen b n i) (i * b) (i * b) st.1 (Nat.le_refl _)
    rw [hkb] at c1 c2
    have hle : (keptBlock p b n inp i).length ≤ b := by
      rw [keptBlock]
      refine (List.length_filter_le _ _).trans ?_
      rw [slice_length, blen]; omega
    have hblen : blen b n i ≤ b := by rw [blen]; omega
    have hst' : ∀ i' ∈ order, ∀ x, i' * b ≤ x → x < i' * b + b →
        (countBlock p b n i st).1 x = inp x := by
      intro i' hi' x h1 h2
      have hne : i' ≠ i := fun h => hnd.1 (h ▸ hi')
      have : (countBlock p b n i st).1 x = st.1 x := by
        apply c3
        rcases Nat.lt_or_gt_of_ne hne with h | h
        · have := block_lt h h2; omega
        · have : ¬ x < i * b + b := fun hx => by have := block_lt h hx; omega
          omega
      rw [this]; exact hst i' (List.mem_cons_of_mem _ hi') x h1 h2
    obtain ⟨r1, r2, r3⟩ := ih (countBlock p b n i st) hnd.2 hst'
    have hunf : phase1 p b n (i :: order) st = phase1 p b n order (countBlock p b n i st) := rfl
    rw [hunf]
    refine ⟨?_, ?_, ?_⟩
    · intro i' hi'
      rcases List.mem_cons.1 hi' with rfl | hi'
      · constructor
        · rw [r2 _ hnd.1]
          show upd st.2 i' _ i' = _
          rw [upd_same]
          show (compact p (blen b n i') (i' * b) (i' * b) st.1).2 - i' * b = _
          omega
        · refine Eq.trans ?_ c2
          apply slice_congr
          intro x h1 h2
          refine r3 x fun i hi hx => ?_
          have hne : i ≠ i' := fun h => hnd.1 (h ▸ hi)
          rcases Nat.lt_or_gt_of_ne hne with h | h
          · have := block_lt h hx.2; omega
          · have := block_lt (b := b) h (show x < i' * b + b by omega); omega
      · exact r1 i' hi'
    · intro i' hi'
      rw [List.mem_cons, not_or] at hi'
      rw [r2 i' hi'.2]
      exact upd_of_ne _ _ hi'.1
    · intro x hx
      rw [r3 x (fun i' hi' => hx i' (List.mem_cons_of_mem _ hi'))]
      apply c3
      have := hx i List.mem_cons_self
      omega

theorem scanSums_spec (l : Nat) (sums cts : Nat → Nat) (h : ∀ i, i < l → sums i = cts i) :
    (∀ i, i ≤ l → (scanSums l sums).1 i = exScan cts i) ∧ (scanSums l sums).2 = exScan cts l := by
  have h0 : ∀ i, i ≤ l → exScan (upd sums l 0) i = exScan cts i := by
    intro i hi
    apply exScan_congr
    intro j hj
    rw [upd_of_ne _ _ (by omega), h j (by omega)]
  have hm : (scanSums l sums).2 = exScan cts l := by
    show exScan (upd sums l 0) l + upd sums l 0 l = _
    rw [upd_same, h0 l (Nat.le_refl _)]; rfl
  refine ⟨?_, hm⟩
  intro i hi
  by_cases hl : i = l
  · subst hl; rw [← hm]; simp [scanSums]
  · rw [scanSums]
    simp only
    rw [upd_of_ne _ _ hl, if_pos hi, h0 i hi]

theorem phase2_spec (b : Nat) (a : Nat → T) (cts : Nat → Nat) (sums : Nat → Nat) (l : Nat)
    (hs : ∀ i, i ≤ l → sums i = exScan cts i) (order : List Nat) :
    ∀ (out : Nat → T), order.Nodup → (∀ i ∈ order, i < l) →
    (∀ i ∈ order, ∀ j, j < cts i → phase2 b a sums order out (exScan cts i + j) = a (i * b + j)) ∧
    (∀ x, (∀ i ∈ order, ∀ j, j < cts i → x ≠ exScan cts i + j) →
      phase2 b a sums order out x = out x) := by
  induction order with
  | nil => intro out _ _; simp [phase2]
  | cons i order ih =>
    intro out hnd hl
    rw [List.nodup_cons] at hnd
    have hil := hl i List.mem_cons_self
    have hlen : sums (i + 1) - sums i = cts i := by
      rw [hs i (by omega), hs (i + 1) (by omega)]; simp [exScan]
    obtain ⟨r1, r2⟩ := ih (copyLoop a (i * b) (sums i) (sums (i + 1) - sums i) 0 out) hnd.2
      (fun i' hi' => hl i' (List.mem_cons_of_mem _ hi'))
    have hunf : phase2 b a sums (i :: order) out =
      phase2 b a sums order (copyLoop a (i * b) (sums i) (sums (i + 1) - sums i) 0 out) := rfl
    rw [hunf]
    constructor
    · intro i' hi' j hj
      rcases List.mem_cons.1 hi' with rfl | hi'
      · rw [r2, copyLoop_apply, hlen, hs i' (by omega), if_pos (by omega)]
        · congr 1; omega
        · intro i2 hi2 j2 hj2
          exact exScan_disjoint cts (fun h => hnd.1 (h ▸ hi2)) hj hj2
      · exact r1 i' hi' j hj
    · intro x hx
      rw [r2 x (fun i' hi' => hx i' (List.mem_cons_of_mem _ hi')), copyLoop_apply, if_neg]
      rintro ⟨h1, h2⟩
      rw [hlen] at h2
      rw [hs i (by omega)] at h1 h2
      exact hx i List.mem_cons_self (x - exScan cts i) (by omega) (by omega)

theorem slice_of_blocks (g : Nat → List T) (l : Nat) (out : Nat → T)
    (h : ∀ i, i < l → slice out (exScan (fun i => (g i).length) i) (g i).length = g i) :
    slice out 0 (exScan (fun i => (g i).length) l) = (List.range l).flatMap g := by
  induction l with
  | zero => simp [exScan]
  | succ l ih =>
    simp only [exScan]
    rw [slice_add, ih (fun i hi => h i (by omega)), Nat.zero_add, h l (by omega),
      List.range_succ, List.flatMap_append]
    simp

/-- C09, first overload: for every block size, size, predicate and order of both parallel loops,
`filterf` returns the number `k` of selected elements, `Out[0..k)` is the sequence of selected
elements in order, and nothing else of `Out` is written. -/
theorem filterfOut_correct (b : Nat) (hb : 0 < b) (p : T → Bool) (n : Nat) (o1 o2 : List Nat)
    (h1 : Sched (numBlocks n b) o1) (h2 : Sched (numBlocks n b) o2) (sums0 : Nat → Nat)
    (inp out : Nat → T) :
    let r := filterfOut b p n o1 o2 sums0 inp out
    r.2 = ((slice inp 0 n).filter p).length ∧ slice r.1 0 r.2 = (slice inp 0 n).filter p ∧
      ∀ x, r.2 ≤ x → r.1 x = out x := by
  intro r
  by_cases hn : n < b
  · have hr : r = filterSeq p inp n 0 0 out := by simp only [r, filterfOut, hn, if_true]
    obtain ⟨a1, a2, a3⟩ := filterSeq_spec p inp n 0 0 out
    rw [hr]
    rw [Nat.zero_add] at a1
    refine ⟨a1, by rw [a1]; exact a2, fun x hx => a3 x (Or.inr (by omega))⟩
  · obtain ⟨p1, -, -⟩ := phase1_spec p b n inp o1 (inp, sums0) h1.1 (fun _ _ _ _ _ => rfl)
    set st := phase1 p b n o1 (inp, sums0) with hst
    obtain ⟨s1, s2⟩ := scanSums_spec (numBlocks n b) st.2
      (fun i => (keptBlock p b n inp i).length) (fun i hi => (p1 i ((h1.2 i).2 hi)).1)
    obtain ⟨q1, q2⟩ := phase2_spec b st.1 (fun i => (keptBlock p b n inp i).length)
      (scanSums (numBlocks n b) st.2).1 (numBlocks n b) s1 o2 out h2.1 (fun i hi => (h2.2 i).1 hi)
    have hr : r = (phase2 b st.1 (scanSums (numBlocks n b) st.2).1 o2 out,
        (scanSums (numBlocks n b) st.2).2) := by
      simp only [r, filterfOut, hn, if_false, hst]
    have hk := kept_flatMap p b n inp hb
    have hlen : exScan (fun i => (keptBlock p b n inp i).length) (numBlocks n b) =
        ((slice inp 0 n).filter p).length := by
      rw [← hk, flatMap_length_exScan]
    rw [hr]
    refine ⟨by simp only [s2, hlen], ?_, ?_⟩
    · simp only [s2]
      rw [slice_of_blocks (keptBlock p b n inp), hk]
      intro i hi
      conv_rhs => rw [← (p1 i ((h1.2 i).2 hi)).2]
      apply List.ext_getElem?
      intro j
      by_cases hj : j < (keptBlock p b n inp i).length
      · rw [slice_getElem? _ _ _ _ hj, slice_getElem? _ _ _ _ hj]
        rw [q1 i ((h2.2 i).2 hi) j hj]
      · rw [List.getElem?_eq_none (by simpa using hj), List.getElem?_eq_none (by simpa using hj)]
    · intro x hx
      simp only [s2] at hx
      apply q2
      intro i hi j hj
      have := exScan_mono (fun i => (keptBlock p b n inp i).length)
        (show i + 1 ≤ numBlocks n b from (h2.2 i).1 hi)
      simp only [exScan] at this
      omega

/-- The calls expected from the second overload: the `t`-th kept element at position `off + t`. -/
def expectedCalls (off : Nat) (l : List T) : List (Nat × T) := l.mapIdx fun t v => (off + t, v)

theorem expectedCalls_append (off : Nat) (l l' : List T) :
    expectedCalls off (l ++ l') = expectedCalls off l ++ expectedCalls (off + l.length) l' := by
  simp only [expectedCalls, List.mapIdx_append]
  congr 2
  funext i v
  rw [Prod.mk.injEq]; exact ⟨by omega, rfl⟩

theorem expectedCalls_cons (off : Nat) (v : T) (l : List T) :
    expectedCalls off (v :: l) = (off, v) :: expectedCalls (off + 1) l := by
  have := expectedCalls_append off [v] l
  simpa [expectedCalls] using this

theorem callSeq_spec (p : T → Bool) (inp : Nat → T) (c : Nat) : ∀ (i k : Nat),
    callSeq p inp c i k = (expectedCalls k ((slice inp i c).filter p),
      k + ((slice inp i c).filter p).length) := by
  induction c with
  | zero => intro i k; simp [callSeq, expectedCalls]
  | succ c ih =>
    intro i k
    by_cases hp : p (inp i) = true
    · simp only [callSeq, hp, if_true, slice_succ, List.filter_cons_of_pos hp, ih,
        expectedCalls_cons, List.length_cons, Prod.mk.injEq, true_and]
      omega
    · simp only [callSeq, if_neg hp, slice_succ, List.filter_cons_of_neg hp, ih]

theorem expectedCalls_flatMap (off : Nat) (g : Nat → List T) (l : Nat) :
    expectedCalls off ((List.range l).flatMap g) =
      (List.range l).flatMap fun i =>
        expectedCalls (off + exScan (fun i => (g i).length) i) (g i) := by
  induction l with
  | zero => rfl
  | succ l ih =>
    rw [List.range_succ, List.flatMap_append, expectedCalls_append, ih, List.flatMap_append,
      flatMap_length_exScan]
    simp

/-- C09, second overload: `out` is called exactly once for each kept element, with consecutive
positions from `out_off` in input order, whatever the order of execution; the count is returned. -/
theorem filterfCall_correct (b : Nat) (hb : 0 < b) (p : T → Bool) (n off : Nat)
    (o1 o2 : List Nat) (h1 : Sched (numBlocks n b) o1) (h2 : Sched (numBlocks n b) o2)
    (sums0 : Nat → Nat) (inp : Nat → T) :
    let r := filterfCall b p n off o1 o2 sums0 inp
    r.1.Perm (expectedCalls off ((slice inp 0 n).filter p)) ∧
      r.2 = ((slice inp 0 n).filter p).length := by
  intro r
  by_cases hn : n < b
  · simp only [r, filterfCall, hn, if_true, callSeq_spec]
    exact ⟨List.Perm.refl _, by omega⟩
  · obtain ⟨p1, -, -⟩ := phase1_spec p b n inp o1 (inp, sums0) h1.1 (fun _ _ _ _ _ => rfl)
    simp only [r, filterfCall, hn, if_false]
    set st := phase1 p b n o1 (inp, sums0) with hst
    obtain ⟨s1, s2⟩ := scanSums_spec (numBlocks n b) st.2
      (fun i => (keptBlock p b n inp i).length) (fun i hi => (p1 i ((h1.2 i).2 hi)).1)
    have hk := kept_flatMap p b n inp hb
    constructor
    · refine (h2.perm.flatMap_right _).trans (List.Perm.of_eq ?_)
      rw [← hk, expectedCalls_flatMap]
      apply List.flatMap_congr
      intro i hi
      rw [List.mem_range] at hi
      rw [s1 i (by omega), s1 (i + 1) (by omega)]
      simp only [exScan, Nat.add_sub_cancel_left]
      conv_rhs => rw [← (p1 i ((h1.2 i).2 hi)).2]
      apply List.ext_getElem?
      intro j
      by_cases hj : j < (keptBlock p b n inp i).length
      · simp [expectedCalls, slice, hj]
      · rw [List.getElem?_eq_none (by simpa using hj), List.getElem?_eq_none
          (by simpa [expectedCalls] using hj)]
    · rw [s2, ← hk, flatMap_length_exScan]

/-- Non-trivial instance: 7 elements, block size 2, reversed and shuffled block orders. -/
example : Sched (numBlocks 7 2) [3, 2, 1, 0] ∧ Sched (numBlocks 7 2) [1, 3, 0, 2] ∧
    (let r := filterfOut 2 (fun x => x % 3 != 0) 7 [3, 2, 1, 0] [1, 3, 0, 2] (fun _ => 99)
      (fun i => i * i + 1) (fun _ => 1000)
     (slice r.1 0 9, r.2)) = ([1, 2, 5, 10, 17, 26, 37, 1000, 1000], 7) := by
  refine ⟨⟨by decide, fun i => ?_⟩, ⟨by decide, fun i => ?_⟩, by decide⟩ <;>
  · simp [numBlocks]; omega

end Gbbs.Filter
