/-
C15: the parallel `update_buckets` of `gbbs/bucket.h` at the level of arrays, and its agreement with
the sequential one.
-/
import Verif.Buckets.Model
import Verif.Buckets.Lemmas

namespace Gbbs.Buckets

/-! ### Model -/

/-- `helpers/dyn_arr.h:34-80`: a growable array (contents, `size`, `capacity`). -/
structure DArr where
  A : Nat → Nat
  size : Nat
  cap : Nat

/-- The identifiers stored. -/
def DArr.list (a : DArr) : List Nat := slice a.A 0 a.size

/-- `dyn_arr.h:69-81` (`resize`): make room for `n` more elements.  A fresh allocation holds
arbitrary values (`junk`) beyond the copied part. -/
def DArr.resize (junk : Nat → Nat) (a : DArr) (n : Nat) : DArr :=
  if n + a.size > a.cap then
    { A := fun i => if i < a.size then a.A i else junk i, size := a.size,
      cap := max (2 * (n + a.size)) 2000 }
  else a

/-- `dyn_arr.h:83` (`insert`): `A[size + pos] = val`; `none` when that is outside the allocation. -/
def DArr.insert (a : DArr) (v pos : Nat) : Option DArr :=
  if a.size + pos < a.cap then some { a with A := upd a.A (a.size + pos) v } else none

/-- `bucket.h:302-324` (`update_buckets_seq`, `insert_in_bucket`) at the array level.  The batch is
the list of `(identifier, destination)`. -/
def seqOne (null : Nat) (junk : Nat → Nat) (bk : Nat → DArr) (e : Nat × Nat) :
    Option (Nat → DArr) :=
  if e.2 = null then some bk
  else
    let a := (bk e.2).resize junk 1
    match a.insert e.1 0 with
    | none => none
    | some a' => some (upd bk e.2 { a' with size := a'.size + 1 })

def seqUpdate (null : Nat) (junk : Nat → Nat) (bk : Nat → DArr) (es : List (Nat × Nat)) :
    Option (Nat → DArr) :=
  es.foldlM (seqOne null junk) bk

/-- Block size of `bucket.h:207`. -/
def blockSize (k nb : Nat) : Nat := (k + nb - 1) / nb

/-- The part of the batch handled by block `i` (`bucket.h:214-215`, `262-263`). -/
def block (es : List (Nat × Nat)) (nb i : Nat) : List (Nat × Nat) :=
  let bs := blockSize es.length nb
  (es.drop (i * bs)).take bs

/-- `bucket.h:218-220`: clear the histogram row of a block. -/
def zeroRow (tot i : Nat) (h : Nat → Nat) : Nat → Nat :=
  (List.range tot).foldl (fun h j => upd h (i * tot + j) 0) h

/-- `bucket.h:221-227`: count the destinations of a block in its row. -/
def countRow (null tot i : Nat) (l : List (Nat × Nat)) (h : Nat → Nat) : Nat → Nat :=
  l.foldl (fun h e => if e.2 = null then h else upd h (i * tot + e.2) (h (i * tot + e.2) + 1)) h

/-- Step 1, `bucket.h:213-228`. -/
def step1 (null tot nb : Nat) (es : List (Nat × Nat)) (order : List Nat) (h : Nat → Nat) :
    Nat → Nat :=
  order.foldl (fun h i => countRow null tot i (block es nb i) (zeroRow tot i h)) h

/-- Step 2, `bucket.h:231-243`: transposed histogram, then its exclusive prefix sums. -/
def outsOf (tot nb : Nat) (h : Nat → Nat) : Nat → Nat :=
  exScan fun i => if i < nb * tot then h ((i % nb) * tot + i / nb) else 0

/-- Step 3, `bucket.h:247-251` (sequential loop): resize every bucket; also the growth of
`num_elms`. -/
def step3 (tot nb : Nat) (junk : Nat → Nat) (outs : Nat → Nat) (bk : Nat → DArr) : (Nat → DArr) × Nat :=
  (List.range tot).foldl (fun s i =>
    let inc := outs ((i + 1) * nb) - outs (i * nb)
    (upd s.1 i ((s.1 i).resize junk inc), s.2 + inc)) (bk, 0)

/-- Step 4, `bucket.h:254-260`: the starting offsets, spread over cache lines. -/
def step4 (nb : Nat) (outs : Nat → Nat) (order : List Nat) (h : Nat → Nat) : Nat → Nat :=
  order.foldl (fun h i =>
    (List.range nb).foldl (fun h j => upd h ((i * nb + j) * 64) (outs (i * nb + j) - outs (i * nb))) h) h

/-- Step 5, `bucket.h:264-276`: the insertions of one block. -/
def insertBlock (null nb i : Nat) (l : List (Nat × Nat)) (s : (Nat → DArr) × (Nat → Nat)) :
    Option ((Nat → DArr) × (Nat → Nat)) :=
  l.foldlM (fun s e =>
    if e.2 = null then some s
    else
      let x := (e.2 * nb + i) * 64
      match (s.1 e.2).insert e.1 (s.2 x) with
      | none => none
      | some a => some (upd s.1 e.2 a, upd s.2 x (s.2 x + 1))) s

def step5 (null nb : Nat) (es : List (Nat × Nat)) (order : List Nat)
    (s : (Nat → DArr) × (Nat → Nat)) : Option ((Nat → DArr) × (Nat → Nat)) :=
  order.foldlM (fun s i => insertBlock null nb i (block es nb i) s) s

/-- Step 6, `bucket.h:279-283`. -/
def step6 (tot nb : Nat) (outs : Nat → Nat) (bk : Nat → DArr) : Nat → DArr :=
  (List.range tot).foldl (fun bk i =>
    upd bk i { bk i with size := (bk i).size + (outs ((i + 1) * nb) - outs (i * nb)) }) bk

/-- `bucket.h:194-286`, the parallel branch of `update_buckets`, with `tot = total_buckets`, `nb`
blocks, arbitrary initial contents `h0` of the uninitialised histogram array, and the orders of the
three parallel loops.  Counters are unbounded (the code uses `bucket_id`; a batch has fewer than
2^32 identifiers).  Returns the buckets and `num_elms - ne_before`. -/
def parUpdate (null tot nb : Nat) (junk h0 : Nat → Nat) (o1 o4 o5 : List Nat) (bk : Nat → DArr)
    (es : List (Nat × Nat)) : Option ((Nat → DArr) × Nat) :=
  let h1 := step1 null tot nb es o1 h0
  let outs := outsOf tot nb h1
  let s3 := step3 tot nb junk outs bk
  let h4 := step4 nb outs o4 h1
  match step5 null nb es o5 (s3.1, h4) with
  | none => none
  | some s5 => some (step6 tot nb outs s5.1, s3.2)

/-- `bucket.h:195-207`: number of blocks for a batch of size `k`
(`log2_up(x)` is the least `b` with `x ≤ 2^b`). -/
def numBlocksFor (k : Nat) : Nat := 2 ^ (if k / 4096 ≤ 1 then 0 else Nat.log2 (k / 4096 - 1) + 1)

/-! ### Specification -/

/-- Identifiers of the batch sent to bucket `b`, in batch order. -/
def sentTo (null : Nat) (es : List (Nat × Nat)) (b : Nat) : List Nat :=
  (es.filter fun e => decide (e.2 = b ∧ e.2 ≠ null)).map Prod.fst

theorem sentTo_append (null : Nat) (l l' : List (Nat × Nat)) (b : Nat) :
    sentTo null (l ++ l') b = sentTo null l b ++ sentTo null l' b := by
  simp [sentTo]

theorem sentTo_cons (null : Nat) (e : Nat × Nat) (l : List (Nat × Nat)) (b : Nat) :
    sentTo null (e :: l) b = (if e.2 = b ∧ e.2 ≠ null then [e.1] else []) ++ sentTo null l b := by
  unfold sentTo
  by_cases h : e.2 = b ∧ e.2 ≠ null
  · rw [if_pos h, List.filter_cons_of_pos (by simpa using h)]; rfl
  · rw [if_neg h, List.filter_cons_of_neg (by simpa using h)]; rfl

/-- Arrays in use fit their allocation. -/
def Fits (tot : Nat) (bk : Nat → DArr) : Prop := ∀ b, b < tot → (bk b).size ≤ (bk b).cap

/-! ### Sequential insertion -/

theorem resize_list (junk : Nat → Nat) (a : DArr) (n : Nat) :
    (a.resize junk n).list = a.list ∧ (a.resize junk n).size = a.size ∧
      a.size + n ≤ (a.resize junk n).cap ∨ (a.resize junk n = a ∧ a.size + n ≤ a.cap) := by
  unfold DArr.resize
  split
  · left
    refine ⟨?_, rfl, ?_⟩
    · apply slice_congr
      intro x _ hx
      simp only
      rw [if_pos (by simpa using hx)]
    · simp only; omega
  · right; exact ⟨rfl, by omega⟩

theorem resize_spec (junk : Nat → Nat) (a : DArr) (n : Nat) :
    (a.resize junk n).list = a.list ∧ (a.resize junk n).size = a.size ∧
      a.size + n ≤ (a.resize junk n).cap := by
  rcases resize_list junk a n with h | ⟨h, h'⟩
  · exact h
  · rw [h]; exact ⟨rfl, rfl, h'⟩

theorem seqUpdate_spec (null tot : Nat) (junk : Nat → Nat) (es : List (Nat × Nat)) :
    ∀ bk : Nat → DArr, Fits tot bk → (∀ e ∈ es, e.2 = null ∨ e.2 < tot) →
    ∃ bk', seqUpdate null junk bk es = some bk' ∧ Fits tot bk' ∧
      ∀ b, (bk' b).list = (bk b).list ++ sentTo null es b := by
  induction es with
  | nil => intro bk hf _; exact ⟨bk, rfl, hf, by simp [sentTo]⟩
  | cons e es ih =>
    intro bk hf hd
    by_cases hn : e.2 = null
    · obtain ⟨bk', h1, h2, h3⟩ := ih bk hf (fun e' he' => hd e' (List.mem_cons_of_mem _ he'))
      refine ⟨bk', ?_, h2, ?_⟩
      · rw [seqUpdate, List.foldlM_cons, seqOne, if_pos hn]; exact h1
      · intro b; rw [h3, sentTo_cons, if_neg (by simp [hn])]; rfl
    · obtain ⟨r1, r2, r3⟩ := resize_spec junk (bk e.2) 1
      set a := (bk e.2).resize junk 1 with ha
      have hins : a.insert e.1 0 = some { a with A := upd a.A (a.size + 0) e.1 } := by
        rw [DArr.insert, if_pos (by omega)]
      obtain ⟨bk', h1, h2, h3⟩ := ih
        (upd bk e.2 { A := upd a.A (a.size + 0) e.1, size := a.size + 1, cap := a.cap })
        (by
          intro b hb
          by_cases hbe : b = e.2
          · subst hbe; simp only [upd_same]; omega
          · rw [upd_of_ne _ _ hbe]; exact hf b hb)
        (fun e' he' => hd e' (List.mem_cons_of_mem _ he'))
      refine ⟨bk', ?_, h2, ?_⟩
      · rw [seqUpdate, List.foldlM_cons, seqOne, if_neg hn]
        simp only [← ha, hins]
        exact h1
      · intro b
        rw [h3, sentTo_cons]
        by_cases hbe : e.2 = b
        · subst hbe
          rw [if_pos ⟨rfl, hn⟩, upd_same, ← r1, ← List.append_assoc]
          congr 1
          show slice (upd a.A (a.size + 0) e.1) 0 (a.size + 1) = slice a.A 0 a.size ++ [e.1]
          rw [slice_add]
          congr 1
          · exact slice_congr fun x _ hx => upd_of_ne _ _ (by omega)
          · simp [slice_succ]
        · rw [if_neg (fun h => hbe h.1), upd_of_ne _ _ (Ne.symm hbe)]; rfl

/-! ### The phases of the parallel insertion -/

/-- Number of identifiers of block `i` sent to bucket `b`. -/
def cnt (null nb : Nat) (es : List (Nat × Nat)) (b i : Nat) : Nat :=
  (sentTo null (block es nb i) b).length

theorem block_mem {es : List (Nat × Nat)} {nb i : Nat} {e : Nat × Nat} (h : e ∈ block es nb i) :
    e ∈ es := List.mem_of_mem_drop (List.mem_of_mem_take h)

/-- The blocks partition the batch in order. -/
theorem blocks_flatMap (es : List (Nat × Nat)) (nb : Nat) (hnb : 0 < nb) :
    (List.range nb).flatMap (block es nb) = es := by
  have key : ∀ k, (List.range k).flatMap (block es nb) = es.take (k * blockSize es.length nb) := by
    intro k
    induction k with
    | zero => simp
    | succ k ih =>
      rw [List.range_succ, List.flatMap_append, ih, Nat.succ_mul, List.take_add]
      simp [block]
  rw [key]
  apply List.take_of_length_le
  unfold blockSize
  have h1 := Nat.div_add_mod (es.length + nb - 1) nb
  have h2 := Nat.mod_lt (es.length + nb - 1) hnb
  omega

theorem sentTo_flatMap (null : Nat) (es : List (Nat × Nat)) (nb : Nat) (hnb : 0 < nb) (b : Nat) :
    sentTo null es b = (List.range nb).flatMap fun i => sentTo null (block es nb i) b := by
  conv_lhs => rw [← blocks_flatMap es nb hnb]
  generalize List.range nb = l
  induction l with
  | nil => rfl
  | cons i l ih => simp only [List.flatMap_cons, sentTo_append, ih]

theorem row_inj {tot i j i' j' : Nat} (hj : j < tot) (hj' : j' < tot)
    (h : i * tot + j = i' * tot + j') : i = i' ∧ j = j' := by
  have ht : 0 < tot := by omega
  have h1 : (i * tot + j) / tot = i := by
    rw [Nat.mul_comm, Nat.mul_add_div ht, Nat.div_eq_of_lt hj, Nat.add_zero]
  have h2 : (i' * tot + j') / tot = i' := by
    rw [Nat.mul_comm, Nat.mul_add_div ht, Nat.div_eq_of_lt hj', Nat.add_zero]
  have : i = i' := by rw [← h1, ← h2, h]
  subst this
  exact ⟨rfl, by omega⟩

theorem zeroRow_apply (tot i : Nat) (h : Nat → Nat) (x : Nat) :
    zeroRow tot i h x = if i * tot ≤ x ∧ x < i * tot + tot then 0 else h x := by
  have key : ∀ k, (List.range k).foldl (fun h j => upd h (i * tot + j) 0) h x =
      if i * tot ≤ x ∧ x < i * tot + k then 0 else h x := by
    intro k
    induction k with
    | zero => rw [if_neg (by omega)]; rfl
    | succ k ih =>
      rw [List.range_succ, List.foldl_append]
      simp only [List.foldl_cons, List.foldl_nil, upd_apply, ih]
      by_cases hx : x = i * tot + k
      · rw [if_pos hx, if_pos (by omega)]
      · rw [if_neg hx]
        by_cases h1 : i * tot ≤ x ∧ x < i * tot + k
        · rw [if_pos h1, if_pos (by omega)]
        · rw [if_neg h1, if_neg (by omega)]
  exact key tot

theorem countRow_spec (null tot i : Nat) (l : List (Nat × Nat)) :
    ∀ h : Nat → Nat, (∀ e ∈ l, e.2 = null ∨ e.2 < tot) →
    (∀ b, b < tot → countRow null tot i l h (i * tot + b) =
      h (i * tot + b) + (sentTo null l b).length) ∧
    ∀ x, ¬ (i * tot ≤ x ∧ x < i * tot + tot) → countRow null tot i l h x = h x := by
  induction l with
  | nil => intro h _; exact ⟨fun b _ => rfl, fun x _ => rfl⟩
  | cons e l ih =>
    intro h hd
    have hd' : ∀ e' ∈ l, e'.2 = null ∨ e'.2 < tot := fun e' he' => hd e' (List.mem_cons_of_mem _ he')
    by_cases hn : e.2 = null
    · obtain ⟨h1, h2⟩ := ih h hd'
      have hunf : countRow null tot i (e :: l) h = countRow null tot i l h := by
        simp [countRow, hn]
      rw [hunf]
      refine ⟨fun b hb => ?_, h2⟩
      rw [h1 b hb, sentTo_cons, if_neg (by simp [hn])]; rfl
    · obtain ⟨h1, h2⟩ := ih (upd h (i * tot + e.2) (h (i * tot + e.2) + 1)) hd'
      have hlt : e.2 < tot := (hd e List.mem_cons_self).resolve_left hn
      have hunf : countRow null tot i (e :: l) h =
          countRow null tot i l (upd h (i * tot + e.2) (h (i * tot + e.2) + 1)) := by
        simp [countRow, hn]
      rw [hunf]
      refine ⟨fun b hb => ?_, fun x hx => ?_⟩
      · rw [h1 b hb, sentTo_cons, List.length_append]
        by_cases hbe : e.2 = b
        · subst hbe
          rw [upd_same, if_pos ⟨rfl, hn⟩, List.length_singleton]; omega
        · rw [upd_of_ne _ _ (by omega), if_neg (fun h => hbe h.1)]; simp
      · rw [h2 x hx, upd_of_ne _ _ (by omega)]

theorem row_disj {tot i i' x : Nat} (hne : i ≠ i') (h1 : i * tot ≤ x ∧ x < i * tot + tot) :
    ¬ (i' * tot ≤ x ∧ x < i' * tot + tot) := by
  intro h2
  have := (row_inj (tot := tot) (i := i) (j := x - i * tot) (i' := i') (j' := x - i' * tot)
    (by omega) (by omega) (by omega)).1
  exact hne this

theorem step1_spec (null tot nb : Nat) (es : List (Nat × Nat))
    (hd : ∀ e ∈ es, e.2 = null ∨ e.2 < tot) (order : List Nat) :
    ∀ h : Nat → Nat, order.Nodup →
    (∀ i ∈ order, ∀ b, b < tot → step1 null tot nb es order h (i * tot + b) = cnt null nb es b i) ∧
    ∀ x, (∀ i ∈ order, ¬ (i * tot ≤ x ∧ x < i * tot + tot)) → step1 null tot nb es order h x = h x := by
  induction order with
  | nil => intro h _; exact ⟨by simp, fun x _ => rfl⟩
  | cons i order ih =>
    intro h hnd
    rw [List.nodup_cons] at hnd
    obtain ⟨r1, r2⟩ := ih (countRow null tot i (block es nb i) (zeroRow tot i h)) hnd.2
    obtain ⟨c1, c2⟩ := countRow_spec null tot i (block es nb i) (zeroRow tot i h)
      (fun e he => hd e (block_mem he))
    have hunf : step1 null tot nb es (i :: order) h =
      step1 null tot nb es order (countRow null tot i (block es nb i) (zeroRow tot i h)) := rfl
    rw [hunf]
    refine ⟨fun i' hi' b hb => ?_, fun x hx => ?_⟩
    · rcases List.mem_cons.1 hi' with rfl | hi'
      · rw [r2, c1 b hb, zeroRow_apply, if_pos (by omega), Nat.zero_add]; · rfl
        intro i2 hi2
        exact row_disj (i := i') (fun h => hnd.1 (h ▸ hi2)) (by omega)
      · exact r1 i' hi' b hb
    · rw [r2 x (fun i' hi' => hx i' (List.mem_cons_of_mem _ hi')), c2 x (hx i List.mem_cons_self),
        zeroRow_apply, if_neg (hx i List.mem_cons_self)]

theorem exScan_add (g : Nat → Nat) (a i : Nat) :
    exScan g (a + i) = exScan g a + exScan (fun j => g (a + j)) i := by
  induction i with
  | zero => rfl
  | succ i ih => rw [← Nat.add_assoc]; simp only [exScan, ih]; omega

theorem outs_spec (null tot nb : Nat) (es : List (Nat × Nat)) (h : Nat → Nat)
    (hh : ∀ i, i < nb → ∀ b, b < tot → h (i * tot + b) = cnt null nb es b i) {b i : Nat}
    (hb : b < tot) (hi : i ≤ nb) :
    outsOf tot nb h (b * nb + i) = outsOf tot nb h (b * nb) + exScan (cnt null nb es b) i := by
  unfold outsOf
  rw [exScan_add]
  congr 1
  apply exScan_congr
  intro j hj
  have hlt : b * nb + j < nb * tot := by
    have := Nat.mul_le_mul_right nb (show b + 1 ≤ tot from hb)
    rw [Nat.add_mul, Nat.mul_comm tot] at this
    omega
  have hnb : 0 < nb := by omega
  rw [if_pos hlt]
  have h1 : (b * nb + j) % nb = j := by
    rw [Nat.mul_comm, Nat.mul_add_mod, Nat.mod_eq_of_lt (by omega)]
  have h2 : (b * nb + j) / nb = b := by
    rw [Nat.mul_comm, Nat.mul_add_div hnb, Nat.div_eq_of_lt (by omega), Nat.add_zero]
  rw [h1, h2, hh j (by omega) b hb]

theorem step3_spec (tot nb : Nat) (junk : Nat → Nat) (outs : Nat → Nat) (bk : Nat → DArr) :
    (∀ b, b < tot → (step3 tot nb junk outs bk).1 b =
      (bk b).resize junk (outs ((b + 1) * nb) - outs (b * nb))) ∧
    (∀ b, tot ≤ b → (step3 tot nb junk outs bk).1 b = bk b) ∧
    (step3 tot nb junk outs bk).2 = exScan (fun b => outs ((b + 1) * nb) - outs (b * nb)) tot := by
  unfold step3
  induction tot with
  | zero => exact ⟨fun b hb => absurd hb (by omega), fun b _ => rfl, rfl⟩
  | succ tot ih =>
    rw [List.range_succ, List.foldl_append]
    simp only [List.foldl_cons, List.foldl_nil]
    obtain ⟨i1, i2, i3⟩ := ih
    refine ⟨fun b hb => ?_, fun b hb => ?_, ?_⟩
    · by_cases hbt : b = tot
      · subst hbt
        rw [upd_same, i2 b (Nat.le_refl _)]
      · rw [upd_of_ne _ _ hbt]; exact i1 b (by omega)
    · rw [upd_of_ne _ _ (by omega)]; exact i2 b (by omega)
    · rw [i3]; rfl

theorem step4_spec (nb : Nat) (outs : Nat → Nat) (order : List Nat) :
    ∀ h : Nat → Nat, order.Nodup → ∀ i ∈ order, ∀ j, j < nb →
      step4 nb outs order h ((i * nb + j) * 64) = outs (i * nb + j) - outs (i * nb) := by
  have inner : ∀ (i k : Nat) (h : Nat → Nat) (x : Nat),
      (List.range k).foldl (fun h j => upd h ((i * nb + j) * 64) (outs (i * nb + j) - outs (i * nb)))
        h x = if i * nb * 64 ≤ x ∧ x < (i * nb + k) * 64 ∧ x % 64 = 0
          then outs (x / 64) - outs (i * nb) else h x := by
    intro i k
    induction k with
    | zero => intro h x; rw [if_neg (by omega)]; rfl
    | succ k ih =>
      intro h x
      rw [List.range_succ, List.foldl_append]
      simp only [List.foldl_cons, List.foldl_nil, upd_apply, ih]
      by_cases hx : x = (i * nb + k) * 64
      · rw [if_pos hx, if_pos (by omega), hx, Nat.mul_div_cancel _ (by decide)]
      · rw [if_neg hx]
        by_cases h1 : i * nb * 64 ≤ x ∧ x < (i * nb + k) * 64 ∧ x % 64 = 0
        · rw [if_pos h1, if_pos (by omega)]
        · rw [if_neg h1, if_neg (by omega)]
  have frame : ∀ (order : List Nat) (h : Nat → Nat) (i j : Nat), i ∉ order → j < nb →
      step4 nb outs order h ((i * nb + j) * 64) = h ((i * nb + j) * 64) := by
    intro order
    induction order with
    | nil => intro h i j _ _; rfl
    | cons i' order ih =>
      intro h i j hi hj
      rw [List.mem_cons, not_or] at hi
      show step4 nb outs order _ _ = _
      rw [ih _ i j hi.2 hj]
      simp only
      rw [inner, if_neg]
      rintro ⟨h1, h2, _⟩
      have := (row_inj (tot := nb) (i := i) (j := j) (i' := i') (j' := i * nb + j - i' * nb) hj
        (by omega) (by omega)).1
      exact hi.1 this
  induction order with
  | nil => intro h _ i hi; simp at hi
  | cons i' order ih =>
    intro h hnd i hi j hj
    rw [List.nodup_cons] at hnd
    rcases List.mem_cons.1 hi with rfl | hi
    · show step4 nb outs order _ _ = _
      rw [frame _ _ i j hnd.1 hj]
      simp only
      rw [inner, if_pos (by omega), Nat.mul_div_cancel _ (by decide)]
    · exact ih _ hnd.2 i hi j hj

/-- The insertions of one block. -/
theorem insertBlock_spec (null tot nb i : Nat) (hi : i < nb) (l : List (Nat × Nat)) :
    ∀ s : (Nat → DArr) × (Nat → Nat), (∀ e ∈ l, e.2 = null ∨ e.2 < tot) →
    (∀ b, b < tot → (s.1 b).size + s.2 ((b * nb + i) * 64) + (sentTo null l b).length ≤ (s.1 b).cap) →
    ∃ s', insertBlock null nb i l s = some s' ∧
      (∀ b, (s'.1 b).size = (s.1 b).size ∧ (s'.1 b).cap = (s.1 b).cap) ∧
      (∀ b, b < tot → slice (s'.1 b).A ((s.1 b).size + s.2 ((b * nb + i) * 64))
        (sentTo null l b).length = sentTo null l b) ∧
      (∀ b x, ¬ ((s.1 b).size + s.2 ((b * nb + i) * 64) ≤ x ∧
        x < (s.1 b).size + s.2 ((b * nb + i) * 64) + (sentTo null l b).length) →
        (s'.1 b).A x = (s.1 b).A x) ∧
      (∀ i' b, i' ≠ i → i' < nb → s'.2 ((b * nb + i') * 64) = s.2 ((b * nb + i') * 64)) := by
  induction l with
  | nil =>
    intro s _ _
    exact ⟨s, rfl, fun b => ⟨rfl, rfl⟩, fun b _ => rfl, fun b x _ => rfl, fun _ _ _ _ => rfl⟩
  | cons e l ih =>
    intro s hd hcap
    have hd' : ∀ e' ∈ l, e'.2 = null ∨ e'.2 < tot := fun e' he' => hd e' (List.mem_cons_of_mem _ he')
    by_cases hn : e.2 = null
    · have hs : ∀ b, sentTo null (e :: l) b = sentTo null l b := by
        intro b; rw [sentTo_cons, if_neg (by simp [hn])]; rfl
      obtain ⟨s', h1, h2⟩ := ih s hd' (fun b hb => by rw [← hs]; exact hcap b hb)
      refine ⟨s', ?_, ?_⟩
      · rw [insertBlock, List.foldlM_cons, if_pos hn]; exact h1
      · simp only [hs]; exact h2
    · have hlt : e.2 < tot := (hd e List.mem_cons_self).resolve_left hn
      set x0 := (e.2 * nb + i) * 64 with hx0
      have hlen : ∀ b, (sentTo null (e :: l) b).length =
          (if e.2 = b then 1 else 0) + (sentTo null l b).length := by
        intro b
        rw [sentTo_cons, List.length_append]
        by_cases hb : e.2 = b
        · rw [if_pos ⟨hb, hn⟩, if_pos hb]; rfl
        · rw [if_neg (fun h => hb h.1), if_neg hb]; rfl
      have hc0 := hcap e.2 hlt
      rw [hlen, if_pos rfl, ← hx0] at hc0
      have hins : (s.1 e.2).insert e.1 (s.2 x0) =
          some { s.1 e.2 with A := upd (s.1 e.2).A ((s.1 e.2).size + s.2 x0) e.1 } := by
        rw [DArr.insert, if_pos (by omega)]
      have hcell : ∀ b, b ≠ e.2 → (b * nb + i) * 64 ≠ x0 := by
        intro b hb heq
        have := (row_inj (tot := nb) (i := b) (j := i) (i' := e.2) (j' := i) hi hi (by omega)).1
        exact hb this
      set a1 : DArr := { s.1 e.2 with A := upd (s.1 e.2).A ((s.1 e.2).size + s.2 x0) e.1 } with ha1
      obtain ⟨s', h1, h2, h3, h4, h5⟩ := ih (upd s.1 e.2 a1, upd s.2 x0 (s.2 x0 + 1)) hd' (by
        intro b hb
        have hc := hcap b hb
        rw [hlen] at hc
        simp only
        by_cases hbe : b = e.2
        · subst hbe
          rw [if_pos rfl, ← hx0] at hc
          rw [upd_same, ← hx0, upd_same]
          show (s.1 e.2).size + _ + _ ≤ (s.1 e.2).cap
          omega
        · rw [if_neg (Ne.symm hbe)] at hc
          rw [upd_of_ne _ _ hbe, upd_of_ne _ _ (hcell b hbe)]; omega)
      simp only at h2 h3 h4 h5
      refine ⟨s', ?_, ?_, ?_, ?_, ?_⟩
      · rw [insertBlock, List.foldlM_cons, if_neg hn]
        simp only [← hx0, hins]
        exact h1
      · intro b
        rw [(h2 b).1, (h2 b).2]
        by_cases hbe : b = e.2
        · subst hbe; rw [upd_same]; exact ⟨rfl, rfl⟩
        · rw [upd_of_ne _ _ hbe]; exact ⟨rfl, rfl⟩
      · intro b hb
        by_cases hbe : b = e.2
        · subst hbe
          rw [sentTo_cons, if_pos ⟨rfl, hn⟩]
          have e3 := h3 e.2 hb
          have e4 := h4 e.2
          rw [upd_same, ← hx0, upd_same] at e3 e4
          rw [List.length_append, List.length_singleton, Nat.add_comm 1, ← hx0, slice_succ]
          simp only [List.singleton_append, List.cons.injEq]
          constructor
          · rw [e4 _ (by show ¬ ((s.1 e.2).size + _ ≤ _ ∧ _); omega)]
            exact upd_same _ _ _
          · exact e3
        · rw [sentTo_cons, if_neg (fun h => hbe h.1.symm), List.nil_append]
          have e3 := h3 b hb
          rw [upd_of_ne _ _ hbe, upd_of_ne _ _ (hcell b hbe)] at e3
          exact e3
      · intro b x hx
        rw [hlen] at hx
        have e4 := h4 b x
        by_cases hbe : b = e.2
        · subst hbe
          rw [upd_same, ← hx0, upd_same] at e4
          rw [if_pos rfl, ← hx0] at hx
          rw [e4 (by show ¬ ((s.1 e.2).size + _ ≤ _ ∧ _ < (s.1 e.2).size + _ + _); omega)]
          exact upd_of_ne _ _ (by omega)
        · rw [upd_of_ne _ _ hbe, upd_of_ne _ _ (hcell b hbe)] at e4
          rw [if_neg (Ne.symm hbe)] at hx
          exact e4 (by omega)
      · intro i' b hi' hi'n
        rw [h5 i' b hi' hi'n]
        apply upd_of_ne
        intro heq
        have := (row_inj (tot := nb) (i := b) (j := i') (i' := e.2) (j' := i) hi'n hi (by omega)).2
        exact hi' this

/-- All blocks, in any order. -/
theorem step5_spec (null tot nb : Nat) (es : List (Nat × Nat))
    (hd : ∀ e ∈ es, e.2 = null ∨ e.2 < tot) (order : List Nat) :
    ∀ s : (Nat → DArr) × (Nat → Nat), order.Nodup → (∀ i ∈ order, i < nb) →
    (∀ i ∈ order, ∀ b, b < tot → s.2 ((b * nb + i) * 64) = exScan (cnt null nb es b) i) →
    (∀ b, b < tot → (s.1 b).size + exScan (cnt null nb es b) nb ≤ (s.1 b).cap) →
    ∃ s', step5 null nb es order s = some s' ∧
      (∀ b, (s'.1 b).size = (s.1 b).size ∧ (s'.1 b).cap = (s.1 b).cap) ∧
      (∀ i ∈ order, ∀ b, b < tot → slice (s'.1 b).A ((s.1 b).size + exScan (cnt null nb es b) i)
        (cnt null nb es b i) = sentTo null (block es nb i) b) ∧
      (∀ b, b < tot → ∀ x, (∀ i ∈ order, ∀ j, j < cnt null nb es b i →
        x ≠ (s.1 b).size + (exScan (cnt null nb es b) i + j)) → (s'.1 b).A x = (s.1 b).A x) := by
  induction order with
  | nil =>
    intro s _ _ _ _
    exact ⟨s, rfl, fun b => ⟨rfl, rfl⟩, by simp, fun b _ x _ => rfl⟩
  | cons i order ih =>
    intro s hnd hlt hoff hcap
    rw [List.nodup_cons] at hnd
    have hin := hlt i List.mem_cons_self
    have hoffi := hoff i List.mem_cons_self
    obtain ⟨s1, a1, a2, a3, a4, a5⟩ := insertBlock_spec null tot nb i hin (block es nb i) s
      (fun e he => hd e (block_mem he)) (by
        intro b hb
        rw [hoffi b hb]
        have h1 := hcap b hb
        have h2 := exScan_mono (cnt null nb es b) (show i + 1 ≤ nb from hin)
        have h3 : (sentTo null (block es nb i) b).length = cnt null nb es b i := rfl
        simp only [exScan] at h2
        omega)
    obtain ⟨s', b1, b2, b3, b4⟩ := ih s1 hnd.2 (fun i' hi' => hlt i' (List.mem_cons_of_mem _ hi'))
      (by
        intro i' hi' b hb
        rw [a5 i' b (fun h => hnd.1 (h ▸ hi')) (hlt i' (List.mem_cons_of_mem _ hi'))]
        exact hoff i' (List.mem_cons_of_mem _ hi') b hb)
      (by intro b hb; rw [(a2 b).1, (a2 b).2]; exact hcap b hb)
    refine ⟨s', ?_, ?_, ?_, ?_⟩
    · rw [step5, List.foldlM_cons, a1]; exact b1
    · intro b; rw [(b2 b).1, (b2 b).2]; exact a2 b
    · intro i' hi' b hb
      rcases List.mem_cons.1 hi' with rfl | hi'
      · have e3 := a3 b hb
        rw [hoffi b hb] at e3
        refine Eq.trans ?_ e3
        apply slice_congr
        intro x hx1 hx2
        apply b4 b hb
        intro i2 hi2 j hj heq
        rw [(a2 b).1] at heq
        have := exScan_disjoint (cnt null nb es b) (i := i') (j := i2)
          (a := x - ((s.1 b).size + exScan (cnt null nb es b) i')) (b := j)
          (fun h => hnd.1 (h ▸ hi2)) (by omega) hj
        omega
      · have := b3 i' hi' b hb
        rw [(a2 b).1] at this
        exact this
    · intro b hb x hx
      rw [b4 b hb x (by
        intro i' hi' j hj
        rw [(a2 b).1]
        exact hx i' (List.mem_cons_of_mem _ hi') j hj)]
      apply a4
      rw [hoffi b hb]
      rintro ⟨h1, h2⟩
      exact hx i List.mem_cons_self (x - ((s.1 b).size + exScan (cnt null nb es b) i))
        (by show _ < (sentTo null (block es nb i) b).length; omega) (by omega)

theorem step6_spec (tot nb : Nat) (outs : Nat → Nat) (bk : Nat → DArr) :
    (∀ b, b < tot → step6 tot nb outs bk b =
      { bk b with size := (bk b).size + (outs ((b + 1) * nb) - outs (b * nb)) }) ∧
    (∀ b, tot ≤ b → step6 tot nb outs bk b = bk b) := by
  unfold step6
  induction tot with
  | zero => exact ⟨fun b hb => absurd hb (by omega), fun b _ => rfl⟩
  | succ tot ih =>
    rw [List.range_succ, List.foldl_append]
    simp only [List.foldl_cons, List.foldl_nil]
    obtain ⟨i1, i2⟩ := ih
    refine ⟨fun b hb => ?_, fun b hb => ?_⟩
    · by_cases hbt : b = tot
      · subst hbt
        rw [upd_same, i2 b (Nat.le_refl _)]
      · rw [upd_of_ne _ _ hbt]; exact i1 b (by omega)
    · rw [upd_of_ne _ _ (by omega)]; exact i2 b (by omega)

theorem slice_blocks_off (g : Nat → List Nat) (l off : Nat) (out : Nat → Nat)
    (h : ∀ i, i < l → slice out (off + exScan (fun i => (g i).length) i) (g i).length = g i) :
    slice out off (exScan (fun i => (g i).length) l) = (List.range l).flatMap g := by
  induction l with
  | zero => simp [exScan]
  | succ l ih =>
    simp only [exScan]
    rw [slice_add, ih (fun i hi => h i (by omega)), h l (by omega),
      List.range_succ, List.flatMap_append]
    simp

/-! ### C15 -/

/-- The parallel insertion appends to every bucket exactly the identifiers sent to it, in batch
order, never writes outside an allocation, and returns the number of inserted identifiers, for
every number of blocks and every order of the blocks in the three parallel loops. -/
theorem parUpdate_spec (null tot nb : Nat) (hnb : 0 < nb) (junk h0 : Nat → Nat)
    (o1 o4 o5 : List Nat) (h1 : Sched nb o1) (h4 : Sched tot o4) (h5 : Sched nb o5)
    (bk : Nat → DArr) (es : List (Nat × Nat)) (hd : ∀ e ∈ es, e.2 = null ∨ e.2 < tot) :
    ∃ bk', parUpdate null tot nb junk h0 o1 o4 o5 bk es =
        some (bk', exScan (fun b => (sentTo null es b).length) tot) ∧
      Fits tot bk' ∧ ∀ b, b < tot → (bk' b).list = (bk b).list ++ sentTo null es b := by
  obtain ⟨p1, -⟩ := step1_spec null tot nb es hd o1 h0 h1.1
  set hh := step1 null tot nb es o1 h0 with hhh
  have p1' : ∀ i, i < nb → ∀ b, b < tot → hh (i * tot + b) = cnt null nb es b i :=
    fun i hi b hb => p1 i ((h1.2 i).2 hi) b hb
  set outs := outsOf tot nb hh with houts
  have ho : ∀ b, b < tot → ∀ i, i ≤ nb →
      outs (b * nb + i) = outs (b * nb) + exScan (cnt null nb es b) i :=
    fun b hb i hi => outs_spec null tot nb es hh p1' hb hi
  have hlen : ∀ b, exScan (cnt null nb es b) nb = (sentTo null es b).length := by
    intro b
    rw [sentTo_flatMap null es nb hnb b, flatMap_length_exScan]; rfl
  have hinc : ∀ b, b < tot → outs ((b + 1) * nb) - outs (b * nb) = (sentTo null es b).length := by
    intro b hb
    have := ho b hb nb (Nat.le_refl _)
    rw [Nat.add_mul, Nat.one_mul, this, ← hlen b]; omega
  obtain ⟨q1, q2, q3⟩ := step3_spec tot nb junk outs bk
  set s3 := step3 tot nb junk outs bk with hs3
  have q4 := step4_spec nb outs o4 hh h4.1
  have hres : ∀ b, b < tot → (s3.1 b).list = (bk b).list ∧ (s3.1 b).size = (bk b).size ∧
      (bk b).size + (sentTo null es b).length ≤ (s3.1 b).cap := by
    intro b hb
    rw [q1 b hb, hinc b hb]
    exact resize_spec junk (bk b) _
  obtain ⟨s5, r1, r2, r3, r4⟩ := step5_spec null tot nb es hd o5 (s3.1, step4 nb outs o4 hh) h5.1
    (fun i hi => (h5.2 i).1 hi)
    (by
      intro i hi b hb
      simp only
      rw [q4 b ((h4.2 b).2 hb) i ((h5.2 i).1 hi), ho b hb i ((h5.2 i).1 hi).le]
      omega)
    (by
      intro b hb
      simp only
      rw [hlen, (hres b hb).2.1]
      exact (hres b hb).2.2)
  obtain ⟨t1, -⟩ := step6_spec tot nb outs s5.1
  refine ⟨step6 tot nb outs s5.1, ?_, ?_, ?_⟩
  · unfold parUpdate
    simp only [← hhh, ← houts, ← hs3, r1]
    rw [q3]
    congr 2
    exact exScan_congr hinc
  · intro b hb
    rw [t1 b hb]
    simp only
    rw [hinc b hb, (r2 b).1, (r2 b).2]
    simp only
    rw [(hres b hb).2.1]
    exact (hres b hb).2.2
  · intro b hb
    rw [t1 b hb]
    simp only [DArr.list]
    rw [hinc b hb, (r2 b).1]
    simp only
    rw [slice_add]
    congr 1
    · rw [← DArr.list, ← (hres b hb).1, DArr.list]
      rw [(hres b hb).2.1]
      apply slice_congr
      intro x _ hx
      rw [r4 b hb x]
      intro i hi j hj
      simp only
      rw [(hres b hb).2.1]
      omega
    · rw [Nat.zero_add, sentTo_flatMap null es nb hnb b, flatMap_length_exScan]
      apply slice_blocks_off
      intro i hi
      exact r3 i ((h5.2 i).2 hi) b hb

/-- C15: parallel and sequential insertion leave the same contents in every bucket. -/
theorem parUpdate_eq_seqUpdate (null tot nb : Nat) (hnb : 0 < nb) (junk h0 : Nat → Nat)
    (o1 o4 o5 : List Nat) (h1 : Sched nb o1) (h4 : Sched tot o4) (h5 : Sched nb o5)
    (bk : Nat → DArr) (hf : Fits tot bk) (es : List (Nat × Nat))
    (hd : ∀ e ∈ es, e.2 = null ∨ e.2 < tot) :
    ∃ bp bs r, parUpdate null tot nb junk h0 o1 o4 o5 bk es = some (bp, r) ∧
      seqUpdate null junk bk es = some bs ∧ Fits tot bp ∧ Fits tot bs ∧
      (∀ b, b < tot → (bp b).list = (bs b).list) ∧
      r = exScan (fun b => (bs b).list.length) tot - exScan (fun b => (bk b).list.length) tot := by
  obtain ⟨bp, p1, p2, p3⟩ := parUpdate_spec null tot nb hnb junk h0 o1 o4 o5 h1 h4 h5 bk es hd
  obtain ⟨bs, s1, s2, s3⟩ := seqUpdate_spec null tot junk es bk hf hd
  refine ⟨bp, bs, _, p1, s1, p2, s2, fun b hb => by rw [p3 b hb, s3 b], ?_⟩
  have : ∀ k, exScan (fun b => (bs b).list.length) k =
      exScan (fun b => (bk b).list.length) k + exScan (fun b => (sentTo null es b).length) k := by
    intro k
    induction k with
    | zero => rfl
    | succ k ih =>
      simp only [exScan, ih]
      rw [s3 k, List.length_append]; omega
  rw [this tot]; omega

/-- The list-level insertion used in `Verif/Buckets/Model.lean` is what both array-level
insertions do. -/
theorem parUpdate_refines (c : Cfg) (nb : Nat) (hnb : 0 < nb) (junk h0 : Nat → Nat)
    (o1 o4 o5 : List Nat) (h1 : Sched nb o1) (h4 : Sched (c.opn + 1) o4) (h5 : Sched nb o5)
    (bk : Nat → DArr) (st : BS) (hst : ∀ b, b ≤ c.opn → st.bkts b = (bk b).list)
    (es : List (Nat × Nat)) (hd : ∀ e ∈ es, e.2 = c.null ∨ e.2 ≤ c.opn) :
    ∃ bp r st', parUpdate c.null (c.opn + 1) nb junk h0 o1 o4 o5 bk es = some (bp, r) ∧
      updateBuckets c st es = some st' ∧ (∀ b, b ≤ c.opn → st'.bkts b = (bp b).list) ∧
      st'.numElms = st.numElms + r := by
  obtain ⟨bp, p1, p2, p3⟩ := parUpdate_spec c.null (c.opn + 1) nb hnb junk h0 o1 o4 o5 h1 h4 h5 bk es
    (fun e he => (hd e he).imp_right (by omega))
  obtain ⟨st', u1, u2, u3, u4, u5⟩ := updateBuckets_spec c es st hd
  refine ⟨bp, _, st', p1, u1, fun b hb => ?_, ?_⟩
  · rw [u2, hst b hb, p3 b (by omega)]; rfl
  · have : total c st'.bkts = total c st.bkts + exScan (fun b => (sentTo c.null es b).length) (c.opn + 1) := by
      unfold total
      generalize c.opn + 1 = k
      induction k with
      | zero => rfl
      | succ k ih =>
        simp only [exScan, ih]
        rw [u2 k, List.length_append]
        show _ + (_ + (sentTo c.null es k).length) = _
        omega
    omega

/-- Cells used by steps 1, 4 and 5 lie inside the histogram array of `bucket.h:209`
(`(num_blocks + 1) * total_buckets * CACHE_LINE_S` entries). -/
theorem hist_in_bounds {tot nb b i : Nat} (hb : b < tot) (hi : i < nb) :
    i * tot + b < (nb + 1) * tot * 64 ∧ (b * nb + i) * 64 < (nb + 1) * tot * 64 := by
  have h1 := Nat.mul_le_mul_right tot (show i + 1 ≤ nb from hi)
  have h2 := Nat.mul_le_mul_right nb (show b + 1 ≤ tot from hb)
  rw [Nat.add_mul] at h1 h2
  rw [Nat.add_mul, Nat.mul_comm nb tot]
  rw [Nat.mul_comm nb tot] at h1
  constructor <;> omega

/-- A run with two blocks in reverse order: six identifiers, buckets 0..2, one identifier skipped. -/
example : Sched 2 [1, 0] ∧ Sched 3 [2, 0, 1] ∧
    (match parUpdate 100 3 2 (fun _ => 7) (fun i => i) [1, 0] [2, 0, 1] [1, 0]
      (fun b => ⟨fun _ => 50 + b, b, b⟩) [(0, 2), (1, 1), (2, 100), (3, 2), (4, 0), (5, 2)] with
    | none => none
    | some (bk, r) => some ((bk 0).list, (bk 1).list, (bk 2).list, r)) =
    some ([4], [51, 1], [52, 52, 0, 3, 5], 5) := by
  refine ⟨⟨by decide, fun i => ?_⟩, ⟨by decide, fun i => ?_⟩, by decide +kernel⟩
  · simp; omega
  · simp; omega

end Gbbs.Buckets
