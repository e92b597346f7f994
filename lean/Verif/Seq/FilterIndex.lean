/-
Model of `filter_index` and `pack_index_and_data` of `gbbs/bridge.h`, proofs for C09.
-/
import Verif.Seq.Filter

namespace Gbbs.Filter

variable {T : Type}

/-! ### Model -/

/-- `bridge.h:504-510`: the body of the first `sliced_for`, `c` rounds from `j`: sets `Fl[j]` and counts
the flags in `r`. -/
def flagLoop (f : T → Nat → Bool) (inp : Nat → T) : (c j r : Nat) → (fl : Nat → Bool) → (Nat → Bool) × Nat
  | 0, _, r, fl => (fl, r)
  | c + 1, j, r, fl =>
    flagLoop f inp c (j + 1) (r + if f (inp j) j then 1 else 0) (upd fl j (f (inp j) j))

/-- First `sliced_for`, `bridge.h:503-510`, blocks in the given order; block `i` is
`[i * b, min(n, (i + 1) * b))`. -/
def flagPhase (f : T → Nat → Bool) (inp : Nat → T) (b n : Nat) (order : List Nat)
    (st : (Nat → Bool) × (Nat → Nat)) : (Nat → Bool) × (Nat → Nat) :=
  order.foldl (fun st i =>
    let r := flagLoop f inp (min (i * b + b) n - i * b) (i * b) 0 st.1
    (r.1, upd st.2 i r.2)) st

/-- `pack_serial_at` of parlay: the elements whose flag is set are written from position `k` on. -/
def packAt (inp : Nat → T) (fl : Nat → Bool) : (c j k : Nat) → (out : Nat → T) → (Nat → T)
  | 0, _, _, out => out
  | c + 1, j, k, out =>
    if fl j then packAt inp fl c (j + 1) (k + 1) (upd out k (inp j))
    else packAt inp fl c (j + 1) k out

/-- `bridge.h:494-518` (`filter_index`) with block size `b`: the output array and its size `m`.  `fl0`,
`sums0`, `out0` are the initial contents. -/
def filterIndex (b : Nat) (f : T → Nat → Bool) (n : Nat) (o1 o2 : List Nat) (fl0 : Nat → Bool)
    (sums0 : Nat → Nat) (inp out0 : Nat → T) : (Nat → T) × Nat :=
  let l := numBlocks n b
  let st := flagPhase f inp b n o1 (fl0, sums0)
  let m := exScan st.2 l
  (o2.foldl (fun out i =>
    packAt inp st.1 (min (i * b + b) n - i * b) (i * b) (exScan st.2 i) out) out0, m)

/-! ### Proofs -/

/-- What is kept of positions `j .. j + c - 1`. -/
def keptIdx (f : T → Nat → Bool) (inp : Nat → T) (j c : Nat) : List T :=
  ((List.range' j c).filter (fun x => f (inp x) x)).map inp

theorem keptIdx_succ (f : T → Nat → Bool) (inp : Nat → T) (j c : Nat) :
    keptIdx f inp j (c + 1) = if f (inp j) j then inp j :: keptIdx f inp (j + 1) c
      else keptIdx f inp (j + 1) c := by
  rw [keptIdx, List.range'_succ, List.filter_cons]
  split <;> rfl

theorem flagLoop_spec (f : T → Nat → Bool) (inp : Nat → T) (c : Nat) : ∀ (j r : Nat) (fl : Nat → Bool),
    (flagLoop f inp c j r fl).2 = r + (keptIdx f inp j c).length ∧
    (∀ x, j ≤ x → x < j + c → (flagLoop f inp c j r fl).1 x = f (inp x) x) ∧
    (∀ x, x < j ∨ j + c ≤ x → (flagLoop f inp c j r fl).1 x = fl x) := by
  induction c with
  | zero => intro j r fl; exact ⟨by simp [flagLoop, keptIdx], fun x _ _ => by omega, fun _ _ => rfl⟩
  | succ c ih =>
    intro j r fl
    obtain ⟨h1, h2, h3⟩ := ih (j + 1) (r + if f (inp j) j then 1 else 0) (upd fl j (f (inp j) j))
    rw [flagLoop, keptIdx_succ]
    refine ⟨?_, fun x hx hx2 => ?_, fun x hx => ?_⟩
    · rw [h1]; cases f (inp j) j <;> simp; omega
    · by_cases hxj : x = j
      · subst hxj; rw [h3 x (by omega), upd_same]
      · exact h2 x (by omega) (by omega)
    · rw [h3 x (by omega), upd_of_ne _ _ (by omega)]

theorem packAt_spec (f : T → Nat → Bool) (inp : Nat → T) (fl : Nat → Bool) (c : Nat) :
    ∀ (j k : Nat) (out : Nat → T), (∀ x, j ≤ x → x < j + c → fl x = f (inp x) x) →
    slice (packAt inp fl c j k out) k (keptIdx f inp j c).length = keptIdx f inp j c ∧
    ∀ x, x < k ∨ k + (keptIdx f inp j c).length ≤ x → packAt inp fl c j k out x = out x := by
  induction c with
  | zero => intro j k out _; simp [packAt, keptIdx]
  | succ c ih =>
    intro j k out hf
    rw [packAt, keptIdx_succ, hf j (by omega) (by omega)]
    cases hp : f (inp j) j
    · exact ih (j + 1) k out (fun x h1 h2 => hf x (by omega) (by omega))
    · obtain ⟨h1, h2⟩ := ih (j + 1) (k + 1) (upd out k (inp j)) (fun x h1 h2 => hf x (by omega) (by omega))
      simp only [if_true, List.length_cons]
      refine ⟨?_, fun x hx => ?_⟩
      · rw [slice_succ, h1, h2 k (by omega), upd_same]
      · rw [h2 x (by omega), upd_of_ne _ _ (by omega)]

/-- What block `i` keeps. -/
def keptB (f : T → Nat → Bool) (inp : Nat → T) (b n i : Nat) : List T := keptIdx f inp (i * b) (blen b n i)

theorem flagPhase_spec (f : T → Nat → Bool) (inp : Nat → T) (b n : Nat) (order : List Nat) :
    ∀ (st : (Nat → Bool) × (Nat → Nat)), order.Nodup →
    (∀ i ∈ order, (flagPhase f inp b n order st).2 i = (keptB f inp b n i).length ∧
      ∀ x, i * b ≤ x → x < i * b + blen b n i → (flagPhase f inp b n order st).1 x = f (inp x) x) ∧
    (∀ i, i ∉ order → (flagPhase f inp b n order st).2 i = st.2 i) ∧
    (∀ x, (∀ i ∈ order, x < i * b ∨ i * b + blen b n i ≤ x) → (flagPhase f inp b n order st).1 x = st.1 x) := by
  induction order with
  | nil => intro st _; simp [flagPhase]
  | cons i order ih =>
    intro st hnd
    rw [List.nodup_cons] at hnd
    obtain ⟨c1, c2, c3⟩ := flagLoop_spec f inp (blen b n i) (i * b) 0 st.1
    have hunf : flagPhase f inp b n (i :: order) st = flagPhase f inp b n order
      ((flagLoop f inp (blen b n i) (i * b) 0 st.1).1,
        upd st.2 i (flagLoop f inp (blen b n i) (i * b) 0 st.1).2) := rfl
    rw [hunf]
    obtain ⟨r1, r2, r3⟩ := ih ((flagLoop f inp (blen b n i) (i * b) 0 st.1).1,
        upd st.2 i (flagLoop f inp (blen b n i) (i * b) 0 st.1).2) hnd.2
    refine ⟨fun i' hi' => ?_, fun i' hi' => ?_, fun x hx => ?_⟩
    · rcases List.mem_cons.1 hi' with rfl | hi'
      · refine ⟨?_, fun x h1 h2 => ?_⟩
        · rw [r2 i' hnd.1]; simp only [upd_same]; rw [c1, Nat.zero_add]; rfl
        · rw [r3]
          · exact c2 x h1 h2
          · intro i2 hi2
            have hne : i2 ≠ i' := fun h => hnd.1 (h ▸ hi2)
            have hb1 : i' * b + blen b n i' ≤ i' * b + b := by simp only [blen]; omega
            have hb2 : i2 * b + blen b n i2 ≤ i2 * b + b := by simp only [blen]; omega
            rcases Nat.lt_or_gt_of_ne hne with h | h
            · right
              have := Nat.mul_le_mul_right b (show i2 + 1 ≤ i' from h)
              rw [Nat.succ_mul] at this; omega
            · left
              have := Nat.mul_le_mul_right b (show i' + 1 ≤ i2 from h)
              rw [Nat.succ_mul] at this; omega
      · exact r1 i' hi'
    · simp only [List.mem_cons, not_or] at hi'
      rw [r2 i' hi'.2]
      simp only
      rw [upd_of_ne _ _ hi'.1]
    · rw [r3 x (fun i' hi' => hx i' (List.mem_cons_of_mem _ hi'))]
      exact c3 x (hx i List.mem_cons_self)

theorem packPhase_spec (f : T → Nat → Bool) (inp : Nat → T) (fl : Nat → Bool) (sums : Nat → Nat)
    (b n : Nat) (order : List Nat) :
    ∀ (out : Nat → T), order.Nodup →
    (∀ i ∈ order, ∀ x, i * b ≤ x → x < i * b + blen b n i → fl x = f (inp x) x) →
    (∀ i ∈ order, sums i = exScan (fun i => (keptB f inp b n i).length) i) →
    (∀ i ∈ order, slice (order.foldl (fun out i =>
        packAt inp fl (min (i * b + b) n - i * b) (i * b) (sums i) out) out)
      (exScan (fun i => (keptB f inp b n i).length) i) (keptB f inp b n i).length = keptB f inp b n i) ∧
    (∀ x, (∀ i ∈ order, ∀ j, j < (keptB f inp b n i).length →
        x ≠ exScan (fun i => (keptB f inp b n i).length) i + j) →
      order.foldl (fun out i =>
        packAt inp fl (min (i * b + b) n - i * b) (i * b) (sums i) out) out x = out x) := by
  induction order with
  | nil => intro out _ _ _; simp
  | cons i order ih =>
    intro out hnd hfl hs
    rw [List.nodup_cons] at hnd
    have hsi := hs i List.mem_cons_self
    obtain ⟨c1, c2⟩ := packAt_spec f inp fl (blen b n i) (i * b) (sums i) out (hfl i List.mem_cons_self)
    obtain ⟨r1, r2⟩ := ih (packAt inp fl (min (i * b + b) n - i * b) (i * b) (sums i) out) hnd.2
      (fun i' hi' => hfl i' (List.mem_cons_of_mem _ hi')) (fun i' hi' => hs i' (List.mem_cons_of_mem _ hi'))
    rw [List.foldl_cons]
    refine ⟨fun i' hi' => ?_, fun x hx => ?_⟩
    · rcases List.mem_cons.1 hi' with rfl | hi'
      · have hc : slice (packAt inp fl (min (i' * b + b) n - i' * b) (i' * b) (sums i') out)
            (exScan (fun i => (keptB f inp b n i).length) i') (keptB f inp b n i').length =
            keptB f inp b n i' := by rw [← hsi]; exact c1
        conv_rhs => rw [← hc]
        apply slice_congr
        intro x h1 h2
        apply r2
        intro i2 hi2 j2 hj2
        have := exScan_disjoint (fun i => (keptB f inp b n i).length)
          (fun h : i' = i2 => hnd.1 (h ▸ hi2))
          (show x - exScan (fun i => (keptB f inp b n i).length) i' < (keptB f inp b n i').length by omega) hj2
        omega
      · exact r1 i' hi'
    · rw [r2 x (fun i' hi' => hx i' (List.mem_cons_of_mem _ hi'))]
      apply c2
      by_cases h1 : x < sums i
      · exact Or.inl h1
      · right
        have h2 := hx i List.mem_cons_self (x - sums i)
        rw [← hsi] at h2
        by_cases h3 : x - sums i < (keptB f inp b n i).length
        · exact absurd (show x = sums i + (x - sums i) by omega) (h2 h3)
        · simp only [keptB] at h3; omega

theorem keptB_flatMap (f : T → Nat → Bool) (inp : Nat → T) (b n : Nat) (hb : 0 < b) :
    (List.range (numBlocks n b)).flatMap (keptB f inp b n) = keptIdx f inp 0 n := by
  have h := kept_flatMap (fun p : T × Nat => f p.1 p.2) b n (fun x => (inp x, x)) hb
  have conv : ∀ j c, ((slice (fun x => (inp x, x)) j c).filter (fun p : T × Nat => f p.1 p.2)).map Prod.fst =
      keptIdx f inp j c := by
    intro j c
    induction c generalizing j with
    | zero => simp [keptIdx]
    | succ c ih =>
      rw [slice_succ, keptIdx_succ, List.filter_cons]
      simp only
      split
      · rw [List.map_cons, ih]
      · exact ih _
  rw [← conv, ← h, List.map_flatMap]
  congr 1
  funext i
  exact (conv _ _).symm

/-- C09, `filter_index`: for every block size, input, predicate on element and index, and order of both
parallel loops, the result has the selected elements in their order, and as many as there are. -/
theorem filterIndex_correct (b : Nat) (hb : 0 < b) (f : T → Nat → Bool) (n : Nat) (o1 o2 : List Nat)
    (h1 : Sched (numBlocks n b) o1) (h2 : Sched (numBlocks n b) o2) (fl0 : Nat → Bool)
    (sums0 : Nat → Nat) (inp out0 : Nat → T) :
    let r := filterIndex b f n o1 o2 fl0 sums0 inp out0
    slice r.1 0 r.2 = ((List.range n).filter (fun x => f (inp x) x)).map inp ∧
      ∀ x, r.2 ≤ x → r.1 x = out0 x := by
  intro r
  obtain ⟨p1, -, -⟩ := flagPhase_spec f inp b n o1 (fl0, sums0) h1.1
  have hsum : ∀ i, i ≤ numBlocks n b → exScan (flagPhase f inp b n o1 (fl0, sums0)).2 i =
      exScan (fun i => (keptB f inp b n i).length) i := fun i hi =>
    exScan_congr (fun j hj => (p1 j ((h1.2 j).2 (by omega))).1)
  obtain ⟨q1, q2⟩ := packPhase_spec f inp (flagPhase f inp b n o1 (fl0, sums0)).1
    (exScan (flagPhase f inp b n o1 (fl0, sums0)).2) b n o2 out0 h2.1
    (fun i hi => (p1 i ((h1.2 i).2 ((h2.2 i).1 hi))).2)
    (fun i hi => hsum i (Nat.le_of_lt ((h2.2 i).1 hi)))
  have hm : r.2 = exScan (fun i => (keptB f inp b n i).length) (numBlocks n b) := hsum _ (Nat.le_refl _)
  refine ⟨?_, fun x hx => q2 x (fun i hi j hj => ?_)⟩
  · have hq := slice_of_blocks (keptB f inp b n) _ _ (fun i hi => q1 i ((h2.2 i).2 hi))
    rw [keptB_flatMap f inp b n hb, keptIdx, ← List.range_eq_range', ← hm] at hq
    exact hq
  · rw [hm] at hx
    have := exScan_mono (fun i => (keptB f inp b n i).length)
      (show i + 1 ≤ numBlocks n b from (h2.2 i).1 hi)
    simp only [exScan] at this
    omega

/-- Non-trivial instance: 7 elements, block size 3, keep the elements equal to their index. -/
example :
    (fun r : (Nat → Nat) × Nat => (r.2, (List.range 5).map r.1))
      (filterIndex 3 (fun a i => a == i) 7 [2, 0, 1] [1, 2, 0] (fun _ => true) (fun _ => 9)
        (fun x => [0, 5, 2, 3, 9, 9, 6].getD x 0) (fun _ => 77)) = (4, [0, 2, 3, 6, 77]) := by
  decide +kernel

end Gbbs.Filter
