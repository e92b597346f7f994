/-
C116: the blocked counting sort `gbbs/helpers/counting_sort_no_transpose.h`.
-/
import Verif.Atomics.Model
import Mathlib.Data.List.Basic
import Mathlib.Data.List.Perm.Basic
import Mathlib.Data.Nat.Log

namespace Gbbs.CountSort

open Gbbs (Atomics.set)

variable {E : Type}

/-! ### Model -/

/-- One iteration of the counting loop, `counting_sort_no_transpose.h:49-52`. -/
def count1 (tmp : Nat → Nat) (offs : Nat → Nat) (j : Nat) : Nat → Nat :=
  Atomics.set offs (tmp j) (offs (tmp j) + 1)

/-- One iteration of the scan, `counting_sort_no_transpose.h:54-58`; `counts` points to the entry
`base` of the whole array.  The state is `(counts, offsets, s)`. -/
def scan1 (base : Nat) (st : (Nat → Nat) × (Nat → Nat) × Nat) (i : Nat) :
    (Nat → Nat) × (Nat → Nat) × Nat :=
  (Atomics.set st.1 (base + i) st.2.2, Atomics.set st.2.1 i (st.2.2 + st.2.1 i),
    st.2.2 + st.2.1 i)

/-- One iteration of the placing loop, `counting_sort_no_transpose.h:59-64`.  The state is
`(offsets, Out)`. -/
def place1 (tmp : Nat → Nat) (In : Nat → E) (start : Nat) (st : (Nat → Nat) × (Nat → E)) (j : Nat) :
    (Nat → Nat) × (Nat → E) :=
  (Atomics.set st.1 (tmp j) (st.1 (tmp j) - 1),
    Atomics.set st.2 (st.1 (tmp j) - 1 + start) (In (j + start)))

/-- `_seq_count_sort`, `counting_sort_no_transpose.h:37-65`, on the whole output and counter arrays.
`w` is the number of value bits of `b_size_t`, in which the keys are kept (50): 8 for `uint8_t`, 16
for `uint16_t`, 15 for `int16_t`. -/
def seqCountSort (w : Nat) (key : Nat → Nat) (In : Nat → E) (start fin nb base : Nat)
    (st : (Nat → E) × (Nat → Nat)) : (Nat → E) × (Nat → Nat) :=
  let tmp := fun j => key (j + start) % 2 ^ w
  let offs := (List.range (fin - start)).foldl (count1 tmp) (fun _ => 0)
  let sc := (List.range nb).foldl (scan1 base) (st.2, offs, 0)
  let pl := (List.range (fin - start)).reverse.foldl (place1 tmp In start) (sc.2.1, st.1)
  (pl.2, sc.1)

/-- The number of blocks, `counting_sort_no_transpose.h:77-80`; `sq` is the computed
`ceil(pow(n, 0.5))`. -/
def numBlocks (sq n : Nat) : Nat := 2 ^ Nat.clog 2 (min (if n < 20000000 then sq / 10 else sq) 512)

/-- First and last position of block `j`, `counting_sort_no_transpose.h:100-101`. -/
def blkStart (n bs j : Nat) : Nat := min (j * bs) n
@[inherit_doc blkStart]
def blkEnd (n bs j : Nat) : Nat := min (blkStart n bs j + bs) n

/-- `_count_sort`, `counting_sort_no_transpose.h:70-107`: the sorted blocks, the counters and the
number of blocks.  `B` and `C` are the contents of the uninitialised arrays.  The iterations of the
parallel loop are run in the order `ord`: they write disjoint parts of the two arrays. -/
def countSort (w : Nat) (key : Nat → Nat) (In : Nat → E) (n nb sq : Nat) (ord : List Nat)
    (B : Nat → E) (C : Nat → Nat) : (Nat → E) × (Nat → Nat) × Nat :=
  if n < 2048 ∨ numBlocks sq n = 1 then
    let r := seqCountSort w key In 0 n nb 0 (B, C)
    (r.1, r.2, 1)
  else
    let q := numBlocks sq n
    let bs := (n - 1) / q + 1
    let r := ord.foldl (fun st j =>
      seqCountSort w key In (blkStart n bs j) (blkEnd n bs j) nb (j * nb) st) (B, C)
    (r.1, r.2, q)

/-- The size and the elements of the part of block `j` that belongs to bucket `i`, as the callers
read them (`histogram.h:245-262`, `452-469`, `682-699`): the last bucket ends with the block. -/
def sliceLen (counts : Nat → Nat) (n nb bs i j : Nat) : Nat :=
  if i = nb - 1 then (blkEnd n bs j - blkStart n bs j) - counts (j * nb + i)
  else counts (j * nb + i + 1) - counts (j * nb + i)

@[inherit_doc sliceLen]
def slice (B : Nat → E) (counts : Nat → Nat) (n nb bs i j : Nat) : List E :=
  (List.range (sliceLen counts n nb bs i j)).map fun l =>
    B (counts (j * nb + i) + blkStart n bs j + l)

/-- The elements of bucket `i`, over all blocks. -/
def bucket (B : Nat → E) (counts : Nat → Nat) (n nb q i : Nat) : List E :=
  (List.range q).flatMap fun j => slice B counts n nb ((n - 1) / q + 1) i j

/-! ### One block -/

/-- Number of `j < p` with key `b`. -/
def cnt (tmp : Nat → Nat) (p b : Nat) : Nat := ((List.range p).filter fun j => tmp j = b).length

theorem cnt_succ (tmp : Nat → Nat) (p b : Nat) :
    cnt tmp (p + 1) b = cnt tmp p b + if tmp p = b then 1 else 0 := by
  unfold cnt
  rw [List.range_succ, List.filter_append, List.length_append]
  by_cases h : tmp p = b <;> simp [h]

theorem cnt_mono (tmp : Nat → Nat) (b : Nat) {p q : Nat} (h : p ≤ q) : cnt tmp p b ≤ cnt tmp q b := by
  induction q with
  | zero => have : p = 0 := by omega
            subst this; exact Nat.le_refl _
  | succ q ih =>
    rcases Nat.lt_or_ge q p with h1 | h1
    · have : p = q + 1 := by omega
      subst this; exact Nat.le_refl _
    · have := ih h1
      rw [cnt_succ]; omega

/-- Number of elements with a smaller key. -/
def pre (tmp : Nat → Nat) (n : Nat) : Nat → Nat
  | 0 => 0
  | b + 1 => pre tmp n b + cnt tmp n b

theorem pre_mono (tmp : Nat → Nat) (n : Nat) {a b : Nat} (h : a ≤ b) : pre tmp n a ≤ pre tmp n b := by
  induction b with
  | zero => have : a = 0 := by omega
            subst this; exact Nat.le_refl _
  | succ b ih =>
    rcases Nat.lt_or_ge b a with h1 | h1
    · have : a = b + 1 := by omega
      subst this; exact Nat.le_refl _
    · have := ih h1
      simp only [pre]; omega

theorem pre_succ_n (tmp : Nat → Nat) (n b : Nat) :
    pre tmp (n + 1) b = pre tmp n b + if tmp n < b then 1 else 0 := by
  induction b with
  | zero => simp [pre]
  | succ b ih =>
    simp only [pre, ih, cnt_succ]
    by_cases h1 : tmp n < b
    · have h2 : ¬ tmp n = b := by omega
      have h3 : tmp n < b + 1 := by omega
      simp [h1, h2, h3]; omega
    · by_cases h2 : tmp n = b
      · have h3 : tmp n < b + 1 := by omega
        simp [h2]; omega
      · have h3 : ¬ tmp n < b + 1 := by omega
        simp [h1, h2, h3]

theorem pre_total (tmp : Nat → Nat) (nb : Nat) {n : Nat} (h : ∀ j, j < n → tmp j < nb) :
    pre tmp n nb = n := by
  induction n with
  | zero =>
    have : ∀ b, pre tmp 0 b = 0 := by
      intro b
      induction b with
      | zero => rfl
      | succ b ih => simp [pre, ih, cnt]
    exact this nb
  | succ n ih => rw [pre_succ_n, ih (fun j hj => h j (by omega)), if_pos (h n (by omega))]

theorem count_loop (tmp : Nat → Nat) (n : Nat) :
    (List.range n).foldl (count1 tmp) (fun _ => 0) = cnt tmp n := by
  induction n with
  | zero => rfl
  | succ n ih =>
    rw [List.range_succ, List.foldl_append, ih]
    funext b
    simp only [List.foldl_cons, List.foldl_nil, count1, Atomics.set, cnt_succ]
    by_cases h : b = tmp n
    · subst h; simp
    · rw [if_neg h, if_neg (fun e => h e.symm)]; rfl

theorem scan_loop (tmp : Nat → Nat) (n base : Nat) (C : Nat → Nat) (nb : Nat) :
    let st := (List.range nb).foldl (scan1 base) (C, cnt tmp n, 0)
    st.2.2 = pre tmp n nb ∧ (∀ b, b < nb → st.1 (base + b) = pre tmp n b) ∧
    (∀ x, (x < base ∨ base + nb ≤ x) → st.1 x = C x) ∧
    ∀ b, st.2.1 b = if b < nb then pre tmp n (b + 1) else cnt tmp n b := by
  induction nb with
  | zero => simp [pre]
  | succ nb ih =>
    simp only [List.range_succ, List.foldl_append, List.foldl_cons, List.foldl_nil]
    generalize (List.range nb).foldl (scan1 base) (C, cnt tmp n, 0) = st at *
    obtain ⟨h1, h2, h3, h4⟩ := ih
    have h5 := h4 nb
    rw [if_neg (Nat.lt_irrefl _)] at h5
    simp only [scan1, h1, h5]
    refine ⟨rfl, fun b hb => ?_, fun x hx => ?_, fun b => ?_⟩
    · by_cases hbn : b = nb
      · subst hbn; simp [Atomics.set]
      · have : ¬ base + b = base + nb := by omega
        simp only [Atomics.set, this, if_false]
        exact h2 b (by omega)
    · have : ¬ x = base + nb := by omega
      simp only [Atomics.set, this, if_false]
      exact h3 x (by omega)
    · by_cases hbn : b = nb
      · subst hbn; simp [Atomics.set, pre]
      · simp only [Atomics.set, hbn, if_false]
        rw [h4 b]
        have : b < nb + 1 ↔ b < nb := by omega
        simp only [this]

/-- Where element `j` goes. -/
def pos (tmp : Nat → Nat) (n j : Nat) : Nat := pre tmp n (tmp j) + cnt tmp j (tmp j)

theorem cnt_lt {tmp : Nat → Nat} {j n : Nat} (h : j < n) : cnt tmp j (tmp j) < cnt tmp n (tmp j) := by
  have h1 := cnt_mono tmp (tmp j) (show j + 1 ≤ n from h)
  rw [cnt_succ, if_pos rfl] at h1
  omega

theorem pos_inj {tmp : Nat → Nat} {n i j : Nat} (hi : i < n) (hj : j < n)
    (h : pos tmp n i = pos tmp n j) : i = j := by
  unfold pos at h
  have key : ∀ i j, i < n → j < n → tmp i < tmp j →
      pre tmp n (tmp i) + cnt tmp i (tmp i) < pre tmp n (tmp j) + cnt tmp j (tmp j) := by
    intro i j hi hj hlt
    have h1 := pre_mono tmp n (show tmp i + 1 ≤ tmp j from hlt)
    have h2 := cnt_lt (tmp := tmp) hi
    simp only [pre] at h1
    omega
  rcases Nat.lt_trichotomy (tmp i) (tmp j) with h1 | h1 | h1
  · have := key i j hi hj h1; omega
  · rw [h1] at h
    rcases Nat.lt_trichotomy i j with h2 | h2 | h2
    · have := cnt_lt (tmp := tmp) h2; rw [h1] at this; omega
    · exact h2
    · have := cnt_lt (tmp := tmp) h2; omega
  · have := key j i hj hi h1; omega

theorem pos_lt {tmp : Nat → Nat} {n nb j : Nat} (hk : ∀ j, j < n → tmp j < nb) (hj : j < n) :
    pos tmp n j < n := by
  have h1 := cnt_lt (tmp := tmp) hj
  have h2 := pre_mono tmp n (show tmp j + 1 ≤ nb from hk j hj)
  rw [pre_total tmp nb hk] at h2
  simp only [pre] at h2
  unfold pos; omega

theorem place_loop {tmp : Nat → Nat} {n nb : Nat} (hk : ∀ j, j < n → tmp j < nb) (In : Nat → E)
    (start : Nat) (Out : Nat → E) (o : Nat → Nat)
    (ho : ∀ b, b < nb → o b = pre tmp n (b + 1)) :
    let st := (List.range n).reverse.foldl (place1 tmp In start) (o, Out)
    (∀ j, j < n → st.2 (pos tmp n j + start) = In (j + start)) ∧
    ∀ x, (x < start ∨ start + n ≤ x) → st.2 x = Out x := by
  have gen : ∀ p, p ≤ n → ∀ (o : Nat → Nat) (Out' : Nat → E),
      (∀ b, b < nb → o b = pre tmp n b + cnt tmp p b) →
      (∀ j, p ≤ j → j < n → Out' (pos tmp n j + start) = In (j + start)) →
      (∀ x, (x < start ∨ start + n ≤ x) → Out' x = Out x) →
      let st := (List.range p).reverse.foldl (place1 tmp In start) (o, Out')
      (∀ j, j < n → st.2 (pos tmp n j + start) = In (j + start)) ∧
      ∀ x, (x < start ∨ start + n ≤ x) → st.2 x = Out x := by
    intro p
    induction p with
    | zero => intro _ o Out' _ h2 h3; exact ⟨fun j hj => h2 j (Nat.zero_le _) hj, h3⟩
    | succ p ih =>
      intro hp o Out' h1 h2 h3
      rw [List.range_succ, List.reverse_append]
      simp only [List.reverse_cons, List.reverse_nil, List.nil_append, List.cons_append,
        List.foldl_cons]
      have hop : o (tmp p) - 1 = pos tmp n p := by
        rw [h1 _ (hk p (by omega)), cnt_succ, if_pos rfl]; rfl
      have hst : place1 tmp In start (o, Out') p =
          (Atomics.set o (tmp p) (pos tmp n p),
            Atomics.set Out' (pos tmp n p + start) (In (p + start))) := by
        simp only [place1, hop]
      rw [hst]
      refine ih (by omega) _ _ (fun b hb => ?_) (fun j hj hjn => ?_) (fun x hx => ?_)
      · by_cases hbp : b = tmp p
        · subst hbp; simp [Atomics.set, pos]
        · simp only [Atomics.set, hbp, if_false]
          rw [h1 b hb, cnt_succ, if_neg (fun e => hbp e.symm), Nat.add_zero]
      · by_cases hjp : j = p
        · subst hjp; simp [Atomics.set]
        · have hne : ¬ pos tmp n j + start = pos tmp n p + start := by
            intro h
            exact hjp (pos_inj (tmp := tmp) hjn (by omega) (by omega))
          simp only [Atomics.set, hne, if_false]
          exact h2 j (by omega) hjn
      · have h4 := pos_lt hk (show p < n by omega)
        have hne : ¬ x = pos tmp n p + start := by omega
        simp only [Atomics.set, hne, if_false]
        exact h3 x hx
  refine gen n (Nat.le_refl _) o Out (fun b hb => ho b hb) (fun j h1 h2 => by omega) (fun _ _ => rfl)

/-- What one block is left with: the counters say how many elements have a smaller key, and the
elements of each key stand in their original order. -/
def Sorted (key : Nat → Nat) (In : Nat → E) (start fin nb base : Nat)
    (st : (Nat → E) × (Nat → Nat)) : Prop :=
  ∀ b, b < nb → st.2 (base + b) = pre (fun j => key (j + start)) (fin - start) b ∧
    (List.range (cnt (fun j => key (j + start)) (fin - start) b)).map
      (fun l => st.1 (st.2 (base + b) + start + l)) =
      ((List.range (fin - start)).filter fun j => key (j + start) = b).map fun j => In (j + start)

theorem seqCountSort_spec {w nb : Nat} {key : Nat → Nat} (In : Nat → E) {start fin : Nat} (base : Nat)
    (hnb : nb ≤ 2 ^ w) (hk : ∀ j, start ≤ j → j < fin → key j < nb)
    (st : (Nat → E) × (Nat → Nat)) :
    Sorted key In start fin nb base (seqCountSort w key In start fin nb base st) ∧
    (∀ x, (x < start ∨ fin ≤ x) → (seqCountSort w key In start fin nb base st).1 x = st.1 x) ∧
    ∀ x, (x < base ∨ base + nb ≤ x) → (seqCountSort w key In start fin nb base st).2 x = st.2 x := by
  unfold seqCountSort
  dsimp only
  set n := fin - start with hn
  have hk' : ∀ j, j < n → key (j + start) % 2 ^ w < nb := by
    intro j hj
    have := hk (j + start) (by omega) (by omega)
    rw [Nat.mod_eq_of_lt (by omega)]; exact this
  rw [count_loop]
  have hsc := scan_loop (fun j => key (j + start) % 2 ^ w) n base st.2 nb
  dsimp only at hsc
  generalize (List.range nb).foldl (scan1 base) (st.2, cnt (fun j => key (j + start) % 2 ^ w) n, 0)
    = sc at *
  obtain ⟨_, hs2, hs3, hs4⟩ := hsc
  have hpl := place_loop hk' In start st.1 sc.2.1 (fun b hb => by rw [hs4 b, if_pos hb])
  dsimp only at hpl
  generalize (List.range n).reverse.foldl (place1 (fun j => key (j + start) % 2 ^ w) In start)
    (sc.2.1, st.1) = pl at *
  obtain ⟨hp1, hp2⟩ := hpl
  have hcnt : ∀ p, p ≤ n → ∀ b, ((List.range p).filter fun j => key (j + start) = b) =
      (List.range p).filter fun j => key (j + start) % 2 ^ w = b := by
    intro p hp b
    apply List.filter_congr
    intro j hj
    rw [List.mem_range] at hj
    rw [Nat.mod_eq_of_lt (by have := hk (j + start) (by omega) (by omega); omega)]
  have hcnt' : ∀ p, p ≤ n → ∀ b, cnt (fun j => key (j + start)) p b =
      cnt (fun j => key (j + start) % 2 ^ w) p b := by
    intro p hp b; unfold cnt; rw [hcnt p hp b]
  have hpre : ∀ b, pre (fun j => key (j + start)) n b = pre (fun j => key (j + start) % 2 ^ w) n b := by
    intro b
    induction b with
    | zero => rfl
    | succ b ih => simp only [pre, ih, hcnt' n (Nat.le_refl _)]
  refine ⟨fun b hb => ⟨?_, ?_⟩, fun x hx => hp2 x (by omega), hs3⟩
  · show sc.1 (base + b) = _
    rw [hs2 b hb]; exact (hpre b).symm
  · show (List.range (cnt _ n b)).map (fun l => pl.2 (sc.1 (base + b) + start + l)) = _
    rw [hs2 b hb, hcnt' n (Nat.le_refl _), hcnt n (Nat.le_refl _)]
    have gen : ∀ p, p ≤ n →
        (List.range (cnt (fun j => key (j + start) % 2 ^ w) p b)).map (fun l =>
          pl.2 (pre (fun j => key (j + start) % 2 ^ w) n b + start + l)) =
        ((List.range p).filter fun j => key (j + start) % 2 ^ w = b).map fun j => In (j + start) := by
      intro p
      induction p with
      | zero => intro _; rfl
      | succ p ih =>
        intro hp
        rw [cnt_succ]
        by_cases h : key (p + start) % 2 ^ w = b
        · rw [if_pos h, List.range_succ, List.map_append, ih (by omega), List.range_succ,
            List.filter_append, List.map_append]
          have h1 := hp1 p (by omega)
          unfold pos at h1
          simp only [h] at h1
          have h2 : pre (fun j => key (j + start) % 2 ^ w) n b + start +
              cnt (fun j => key (j + start) % 2 ^ w) p b =
              pre (fun j => key (j + start) % 2 ^ w) n b +
              cnt (fun j => key (j + start) % 2 ^ w) p b + start := by omega
          simp only [List.map_cons, List.map_nil, h2, h1]
          simp [h]
        · rw [if_neg h, Nat.add_zero, ih (by omega), List.range_succ, List.filter_append,
            List.map_append]
          simp [h]
    exact gen n (Nat.le_refl _)

/-! ### All blocks -/

theorem slice_of_sorted {key : Nat → Nat} {In : Nat → E} {n nb bs j : Nat} {B : Nat → E}
    {C : Nat → Nat} (hk : ∀ x, x < n → key x < nb)
    (h : Sorted key In (blkStart n bs j) (blkEnd n bs j) nb (j * nb) (B, C)) {i : Nat} (hi : i < nb) :
    slice B C n nb bs i j = ((List.range (blkEnd n bs j - blkStart n bs j)).filter fun x =>
      key (x + blkStart n bs j) = i).map fun x => In (x + blkStart n bs j) := by
  obtain ⟨h1, h2⟩ := h i hi
  dsimp only at h1 h2
  have hlen : sliceLen C n nb bs i j =
      cnt (fun x => key (x + blkStart n bs j)) (blkEnd n bs j - blkStart n bs j) i := by
    unfold sliceLen
    by_cases hl : i = nb - 1
    · rw [if_pos hl, h1]
      have h3 := pre_total (fun x => key (x + blkStart n bs j)) nb
        (n := blkEnd n bs j - blkStart n bs j) (fun x hx => hk _ (by
          have : blkEnd n bs j ≤ n := Nat.min_le_right _ _
          omega))
      have h4 : nb = i + 1 := by omega
      rw [h4] at h3
      simp only [pre] at h3
      omega
    · rw [if_neg hl, h1]
      have h3 := (h (i + 1) (by omega)).1
      dsimp only at h3
      rw [Nat.add_assoc, h3]
      simp only [pre]
      omega
  unfold slice
  rw [hlen]
  exact h2

theorem range_blocks (n bs q : Nat) (h : n ≤ q * bs) :
    (List.range q).flatMap (fun j => (List.range (blkEnd n bs j - blkStart n bs j)).map
      fun x => x + blkStart n bs j) = List.range n := by
  have gen : ∀ p, (List.range p).flatMap (fun j =>
      (List.range (blkEnd n bs j - blkStart n bs j)).map fun x => x + blkStart n bs j) =
      List.range (min (p * bs) n) := by
    intro p
    induction p with
    | zero => simp
    | succ p ih =>
      rw [List.range_succ, List.flatMap_append, ih]
      simp only [List.flatMap_cons, List.flatMap_nil, List.append_nil]
      have e : min ((p + 1) * bs) n = blkStart n bs p + (blkEnd n bs p - blkStart n bs p) := by
        unfold blkEnd blkStart
        rw [Nat.succ_mul]; omega
      rw [e, List.range_add]
      congr 1
      apply List.map_congr_left
      intro x _
      exact Nat.add_comm _ _
  rw [gen q, Nat.min_eq_right h]

theorem bucket_of_sorted {key : Nat → Nat} {In : Nat → E} {n nb q : Nat} {B : Nat → E}
    {C : Nat → Nat} (hk : ∀ x, x < n → key x < nb) (hq : n ≤ q * ((n - 1) / q + 1))
    (h : ∀ j, j < q → Sorted key In (blkStart n ((n - 1) / q + 1) j) (blkEnd n ((n - 1) / q + 1) j)
      nb (j * nb) (B, C)) {i : Nat} (hi : i < nb) :
    bucket B C n nb q i = ((List.range n).filter fun x => key x = i).map In := by
  unfold bucket
  have h1 : (List.range q).flatMap (fun j => slice B C n nb ((n - 1) / q + 1) i j) =
      (List.range q).flatMap fun j =>
        (((List.range (blkEnd n ((n - 1) / q + 1) j - blkStart n ((n - 1) / q + 1) j)).map fun x =>
          x + blkStart n ((n - 1) / q + 1) j).filter fun x => key x = i).map In := by
    apply List.flatMap_congr
    intro j hj
    rw [slice_of_sorted hk (h j (List.mem_range.1 hj)) hi, List.filter_map, List.map_map]
    rfl
  rw [h1, ← range_blocks n ((n - 1) / q + 1) q hq, List.filter_flatMap, List.map_flatMap]

theorem blocks_cover {n q : Nat} (hq : 0 < q) : n ≤ q * ((n - 1) / q + 1) := by
  have h1 := Nat.div_add_mod (n - 1) q
  have h2 := Nat.mod_lt (n - 1) hq
  rw [Nat.mul_add]
  generalize (n - 1) / q = d at *
  omega

theorem blk_disjoint (n bs : Nat) {i j : Nat} (h : i ≠ j) :
    blkEnd n bs i ≤ blkStart n bs j ∨ blkEnd n bs j ≤ blkStart n bs i := by
  unfold blkEnd blkStart
  rcases Nat.lt_or_gt_of_ne h with h | h
  · have := Nat.mul_le_mul_right bs (show i + 1 ≤ j from h)
    rw [Nat.succ_mul] at this
    omega
  · have := Nat.mul_le_mul_right bs (show j + 1 ≤ i from h)
    rw [Nat.succ_mul] at this
    omega

theorem sorted_congr {key : Nat → Nat} {In : Nat → E} {start fin nb base : Nat}
    {st st' : (Nat → E) × (Nat → Nat)} (hk : ∀ j, start ≤ j → j < fin → key j < nb)
    (h : Sorted key In start fin nb base st)
    (h1 : ∀ x, start ≤ x → x < fin → st'.1 x = st.1 x)
    (h2 : ∀ x, base ≤ x → x < base + nb → st'.2 x = st.2 x) :
    Sorted key In start fin nb base st' := by
  intro b hb
  obtain ⟨h3, h4⟩ := h b hb
  have h5 := h2 (base + b) (by omega) (by omega)
  refine ⟨by rw [h5, h3], ?_⟩
  rw [← h4, h5]
  apply List.map_congr_left
  intro l hl
  rw [List.mem_range] at hl
  have h6 := pre_mono (fun j => key (j + start)) (fin - start) (show b + 1 ≤ nb from hb)
  rw [pre_total _ nb (fun j hj => hk _ (by omega) (by omega))] at h6
  simp only [pre] at h6
  rw [h3]
  exact h1 _ (by omega) (by omega)

theorem blocks_sorted {w nb n bs : Nat} {key : Nat → Nat} (In : Nat → E) (hnb : nb ≤ 2 ^ w)
    (hk : ∀ x, x < n → key x < nb) (ord : List Nat) (st : (Nat → E) × (Nat → Nat)) :
    ∀ j, (j ∈ ord ∨ Sorted key In (blkStart n bs j) (blkEnd n bs j) nb (j * nb) st) →
      Sorted key In (blkStart n bs j) (blkEnd n bs j) nb (j * nb)
      (ord.foldl (fun st j =>
        seqCountSort w key In (blkStart n bs j) (blkEnd n bs j) nb (j * nb) st) st) := by
  have hkj : ∀ j x, blkStart n bs j ≤ x → x < blkEnd n bs j → key x < nb := by
    intro j x _ hx
    exact hk x (by have : blkEnd n bs j ≤ n := Nat.min_le_right _ _
                   omega)
  induction ord generalizing st with
  | nil =>
    intro j hj
    rcases hj with hj | hj
    · cases hj
    · exact hj
  | cons a ord ih =>
    intro j hj
    rw [List.foldl_cons]
    apply ih
    obtain ⟨h1, h2, h3⟩ := seqCountSort_spec In (a * nb) hnb (hkj a) st
    by_cases hja : j = a
    · subst hja; exact Or.inr h1
    · rcases hj with hj | hj
      · left
        rcases List.mem_cons.1 hj with hj | hj
        · exact absurd hj hja
        · exact hj
      · right
        refine sorted_congr (hkj j) hj (fun x hx1 hx2 => h2 x ?_) (fun x hx1 hx2 => h3 x ?_)
        · rcases blk_disjoint n bs hja with h | h
          · left; omega
          · right; omega
        · rcases Nat.lt_or_gt_of_ne hja with h | h
          · left
            have := Nat.mul_le_mul_right nb (show j + 1 ≤ a from h)
            rw [Nat.succ_mul] at this; omega
          · right
            have := Nat.mul_le_mul_right nb (show a + 1 ≤ j from h)
            rw [Nat.succ_mul] at this; omega

/-- C116: whatever the order in which the blocks are processed, whatever the computed square root and
whatever the arrays contained, the elements the callers read for bucket `i` are exactly the input
elements with key `i`, in their original order. -/
theorem countSort_spec {w nb n sq : Nat} {key : Nat → Nat} (In : Nat → E) (hnb : nb ≤ 2 ^ w)
    (hk : ∀ x, x < n → key x < nb) (ord : List Nat)
    (hord : ord.Perm (List.range (numBlocks sq n))) (B : Nat → E) (C : Nat → Nat) :
    0 < (countSort w key In n nb sq ord B C).2.2 ∧ ∀ i, i < nb →
      bucket (countSort w key In n nb sq ord B C).1 (countSort w key In n nb sq ord B C).2.1 n nb
        (countSort w key In n nb sq ord B C).2.2 i =
      ((List.range n).filter fun x => key x = i).map In := by
  unfold countSort
  by_cases hs : n < 2048 ∨ numBlocks sq n = 1
  · rw [if_pos hs]
    refine ⟨Nat.one_pos, fun i hi => bucket_of_sorted hk (blocks_cover Nat.one_pos) ?_ hi⟩
    intro j hj
    have : j = 0 := by omega
    subst this
    have e1 : blkStart n ((n - 1) / 1 + 1) 0 = 0 := by unfold blkStart; omega
    have e2 : blkEnd n ((n - 1) / 1 + 1) 0 = n := by
      unfold blkEnd; rw [e1, Nat.div_one]; omega
    rw [e1, e2, Nat.zero_mul]
    exact (seqCountSort_spec In 0 hnb (fun j _ hj => hk j hj) (B, C)).1
  · rw [if_neg hs]
    have hq : 0 < numBlocks sq n := Nat.pow_pos (by decide)
    refine ⟨hq, fun i hi => bucket_of_sorted hk (blocks_cover hq) (fun j hj => ?_) hi⟩
    exact blocks_sorted In hnb hk ord (B, C) j (Or.inl (hord.mem_iff.2 (List.mem_range.2 hj)))

/-- Nine elements, three buckets; the arrays held other values before. -/
example : let r := countSort 8 (fun i => [2, 0, 1, 0, 2, 2, 1, 0, 2].getD i 0) (fun i => 10 * i) 9 3 1 [0] (fun _ => 7) (fun _ => 5)
    (List.range 3).map (bucket r.1 r.2.1 9 3 r.2.2) = [[10, 30, 70], [20, 60], [0, 40, 50, 80]] ∧ (3 : Nat) ≤ 2 ^ 8 := by
  decide +kernel

end Gbbs.CountSort
