/-
C117: `histogram` and `histogram_medium`, `gbbs/helpers/histogram.h`.
-/
import Verif.Hist.Regions
import Verif.Hist.Heavy

namespace Gbbs.Hist

open Gbbs.Hash Gbbs.SeqHT Gbbs.CountSort

variable {V X O : Type}

/-! ### Model: one worker, or few elements -/

/-- Conversion of an integer to `float`: round to 24 significant bits, ties to even. -/
def f32 (x : Nat) : Nat :=
  if x < 2 ^ 24 then x
  else
    let e := Nat.log 2 x - 23
    let q := x / 2 ^ e
    let r := x % 2 ^ e
    if 2 ^ e < 2 * r ∨ (2 * r = 2 ^ e ∧ q % 2 = 1) then (q + 1) * 2 ^ e else q * 2 ^ e

/-- Number of slots, `sequential_ht.h:54` with load factor `1.0f`: `1.0f * size` and the addition are
done in `float`. -/
def seqM (n : Nat) : Nat := 2 ^ Nat.clog 2 (f32 (f32 n + 1))

/-- The sequential case, `histogram.h:311-329` and `seq_histogram_reduce` (`:566-584`); `cap` is the
length of the array `out`: `ct` in the first, `n` in the second.  `none`: an insertion never
returns, an access out of bounds, or a size for which `(intT)(n + 1)` overflows. -/
def histSeq (h64 : Nat → Nat) (emp : Nat) (ev : V) (key : X → Nat) (new old : X → V → V)
    (f : Nat × V → Option O) (cap : Nat → Nat) (xs : List X) (ht : HT Nat V) :
    Option (List O × HT Nat V) :=
  if 2 ^ 31 ≤ xs.length + 1 then none
  else
    let ht := ht.resize emp ev (2 ^ Nat.clog 2 (xs.length + 1))
    if ht.size < seqM xs.length then none
    else
      match insAllC ⟨seqM xs.length, h64, emp⟩ key new old xs (ht.tab, 0) with
      | none => none
      | some (T, ct) =>
        let r := compactInto ⟨seqM xs.length, h64, emp⟩ ev f T
        if cap ct < r.2.length then none else some (r.2, ⟨ht.size, r.1⟩)

/-! ### Model: several workers -/

/-- Number of buckets, `histogram.h:158-162`, `335-339`, `606-610`; `sq` is the computed
`ceil(pow(n, 0.5))`. -/
def numBuckets (sq n : Nat) : Nat :=
  min (max (2 ^ Nat.clog 2 (if n < 20000000 then sq / 5 else sq)) 1) 1024

/-- State of the loop over the buckets: the table, `out_offs` and `heavy_cts`. -/
structure St where
  tab : Tab Nat Nat
  k : Nat → Nat
  heavy : Nat → Option (Nat × Nat)

/-- The loop of a heavy bucket, `histogram.h:477-498`; the state is `(key, is_set, total_ct)`. -/
def heavyScan (B : Nat → Nat) (counts : Nat → Nat) (n nt bs i : Nat) (q : Nat) : Nat × Bool × Nat :=
  (List.range q).foldl (fun a j =>
    let ct := sliceLen counts n nt bs i j
    if a.2.1 = false ∧ ct ≠ 0 then (B (counts (j * nt + i) + blkStart n bs j), true, a.2.2 + ct)
    else (a.1, a.2.1, a.2.2 + ct)) (0, false, 0)

/-- One iteration of the loop over the buckets, `histogram.h:442-508` (`236-267` in
`histogram_medium`, where there are no heavy buckets); `elems i` are the elements read for bucket `i`,
`off i` and `sz i` its part of the table. -/
def bucketStep (h64 : Nat → Nat) (emp ev : Nat) (f : Nat × Nat → Option (Nat × Nat)) (nb : Nat)
    (elems : Nat → List Nat) (off sz : Nat → Nat) (scan : Nat → Nat × Bool × Nat) (st : St) (i : Nat) :
    Option St :=
  if i < nb then
    if sz i = 0 then some ⟨st.tab, Atomics.set st.k i 0, st.heavy⟩
    else
      match insAllC ⟨sz i, h64, emp⟩ id (fun _ _ => 1) (fun _ c => c + 1) (elems i)
          (view st.tab (off i), 0) with
      | none => none
      | some (S, _) =>
        let r := compactSelf ⟨sz i, h64, emp⟩ ev f S
        some ⟨put st.tab (off i) (sz i) r.1, Atomics.set st.k i r.2, st.heavy⟩
  else
    let a := scan i
    some ⟨st.tab, st.k, Atomics.set st.heavy (i - nb) (if a.1 ≠ emp then f (a.1, a.2.2) else none)⟩

/-- `histogram_medium`, `histogram.h:155-301` (`nt = nb`, `nh = 0`), and the rest of `histogram` once
the heavy keys are known, `histogram.h:348-561` (`nt = 2 * nb`): `nb` light and `nh` heavy buckets,
`nt` counters per block, `bkt` the bucket of a key.  `ords` gives the order in which the iterations
of a parallel loop are run.  `none` also if a light bucket has at least 2^30 elements, since its table
size is computed by `1 << ...` in 32 bits.  The results of the light buckets are concatenated
(`res[o + j]`, where `o` is the scan of the numbers of results). -/
def histBuckets (h64 : Nat → Nat) (emp ev : Nat) (f : Nat × Nat → Option (Nat × Nat)) (bkt : Nat → Nat)
    (nb nt nh n sq : Nat) (In : Nat → Nat) (ords : Nat → List Nat) (B C : Nat → Nat)
    (ht : HT Nat Nat) : Option (List (Nat × Nat) × HT Nat Nat) :=
  let w := if nt ≤ 256 then 8 else 16
  let cs := countSort w (fun i => bkt (In i)) In n nt sq (ords (numBlocks sq n)) B C
  let q := cs.2.2
  let bs := (n - 1) / q + 1
  let size := fun i => ((List.range q).map fun j => sliceLen cs.2.1 n nt bs i j).sum
  if (List.range nb).any (fun i => 2 ^ 30 ≤ size i) then none
  else
    let sz := fun i => hsz (size i)
    let off := hoff sz
    let ht := ht.resize emp ev (off nb)
    match (ords (nb + nh)).foldlM
      (bucketStep h64 emp ev f nb (fun i => bucket cs.1 cs.2.1 n nt q i) off sz
        (fun i => heavyScan cs.1 cs.2.1 n nt bs i q)) ⟨ht.tab, fun _ => 0, fun _ => none⟩ with
    | none => none
    | some st =>
      some ((List.range nb).flatMap (fun i => firsts (view st.tab (off i)) (st.k i)) ++
          (List.range nh).filterMap st.heavy,
        ⟨ht.size, (List.range nb).foldl (fun T i => clear emp ev T (off i) (st.k i)) st.tab⟩)

/-- `histogram_medium`, `histogram.h:155-301`. -/
def histMedium (h32 h64 : Nat → Nat) (emp ev : Nat) (f : Nat × Nat → Option (Nat × Nat)) (n sq : Nat)
    (In : Nat → Nat) (ords : Nat → List Nat) (B C : Nat → Nat) (ht : HT Nat Nat) :
    Option (List (Nat × Nat) × HT Nat Nat) :=
  histBuckets h64 emp ev f (lightBucket h32 (numBuckets sq n)) (numBuckets sq n) (numBuckets sq n) 0
    n sq In ords B C ht

/-- `histogram`, `histogram.h:303-562`: the keys are `In 0, ..., In (n - 1)`, `emp` the reserved key
of the table, `ev` its initial value, `f` is `apply_f`.  `h32` and `h64` are the hash functions,
`sq` the computed square root, `workers` the number of workers, `B` and `C` the contents of the
uninitialised arrays. -/
def histogram (h32 h64 : Nat → Nat) (emp ev : Nat) (f : Nat × Nat → Option (Nat × Nat))
    (workers n sq : Nat) (In : Nat → Nat) (ords : Nat → List Nat) (B C : Nat → Nat) (ht : HT Nat Nat) :
    Option (List (Nat × Nat) × HT Nat Nat) :=
  if n < 4096 ∨ workers = 1 then
    histSeq h64 emp ev id (fun _ _ => 1) (fun _ c => c + 1) f id ((List.range n).map In) ht
  else if n < 5000000 then histMedium h32 h64 emp ev f n sq In ords B C ht
  else
    let nb := numBuckets sq n
    let hs := heavyHitters h32 In n (2 * nb)
    if hs = [] then histMedium h32 h64 emp ev f n sq In ords B C ht
    else
      match heavyTable (heavyPar h32 (8 * nb)) hs.zipIdx ⟨fun _ => none, fun _ => 0⟩ with
      | none => none
      | some T =>
        if (List.range n).any (fun i => (bucketOf h32 nb hs T (In i)).isNone) then none
        else
          histBuckets h64 emp ev f (fun k => (bucketOf h32 nb hs T k).getD 0) nb (2 * nb) hs.length n sq
            In ords B C ht

/-! ### The number of slots with one worker -/

theorem f32_le (x : Nat) : f32 x ≤ 2 ^ Nat.clog 2 x := by
  unfold f32
  by_cases h : x < 2 ^ 24
  · rw [if_pos h]; exact Nat.le_pow_clog (by decide) _
  · rw [if_neg h]
    dsimp only
    have hx : x ≠ 0 := by rintro rfl; simp at h
    have hlog : 24 ≤ Nat.log 2 x := Nat.le_log_of_pow_le (by decide) (by omega)
    have h1 : 2 ^ Nat.log 2 x ≤ x := Nat.pow_log_le_self 2 hx
    have h2 : x < 2 ^ (Nat.log 2 x + 1) := Nat.lt_pow_succ_log_self (by decide) x
    set e := Nat.log 2 x - 23 with he
    have hpow : 2 ^ (Nat.log 2 x + 1) = 2 ^ 24 * 2 ^ e := by rw [← pow_add]; congr 1; omega
    have hpow' : 2 ^ Nat.log 2 x = 2 ^ 23 * 2 ^ e := by rw [← pow_add]; congr 1; omega
    have hep : 0 < 2 ^ e := Nat.pow_pos (by decide)
    have hdm := Nat.div_add_mod x (2 ^ e)
    have hclog := Nat.le_pow_clog (b := 2) (by decide) x
    by_cases hr : x % 2 ^ e = 0
    · rw [if_neg (by rw [hr]; omega)]
      rw [hr, Nat.add_zero, Nat.mul_comm] at hdm
      omega
    · have hlt : 2 ^ Nat.log 2 x < x := by
        rcases Nat.lt_or_eq_of_le h1 with h3 | h3
        · exact h3
        · exfalso; apply hr
          rw [← h3, hpow']; exact Nat.mul_mod_left _ _
      have hc : Nat.log 2 x + 1 ≤ Nat.clog 2 x := by
        by_contra hcon
        have : 2 ^ Nat.clog 2 x ≤ 2 ^ Nat.log 2 x := Nat.pow_le_pow_right (by decide) (by omega)
        omega
      have hle : 2 ^ 24 * 2 ^ e ≤ 2 ^ Nat.clog 2 x := by
        rw [← hpow]; exact Nat.pow_le_pow_right (by decide) hc
      have hq : x / 2 ^ e + 1 ≤ 2 ^ 24 := by
        have : x / 2 ^ e < 2 ^ 24 := Nat.div_lt_of_lt_mul (by rw [Nat.mul_comm, ← hpow]; exact h2)
        omega
      have h3 := Nat.mul_le_mul_right (2 ^ e) hq
      have h4 := Nat.mul_le_mul_right (2 ^ e) (show x / 2 ^ e ≤ x / 2 ^ e + 1 by omega)
      split <;> omega

theorem f32_pow_succ {c : Nat} (hc : 24 ≤ c) : f32 (2 ^ c + 1) = 2 ^ c := by
  unfold f32
  have h24 : 2 ^ 24 ≤ 2 ^ c := Nat.pow_le_pow_right (by decide) hc
  rw [if_neg (by omega)]
  dsimp only
  have hlog : Nat.log 2 (2 ^ c + 1) = c := by
    refine (Nat.log_eq_iff (Or.inl (by omega))).2 ⟨by omega, ?_⟩
    rw [pow_succ]; omega
  rw [hlog]
  have hpow : 2 ^ c = 2 ^ 23 * 2 ^ (c - 23) := by rw [← pow_add]; congr 1; omega
  have he : 2 ≤ 2 ^ (c - 23) := by
    calc 2 = 2 ^ 1 := rfl
      _ ≤ 2 ^ (c - 23) := Nat.pow_le_pow_right (by decide) (by omega)
  have hdiv : (2 ^ c + 1) / 2 ^ (c - 23) = 2 ^ 23 := by
    rw [hpow, Nat.mul_comm, Nat.mul_add_div (by omega), Nat.div_eq_of_lt (by omega)]; rfl
  have hmod : (2 ^ c + 1) % 2 ^ (c - 23) = 1 := by
    rw [hpow, Nat.mul_comm, Nat.mul_add_mod, Nat.mod_eq_of_lt (by omega)]
  rw [hdiv, hmod, if_neg (by omega), ← hpow]

/-- The sequential table never exceeds the memory reserved for it. -/
theorem seqM_le (n : Nat) : seqM n ≤ 2 ^ Nat.clog 2 (n + 1) := by
  unfold seqM
  apply Nat.pow_le_pow_right (by decide)
  by_cases h : n < 2 ^ 24
  · have e : f32 n = n := by unfold f32; rw [if_pos h]
    rw [e]
    exact Nat.clog_le_of_le_pow (f32_le _)
  · have h1 := f32_le n
    have hc : 24 ≤ Nat.clog 2 n := by
      by_contra hcon
      have h2 := Nat.le_pow_clog (b := 2) (by decide) n
      have h3 : 2 ^ Nat.clog 2 n ≤ 2 ^ 23 := Nat.pow_le_pow_right (by decide) (by omega)
      omega
    refine Nat.le_trans (Nat.clog_le_of_le_pow ?_) (Nat.clog_mono_right 2 (Nat.le_succ n))
    rcases Nat.lt_or_eq_of_le h1 with h2 | h2
    · refine Nat.le_trans (f32_le _) ?_
      exact Nat.pow_le_pow_right (by decide) (Nat.clog_le_of_le_pow h2)
    · rw [h2, f32_pow_succ hc]

/-- Up to 2^24 elements always fit. -/
theorem le_seqM {n : Nat} (h : n ≤ 2 ^ 24) : n ≤ seqM n := by
  unfold seqM
  rcases Nat.lt_or_eq_of_le h with h1 | rfl
  · have e : f32 n = n := by unfold f32; rw [if_pos h1]
    rw [e]
    have h2 : n ≤ f32 (n + 1) := by
      rcases Nat.lt_or_eq_of_le (show n + 1 ≤ 2 ^ 24 from h1) with h3 | h3
      · unfold f32; rw [if_pos h3]; omega
      · rw [h3]; have : f32 (2 ^ 24) = 2 ^ 24 := by decide +kernel
        omega
    exact Nat.le_trans h2 (Nat.le_pow_clog (by decide) _)
  · have : f32 (f32 (2 ^ 24) + 1) = 2 ^ 24 := by decide +kernel
    rw [this]; exact Nat.le_pow_clog (by decide) _

/-! ### The sequential case -/

theorem histSeq_spec (h64 : Nat → Nat) (emp : Nat) (ev : V) (key : X → Nat) (new old : X → V → V)
    (f : Nat × V → Option O) (cap : Nat → Nat) (ok : V → Prop) (hev : ok ev) (xs : List X)
    (hn : xs.length + 1 < 2 ^ 31) (hd : (xs.map key).dedup.length ≤ seqM xs.length)
    (hcap : ∀ c l, l ≤ c → l ≤ xs.length → l ≤ cap c)
    (hok1 : ∀ x ∈ xs, ∀ v, ok v → new x v = new x ev)
    (hok2 : ∀ x ∈ xs, key x = emp → ∀ v, ok v → ok (new x v))
    (ht : HT Nat V) (hT : Clean emp ok ht.size ht.tab) :
    ∃ res ht', histSeq h64 emp ev key new old f cap xs ht = some (res, ht') ∧
      res.Perm ((tally key emp (run new old ev) xs).filterMap f) ∧ Clean emp ok ht'.size ht'.tab := by
  unfold histSeq
  rw [if_neg (by omega)]
  dsimp only
  have hsz := resize_size emp ev ht (2 ^ Nat.clog 2 (xs.length + 1))
  have hcl := resize_clean hev (2 ^ Nat.clog 2 (xs.length + 1)) hT
  generalize ht.resize emp ev (2 ^ Nat.clog 2 (xs.length + 1)) = ht at *
  have hle := seqM_le xs.length
  rw [if_neg (by omega)]
  have hm : 0 < seqM xs.length := Nat.pow_pos (by decide)
  obtain ⟨S, c, h1, h2, h3, h4, _⟩ := region_spec (h64 := h64) hm key new old ev ok xs hd hok1 hok2 ht.tab
    (fun s hs => hcl s (by omega))
  rw [h1]
  dsimp only
  obtain ⟨c1, c2, c3⟩ := compactInto_spec ⟨seqM xs.length, h64, emp⟩ ev f S
  have c4 := compactInto_empty ⟨seqM xs.length, h64, emp⟩ ev f S
  have hlen : (compactInto ⟨seqM xs.length, h64, emp⟩ ev f S).2.length ≤ cap c := by
    rw [c1]
    have h5 := List.length_filterMap_le f (entries ⟨seqM xs.length, h64, emp⟩ S.key S.val)
    have h6 : (entries ⟨seqM xs.length, h64, emp⟩ S.key S.val).length ≤ xs.length := by
      rw [h2.length_eq]
      unfold tally
      rw [List.length_map]
      refine Nat.le_trans (dedup_length_le _) (Nat.le_trans (List.length_filter_le _ _) ?_)
      simp
    exact hcap _ _ (Nat.le_trans h5 h4) (Nat.le_trans h5 h6)
  rw [if_neg (by omega)]
  refine ⟨_, _, rfl, ?_, ?_⟩
  · rw [c1]; exact h2.filterMap f
  · intro s hs
    by_cases hsm : s < seqM xs.length
    · refine ⟨c2 s hsm, ?_⟩
      by_cases hse : S.key s = emp
      · rw [c4 s hse]; exact h3 s hsm hse
      · rw [c3 s hsm hse]; exact hev
    · obtain ⟨e1, e2⟩ := compactInto_frame ⟨seqM xs.length, h64, emp⟩ ev f S s (Nat.le_of_not_lt hsm)
      obtain ⟨e3, e4⟩ := insAllC_frame (P := ⟨seqM xs.length, h64, emp⟩) hm key new old xs _ _ h1 s
        (Nat.le_of_not_lt hsm)
      show (compactInto _ ev f S).1.key s = emp ∧ ok ((compactInto _ ev f S).1.val s)
      rw [e1, e2]
      dsimp only at e3 e4
      rw [e3, e4]
      exact hcl s hs

theorem run_length (v : Nat) (l : List Nat) (h : l ≠ []) :
    run (fun _ _ => 1) (fun _ c => c + 1) v l = l.length := by
  have gen : ∀ (l : List Nat) (c : Nat), l.foldl (fun c _ => c + 1) c = c + l.length := by
    intro l
    induction l with
    | nil => intro c; rfl
    | cons x l ih => intro c; rw [List.foldl_cons, ih]; simp; omega
  cases l with
  | nil => exact absurd rfl h
  | cons x l => simp only [run, gen, List.length_cons]; omega

/-! ### Several workers -/

theorem heavyScan_spec (B counts : Nat → Nat) (n nt bs i q : Nat) :
    (heavyScan B counts n nt bs i q).1 =
      ((List.range q).flatMap fun j => slice B counts n nt bs i j).headD 0 ∧
    ((heavyScan B counts n nt bs i q).2.1 = false ↔
      ((List.range q).flatMap fun j => slice B counts n nt bs i j) = []) ∧
    (heavyScan B counts n nt bs i q).2.2 =
      ((List.range q).flatMap fun j => slice B counts n nt bs i j).length := by
  unfold heavyScan
  induction q with
  | zero => simp
  | succ q ih =>
    rw [List.range_succ, List.foldl_append, List.flatMap_append]
    simp only [List.foldl_cons, List.foldl_nil, List.flatMap_cons, List.flatMap_nil, List.append_nil]
    generalize (List.range q).foldl _ ((0, false, 0) : Nat × Bool × Nat) = a at *
    generalize (List.range q).flatMap (fun j => slice B counts n nt bs i j) = L at *
    obtain ⟨h1, h2, h3⟩ := ih
    have hlen : (slice B counts n nt bs i q).length = sliceLen counts n nt bs i q := by simp [slice]
    have hnil : slice B counts n nt bs i q = [] ↔ sliceLen counts n nt bs i q = 0 := by
      rw [← hlen, List.length_eq_zero_iff]
    have hhead : sliceLen counts n nt bs i q ≠ 0 → (slice B counts n nt bs i q).headD 0 =
        B (counts (q * nt + i) + blkStart n bs q) := by
      intro h
      unfold slice
      obtain ⟨c, hc⟩ := Nat.exists_eq_succ_of_ne_zero h
      rw [hc, Nat.succ_eq_add_one, List.range_succ_eq_map]
      simp
    by_cases hc : a.2.1 = false ∧ sliceLen counts n nt bs i q ≠ 0
    · rw [if_pos hc]
      have hL := h2.1 hc.1
      subst hL
      refine ⟨?_, ?_, ?_⟩
      · rw [List.nil_append, hhead hc.2]
      · simp [hnil, hc.2]
      · simp [hlen, h3]
    · rw [if_neg hc]
      dsimp only
      refine ⟨?_, ?_, ?_⟩
      · cases L with
        | nil =>
          have : sliceLen counts n nt bs i q = 0 := by
            by_contra h; exact hc ⟨h2.2 rfl, h⟩
          rw [hnil.2 this]; simpa using h1
        | cons y L => simpa using h1
      · rw [h2, List.append_eq_nil_iff]
        constructor
        · intro h
          refine ⟨h, hnil.2 ?_⟩
          by_contra h'; exact hc ⟨h2.2 h, h'⟩
        · exact fun h => h.1
      · rw [List.length_append, hlen, h3]

theorem numBuckets_pos (sq n : Nat) : 0 < numBuckets sq n ∧ numBuckets sq n ≤ 1024 := by
  unfold numBuckets
  omega

/-- The loop over the buckets and what follows it. -/
theorem histBuckets_spec (h64 : Nat → Nat) (emp ev : Nat) (f : Nat × Nat → Option (Nat × Nat))
    (bkt : Nat → Nat) {nb nt nh n : Nat} (sq : Nat) (In : Nat → Nat) (hnt : nb + nh ≤ nt)
    (hnt2 : nt ≤ 2 ^ 16) (hn : n < 2 ^ 30) (hb : ∀ x, x < n → bkt (In x) < nb + nh)
    (hh : ∀ h, h < nh → ∃ k, (∃ x, x < n ∧ In x = k) ∧ ∀ x, x < n → (bkt (In x) = nb + h ↔ In x = k))
    (ords : Nat → List Nat) (hords : ∀ m, (ords m).Perm (List.range m)) (B C : Nat → Nat)
    (ht : HT Nat Nat) (hT : Clean emp (fun _ => True) ht.size ht.tab) :
    ∃ res ht', histBuckets h64 emp ev f bkt nb nt nh n sq In ords B C ht = some (res, ht') ∧
      res.Perm ((tally id emp List.length ((List.range n).map In)).filterMap f) ∧
      Clean emp (fun _ => True) ht'.size ht'.tab := by
  unfold histBuckets
  dsimp only
  have hw : nt ≤ 2 ^ (if nt ≤ 256 then 8 else 16) := by
    split
    · assumption
    · exact hnt2
  obtain ⟨hq, hbuck⟩ := countSort_spec (sq := sq) (key := fun i => bkt (In i)) In hw
    (fun x hx => by have := hb x hx; omega) (ords (numBlocks sq n)) (hords _) B C
  generalize countSort (if nt ≤ 256 then 8 else 16) (fun i => bkt (In i)) In n nt sq
    (ords (numBlocks sq n)) B C = cs at *
  obtain ⟨E, counts, q⟩ := cs
  dsimp only at hq hbuck ⊢
  -- the elements of bucket i
  set xs := (List.range n).map In with hxs
  have hel : ∀ i, i < nt → bucket E counts n nt q i = xs.filter fun k => bkt k = i := by
    intro i hi
    rw [hbuck i hi, hxs, List.filter_map]
    rfl
  have hsize : ∀ i, ((List.range q).map fun j => sliceLen counts n nt ((n - 1) / q + 1) i j).sum =
      (bucket E counts n nt q i).length := fun i => (bucket_length E counts n nt q i).symm
  simp only [hsize]
  have hlen : ∀ i, i < nt → (bucket E counts n nt q i).length ≤ n := by
    intro i hi
    rw [hel i hi]
    refine Nat.le_trans (List.length_filter_le _ _) ?_
    simp [hxs]
  have hany : (List.range nb).any (fun i => decide (2 ^ 30 ≤ (bucket E counts n nt q i).length)) = false := by
    rw [List.any_eq_false]
    intro i hi
    have := hlen i (by have := List.mem_range.1 hi; omega)
    simp only [decide_eq_true_eq]
    omega
  rw [hany]
  simp only [Bool.false_eq_true, if_false]
  set sz := fun i => hsz (bucket E counts n nt q i).length with hszd
  have hres := resize_size emp ev ht (hoff sz nb)
  have hcl := resize_clean (ok := fun _ => True) (ev := ev) trivial (hoff sz nb) hT
  generalize ht.resize emp ev (hoff sz nb) = ht at *
  -- what each iteration starts from and leaves
  let Pre : Nat → St → Prop := fun i st => i < nb → ∀ s, s < sz i → st.tab.key (hoff sz i + s) = emp
  let Post : Nat → St → Prop := fun i st =>
    if i < nb then st.k i ≤ sz i ∧
      (firsts (view st.tab (hoff sz i)) (st.k i)).Perm
        ((tally id emp List.length (xs.filter fun k => bkt k = i)).filterMap f) ∧
      ∀ s, st.k i ≤ s → s < sz i → st.tab.key (hoff sz i + s) = emp
    else (st.heavy (i - nb)).toList =
      (tally id emp List.length (xs.filter fun k => bkt k = i)).filterMap f
  have hmem : ∀ i, i ∈ ords (nb + nh) ↔ i < nb + nh := fun i => by
    rw [(hords (nb + nh)).mem_iff, List.mem_range]
  obtain ⟨st, hst, hpost⟩ := foldlM_disjoint
    (bucketStep h64 emp ev f nb (fun i => bucket E counts n nt q i) (hoff sz) sz
        (fun i => heavyScan E counts n nt ((n - 1) / q + 1) i q)) Pre Post (ords (nb + nh))
    ((hords _).nodup_iff.2 List.nodup_range)
    (by
      intro st i hi hpre
      rw [hmem] at hi
      unfold bucketStep
      dsimp only
      by_cases hin : i < nb
      · rw [if_pos hin]
        have hframe : ∀ (T : Tab Nat Nat) (k : Nat), (∀ x, (x < hoff sz i ∨ hoff sz i + sz i ≤ x) →
            T.key x = st.tab.key x ∧ T.val x = st.tab.val x) →
            ∀ j, j ∈ ords (nb + nh) → j ≠ i →
              (Pre j st → Pre j ⟨T, Atomics.set st.k i k, st.heavy⟩) ∧
              (Post j st → Post j ⟨T, Atomics.set st.k i k, st.heavy⟩) := by
          intro T k hTT j _ hji
          have hd := hoff_disjoint sz hji
          constructor
          · intro hp hj s hs
            show T.key _ = emp
            rw [(hTT _ (by omega)).1]; exact hp hj s hs
          · intro hp
            show if j < nb then _ else _
            change (if j < nb then _ else _) at hp
            by_cases hj : j < nb
            · rw [if_pos hj] at hp ⊢
              obtain ⟨p1, p2, p3⟩ := hp
              dsimp only
              have hk : Atomics.set st.k i k j = st.k j := by simp only [Atomics.set, hji, if_false]
              rw [hk]
              refine ⟨p1, ?_, fun s hs1 hs2 => ?_⟩
              · have : firsts (view T (hoff sz j)) (st.k j) = firsts (view st.tab (hoff sz j)) (st.k j) := by
                  unfold firsts view
                  apply List.map_congr_left
                  intro s hs
                  rw [List.mem_range] at hs
                  dsimp only
                  rw [(hTT _ (by omega)).1, (hTT _ (by omega)).2]
                rw [this]; exact p2
              · rw [(hTT _ (by omega)).1]; exact p3 s hs1 hs2
            · rw [if_neg hj] at hp ⊢
              exact hp
        by_cases hz : sz i = 0
        · rw [if_pos hz]
          refine ⟨_, rfl, ?_, hframe st.tab 0 (fun _ _ => ⟨rfl, rfl⟩)⟩
          show if i < nb then _ else _
          rw [if_pos hin]
          have hnil : xs.filter (fun k => bkt k = i) = [] := by
            rw [← hel i (by omega), ← List.length_eq_zero_iff]
            by_contra h
            have := hsz_gt h
            change _ < sz i at this
            omega
          rw [hnil]
          have hk : Atomics.set st.k i 0 i = 0 := by simp [Atomics.set]
          dsimp only
          rw [hk]
          exact ⟨Nat.zero_le _, List.Perm.refl _, fun s _ hs => absurd hs (by omega)⟩
        · rw [if_neg hz]
          have hne : (bucket E counts n nt q i).length ≠ 0 := by
            intro h; apply hz
            show hsz _ = 0
            rw [h]; rfl
          have hroom : ((bucket E counts n nt q i).map id).dedup.length ≤ sz i := by
            refine Nat.le_trans (dedup_length_le _) ?_
            rw [List.length_map]
            exact Nat.le_of_lt (hsz_gt hne)
          obtain ⟨S, c, h1, h2, h3, _, _⟩ := region_spec (h64 := h64) (emp := emp) (Nat.pos_of_ne_zero hz) id
            (fun _ _ => 1) (fun _ c => c + 1) 0 (fun _ => True) (bucket E counts n nt q i) hroom
            (fun _ _ _ _ => rfl) (fun _ _ _ _ _ => trivial) (view st.tab (hoff sz i))
            (fun s hs => ⟨hpre hin s hs, trivial⟩)
          rw [h1]
          dsimp only
          obtain ⟨c1, c2, c3⟩ := compactSelf_spec ⟨sz i, h64, emp⟩ ev f (fun _ => True) trivial S
            (fun _ _ _ => trivial)
          generalize compactSelf ⟨sz i, h64, emp⟩ ev f S = r at *
          refine ⟨_, rfl, ?_, hframe _ _ (fun x hx => put_out _ _ _ _ _ hx)⟩
          show if i < nb then _ else _
          rw [if_pos hin]
          have hk : Atomics.set st.k i r.2 i = r.2 := by simp [Atomics.set]
          dsimp only
          rw [hk]
          dsimp only at c1
          refine ⟨c1, ?_, fun s hs1 hs2 => ?_⟩
          · have : firsts (view (put st.tab (hoff sz i) (sz i) r.1) (hoff sz i)) r.2 = firsts r.1 r.2 := by
              unfold firsts view
              apply List.map_congr_left
              intro s hs
              rw [List.mem_range] at hs
              dsimp only
              obtain ⟨e1, e2⟩ := put_in st.tab r.1 (hoff sz i) (sz i) s (by omega)
              rw [e1, e2]
            rw [this, c2, ← hel i (by omega)]
            refine (h2.filterMap f).trans ?_
            rw [tally_congr (fun l hl => run_length 0 l hl)]
          · rw [(put_in st.tab r.1 (hoff sz i) (sz i) s hs2).1]
            exact (c3 s hs1 hs2).1
      · rw [if_neg hin]
        refine ⟨_, rfl, ?_, ?_⟩
        · show if i < nb then _ else _
          rw [if_neg hin]
          obtain ⟨k, ⟨x, hx, hxk⟩, hiff⟩ := hh (i - nb) (by omega)
          have hie : nb + (i - nb) = i := by omega
          rw [hie] at hiff
          obtain ⟨s1, _, s3⟩ := heavyScan_spec E counts n nt ((n - 1) / q + 1) i q
          have hflat : ((List.range q).flatMap fun j => slice E counts n nt ((n - 1) / q + 1) i j) =
              xs.filter fun k => bkt k = i := hel i (by omega)
          rw [hflat] at s1 s3
          have hall : ∀ y ∈ xs.filter (fun k => bkt k = i), id y = k := by
            intro y hy
            rw [List.mem_filter, hxs, List.mem_map, decide_eq_true_eq] at hy
            obtain ⟨⟨z, hz, rfl⟩, hy⟩ := hy
            exact (hiff z (List.mem_range.1 hz)).1 hy
          have hne : xs.filter (fun k => bkt k = i) ≠ [] := by
            apply List.ne_nil_of_mem (a := k)
            rw [List.mem_filter, hxs, List.mem_map, decide_eq_true_eq]
            exact ⟨⟨x, List.mem_range.2 hx, hxk⟩, hxk ▸ (hiff x hx).2 hxk⟩
          have hk1 : (heavyScan E counts n nt ((n - 1) / q + 1) i q).1 = k := by
            rw [s1]
            cases hl : xs.filter (fun k => bkt k = i) with
            | nil => exact absurd hl hne
            | cons y l =>
              rw [hl] at hall
              exact hall y (by simp)
          rw [tally_single hne hall]
          simp only [Atomics.set, if_true, hk1, s3]
          by_cases hke : k = emp
          · simp [hke]
          · simp only [ne_eq, hke, not_false_eq_true, if_true]
            cases hf : f (k, (xs.filter fun k => bkt k = i).length) with
            | none => simp [hf]
            | some e => simp [hf]
        · intro j hj hji
          refine ⟨fun hp => hp, fun hp => ?_⟩
          show if j < nb then _ else _
          change (if j < nb then _ else _) at hp
          by_cases hjn : j < nb
          · rw [if_pos hjn] at hp ⊢; exact hp
          · rw [if_neg hjn] at hp ⊢
            have : j - nb ≠ i - nb := by omega
            simp only [Atomics.set, this, if_false]
            exact hp)
    ⟨ht.tab, fun _ => 0, fun _ => none⟩
    (by
      intro i _ hin s hs
      have h1 := hoff_mono sz (show i + 1 ≤ nb from hin)
      simp only [hoff] at h1
      exact (hcl _ (by omega)).1)
  rw [hst]
  refine ⟨_, _, rfl, ?_, ?_⟩
  · -- the results
    have hsplit := (tally_split id emp List.length xs bkt (nb + nh) (by
      intro x hx
      rw [hxs, List.mem_map] at hx
      obtain ⟨y, hy, rfl⟩ := hx
      exact hb y (List.mem_range.1 hy))).filterMap f
    refine List.Perm.trans ?_ hsplit.symm
    rw [List.range_add, List.flatMap_append, List.filterMap_append]
    refine List.Perm.append ?_ ?_
    · rw [List.filterMap_flatMap]
      refine List.Perm.flatMap_left _ fun i hi => ?_
      have hi' := List.mem_range.1 hi
      have := hpost i ((hmem i).2 (by omega))
      change (if i < nb then _ else _) at this
      rw [if_pos hi'] at this
      exact this.2.1
    · rw [List.filterMap_flatMap, List.flatMap_map]
      have : (List.range nh).filterMap st.heavy = (List.range nh).flatMap fun h => (st.heavy h).toList := by
        rw [List.filterMap_eq_flatMap_toList]
      rw [this]
      refine List.Perm.flatMap_left _ fun h hh' => ?_
      have hh2 := List.mem_range.1 hh'
      have := hpost (nb + h) ((hmem _).2 (by omega))
      change (if nb + h < nb then _ else _) at this
      rw [if_neg (by omega), Nat.add_sub_cancel_left] at this
      rw [this]
      exact List.Perm.refl _
  · -- the table
    intro x hx
    refine ⟨?_, trivial⟩
    dsimp only at hx ⊢
    have hcle := clear_loop emp ev (hoff sz) st.k nb st.tab x
    by_cases hex : ∃ i, i < nb ∧ hoff sz i ≤ x ∧ x < hoff sz i + st.k i
    · exact (hcle.1 hex).1
    · rw [(hcle.2 hex).1]
      by_cases hxo : x < hoff sz nb
      · obtain ⟨i, hi, s, hs, rfl⟩ := hoff_find sz hxo
        have := hpost i ((hmem i).2 (by omega))
        change (if i < nb then _ else _) at this
        rw [if_pos hi] at this
        refine this.2.2 s ?_ hs
        by_contra hcon
        exact hex ⟨i, hi, by omega, by omega⟩
      · refine foldlM_inv _ (fun st => st.tab.key x = emp) _ ?_ _ _ hst (hcl x hx).1
        intro st i st' hi hs hQ
        unfold bucketStep at hs
        dsimp only at hs
        by_cases hin : i < nb
        · rw [if_pos hin] at hs
          split at hs
          · cases hs; exact hQ
          · split at hs
            · cases hs
            · cases hs
              have h1 := hoff_mono sz (show i + 1 ≤ nb from hin)
              simp only [hoff] at h1
              rw [(put_out _ _ _ _ x (Or.inr (by omega))).1]
              exact hQ
        · rw [if_neg hin] at hs
          cases hs; exact hQ

/-! ### Results -/

theorem histMedium_spec (h32 h64 : Nat → Nat) (emp ev : Nat) (f : Nat × Nat → Option (Nat × Nat))
    {n : Nat} (sq : Nat) (In : Nat → Nat) (hn : n < 2 ^ 30)
    (ords : Nat → List Nat) (hords : ∀ m, (ords m).Perm (List.range m)) (B C : Nat → Nat)
    (ht : HT Nat Nat) (hT : Clean emp (fun _ => True) ht.size ht.tab) :
    ∃ res ht', histMedium h32 h64 emp ev f n sq In ords B C ht = some (res, ht') ∧
      res.Perm ((tally id emp List.length ((List.range n).map In)).filterMap f) ∧
      Clean emp (fun _ => True) ht'.size ht'.tab := by
  obtain ⟨h1, h2⟩ := numBuckets_pos sq n
  refine histBuckets_spec h64 emp ev f _ sq In (Nat.le_refl _) (by omega) hn (fun x _ => ?_)
    (fun h hh => absurd hh (Nat.not_lt_zero _)) ords hords B C ht hT
  exact lightBucket_lt h32 h1 _

/-- C117.  For any keys, hash functions, number of workers and order of the parallel iterations,
`histogram` returns `f (k, c)` (when it has a value) for every key `k` that occurs, other than the
reserved one, where `c` is its number of occurrences: each once, and nothing else.  It leaves the
table empty.  It is enough that the table starts empty, that there are less than 2^30 keys, and with
one worker that there are not more distinct keys than slots. -/
theorem histogram_partial (h32 h64 : Nat → Nat) (emp ev : Nat) (f : Nat × Nat → Option (Nat × Nat))
    (workers : Nat) {n : Nat} (sq : Nat) (In : Nat → Nat) (hn : n < 2 ^ 30)
    (hw : workers = 1 → ((List.range n).map In).dedup.length ≤ seqM n)
    (ords : Nat → List Nat) (hords : ∀ m, (ords m).Perm (List.range m)) (B C : Nat → Nat)
    (ht : HT Nat Nat) (hT : Clean emp (fun _ => True) ht.size ht.tab) :
    ∃ res ht', histogram h32 h64 emp ev f workers n sq In ords B C ht = some (res, ht') ∧
      res.Perm ((tally id emp List.length ((List.range n).map In)).filterMap f) ∧
      Clean emp (fun _ => True) ht'.size ht'.tab := by
  unfold histogram
  have hmed := histMedium_spec h32 h64 emp ev f sq In hn ords hords B C ht hT
  by_cases h1 : n < 4096 ∨ workers = 1
  · rw [if_pos h1]
    have hlen : ((List.range n).map In).length = n := by simp
    have hd : (((List.range n).map In).map id).dedup.length ≤ seqM ((List.range n).map In).length := by
      rw [hlen, List.map_id]
      rcases h1 with h1 | h1
      · refine Nat.le_trans (dedup_length_le _) ?_
        rw [hlen]
        exact le_seqM (by omega)
      · exact hw h1
    obtain ⟨res, ht', e1, e2, e3⟩ := histSeq_spec h64 emp ev id (fun _ _ => 1) (fun _ c => c + 1) f id
      (fun _ => True) trivial ((List.range n).map In) (by rw [hlen]; omega) hd (fun c l h _ => h)
      (fun _ _ _ _ => rfl) (fun _ _ _ _ _ => trivial) ht hT
    refine ⟨res, ht', e1, ?_, e3⟩
    rw [tally_congr (fun l hl => run_length ev l hl)] at e2
    exact e2
  · rw [if_neg h1]
    by_cases h2 : n < 5000000
    · rw [if_pos h2]; exact hmed
    · rw [if_neg h2]
      dsimp only
      obtain ⟨b1, b2⟩ := numBuckets_pos sq n
      generalize hnb : numBuckets sq n = nb at *
      obtain ⟨s1, s2, s3⟩ := heavyHitters_spec h32 In (n := n) (count := 2 * nb) (by omega) (by omega)
      generalize heavyHitters h32 In n (2 * nb) = hs at *
      by_cases h3 : hs = []
      · rw [if_pos h3]; exact hmed
      · rw [if_neg h3]
        obtain ⟨T, t1, t2⟩ := bucketOf_spec h32 b1 hs s1 (by omega)
        rw [t1]
        dsimp only
        have hval : ∀ k, ∃ b, bucketOf h32 nb hs T k = some b ∧ b < nb + hs.length := by
          intro k
          by_cases hk : k ∈ hs
          · obtain ⟨x, hx⟩ := List.mem_iff_getElem?.1 hk
            have := (List.getElem?_eq_some_iff.1 hx).1
            exact ⟨_, (t2 k).1 x hx, by omega⟩
          · have := lightBucket_lt h32 b1 k
            exact ⟨_, (t2 k).2 hk, by omega⟩
        rw [if_neg (by
          simp only [List.any_eq_true, not_exists, not_and, Bool.not_eq_true, Option.isNone_eq_false_iff]
          intro i _
          obtain ⟨b, hb, _⟩ := hval (In i)
          rw [hb]; rfl)]
        refine histBuckets_spec h64 emp ev f _ sq In (by omega) (by omega) hn (fun x _ => ?_)
          (fun h hh => ?_) ords hords B C ht hT
        · obtain ⟨b, hb, hlt⟩ := hval (In x)
          rw [hb]; exact hlt
        · refine ⟨hs[h], s3 _ (List.getElem_mem hh), fun x _ => ?_⟩
          by_cases hk : In x ∈ hs
          · obtain ⟨y, hy⟩ := List.mem_iff_getElem?.1 hk
            obtain ⟨y1, y2⟩ := List.getElem?_eq_some_iff.1 hy
            rw [(t2 _).1 y hy, Option.getD_some, ← y2, List.Nodup.getElem_inj_iff s1]
            omega
          · rw [(t2 _).2 hk, Option.getD_some]
            have := lightBucket_lt h32 b1 (In x)
            constructor
            · intro e; omega
            · intro e; exact absurd (e ▸ List.getElem_mem hh) hk

/-- The same, for a client that wants to know which pairs are handed to it: exactly the keys that
occur, with their counts. -/
theorem histogram_pairs (h32 h64 : Nat → Nat) (emp ev : Nat) (workers : Nat) {n : Nat} (sq : Nat)
    (In : Nat → Nat) (hn : n < 2 ^ 30)
    (hw : workers = 1 → ((List.range n).map In).dedup.length ≤ seqM n)
    (ords : Nat → List Nat) (hords : ∀ m, (ords m).Perm (List.range m)) (B C : Nat → Nat)
    (ht : HT Nat Nat) (hT : Clean emp (fun _ => True) ht.size ht.tab) :
    ∃ res ht', histogram h32 h64 emp ev some workers n sq In ords B C ht = some (res, ht') ∧
      (res.map Prod.fst).Nodup ∧
      ∀ k c, (k, c) ∈ res ↔ k ≠ emp ∧ 0 < c ∧ c = ((List.range n).filter fun i => In i = k).length := by
  obtain ⟨res, ht', h1, h2, _⟩ := histogram_partial h32 h64 emp ev some workers sq In hn hw ords hords B C
    ht hT
  rw [List.filterMap_some] at h2
  refine ⟨res, ht', h1, ?_, fun k c => ?_⟩
  · exact ((h2.map Prod.fst).nodup_iff).2 (tally_nodup _ _ _ _)
  · rw [h2.mem_iff, mem_tally]
    have e : (((List.range n).map In).filter fun x => decide (id x = k)).length =
        ((List.range n).filter fun i => In i = k).length := by
      rw [List.filter_map, List.length_map]; rfl
    rw [e]
    constructor
    · rintro ⟨a, ⟨x, hx, rfl⟩, rfl⟩
      refine ⟨a, ?_, rfl⟩
      obtain ⟨y, hy, rfl⟩ := List.mem_map.1 hx
      exact List.length_pos_of_mem (a := y) (by simp [List.mem_range.1 hy])
    · rintro ⟨a, b, rfl⟩
      obtain ⟨y, hy⟩ := List.exists_mem_of_length_pos b
      rw [List.mem_filter, decide_eq_true_eq] at hy
      exact ⟨a, ⟨In y, List.mem_map_of_mem hy.1, hy.2⟩, rfl⟩

/-- More distinct keys than slots, with one worker: some insertion never returns. -/
theorem histogram_full (h32 h64 : Nat → Nat) (emp ev : Nat) (f : Nat × Nat → Option (Nat × Nat))
    {n : Nat} (sq : Nat) (In : Nat → Nat) (hinj : ∀ i j, i < n → j < n → In i = In j → i = j)
    (hne : ∀ i, i < n → In i ≠ emp) (hfull : seqM n < n)
    (ords : Nat → List Nat) (B C : Nat → Nat) (ht : HT Nat Nat) :
    histogram h32 h64 emp ev f 1 n sq In ords B C ht = none := by
  unfold histogram
  rw [if_pos (Or.inr rfl)]
  unfold histSeq
  have hlen : ((List.range n).map In).length = n := by simp
  rw [hlen]
  split
  · rfl
  · dsimp only
    split
    · rfl
    · rw [insAllC_full (P := ⟨seqM n, h64, emp⟩) id (fun _ _ => 1) (fun _ c => c + 1)
        ((List.range n).map In) ((List.range n).map In)
        ((List.nodup_map_iff_inj_on List.nodup_range).2 (fun x hx y hy h =>
          hinj x y (List.mem_range.1 hx) (List.mem_range.1 hy) h)) (by rw [hlen]; exact hfull)
        (fun k hk => by
          obtain ⟨i, hi, rfl⟩ := List.mem_map.1 hk
          exact ⟨hne i (List.mem_range.1 hi), _, hk, rfl⟩)]

theorem seqM_bad : seqM (2 ^ 24 + 1) = 2 ^ 24 := by
  unfold seqM
  have : f32 (f32 (2 ^ 24 + 1) + 1) = 2 ^ 24 := by decide +kernel
  rw [this, Nat.clog_pow _ _ (by decide)]

/-- C117 is false with one worker: for 2^24 + 1 distinct keys the number of slots, computed in single
precision, is 2^24, and some insertion never returns, whatever the hash functions. -/
theorem histogram_refuted (h32 h64 : Nat → Nat) (f : Nat × Nat → Option (Nat × Nat)) (sq : Nat)
    (ords : Nat → List Nat) (B C : Nat → Nat) (ht : HT Nat Nat) :
    histogram h32 h64 (2 ^ 32 - 1) 0 f 1 (2 ^ 24 + 1) sq id ords B C ht = none :=
  histogram_full h32 h64 _ 0 f sq id (fun _ _ _ _ h => h) (fun i hi => by show i ≠ _; omega)
    (by rw [seqM_bad]; omega) ords B C ht

/-- Three keys, one of them the reserved one; the table has been used before. -/
example : (histogram id id 9 0 some 4 6 3 (fun i => [3, 9, 7, 3, 11, 3].getD i 0) List.range
      (fun _ => 0) (fun _ => 0) ⟨16, ⟨fun _ => 9, fun s => s⟩⟩).map Prod.fst =
      some [(3, 3), (11, 1), (7, 1)] ∧
    Clean 9 (fun _ => True) 16 (⟨fun _ => 9, fun s => s⟩ : Tab Nat Nat) := by
  refine ⟨by decide +kernel, fun s _ => ⟨rfl, trivial⟩⟩

/-- The bucketed version on twelve keys, with one heavy key, 5. -/
example : (histBuckets id 9 0 some (fun k => if k = 5 then 2 else k % 2) 2 4 1 12 3
      (fun i => [5, 1, 5, 2, 5, 9, 3, 5, 1, 2, 2, 5].getD i 0) (fun m => (List.range m).reverse)
      (fun _ => 0) (fun _ => 0) ⟨0, ⟨fun _ => 9, fun _ => 0⟩⟩).map Prod.fst =
      some [(2, 3), (1, 2), (3, 1), (5, 5)] := by
  decide +kernel

end Gbbs.Hist
