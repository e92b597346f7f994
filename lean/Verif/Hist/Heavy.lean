/-
C117: how `gbbs/helpers/histogram.h` splits the keys into buckets (`get_bucket`).
-/
import Verif.Hist.Table
import Mathlib.Data.List.Sort
import Mathlib.Data.Nat.Bitwise

namespace Gbbs.Hist

open Gbbs.Hash Gbbs.SeqHT

/-! ### Model -/

/-- One iteration of the loop of `heavy_hitters`, `histogram.h:65-73`; the state is
`(sample, j, c)`. -/
def heavyStep (st : (Nat → Nat) × Nat × Nat) (i : Nat) : (Nat → Nat) × Nat × Nat :=
  if st.1 i = st.1 (i - 1) then
    if st.2.2 = 1 then (Atomics.set st.1 st.2.1 (st.1 i), st.2.1 + 1, st.2.2 + 1)
    else (st.1, st.2.1, st.2.2 + 1)
  else (st.1, st.2.1, 0)

/-- `heavy_hitters`, `histogram.h:55-75`, with the sample `hash32(0) % n, hash32(1) % n, ...`: the
first `j` entries of the array at the end.  (`std::sort` of numbers has one possible result.) -/
def heavyHitters (h32 : Nat → Nat) (In : Nat → Nat) (n count : Nat) : List Nat :=
  let sample := ((List.range count).map fun i => In (h32 i % n)).insertionSort (· ≤ ·)
  let st := ((List.range (count - 1)).map (· + 1)).foldl heavyStep (fun i => sample.getD i 0, 0, 0)
  (List.range st.2.1).map st.1

/-- The table of the heavy keys: `m = table_size` slots, `none` stands for the number -1 of an unused
slot; `h & table_mask` is `h % m` since `m` is a power of two. -/
def heavyPar (h32 : Nat → Nat) (m : Nat) : Par (Option Nat) := ⟨m, fun k => h32 (k.getD 0), none⟩

/-- The probing of `make_hash_table`, `histogram.h:86-90`: only unused slots are looked for. -/
def heavyIns (P : Par (Option Nat)) (k ct : Nat) (T : Tab (Option Nat) Nat) :
    Nat → Nat → Option (Tab (Option Nat) Nat)
  | 0, _ => none
  | fuel + 1, j =>
    let h := slot P (some k) j
    if T.key h ≠ none then heavyIns P k ct T fuel (j + 1)
    else some ⟨Atomics.set T.key h (some k), Atomics.set T.val h ct⟩

/-- `make_hash_table`, `histogram.h:77-93`; the elements are given with their index. -/
def heavyTable (P : Par (Option Nat)) :
    List (Nat × Nat) → Tab (Option Nat) Nat → Option (Tab (Option Nat) Nat)
  | [], T => some T
  | e :: es, T =>
    match heavyIns P e.1 e.2 T P.m 0 with
    | none => none
    | some T => heavyTable P es T

/-- Bucket of a light key, `histogram.h:128`, `168`, `616`: `key & ~15` is `key - key % 16`. -/
def lightBucket (h32 : Nat → Nat) (nb k : Nat) : Nat := h32 (k - k % 16) &&& (nb - 1)

/-- `get_bucket::operator()`, `histogram.h:112-129`, as a function of the key. -/
def bucketOf (h32 : Nat → Nat) (nb : Nat) (hs : List Nat) (T : Tab (Option Nat) Nat) (k : Nat) :
    Option Nat :=
  if hs = [] then some (lightBucket h32 nb k)
  else
    match SeqHT.find (heavyPar h32 (8 * nb)) 0 T (some k) (8 * nb) 0 with
    | none => none
    | some (none, _) => some (lightBucket h32 nb k)
    | some (some _, ct) => some (ct + nb)

/-! ### The heavy keys -/

theorem heavy_loop (s : Nat → Nat) (count : Nat) (hs : ∀ i j, i ≤ j → j < count → s i ≤ s j) :
    ∀ i, i + 1 ≤ count →
    let st := ((List.range i).map (· + 1)).foldl heavyStep (s, 0, 0)
    3 * st.2.1 + (if st.2.2 < 2 then st.2.2 + 1 else 0) ≤ i + 1 ∧
    (∀ x, st.2.1 ≤ x → st.1 x = s x) ∧
    (∀ x y, x < y → y < st.2.1 → st.1 x < st.1 y) ∧
    (∀ x, x < st.2.1 → st.1 x ≤ s i ∧ (st.2.2 < 2 → st.1 x < s i)) ∧
    (∀ x, x < st.2.1 → ∃ y, y < count ∧ st.1 x = s y) := by
  intro i
  induction i with
  | zero => intro _; simp
  | succ i ih =>
    intro hi
    obtain ⟨h1, h2, h3, h4, h5⟩ := ih (by omega)
    simp only [List.range_succ, List.map_append, List.map_cons, List.map_nil, List.foldl_append,
      List.foldl_cons, List.foldl_nil]
    generalize ((List.range i).map (· + 1)).foldl heavyStep (s, 0, 0) = st at *
    obtain ⟨a, j, c⟩ := st
    dsimp only at h1 h2 h3 h4 h5
    have hj : j ≤ i := by split at h1 <;> omega
    have e1 : a (i + 1) = s (i + 1) := h2 _ (by omega)
    have e2 : a i = s i := h2 _ (by omega)
    have hmono := hs i (i + 1) (by omega) (by omega)
    unfold heavyStep
    simp only [Nat.add_sub_cancel, e1, e2]
    by_cases heq : s (i + 1) = s i
    · rw [if_pos heq]
      by_cases hc : c = 1
      · rw [if_pos hc]
        subst hc
        rw [if_pos (by decide)] at h1
        dsimp only
        refine ⟨?_, fun x hx => ?_, fun x y hxy hy => ?_, fun x hx => ?_, fun x hx => ?_⟩
        · rw [if_neg (by decide)]; omega
        · have hne : x ≠ j := by omega
          simp only [Atomics.set, hne, if_false]; exact h2 x (by omega)
        · have hne : x ≠ j := by omega
          by_cases hyj : y = j
          · simp only [Atomics.set, hne, hyj, if_false, if_true]
            rw [heq]; exact (h4 x (by omega)).2 (by decide)
          · simp only [Atomics.set, hne, hyj, if_false]; exact h3 x y hxy (by omega)
        · refine ⟨?_, fun h => absurd h (by decide)⟩
          by_cases hxj : x = j
          · simp only [Atomics.set, hxj, if_true]; exact Nat.le_refl _
          · simp only [Atomics.set, hxj, if_false]
            exact Nat.le_trans (h4 x (by omega)).1 hmono
        · by_cases hxj : x = j
          · simp only [Atomics.set, hxj, if_true]; exact ⟨i + 1, by omega, rfl⟩
          · simp only [Atomics.set, hxj, if_false]; exact h5 x (by omega)
      · rw [if_neg hc]
        dsimp only
        refine ⟨?_, fun x hx => h2 x hx, h3, fun x hx => ?_, h5⟩
        · split <;> split at h1 <;> omega
        · rw [heq]
          exact ⟨(h4 x hx).1, fun h => (h4 x hx).2 (by omega)⟩
    · rw [if_neg heq]
      dsimp only
      refine ⟨?_, fun x hx => h2 x hx, h3, fun x hx => ?_, h5⟩
      · rw [if_pos (by decide)]; split at h1 <;> omega
      · have := (h4 x hx).1
        exact ⟨by omega, fun _ => by omega⟩

/-- The heavy keys are distinct, each of them occurs in the input, and they are at most a third of
the sample. -/
theorem heavyHitters_spec (h32 : Nat → Nat) (In : Nat → Nat) {n count : Nat} (hn : 0 < n)
    (hc : 0 < count) :
    (heavyHitters h32 In n count).Nodup ∧ 3 * (heavyHitters h32 In n count).length ≤ count ∧
    ∀ k ∈ heavyHitters h32 In n count, ∃ x, x < n ∧ In x = k := by
  unfold heavyHitters
  dsimp only
  have hp := List.perm_insertionSort (· ≤ ·) ((List.range count).map fun i => In (h32 i % n))
  have hsorted : (((List.range count).map fun i => In (h32 i % n)).insertionSort (· ≤ ·)).Pairwise
      (· ≤ ·) := List.pairwise_insertionSort _ _
  generalize ((List.range count).map fun i => In (h32 i % n)).insertionSort (· ≤ ·) = sample at *
  have hlen : sample.length = count := by rw [hp.length_eq]; simp
  have hget : ∀ i (h : i < sample.length), sample.getD i 0 = sample[i] := by
    intro i h; simp [h]
  have hmono : ∀ i j, i ≤ j → j < count → sample.getD i 0 ≤ sample.getD j 0 := by
    intro i j hij hj
    rcases Nat.lt_or_eq_of_le hij with h | rfl
    · rw [hget i (by omega), hget j (by omega)]
      exact List.pairwise_iff_getElem.1 hsorted i j (by omega) (by omega) h
    · exact Nat.le_refl _
  obtain ⟨h1, _, h3, _, h5⟩ := heavy_loop (fun i => sample.getD i 0) count hmono (count - 1) (by omega)
  generalize ((List.range (count - 1)).map (· + 1)).foldl heavyStep
    (fun i => sample.getD i 0, 0, 0) = st at *
  refine ⟨?_, ?_, ?_⟩
  · rw [List.nodup_map_iff_inj_on List.nodup_range]
    intro x hx y hy hxy
    rw [List.mem_range] at hx hy
    rcases Nat.lt_trichotomy x y with h | h | h
    · have := h3 x y h hy; omega
    · exact h
    · have := h3 y x h hx; omega
  · simp only [List.length_map, List.length_range]; omega
  · intro k hk
    obtain ⟨x, hx, rfl⟩ := List.mem_map.1 hk
    obtain ⟨y, hy, hxy⟩ := h5 x (List.mem_range.1 hx)
    have : st.1 x ∈ sample := by
      rw [hxy]
      show sample.getD y 0 ∈ sample
      rw [hget y (by omega)]
      exact List.getElem_mem _
    obtain ⟨i, _, hi⟩ := List.mem_map.1 (hp.mem_iff.1 this)
    exact ⟨h32 i % n, Nat.mod_lt _ hn, hi⟩

theorem heavyIns_eq {P : Par (Option Nat)} (hP : P.emp = none) (hm : 0 < P.m) (k ct : Nat)
    (T : Tab (Option Nat) Nat) (hk : ¬ In P T.key (some k)) (old : Nat → Nat) (fuel j : Nat) :
    heavyIns P k ct T fuel j = (ins P (fun _ => ct) old (some k) T fuel j).map Prod.fst := by
  induction fuel generalizing j with
  | zero => rfl
  | succ fuel ih =>
    unfold heavyIns ins
    dsimp only
    by_cases h1 : T.key (slot P (some k) j) = none
    · rw [if_neg (by simp [h1]), if_pos (by rw [hP]; exact h1)]
      rfl
    · rw [if_pos h1, if_neg (by rw [hP]; exact h1),
        if_neg (fun h => hk ⟨_, slot_lt P hm _ _, h⟩)]
      exact ih (j + 1)

theorem heavyTable_spec {P : Par (Option Nat)} (hP : P.emp = none) (hm : 0 < P.m) (hs : List Nat)
    (hnd : hs.Nodup) (hlen : hs.length < P.m) :
    ∃ T, heavyTable P hs.zipIdx ⟨fun _ => none, fun _ => 0⟩ = some T ∧
      ∀ k, (∀ x, hs[x]? = some k → SeqHT.find P 0 T (some k) P.m 0 = some (some k, x)) ∧
        (k ∉ hs → SeqHT.find P 0 T (some k) P.m 0 = some (none, 0)) := by
  have gen : ∀ (es done : List (Nat × Nat)) (T : Tab (Option Nat) Nat),
      ((done ++ es).map Prod.fst).Nodup → (done ++ es).length < P.m →
      WF P T.key → (∀ k, In P T.key (some k) ↔ ∃ x, (k, x) ∈ done) →
      (∀ s, s < P.m → ∀ k, T.key s = some k → (k, T.val s) ∈ done) →
      ∃ T', heavyTable P es T = some T' ∧ WF P T'.key ∧
        (∀ k, In P T'.key (some k) ↔ ∃ x, (k, x) ∈ done ++ es) ∧
        ∀ s, s < P.m → ∀ k, T'.key s = some k → (k, T'.val s) ∈ done ++ es := by
    intro es
    induction es with
    | nil => intro done T _ _ h1 h2 h3; exact ⟨T, rfl, h1, by simpa using h2, by simpa using h3⟩
    | cons e es ih =>
      intro done T hn hl h1 h2 h3
      obtain ⟨k, ct⟩ := e
      have hnot : ¬ In P T.key (some k) := by
        intro h
        obtain ⟨x, hx⟩ := (h2 k).1 h
        rw [List.map_append, List.nodup_append] at hn
        exact hn.2.2 k (List.mem_map.2 ⟨(k, x), hx, rfl⟩) k (by simp) rfl
      have hroom : In P T.key (some k) ∨ ∃ s, s < P.m ∧ T.key s = P.emp := by
        refine room h1 (none :: ((done ++ (k, ct) :: es).map fun e => some e.1)) (by simp at hl ⊢; omega)
          (fun s hs hse => ?_) _ (by simp)
        rw [hP] at hse
        obtain ⟨k', hk'⟩ := Option.ne_none_iff_exists'.1 hse
        rw [hk']
        refine List.mem_cons_of_mem _ (List.mem_map.2 ⟨(k', T.val s), ?_, rfl⟩)
        exact List.mem_append_left _ (h3 s hs k' hk')
      obtain ⟨T', b, s, h4, hs, h5, h6, h7⟩ := ins_spec (new := fun _ => ct) (old := fun _ => ct) hm
        (show some k ≠ P.emp by rw [hP]; simp) h1 hroom
      have hfr : T'.val = Atomics.set T.val s ct := by
        rcases h6 with ⟨h8, _, _⟩ | ⟨_, _, h8, _⟩
        · exact absurd ⟨s, hs, h8⟩ hnot
        · exact h8
      have hse : T.key s = none := by
        rcases h6 with ⟨h8, _, _⟩ | ⟨_, h8, _, _⟩
        · exact absurd ⟨s, hs, h8⟩ hnot
        · rw [hP] at h8; exact h8
      obtain ⟨T'', h8, h9, h10, h11⟩ := ih (done ++ [(k, ct)]) T' (by simpa using hn)
        (by simpa using hl) h7 (fun k' => by
          constructor
          · rintro ⟨t, ht, htk⟩
            rw [h5] at htk
            by_cases hts : t = s
            · simp only [Atomics.set, hts, if_true, Option.some.injEq] at htk
              exact ⟨ct, by simp [htk]⟩
            · simp only [Atomics.set, hts, if_false] at htk
              obtain ⟨x, hx⟩ := (h2 k').1 ⟨t, ht, htk⟩
              exact ⟨x, by simp [hx]⟩
          · rintro ⟨x, hx⟩
            rcases List.mem_append.1 hx with hx | hx
            · obtain ⟨t, ht, htk⟩ := (h2 k').2 ⟨x, hx⟩
              have hts : t ≠ s := by rintro rfl; rw [hse] at htk; cases htk
              exact ⟨t, ht, by rw [h5]; simp only [Atomics.set, hts, if_false]; exact htk⟩
            · simp only [List.mem_singleton, Prod.mk.injEq] at hx
              exact ⟨s, hs, by rw [h5]; simp [Atomics.set, hx.1]⟩)
        (fun t ht k' htk => by
          rw [h5] at htk
          rw [hfr]
          by_cases hts : t = s
          · simp only [Atomics.set, hts, if_true, Option.some.injEq] at htk ⊢
            simp [htk]
          · simp only [Atomics.set, hts, if_false] at htk ⊢
            exact List.mem_append_left _ (h3 t ht k' htk))
      refine ⟨T'', ?_, h9, by simpa using h10, by simpa using h11⟩
      unfold heavyTable
      rw [heavyIns_eq hP hm _ _ _ hnot (fun _ => ct), h4]
      exact h8
  have hz : hs.zipIdx.map Prod.fst = hs := List.zipIdx_map_fst 0 hs
  obtain ⟨T, h1, h2, h3, h4⟩ := gen hs.zipIdx [] ⟨fun _ => none, fun _ => 0⟩ (by simpa [hz] using hnd)
    (by simpa using hlen) (by intro s _ h; exact absurd hP.symm h)
    (fun k => by
      constructor
      · rintro ⟨s, _, h⟩; cases h
      · rintro ⟨x, h⟩; cases h)
    (fun s _ k h => by cases h)
  rw [List.nil_append] at h3 h4
  refine ⟨T, h1, fun k => ?_⟩
  have hkne : some k ≠ P.emp := by rw [hP]; simp
  have hroom : ∃ s, s < P.m ∧ T.key s = P.emp := by
    rcases room h2 (none :: hs.map some) (by simp; omega) (fun s hs' hse => by
      rw [hP] at hse
      obtain ⟨k', hk'⟩ := Option.ne_none_iff_exists'.1 hse
      obtain ⟨x, hx⟩ := (h3 k').1 ⟨s, hs', hk'⟩
      rw [hk']
      refine List.mem_cons_of_mem _ (List.mem_map.2 ⟨k', ?_, rfl⟩)
      have := List.mem_map (f := Prod.fst).2 ⟨(k', x), hx, rfl⟩
      rwa [hz] at this) none (by simp) with ⟨s, hs', h⟩ | h
    · exact ⟨s, hs', by rw [hP]; exact h⟩
    · exact h
  obtain ⟨f1, f2⟩ := SeqHT.find_spec 0 h2 (some k) hkne (Or.inr hroom) hm
  constructor
  · intro x hx
    have hmem : (k, x) ∈ hs.zipIdx := by
      rw [List.mem_zipIdx_iff_getElem?]; exact hx
    obtain ⟨s, hs', hsk⟩ := (h3 k).2 ⟨x, hmem⟩
    have h5 := h4 s hs' k hsk
    rw [List.mem_zipIdx_iff_getElem?] at h5
    have hxs : T.val s = x := by
      obtain ⟨a1, a2⟩ := List.getElem?_eq_some_iff.1 hx
      obtain ⟨b1, b2⟩ := List.getElem?_eq_some_iff.1 h5
      exact (List.Nodup.getElem_inj_iff hnd).1 (by rw [a2]; exact b2)
    rw [f1 s hs' hsk, hxs]
  · intro hk
    have := f2 (by
      intro h
      obtain ⟨x, hx⟩ := (h3 k).1 h
      have := List.mem_map (f := Prod.fst).2 ⟨(k, x), hx, rfl⟩
      rw [hz] at this
      exact hk this)
    rw [this, hP]

theorem lightBucket_lt (h32 : Nat → Nat) {nb : Nat} (h : 0 < nb) (k : Nat) : lightBucket h32 nb k < nb := by
  unfold lightBucket
  have := Nat.and_le_right (n := h32 (k - k % 16)) (m := nb - 1)
  omega

/-- Each key has one bucket; a heavy bucket belongs to one key, and light keys go to the first `nb`
buckets. -/
theorem bucketOf_spec (h32 : Nat → Nat) {nb : Nat} (hnb : 0 < nb) (hs : List Nat) (hnd : hs.Nodup)
    (hlen : hs.length < 8 * nb) :
    ∃ T, heavyTable (heavyPar h32 (8 * nb)) hs.zipIdx ⟨fun _ => none, fun _ => 0⟩ = some T ∧
      ∀ k, (∀ x, hs[x]? = some k → bucketOf h32 nb hs T k = some (x + nb)) ∧
        (k ∉ hs → bucketOf h32 nb hs T k = some (lightBucket h32 nb k)) := by
  obtain ⟨T, h1, h2⟩ := heavyTable_spec (P := heavyPar h32 (8 * nb)) rfl (by simp [heavyPar]; omega)
    hs hnd hlen
  refine ⟨T, h1, fun k => ⟨fun x hx => ?_, fun hk => ?_⟩⟩
  · unfold bucketOf
    have hne : hs ≠ [] := by rintro rfl; simp at hx
    have := (h2 k).1 x hx
    rw [if_neg hne]
    change SeqHT.find (heavyPar h32 (8 * nb)) 0 T (some k) (8 * nb) 0 = _ at this
    rw [this]
  · unfold bucketOf
    have := (h2 k).2 hk
    change SeqHT.find (heavyPar h32 (8 * nb)) 0 T (some k) (8 * nb) 0 = _ at this
    rw [this]
    split <;> rfl

end Gbbs.Hist
