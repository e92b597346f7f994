/-
C117, C118: parts of a shared table, parallel loops over disjoint parts, and how a tally splits into
buckets.
-/
import Verif.Hist.Table
import Verif.Hist.CountSort

namespace Gbbs.Hist

open Gbbs.Hash Gbbs.SeqHT Gbbs.CountSort

variable {K V X O : Type} [DecidableEq K]

/-! ### Tables -/

/-- `hist_table`, `histogram.h:132-151`. -/
structure HT (K V : Type) where
  size : Nat
  tab : Tab K V

/-- `hist_table::resize`, `histogram.h:143-150`. -/
def HT.resize (emp : K) (ev : V) (ht : HT K V) (req : Nat) : HT K V :=
  if ht.size < req then ⟨2 ^ Nat.clog 2 req, ⟨fun _ => emp, fun _ => ev⟩⟩ else ht

theorem resize_size (emp : K) (ev : V) (ht : HT K V) (req : Nat) : req ≤ (ht.resize emp ev req).size := by
  unfold HT.resize
  by_cases h : ht.size < req
  · rw [if_pos h]; exact Nat.le_pow_clog (by decide) _
  · rw [if_neg h]; omega

theorem resize_clean {emp : K} {ev : V} {ok : V → Prop} (hev : ok ev) {ht : HT K V} (req : Nat)
    (h : Clean emp ok ht.size ht.tab) :
    Clean emp ok (ht.resize emp ev req).size (ht.resize emp ev req).tab := by
  unfold HT.resize
  by_cases hs : ht.size < req
  · rw [if_pos hs]; exact fun s _ => ⟨rfl, hev⟩
  · rw [if_neg hs]; exact h

/-- The part of a table that starts at `off` (`&(table[ht_start])`, `histogram.h:242`). -/
def view (T : Tab K V) (off : Nat) : Tab K V := ⟨fun s => T.key (off + s), fun s => T.val (off + s)⟩

/-- The whole table after the `m` slots from `off` have been replaced. -/
def put (T : Tab K V) (off m : Nat) (S : Tab K V) : Tab K V :=
  ⟨fun x => if off ≤ x ∧ x < off + m then S.key (x - off) else T.key x,
   fun x => if off ≤ x ∧ x < off + m then S.val (x - off) else T.val x⟩

theorem put_in (T S : Tab K V) (off m s : Nat) (h : s < m) :
    (put T off m S).key (off + s) = S.key s ∧ (put T off m S).val (off + s) = S.val s := by
  unfold put
  have h1 : off ≤ off + s ∧ off + s < off + m := by omega
  simp only [h1, and_self, if_true, Nat.add_sub_cancel_left]

theorem put_out (T S : Tab K V) (off m x : Nat) (h : x < off ∨ off + m ≤ x) :
    (put T off m S).key x = T.key x ∧ (put T off m S).val x = T.val x := by
  unfold put
  have h1 : ¬ (off ≤ x ∧ x < off + m) := by omega
  simp only [h1, if_false, and_self]

/-- The table after the first `k` slots from `off` have been cleared (`histogram.h:293-296`). -/
def clear (emp : K) (ev : V) (T : Tab K V) (off k : Nat) : Tab K V :=
  ⟨fun x => if off ≤ x ∧ x < off + k then emp else T.key x,
   fun x => if off ≤ x ∧ x < off + k then ev else T.val x⟩

/-- Size of the table of a bucket with `c` elements, `histogram.h:216-220`. -/
def hsz (c : Nat) : Nat := if c = 0 then 0 else 2 ^ Nat.clog 2 (c + 1)

theorem hsz_gt {c : Nat} (h : c ≠ 0) : c < hsz c := by
  unfold hsz
  rw [if_neg h]
  exact Nat.lt_of_lt_of_le (Nat.lt_succ_self c) (Nat.le_pow_clog (by decide) _)

/-- `ht_offs`, `histogram.h:212-221`. -/
def hoff (sz : Nat → Nat) : Nat → Nat
  | 0 => 0
  | i + 1 => hoff sz i + sz i

theorem hoff_mono (sz : Nat → Nat) {i j : Nat} (h : i ≤ j) : hoff sz i ≤ hoff sz j := by
  induction j with
  | zero => have : i = 0 := by omega
            subst this; exact Nat.le_refl _
  | succ j ih =>
    rcases Nat.lt_or_ge j i with h1 | h1
    · have : i = j + 1 := by omega
      subst this; exact Nat.le_refl _
    · have := ih h1
      simp only [hoff]; omega

theorem hoff_disjoint (sz : Nat → Nat) {i j : Nat} (h : i ≠ j) :
    hoff sz i + sz i ≤ hoff sz j ∨ hoff sz j + sz j ≤ hoff sz i := by
  rcases Nat.lt_or_gt_of_ne h with h | h
  · left; exact hoff_mono sz (show i + 1 ≤ j from h)
  · right; exact hoff_mono sz (show j + 1 ≤ i from h)

/-- Every slot below the end belongs to the part of some bucket. -/
theorem hoff_find (sz : Nat → Nat) {nb x : Nat} (h : x < hoff sz nb) :
    ∃ i, i < nb ∧ ∃ s, s < sz i ∧ x = hoff sz i + s := by
  induction nb with
  | zero => simp [hoff] at h
  | succ nb ih =>
    by_cases h1 : x < hoff sz nb
    · obtain ⟨i, hi, hs⟩ := ih h1
      exact ⟨i, by omega, hs⟩
    · simp only [hoff] at h
      exact ⟨nb, by omega, x - hoff sz nb, by omega, by omega⟩

theorem clear_loop (emp : K) (ev : V) (off k : Nat → Nat) (nb : Nat) (T : Tab K V) (x : Nat) :
    ((∃ i, i < nb ∧ off i ≤ x ∧ x < off i + k i) →
      ((List.range nb).foldl (fun T i => clear emp ev T (off i) (k i)) T).key x = emp ∧
      ((List.range nb).foldl (fun T i => clear emp ev T (off i) (k i)) T).val x = ev) ∧
    ((¬ ∃ i, i < nb ∧ off i ≤ x ∧ x < off i + k i) →
      ((List.range nb).foldl (fun T i => clear emp ev T (off i) (k i)) T).key x = T.key x ∧
      ((List.range nb).foldl (fun T i => clear emp ev T (off i) (k i)) T).val x = T.val x) := by
  induction nb with
  | zero => simp
  | succ nb ih =>
    rw [List.range_succ, List.foldl_append]
    simp only [List.foldl_cons, List.foldl_nil]
    generalize (List.range nb).foldl (fun T i => clear emp ev T (off i) (k i)) T = S at *
    unfold clear
    dsimp only
    by_cases h : off nb ≤ x ∧ x < off nb + k nb
    · simp only [h, and_self, if_true]
      refine ⟨fun _ => trivial, fun hn => absurd ⟨nb, by omega, h⟩ hn⟩
    · simp only [h, if_false]
      constructor
      · rintro ⟨i, hi, hx⟩
        have : i ≠ nb := by rintro rfl; exact h hx
        exact ih.1 ⟨i, by omega, hx⟩
      · intro hn
        refine ih.2 ?_
        rintro ⟨i, hi, hx⟩
        exact hn ⟨i, by omega, hx⟩

/-! ### Parallel loops -/

/-- Iterations that each turn their own `Pre i` into `Post i` and do not disturb the others can run
in any order. -/
theorem foldlM_disjoint {σ : Type} (step : σ → Nat → Option σ) (Pre Post : Nat → σ → Prop)
    (ord : List Nat) (hnd : ord.Nodup)
    (hstep : ∀ s i, i ∈ ord → Pre i s → ∃ s', step s i = some s' ∧ Post i s' ∧
      ∀ j, j ∈ ord → j ≠ i → (Pre j s → Pre j s') ∧ (Post j s → Post j s'))
    (s : σ) (hpre : ∀ i ∈ ord, Pre i s) :
    ∃ s', ord.foldlM step s = some s' ∧ ∀ i ∈ ord, Post i s' := by
  have gen : ∀ (todo done : List Nat) (s : σ), (∀ i ∈ done, i ∈ ord) → (∀ i ∈ todo, i ∈ ord) →
      (done ++ todo).Nodup → (∀ i ∈ done, Post i s) → (∀ i ∈ todo, Pre i s) →
      ∃ s', todo.foldlM step s = some s' ∧ ∀ i ∈ done ++ todo, Post i s' := by
    intro todo
    induction todo with
    | nil => intro done s _ _ _ h1 _; exact ⟨s, rfl, by simpa using h1⟩
    | cons i todo ih =>
      intro done s hd ht hn h1 h2
      obtain ⟨s', h3, h4, h5⟩ := hstep s i (ht i (by simp)) (h2 i (by simp))
      rw [List.nodup_append] at hn
      obtain ⟨s'', h6, h7⟩ := ih (done ++ [i]) s'
        (by
          intro j hj
          rcases List.mem_append.1 hj with hj | hj
          · exact hd j hj
          · simp only [List.mem_singleton] at hj; subst hj; exact ht _ (by simp))
        (fun j hj => ht j (by simp [hj]))
        (by
          rw [List.append_assoc]
          exact List.nodup_append.2 hn)
        (by
          intro j hj
          rcases List.mem_append.1 hj with hj | hj
          · exact (h5 j (hd j hj) (hn.2.2 j hj i (by simp))).2 (h1 j hj)
          · simp only [List.mem_singleton] at hj; subst hj; exact h4)
        (by
          intro j hj
          refine (h5 j (ht j (by simp [hj])) ?_).1 (h2 j (by simp [hj]))
          rintro rfl
          exact (List.nodup_cons.1 hn.2.1).1 hj)
      refine ⟨s'', ?_, by simpa using h7⟩
      rw [List.foldlM_cons, h3]
      exact h6
  obtain ⟨s', h1, h2⟩ := gen ord [] s (by simp) (fun _ h => h) (by simpa using hnd) (by simp) hpre
  exact ⟨s', h1, by simpa using h2⟩

theorem foldlM_inv {σ : Type} (step : σ → Nat → Option σ) (Q : σ → Prop) (ord : List Nat)
    (hstep : ∀ s i s', i ∈ ord → step s i = some s' → Q s → Q s') (s s' : σ)
    (h : ord.foldlM step s = some s') (hs : Q s) : Q s' := by
  induction ord generalizing s with
  | nil => cases h; exact hs
  | cons i ord ih =>
    rw [List.foldlM_cons] at h
    cases h1 : step s i with
    | none => rw [h1] at h; cases h
    | some s1 =>
      rw [h1] at h
      exact ih (fun s j s' hj => hstep s j s' (by simp [hj])) s1 h (hstep s i s1 (by simp) h1 hs)

/-! ### Tallies -/

theorem run_ne {new old : X → V → V} {v0 v1 : V} {l : List X} (hl : l ≠ [])
    (h : ∀ x ∈ l, new x v0 = new x v1) : run new old v0 l = run new old v1 l := by
  cases l with
  | nil => exact absurd rfl hl
  | cons x l => simp only [run]; rw [h x (by simp)]

theorem tally_congr {key : X → K} {emp : K} {val val' : List X → V} {xs : List X}
    (h : ∀ l, l ≠ [] → val l = val' l) : tally key emp val xs = tally key emp val' xs := by
  unfold tally
  apply List.map_congr_left
  intro k hk
  rw [h]
  intro hnil
  simp only [List.mem_dedup, List.mem_filter, List.mem_map] at hk
  obtain ⟨⟨x, hx, hxk⟩, _⟩ := hk
  exact List.filter_eq_nil_iff.1 hnil x hx (by simpa using hxk)

/-- A tally is made of the tallies of the buckets. -/
theorem tally_split (key : X → K) (emp : K) (val : List X → V) (xs : List X) (bkt : K → Nat) (N : Nat)
    (h : ∀ x ∈ xs, bkt (key x) < N) :
    (tally key emp val xs).Perm ((List.range N).flatMap fun i =>
      tally key emp val (xs.filter fun x => bkt (key x) = i)) := by
  classical
  have hmem : ∀ i k v, (k, v) ∈ tally key emp val (xs.filter fun x => bkt (key x) = i) ↔
      bkt k = i ∧ (k, v) ∈ tally key emp val xs := by
    intro i k v
    rw [mem_tally, mem_tally]
    have hf : bkt k = i → (xs.filter fun x => bkt (key x) = i).filter (fun x => decide (key x = k)) =
        xs.filter fun x => decide (key x = k) := by
      intro hk
      rw [List.filter_filter]
      apply List.filter_congr
      intro x _
      by_cases hx : key x = k
      · simp [hx, hk]
      · simp [hx]
    constructor
    · rintro ⟨h1, ⟨x, hx, rfl⟩, h3⟩
      rw [List.mem_filter, decide_eq_true_eq] at hx
      refine ⟨hx.2, h1, ⟨x, hx.1, rfl⟩, ?_⟩
      rw [h3, hf hx.2]
    · rintro ⟨h0, h1, ⟨x, hx, rfl⟩, h3⟩
      refine ⟨h1, ⟨x, ?_, rfl⟩, ?_⟩
      · rw [List.mem_filter, decide_eq_true_eq]; exact ⟨hx, h0⟩
      · rw [hf h0]; exact h3
  refine (List.perm_ext_iff_of_nodup (List.Nodup.of_map _ (tally_nodup _ _ _ _)) ?_).2 ?_
  · rw [List.nodup_flatMap]
    refine ⟨fun i _ => List.Nodup.of_map _ (tally_nodup _ _ _ _), ?_⟩
    refine List.Pairwise.imp_of_mem ?_ (List.nodup_range (n := N))
    intro a b _ _ hab
    rintro ⟨k, v⟩ h1 h2
    exact hab (((hmem a k v).1 h1).1.symm.trans ((hmem b k v).1 h2).1)
  · rintro ⟨k, v⟩
    rw [List.mem_flatMap]
    constructor
    · intro hkv
      obtain ⟨_, ⟨x, hx, hxk⟩, _⟩ := mem_tally.1 hkv
      refine ⟨bkt k, List.mem_range.2 (hxk ▸ h x hx), (hmem _ k v).2 ⟨rfl, hkv⟩⟩
    · rintro ⟨i, _, hi⟩
      exact ((hmem i k v).1 hi).2

theorem tally_nil (key : X → K) (emp : K) (val : List X → V) : tally key emp val [] = [] := rfl

/-- A bucket with a single key. -/
theorem tally_single {key : X → K} {emp : K} {val : List X → V} {xs : List X} {k : K} (hne : xs ≠ [])
    (h : ∀ x ∈ xs, key x = k) : tally key emp val xs = if k ≠ emp then [(k, val xs)] else [] := by
  have hf : (xs.filter fun x => decide (key x = k)) = xs := by
    rw [List.filter_eq_self]; intro x hx; simpa using h x hx
  by_cases hk : k = emp
  · rw [if_neg (by simpa using hk)]
    unfold tally
    have : (xs.map key).filter (fun k => decide (k ≠ emp)) = [] := by
      rw [List.filter_eq_nil_iff]
      intro k' hk'
      obtain ⟨x, hx, rfl⟩ := List.mem_map.1 hk'
      simp [h x hx, hk]
    rw [this]; rfl
  · rw [if_pos hk]
    have hp : (tally key emp val xs).Perm [(k, val xs)] := by
      classical
      refine (List.perm_ext_iff_of_nodup (List.Nodup.of_map _ (tally_nodup _ _ _ _)) (by simp)).2 ?_
      rintro ⟨k', v⟩
      rw [mem_tally, List.mem_singleton, Prod.mk.injEq]
      constructor
      · rintro ⟨_, ⟨x, hx, rfl⟩, rfl⟩
        rw [h x hx, hf]; exact ⟨rfl, rfl⟩
      · rintro ⟨rfl, rfl⟩
        obtain ⟨x, hx⟩ := List.exists_mem_of_ne_nil xs hne
        exact ⟨hk, ⟨x, hx, h x hx⟩, by rw [hf]⟩
    exact List.perm_singleton.1 hp

/-! ### Sizes of buckets -/

theorem bucket_length (B : Nat → X) (counts : Nat → Nat) (n nb q i : Nat) :
    (bucket B counts n nb q i).length =
      ((List.range q).map fun j => sliceLen counts n nb ((n - 1) / q + 1) i j).sum := by
  unfold bucket
  rw [List.length_flatMap]
  congr 1
  apply List.map_congr_left
  intro j _
  simp [slice]

/-- Inserting the elements of a bucket into its part of a clean table, which has room for them. -/
theorem region_spec {h64 : K → Nat} {emp : K} {m : Nat} (hm : 0 < m) (key : X → K)
    (new old : X → V → V) (v0 : V) (ok : V → Prop) (xs : List X)
    (hlen : (xs.map key).dedup.length ≤ m)
    (hok1 : ∀ x ∈ xs, ∀ v, ok v → new x v = new x v0)
    (hok2 : ∀ x ∈ xs, key x = emp → ∀ v, ok v → ok (new x v))
    (T : Tab K V) (hT : Clean emp ok m T) :
    ∃ S c, insAllC ⟨m, h64, emp⟩ key new old xs (T, 0) = some (S, c) ∧
      (entries ⟨m, h64, emp⟩ S.key S.val).Perm (tally key emp (run new old v0) xs) ∧
      (∀ s, s < m → S.key s = emp → ok (S.val s)) ∧
      (entries ⟨m, h64, emp⟩ S.key S.val).length ≤ c ∧
      (entries ⟨m, h64, emp⟩ S.key S.val).length ≤ m := by
  obtain ⟨S, c, h1, h2⟩ := insAllC_spec (P := ⟨m, h64, emp⟩) hm key new old v0 ok
    (xs.map key).dedup hlen xs (fun x hx => List.mem_dedup.2 (List.mem_map_of_mem hx)) hok1 hok2 T hT
  refine ⟨S, c, h1, entries_perm h2, h2.fresh, ?_, ?_⟩
  · have := h2.len
    unfold live at this
    unfold entries
    rw [List.length_map]; exact this
  · unfold entries
    rw [List.length_map]
    refine Nat.le_trans (List.length_filter_le _ _) ?_
    simp

theorem dedup_length_le (xs : List K) : xs.dedup.length ≤ xs.length :=
  List.Sublist.length_le (List.dedup_sublist _)

end Gbbs.Hist
