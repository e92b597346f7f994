/-
C117, C118: the sequential hash table of `gbbs/helpers/sequential_ht.h` as the histograms use it: on
a part of a table that an earlier call has used, with elements that carry the reserved key.
-/
import Verif.Hash.Seq
import Mathlib.Data.List.Dedup
import Mathlib.Data.List.Perm.Subperm

namespace Gbbs.Hist

open Gbbs.Hash Gbbs.SeqHT

variable {K V X : Type} [DecidableEq K]

/-! ### Specification -/

/-- Every key that occurs, other than the reserved one, once, with the value `val` of its
elements. -/
def tally (key : X → K) (emp : K) (val : List X → V) (xs : List X) : List (K × V) :=
  (((xs.map key).filter fun k => k ≠ emp).dedup).map fun k =>
    (k, val (xs.filter fun x => decide (key x = k)))

theorem mem_tally {key : X → K} {emp : K} {val : List X → V} {xs : List X} {k : K} {v : V} :
    (k, v) ∈ tally key emp val xs ↔
      k ≠ emp ∧ (∃ x ∈ xs, key x = k) ∧ v = val (xs.filter fun x => decide (key x = k)) := by
  unfold tally
  simp only [List.mem_map, List.mem_dedup, List.mem_filter, decide_eq_true_eq, Prod.mk.injEq]
  constructor
  · rintro ⟨k', ⟨⟨x, hx, rfl⟩, hk⟩, rfl, rfl⟩
    exact ⟨hk, ⟨x, hx, rfl⟩, rfl⟩
  · rintro ⟨hk, ⟨x, hx, rfl⟩, rfl⟩
    exact ⟨_, ⟨⟨x, hx, rfl⟩, hk⟩, rfl, rfl⟩

theorem tally_keys (key : X → K) (emp : K) (val : List X → V) (xs : List X) :
    (tally key emp val xs).map Prod.fst = ((xs.map key).filter fun k => k ≠ emp).dedup := by
  unfold tally
  rw [List.map_map]
  exact List.map_id _

theorem tally_nodup (key : X → K) (emp : K) (val : List X → V) (xs : List X) :
    ((tally key emp val xs).map Prod.fst).Nodup := by
  rw [tally_keys]; exact List.nodup_dedup _

/-! ### Insertion -/

/-- A sequence of insertions, also counting the fresh slots (`histogram.h:316-320`); `none` if one of
them never returns. -/
def insAllC (P : Par K) (key : X → K) (new old : X → V → V) :
    List X → Tab K V × Nat → Option (Tab K V × Nat)
  | [], st => some st
  | x :: xs, st =>
    match ins P (new x) (old x) (key x) st.1 P.m 0 with
    | none => none
    | some (T, b) => insAllC P key new old xs (T, st.2 + if b then 1 else 0)

/-- All slots below `size` are empty, with values in `ok`: the state between two calls. -/
def Clean (emp : K) (ok : V → Prop) (size : Nat) (T : Tab K V) : Prop :=
  ∀ s, s < size → T.key s = emp ∧ ok (T.val s)

/-- The occupied slots. -/
def live (P : Par K) (T : Tab K V) : List Nat :=
  (List.range P.m).filter fun s => decide (T.key s ≠ P.emp)

/-- Inserting an element with the reserved key only changes the value of an empty slot. -/
theorem ins_emp {P : Par K} {new old : V → V} {T : Tab K V}
    (hm : 0 < P.m) (hroom : ∃ s, s < P.m ∧ T.key s = P.emp) :
    ∃ s, s < P.m ∧ T.key s = P.emp ∧
      ins P new old P.emp T P.m 0 = some (⟨T.key, Atomics.set T.val s (new (T.val s))⟩, true) := by
  have key : ∀ fuel j, j + fuel = P.m → Passed P T.key P.emp j →
      ∃ s, s < P.m ∧ T.key s = P.emp ∧
      ins P new old P.emp T fuel j = some (⟨T.key, Atomics.set T.val s (new (T.val s))⟩, true) := by
    intro fuel
    induction fuel with
    | zero =>
      intro j hj hp
      obtain ⟨s, hs, hse⟩ := hroom
      exact absurd hse (passed_full hp (by omega) s hs).1
    | succ fuel ih =>
      intro j hj hp
      unfold ins
      dsimp only
      by_cases h1 : T.key (slot P P.emp j) = P.emp
      · rw [if_pos h1]
        refine ⟨_, slot_lt P hm _ j, h1, ?_⟩
        congr 2
        congr 1
        funext s
        by_cases hs : s = slot P P.emp j
        · subst hs; simp [Atomics.set, h1]
        · simp [Atomics.set, hs]
      · rw [if_neg h1, if_neg h1]
        refine ih (j + 1) (by omega) (fun j' hj' => ?_)
        rcases Nat.lt_succ_iff_lt_or_eq.1 hj' with h3 | rfl
        · exact hp j' h3
        · exact ⟨h1, h1⟩
  exact key P.m 0 (by omega) (fun j' h => absurd h (Nat.not_lt_zero _))

/-- What a table holds after the elements `xs`. -/
structure Held (P : Par K) (key : X → K) (new old : X → V → V) (v0 : V) (ok : V → Prop) (xs : List X)
    (T : Tab K V) (c : Nat) : Prop where
  wf : WF P T.key
  mem : ∀ k, k ≠ P.emp → (In P T.key k ↔ ∃ x ∈ xs, key x = k)
  val : ∀ s, s < P.m → T.key s ≠ P.emp →
    T.val s = run new old v0 (xs.filter fun x => decide (key x = T.key s))
  fresh : ∀ s, s < P.m → T.key s = P.emp → ok (T.val s)
  len : (live P T).length ≤ c

theorem live_set {P : Par K} {T T' : Tab K V} {s : Nat} {k : K} (hs : s < P.m)
    (h : T'.key = Atomics.set T.key s k) :
    (live P T').length ≤ (live P T).length + 1 := by
  have hsub : (live P T') ⊆ s :: live P T := by
    intro t ht
    simp only [live, List.mem_filter, List.mem_range, decide_eq_true_eq] at ht
    by_cases hts : t = s
    · subst hts; simp
    · refine List.mem_cons_of_mem _ ?_
      simp only [live, List.mem_filter, List.mem_range, decide_eq_true_eq]
      refine ⟨ht.1, ?_⟩
      have := ht.2
      rw [h] at this
      simpa [Atomics.set, hts] using this
  have hnd : (live P T').Nodup := List.Nodup.filter _ List.nodup_range
  have := (hnd.subperm hsub).length_le
  simpa using this

theorem live_same {P : Par K} {T T' : Tab K V} {s : Nat}
    (h : T'.key = Atomics.set T.key s (T.key s)) : live P T' = live P T := by
  have : T'.key = T.key := by
    rw [h]; funext t
    by_cases hts : t = s
    · subst hts; simp [Atomics.set]
    · simp [Atomics.set, hts]
  unfold live; rw [this]

theorem insAllC_spec {P : Par K} (hm : 0 < P.m) (key : X → K) (new old : X → V → V) (v0 : V)
    (ok : V → Prop) (U : List K) (hU : U.length ≤ P.m) (xs : List X) (hxs : ∀ x ∈ xs, key x ∈ U)
    (hok1 : ∀ x ∈ xs, ∀ v, ok v → new x v = new x v0)
    (hok2 : ∀ x ∈ xs, key x = P.emp → ∀ v, ok v → ok (new x v))
    (T : Tab K V) (hT : Clean P.emp ok P.m T) :
    ∃ T' c, insAllC P key new old xs (T, 0) = some (T', c) ∧ Held P key new old v0 ok xs T' c := by
  have gen : ∀ (xs pre : List X) (T : Tab K V) (c : Nat), (∀ x ∈ pre ++ xs, key x ∈ U) →
      (∀ x ∈ xs, ∀ v, ok v → new x v = new x v0) →
      (∀ x ∈ xs, key x = P.emp → ∀ v, ok v → ok (new x v)) →
      Held P key new old v0 ok pre T c →
      ∃ T' c', insAllC P key new old xs (T, c) = some (T', c') ∧
        Held P key new old v0 ok (pre ++ xs) T' c' := by
    intro xs
    induction xs with
    | nil => intro pre T c _ _ _ h; exact ⟨T, c, rfl, by simpa using h⟩
    | cons x xs ih =>
      intro pre T c hx hk1 hk2 h
      have hxU := hx x (by simp)
      have hroom := room h.wf U hU (by
        intro s hs hse
        obtain ⟨y, hy, hyk⟩ := (h.mem _ hse).1 ⟨s, hs, rfl⟩
        rw [← hyk]; exact hx y (by simp [hy])) (key x) hxU
      have done : ∀ T' b, ins P (new x) (old x) (key x) T P.m 0 = some (T', b) →
          Held P key new old v0 ok (pre ++ [x]) T' (c + if b then 1 else 0) →
          ∃ T' c', insAllC P key new old (x :: xs) (T, c) = some (T', c') ∧
            Held P key new old v0 ok (pre ++ x :: xs) T' c' := by
        intro T' b h1 h2
        obtain ⟨T'', c', h5, h6⟩ := ih (pre ++ [x]) T' (c + if b then 1 else 0) (by simpa using hx)
          (fun y hy => hk1 y (by simp [hy])) (fun y hy => hk2 y (by simp [hy])) h2
        refine ⟨T'', c', ?_, by simpa using h6⟩
        unfold insAllC
        rw [h1]
        exact h5
      by_cases hxe : key x = P.emp
      · have hroom' : ∃ s, s < P.m ∧ T.key s = P.emp := by
          rcases hroom with ⟨s, hs, h1⟩ | h1
          · exact ⟨s, hs, by rw [h1, hxe]⟩
          · exact h1
        obtain ⟨s, hs, hse, h1⟩ := ins_emp (new := new x) (old := old x) hm hroom'
        rw [← hxe] at h1
        refine done _ _ h1 ?_
        have hfil : ∀ k, k ≠ P.emp →
            (pre ++ [x]).filter (fun y => decide (key y = k)) = pre.filter fun y => decide (key y = k) := by
          intro k hk
          rw [List.filter_append]
          have : ¬ key x = k := fun e => hk (by rw [← e, hxe])
          simp [this]
        refine ⟨h.wf, fun k hk => ?_, fun t ht hte => ?_, fun t ht hte => ?_, ?_⟩
        · rw [h.mem k hk]
          constructor
          · rintro ⟨y, hy, hyk⟩; exact ⟨y, by simp [hy], hyk⟩
          · rintro ⟨y, hy, hyk⟩
            rcases List.mem_append.1 hy with hy | hy
            · exact ⟨y, hy, hyk⟩
            · simp only [List.mem_singleton] at hy
              subst hy; exact absurd (hyk.symm.trans hxe) hk
        · have hts : t ≠ s := by rintro rfl; exact hte hse
          show Atomics.set T.val s _ t = _
          simp only [Atomics.set, hts, if_false]
          rw [h.val t ht hte, hfil _ hte]
        · show ok (Atomics.set T.val s _ t)
          by_cases hts : t = s
          · subst hts
            simp only [Atomics.set, if_true]
            exact hk2 x (by simp) hxe _ (h.fresh _ hs hse)
          · simp only [Atomics.set, hts, if_false]
            exact h.fresh t ht hte
        · have := h.len
          show (live P T).length ≤ _
          omega
      · obtain ⟨T', b, s, h1, hs, h2, h3, h4⟩ :=
          ins_spec (new := new x) (old := old x) hm hxe h.wf hroom
        refine done _ _ h1 ?_
        have hks : T'.key s = key x := by rw [h2]; simp [Atomics.set]
        refine ⟨h4, fun k hk => ?_, fun t ht hte => ?_, fun t ht hte => ?_, ?_⟩
        · constructor
          · rintro ⟨t, ht, htk⟩
            rw [h2] at htk
            by_cases hts : t = s
            · simp only [Atomics.set, hts, if_true] at htk
              exact ⟨x, by simp, htk⟩
            · simp only [Atomics.set, hts, if_false] at htk
              obtain ⟨y, hy, hyk⟩ := (h.mem k hk).1 ⟨t, ht, htk⟩
              exact ⟨y, by simp [hy], hyk⟩
          · rintro ⟨y, hy, rfl⟩
            rcases List.mem_append.1 hy with hy | hy
            · obtain ⟨t, ht, htk⟩ := (h.mem _ hk).2 ⟨y, hy, rfl⟩
              refine ⟨t, ht, ?_⟩
              rw [h2]
              by_cases hts : t = s
              · subst hts
                simp only [Atomics.set, if_true]
                rcases h3 with ⟨h5, _, _⟩ | ⟨_, h5, _, _⟩
                · rw [← h5, htk]
                · rw [htk] at h5; exact absurd h5 hk
              · simp only [Atomics.set, hts, if_false]; exact htk
            · simp only [List.mem_singleton] at hy
              subst hy
              exact ⟨s, hs, hks⟩
        · rw [List.filter_append]
          by_cases hts : t = s
          · subst hts
            have hf : [x].filter (fun y => decide (key y = T'.key t)) = [x] := by simp [hks]
            rw [hf]
            rcases h3 with ⟨h5, h6, _⟩ | ⟨h5, h6, h7, _⟩
            · rw [h6]
              simp only [Atomics.set, if_true]
              rw [run_append_of_ne, hks, h.val t ht (by rw [h5]; exact hxe), h5]
              rw [hks]
              obtain ⟨y, hy, hyk⟩ := (h.mem (key x) hxe).1 ⟨t, ht, h5⟩
              intro hnil
              exact List.filter_eq_nil_iff.1 hnil y hy (by simpa using hyk)
            · rw [h7]
              simp only [Atomics.set, if_true]
              have hnil : pre.filter (fun y => decide (key y = T'.key t)) = [] := by
                rw [List.filter_eq_nil_iff]
                intro y hy hyk
                rw [hks] at hyk
                exact h5 ((h.mem _ hxe).2 ⟨y, hy, by simpa using hyk⟩)
              rw [hnil, hk1 x (by simp) _ (h.fresh t ht h6)]
              rfl
          · have hkt : T'.key t = T.key t := by rw [h2]; simp only [Atomics.set, hts, if_false]
            have hvt : T'.val t = T.val t := by
              rcases h3 with ⟨_, h6, _⟩ | ⟨_, _, h7, _⟩
              · rw [h6]; simp only [Atomics.set, hts, if_false]
              · rw [h7]; simp only [Atomics.set, hts, if_false]
            have hf : [x].filter (fun y => decide (key y = T'.key t)) = [] := by
              rw [List.filter_eq_nil_iff]
              intro y hy hyk
              simp only [List.mem_singleton] at hy
              subst hy
              have hyk : key y = T'.key t := by simpa using hyk
              exact hts (wf_unique h4 hs ht (by rw [hks]; exact hxe) (by rw [hks, hyk])).symm
            rw [hf, List.append_nil, hvt, hkt]
            rw [hkt] at hte
            exact h.val t ht hte
        · have hts : t ≠ s := by rintro rfl; rw [hks] at hte; exact hxe hte
          have hkt : T'.key t = T.key t := by rw [h2]; simp only [Atomics.set, hts, if_false]
          have hvt : T'.val t = T.val t := by
            rcases h3 with ⟨_, h6, _⟩ | ⟨_, _, h7, _⟩
            · rw [h6]; simp only [Atomics.set, hts, if_false]
            · rw [h7]; simp only [Atomics.set, hts, if_false]
          rw [hvt]
          rw [hkt] at hte
          exact h.fresh t ht hte
        · have hl := h.len
          rcases h3 with ⟨h5, _, h8⟩ | ⟨_, _, _, h8⟩
          · rw [live_same (T := T) (s := s) (by rw [h2, h5])]
            omega
          · have := live_set (P := P) hs h2
            rw [h8]; simp only [if_true]; omega
  have h0 : Held P key new old v0 ok [] T 0 := by
    refine ⟨fun s hs hse => absurd (hT s hs).1 hse, fun k hk => ?_, fun s hs hse => absurd (hT s hs).1 hse,
      fun s hs _ => (hT s hs).2, ?_⟩
    · constructor
      · rintro ⟨s, hs, hsk⟩; exact absurd ((hT s hs).1.symm.trans hsk).symm hk
      · rintro ⟨x, hx, _⟩; cases hx
    · have : live P T = [] := by
        unfold live
        rw [List.filter_eq_nil_iff]
        intro s hs
        simp [(hT s (List.mem_range.1 hs)).1]
      rw [this]; exact Nat.le_refl _
  obtain ⟨T', c, h1, h2⟩ := gen xs [] T 0 (by simpa using hxs) hok1 hok2 h0
  exact ⟨T', c, h1, by simpa using h2⟩

/-- The entries of a table that holds `xs` are its tally. -/
theorem entries_perm {P : Par K} {key : X → K} {new old : X → V → V} {v0 : V} {ok : V → Prop}
    {xs : List X} {T : Tab K V} {c : Nat} (h : Held P key new old v0 ok xs T c) :
    (entries P T.key T.val).Perm (tally key P.emp (run new old v0) xs) := by
  have he := entries_spec T.val h.wf
  classical
  refine (List.perm_ext_iff_of_nodup (List.Nodup.of_map _ he.1)
    (List.Nodup.of_map _ (tally_nodup _ _ _ _))).2 ?_
  rintro ⟨k, v⟩
  rw [he.2, mem_tally]
  constructor
  · rintro ⟨hk, s, hs, rfl, rfl⟩
    exact ⟨hk, (h.mem _ hk).1 ⟨s, hs, rfl⟩, h.val s hs hk⟩
  · rintro ⟨hk, hx, rfl⟩
    obtain ⟨s, hs, hsk⟩ := (h.mem _ hk).2 hx
    exact ⟨hk, s, hs, hsk, by rw [h.val s hs (by rw [hsk]; exact hk), hsk]⟩

/-- More distinct keys than slots: some insertion never returns. -/
theorem insAllC_full {P : Par K} (key : X → K) (new old : X → V → V) (xs : List X)
    (U : List K) (hU : U.Nodup) (hlen : P.m < U.length) (hUx : ∀ k ∈ U, k ≠ P.emp ∧ ∃ x ∈ xs, key x = k)
    (st : Tab K V × Nat) : insAllC P key new old xs st = none := by
  have hone : ∀ (new old : V → V) (k : K) (T T' : Tab K V) (b : Bool) (fuel j : Nat),
      ins P new old k T fuel j = some (T', b) →
      ∃ i, T'.key = Atomics.set T.key (slot P k i) k ∧
        (T.key (slot P k i) = P.emp ∨ T.key (slot P k i) = k) := by
    intro new old k T T' b fuel
    induction fuel with
    | zero => intro j h; cases h
    | succ fuel ih =>
      intro j h
      unfold ins at h
      dsimp only at h
      by_cases h1 : T.key (slot P k j) = P.emp
      · rw [if_pos h1] at h
        cases h
        exact ⟨j, rfl, Or.inl h1⟩
      · rw [if_neg h1] at h
        by_cases h2 : T.key (slot P k j) = k
        · rw [if_pos h2] at h
          cases h
          refine ⟨j, ?_, Or.inr h2⟩
          funext s
          by_cases hs : s = slot P k j
          · subst hs; simp [Atomics.set, h2]
          · simp [Atomics.set, hs]
        · rw [if_neg h2] at h
          exact ih (j + 1) h
  by_cases hm : P.m = 0
  · have : ∃ k, k ∈ U := by
      cases U with
      | nil => simp at hlen
      | cons k U => exact ⟨k, by simp⟩
    obtain ⟨k, hk⟩ := this
    obtain ⟨_, x, hx, _⟩ := hUx k hk
    cases xs with
    | nil => cases hx
    | cons y ys => unfold insAllC; rw [hm]; rfl
  have hm' : 0 < P.m := Nat.pos_of_ne_zero hm
  have gen : ∀ (xs : List X) (st st' : Tab K V × Nat), insAllC P key new old xs st = some st' →
      ∀ k, k ≠ P.emp → (In P st.1.key k ∨ ∃ x ∈ xs, key x = k) → In P st'.1.key k := by
    intro xs
    induction xs with
    | nil =>
      intro st st' h k hk hin
      cases h
      rcases hin with h | ⟨x, hx, _⟩
      · exact h
      · cases hx
    | cons x xs ih =>
      intro st st' h k hk hin
      unfold insAllC at h
      cases hi : ins P (new x) (old x) (key x) st.1 P.m 0 with
      | none => rw [hi] at h; cases h
      | some p =>
        obtain ⟨T', b⟩ := p
        rw [hi] at h
        obtain ⟨i, h1, h2⟩ := hone _ _ _ _ _ _ _ _ hi
        refine ih _ _ h k hk ?_
        by_cases hxk : key x = k
        · left
          refine ⟨slot P (key x) i, slot_lt P hm' _ _, ?_⟩
          show T'.key _ = k
          rw [h1]; simp [Atomics.set, hxk]
        · rcases hin with ⟨s, hs, hsk⟩ | ⟨y, hy, hyk⟩
          · left
            refine ⟨s, hs, ?_⟩
            have hne : s ≠ slot P (key x) i := by
              rintro rfl
              rcases h2 with h2 | h2
              · exact hk (hsk.symm.trans h2)
              · exact hxk (h2.symm.trans hsk)
            show T'.key s = k
            rw [h1]; simp only [Atomics.set, hne, if_false]; exact hsk
          · right
            rcases List.mem_cons.1 hy with rfl | hy
            · exact absurd hyk hxk
            · exact ⟨y, hy, hyk⟩
  cases h : insAllC P key new old xs st with
  | none => rfl
  | some st' =>
    exfalso
    have hsub : U ⊆ (List.range P.m).map st'.1.key := by
      intro k hk
      obtain ⟨hke, hx⟩ := hUx k hk
      obtain ⟨s, hs, hsk⟩ := gen xs st st' h k hke (Or.inr hx)
      exact List.mem_map.2 ⟨s, List.mem_range.2 hs, hsk⟩
    have := (hU.subperm hsub).length_le
    simp only [List.length_map, List.length_range] at this
    omega

/-- Insertions stay inside the table. -/
theorem insAllC_frame {P : Par K} (hm : 0 < P.m) (key : X → K) (new old : X → V → V) (xs : List X)
    (st st' : Tab K V × Nat) (h : insAllC P key new old xs st = some st') :
    ∀ s, P.m ≤ s → st'.1.key s = st.1.key s ∧ st'.1.val s = st.1.val s := by
  have hone : ∀ (new old : V → V) (k : K) (T T' : Tab K V) (b : Bool) (fuel j : Nat),
      ins P new old k T fuel j = some (T', b) →
      ∀ s, P.m ≤ s → T'.key s = T.key s ∧ T'.val s = T.val s := by
    intro new old k T T' b fuel
    induction fuel with
    | zero => intro j h; cases h
    | succ fuel ih =>
      intro j h s hs
      have hne : s ≠ slot P k j := by have := slot_lt P hm k j; omega
      unfold ins at h
      dsimp only at h
      split at h
      · cases h; simp only [Atomics.set, hne, if_false, and_self]
      · split at h
        · cases h; simp only [Atomics.set, hne, if_false, and_self]
        · exact ih (j + 1) h s hs
  induction xs generalizing st with
  | nil => cases h; exact fun _ _ => ⟨rfl, rfl⟩
  | cons x xs ih =>
    intro s hs
    unfold insAllC at h
    cases hi : ins P (new x) (old x) (key x) st.1 P.m 0 with
    | none => rw [hi] at h; cases h
    | some p =>
      obtain ⟨T', b⟩ := p
      rw [hi] at h
      obtain ⟨h1, h2⟩ := ih _ h s hs
      obtain ⟨h3, h4⟩ := hone _ _ _ _ _ _ _ _ hi s hs
      exact ⟨h1.trans h3, h2.trans h4⟩

/-! ### Compaction -/

/-- So does compaction. -/
theorem compactInto_frame {E : Type} (P : Par K) (ev : V) (f : K × V → Option E) (T : Tab K V) :
    ∀ s, P.m ≤ s → (compactInto P ev f T).1.key s = T.key s ∧ (compactInto P ev f T).1.val s = T.val s := by
  have gen : ∀ n s, n ≤ s → ((List.range n).foldl (compactStep P ev f) (T, [])).1.key s = T.key s ∧
      ((List.range n).foldl (compactStep P ev f) (T, [])).1.val s = T.val s := by
    intro n
    induction n with
    | zero => intro s _; exact ⟨rfl, rfl⟩
    | succ n ih =>
      intro s hs
      obtain ⟨h1, h2⟩ := ih s (by omega)
      rw [List.range_succ, List.foldl_append]
      simp only [List.foldl_cons, List.foldl_nil]
      generalize (List.range n).foldl (compactStep P ev f) (T, []) = st at *
      unfold compactStep
      have hne : s ≠ n := by omega
      split
      · simp only [Atomics.set, hne, if_false]; exact ⟨h1, h2⟩
      · exact ⟨h1, h2⟩
  exact gen P.m

/-- `compactInto` leaves the values of empty slots alone. -/
theorem compactInto_empty {E : Type} (P : Par K) (ev : V) (f : K × V → Option E) (T : Tab K V) :
    ∀ s, T.key s = P.emp → (compactInto P ev f T).1.val s = T.val s := by
  have gen : ∀ n, ∀ s, T.key s = P.emp →
      ((List.range n).foldl (compactStep P ev f) (T, [])).1.val s = T.val s ∧
      ((List.range n).foldl (compactStep P ev f) (T, [])).1.key s = P.emp := by
    intro n
    induction n with
    | zero => intro s hs; exact ⟨rfl, hs⟩
    | succ n ih =>
      intro s hs
      obtain ⟨h1, h2⟩ := ih s hs
      rw [List.range_succ, List.foldl_append]
      simp only [List.foldl_cons, List.foldl_nil]
      generalize (List.range n).foldl (compactStep P ev f) (T, []) = st at *
      unfold compactStep
      by_cases h3 : st.1.key n ≠ P.emp
      · rw [if_pos h3]
        have hne : s ≠ n := by rintro rfl; exact h3 h2
        simp only [Atomics.set, hne, if_false]
        exact ⟨h1, h2⟩
      · rw [if_neg h3]; exact ⟨h1, h2⟩
  intro s hs
  exact (gen P.m s hs).1

/-- One iteration of `compactIntoSelf`, `sequential_ht.h:157-167`; the state is the table and `k`. -/
def selfStep (P : Par K) (ev : V) (f : K × V → Option (K × V)) (st : Tab K V × Nat) (i : Nat) :
    Tab K V × Nat :=
  if st.1.key i ≠ P.emp then
    let T : Tab K V := ⟨Atomics.set st.1.key i P.emp, Atomics.set st.1.val i ev⟩
    match f (st.1.key i, st.1.val i) with
    | some e => (⟨Atomics.set T.key st.2 e.1, Atomics.set T.val st.2 e.2⟩, st.2 + 1)
    | none => (T, st.2)
  else st

/-- `compactIntoSelf`, `sequential_ht.h:155-169`. -/
def compactSelf (P : Par K) (ev : V) (f : K × V → Option (K × V)) (T : Tab K V) : Tab K V × Nat :=
  (List.range P.m).foldl (selfStep P ev f) (T, 0)

/-- The first `k` slots of a table. -/
def firsts (T : Tab K V) (k : Nat) : List (K × V) := (List.range k).map fun s => (T.key s, T.val s)

theorem compactSelf_spec (P : Par K) (ev : V) (f : K × V → Option (K × V)) (ok : V → Prop)
    (hev : ok ev) (T : Tab K V) (hT : ∀ s, s < P.m → T.key s = P.emp → ok (T.val s)) :
    (compactSelf P ev f T).2 ≤ P.m ∧
    firsts (compactSelf P ev f T).1 (compactSelf P ev f T).2 =
      (entries P T.key T.val).filterMap f ∧
    ∀ s, (compactSelf P ev f T).2 ≤ s → s < P.m →
      (compactSelf P ev f T).1.key s = P.emp ∧ ok ((compactSelf P ev f T).1.val s) := by
  have gen : ∀ n, n ≤ P.m →
      let st := (List.range n).foldl (selfStep P ev f) (T, 0)
      st.2 ≤ n ∧
      firsts st.1 st.2 = (((List.range n).filter fun s => decide (T.key s ≠ P.emp)).map
        fun s => (T.key s, T.val s)).filterMap f ∧
      (∀ s, st.2 ≤ s → s < n → st.1.key s = P.emp ∧ ok (st.1.val s)) ∧
      ∀ s, n ≤ s → st.1.key s = T.key s ∧ st.1.val s = T.val s := by
    intro n
    induction n with
    | zero => intro _; simp [firsts]
    | succ n ih =>
      intro hn
      obtain ⟨h1, h2, h3, h4⟩ := ih (by omega)
      simp only [List.range_succ, List.foldl_append, List.foldl_cons, List.foldl_nil,
        List.filter_append, List.map_append, List.filterMap_append]
      generalize (List.range n).foldl (selfStep P ev f) (T, 0) = st at *
      obtain ⟨h5, h6⟩ := h4 n (Nat.le_refl _)
      unfold selfStep
      rw [h5, h6]
      by_cases he : T.key n = P.emp
      · simp only [he, ne_eq, not_true, if_false]
        refine ⟨by omega, by simp [h2, he], fun s hs1 hs2 => ?_, fun s hs => h4 s (by omega)⟩
        by_cases hsn : s = n
        · subst hsn; rw [h5, h6]; exact ⟨he, hT _ (by omega) he⟩
        · exact h3 s hs1 (by omega)
      · simp only [ne_eq, he, not_false_eq_true, if_true]
        cases hf : f (T.key n, T.val n) with
        | none =>
          dsimp only
          refine ⟨by omega, ?_, fun s hs1 hs2 => ?_, fun s hs => ?_⟩
          · simp only [List.filter_cons, List.filter_nil, he, not_false_eq_true, decide_true, if_true,
              List.map_cons, List.map_nil, List.filterMap_cons, List.filterMap_nil, hf,
              List.append_nil]
            rw [← h2]
            unfold firsts
            apply List.map_congr_left
            intro s hs
            have hne : s ≠ n := by have := List.mem_range.1 hs; omega
            simp only [Atomics.set, hne, if_false]
          · by_cases hsn : s = n
            · simp only [Atomics.set, hsn, if_true]; exact ⟨trivial, hev⟩
            · simp only [Atomics.set, hsn, if_false]; exact h3 s hs1 (by omega)
          · have hne : s ≠ n := by omega
            simp only [Atomics.set, hne, if_false]; exact h4 s (by omega)
        | some e =>
          dsimp only
          refine ⟨by omega, ?_, fun s hs1 hs2 => ?_, fun s hs => ?_⟩
          · simp only [List.filter_cons, List.filter_nil, he, not_false_eq_true, decide_true, if_true,
              List.map_cons, List.map_nil, List.filterMap_cons, List.filterMap_nil, hf]
            rw [← h2]
            unfold firsts
            rw [List.range_succ, List.map_append]
            congr 1
            · apply List.map_congr_left
              intro s hs
              have h7 := List.mem_range.1 hs
              have hne : s ≠ n := by omega
              have hne2 : s ≠ st.2 := by omega
              simp only [Atomics.set, hne, hne2, if_false]
            · simp [Atomics.set]
          · have hne2 : s ≠ st.2 := by omega
            by_cases hsn : s = n
            · simp only [Atomics.set, hne2, if_false, hsn, if_true]
              rw [hsn] at hne2
              simp only [hne2, if_false]; exact ⟨trivial, hev⟩
            · simp only [Atomics.set, hne2, hsn, if_false]; exact h3 s (by omega) (by omega)
          · have hne : s ≠ n := by omega
            have hne2 : s ≠ st.2 := by omega
            simp only [Atomics.set, hne, hne2, if_false]; exact h4 s (by omega)
  obtain ⟨h1, h2, h3, _⟩ := gen P.m (Nat.le_refl _)
  exact ⟨h1, h2, h3⟩

end Gbbs.Hist
