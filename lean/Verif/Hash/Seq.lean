/-
C21: the sequential counting hash table `gbbs/helpers/sequential_ht.h`.
-/
import Verif.Hash.Table

namespace Gbbs.SeqHT

open Gbbs.Hash

variable {K V X : Type} [DecidableEq K]

/-! ### Model -/

/-- Keys and values of the slots. -/
structure Tab (K V : Type) where
  key : Nat → K
  val : Nat → V

/-- The loop shared by `insertF` (`sequential_ht.h:69-86`) and the two `insertAdd`
(`sequential_ht.h:89-119`): `new` computes the value stored in a fresh slot from the value found
there, `old` the one stored when the key is present; the result says whether the slot was fresh.
`none`: still probing after `fuel` iterations. -/
def ins (P : Par K) (new old : V → V) (k : K) (T : Tab K V) : Nat → Nat → Option (Tab K V × Bool)
  | 0, _ => none
  | fuel + 1, j =>
    let h := slot P k j
    if T.key h = P.emp then some (⟨Atomics.set T.key h k, Atomics.set T.val h (new (T.val h))⟩, true)
    else if T.key h = k then some (⟨T.key, Atomics.set T.val h (old (T.val h))⟩, false)
    else ins P new old k T fuel (j + 1)

/-- Insert a sequence of items; `m` iterations of the probe loop are enough. -/
def insAll (P : Par K) (key : X → K) (new old : X → V → V) :
    List X → Tab K V → Option (Tab K V)
  | [], T => some T
  | x :: xs, T =>
    match ins P (new x) (old x) (key x) T P.m 0 with
    | none => none
    | some (T, _) => insAll P key new old xs T

/-- `insertAdd(K&)`, `sequential_ht.h:89-102`, for a sequence of keys. -/
def insertAddKeys (P : Par K) (ks : List K) (T : Tab K Nat) : Option (Tab K Nat) :=
  insAll P id (fun _ _ => 1) (fun _ c => c + 1) ks T

/-- `insertAdd(T&)`, `sequential_ht.h:105-119`, for a sequence of pairs: a fresh slot gets the value
1. -/
def insertAddPairs (P : Par K) (kvs : List (K × Nat)) (T : Tab K Nat) : Option (Tab K Nat) :=
  insAll P Prod.fst (fun _ _ => 1) (fun kv c => c + kv.2) kvs T

/-- `insertF`, `sequential_ht.h:69-86`, for a sequence of pairs. -/
def insertFPairs {M : Type} (P : Par K) (f : V → K × M → V) (kvs : List (K × M)) (T : Tab K V) :
    Option (Tab K V) :=
  insAll P Prod.fst (fun kv c => f c kv) (fun kv c => f c kv) kvs T

/-- `find`, `sequential_ht.h:121-134`. -/
def find (P : Par K) (ev : V) (T : Tab K V) (k : K) : Nat → Nat → Option (K × V)
  | 0, _ => none
  | fuel + 1, j =>
    if T.key (slot P k j) = P.emp then some (P.emp, ev)
    else if T.key (slot P k j) = k then some (T.key (slot P k j), T.val (slot P k j))
    else find P ev T k fuel (j + 1)

/-- One iteration of `compactInto`, `sequential_ht.h:139-149`; `out` is `Out[0..k)`. -/
def compactStep {E : Type} (P : Par K) (ev : V) (f : K × V → Option E)
    (st : Tab K V × List E) (i : Nat) : Tab K V × List E :=
  if st.1.key i ≠ P.emp then
    (⟨Atomics.set st.1.key i P.emp, Atomics.set st.1.val i ev⟩,
      match f (st.1.key i, st.1.val i) with
      | some e => st.2 ++ [e]
      | none => st.2)
  else st

/-- `compactInto`, `sequential_ht.h:137-151`. -/
def compactInto {E : Type} (P : Par K) (ev : V) (f : K × V → Option E) (T : Tab K V) :
    Tab K V × List E :=
  (List.range P.m).foldl (compactStep P ev f) (T, [])

/-! ### Specification -/

/-- The value a key ends with, given the items for this key in order: `new` of the first applied to
the initial value, then `old` of the others. -/
def run (new old : X → V → V) (v0 : V) : List X → V
  | [] => v0
  | x :: xs => xs.foldl (fun c x => old x c) (new x v0)

/-! ### One insertion -/

theorem ins_spec {P : Par K} {new old : V → V} {k : K} {T : Tab K V} (hm : 0 < P.m)
    (hk : k ≠ P.emp) (hw : WF P T.key) (hroom : In P T.key k ∨ ∃ s, s < P.m ∧ T.key s = P.emp) :
    ∃ T' b s, ins P new old k T P.m 0 = some (T', b) ∧ s < P.m ∧
      T'.key = Atomics.set T.key s k ∧
      (T.key s = k ∧ T'.val = Atomics.set T.val s (old (T.val s)) ∧ b = false ∨
       ¬ In P T.key k ∧ T.key s = P.emp ∧ T'.val = Atomics.set T.val s (new (T.val s)) ∧ b = true) ∧
      WF P T'.key := by
  have key : ∀ fuel j, j + fuel = P.m → Passed P T.key k j →
      ∃ T' b s, ins P new old k T fuel j = some (T', b) ∧ s < P.m ∧
      T'.key = Atomics.set T.key s k ∧
      (T.key s = k ∧ T'.val = Atomics.set T.val s (old (T.val s)) ∧ b = false ∨
       ¬ In P T.key k ∧ T.key s = P.emp ∧ T'.val = Atomics.set T.val s (new (T.val s)) ∧ b = true) ∧
      WF P T'.key := by
    intro fuel
    induction fuel with
    | zero =>
      intro j hj hp
      have hf := passed_full hp (by omega)
      rcases hroom with ⟨s, hs, hsk⟩ | ⟨s, hs, hse⟩
      · exact absurd hsk (hf s hs).2
      · exact absurd hse (hf s hs).1
    | succ fuel ih =>
      intro j hj hp
      unfold ins
      simp only
      by_cases h1 : T.key (slot P k j) = P.emp
      · rw [if_pos h1]
        have hnot : ¬ In P T.key k := by
          rintro ⟨s, hs, hsk⟩
          obtain ⟨l, hl, hl1, hl2⟩ := hw s hs (by rw [hsk]; exact hk)
          rw [hsk] at hl1 hl2
          rcases Nat.lt_trichotomy j l with hlt | rfl | hlt
          · exact (hl2 j hlt).1 h1
          · rw [hl1, hsk] at h1; exact hk h1
          · have := (hp l hlt).2; rw [hl1] at this; exact this hsk
        refine ⟨_, _, slot P k j, rfl, slot_lt P hm k j, rfl, Or.inr ⟨hnot, h1, rfl, rfl⟩, ?_⟩
        intro s hs hse
        show ∃ l, l < P.m ∧ slot P (Atomics.set T.key _ _ s) l = s ∧
          Passed P (Atomics.set T.key _ _) (Atomics.set T.key _ _ s) l
        by_cases hss : s = slot P k j
        · have e : Atomics.set T.key (slot P k j) k s = k := by simp only [Atomics.set, hss, if_true]
          rw [e]
          exact ⟨j, by omega, hss.symm, passed_set hp h1⟩
        · have e : Atomics.set T.key (slot P k j) k s = T.key s := by
            simp only [Atomics.set, hss, if_false]
          have hse' : T.key s ≠ P.emp := by rw [← e]; exact hse
          rw [e]
          obtain ⟨l, hl, h2, h3⟩ := hw s hs hse'
          exact ⟨l, hl, h2, passed_set h3 h1⟩
      · rw [if_neg h1]
        by_cases h2 : T.key (slot P k j) = k
        · rw [if_pos h2]
          refine ⟨_, _, slot P k j, rfl, slot_lt P hm k j, ?_, Or.inl ⟨h2, rfl, rfl⟩, hw⟩
          funext s
          unfold Atomics.set
          split
          · rename_i h; rw [h]; exact h2
          · rfl
        · rw [if_neg h2]
          refine ih (j + 1) (by omega) (fun j' hj' => ?_)
          rcases Nat.lt_succ_iff_lt_or_eq.1 hj' with h3 | rfl
          · exact hp j' h3
          · exact ⟨h1, h2⟩
  exact key P.m 0 (by omega) (fun j' h => absurd h (Nat.not_lt_zero _))

/-! ### A sequence of insertions -/

theorem room {P : Par K} {tab : Nat → K} (hw : WF P tab) (U : List K) (hU : U.length ≤ P.m)
    (hin : ∀ s, s < P.m → tab s ≠ P.emp → tab s ∈ U) (k : K) (hk : k ∈ U) :
    In P tab k ∨ ∃ s, s < P.m ∧ tab s = P.emp := by
  classical
  by_contra hcon
  have h1 : ¬ In P tab k := fun h => hcon (Or.inl h)
  have h2 : ∀ s, s < P.m → tab s ≠ P.emp := fun s hs he => hcon (Or.inr ⟨s, hs, he⟩)
  have hnd : (k :: (List.range P.m).map tab).Nodup := by
    refine List.nodup_cons.2 ⟨?_, ?_⟩
    · intro h
      obtain ⟨s, hs, hsk⟩ := List.mem_map.1 h
      exact h1 ⟨s, List.mem_range.1 hs, hsk⟩
    · rw [List.nodup_map_iff_inj_on List.nodup_range]
      intro s hs t ht h
      exact wf_unique hw (List.mem_range.1 hs) (List.mem_range.1 ht) (h2 s (List.mem_range.1 hs)) h
  have hsub : (k :: (List.range P.m).map tab) ⊆ U := by
    intro x hx
    rcases List.mem_cons.1 hx with rfl | hx
    · exact hk
    · obtain ⟨s, hs, rfl⟩ := List.mem_map.1 hx
      exact hin s (List.mem_range.1 hs) (h2 s (List.mem_range.1 hs))
  have := (hnd.subperm hsub).length_le
  simp only [List.length_cons, List.length_map, List.length_range] at this
  omega

theorem run_append_of_ne {new old : X → V → V} {v0 : V} {l : List X} {x : X} (h : l ≠ []) :
    run new old v0 (l ++ [x]) = old x (run new old v0 l) := by
  cases l with
  | nil => exact absurd rfl h
  | cons y l => simp [run, List.foldl_append]

/-- What a table holds after the items `xs`, started empty with values `v0`. -/
structure Holds (P : Par K) (key : X → K) (new old : X → V → V) (v0 : V) (xs : List X)
    (T : Tab K V) : Prop where
  wf : WF P T.key
  mem : ∀ k, k ≠ P.emp → (In P T.key k ↔ ∃ x ∈ xs, key x = k)
  val : ∀ s, s < P.m → T.val s = run new old v0 (xs.filter fun x => decide (key x = T.key s))

/-- Inserting any sequence of items whose keys fit in the table (`U` lists the possible keys) never
loops forever and leaves exactly these keys, each with the value obtained from its items in
order. -/
theorem insAll_spec {P : Par K} (hm : 0 < P.m) (key : X → K) (new old : X → V → V) (v0 : V)
    (U : List K) (hU : U.length ≤ P.m) (xs : List X)
    (hxs : ∀ x ∈ xs, key x ≠ P.emp ∧ key x ∈ U) (T : Tab K V) (hT : T.key = fun _ => P.emp)
    (hV : ∀ s, T.val s = v0) :
    ∃ T', insAll P key new old xs T = some T' ∧ Holds P key new old v0 xs T' := by
  have gen : ∀ (xs pre : List X) (T : Tab K V), (∀ x ∈ pre ++ xs, key x ≠ P.emp ∧ key x ∈ U) →
      Holds P key new old v0 pre T →
      ∃ T', insAll P key new old xs T = some T' ∧ Holds P key new old v0 (pre ++ xs) T' := by
    intro xs
    induction xs with
    | nil => intro pre T _ h; exact ⟨T, rfl, by simpa using h⟩
    | cons x xs ih =>
      intro pre T hx h
      have hxk := hx x (by simp)
      have hroom := room h.wf U hU (by
        intro s hs hse
        obtain ⟨y, hy, hyk⟩ := (h.mem _ hse).1 ⟨s, hs, rfl⟩
        rw [← hyk]; exact (hx y (by simp [hy])).2) (key x) hxk.2
      obtain ⟨T', b, s, h1, hs, h2, h3, h4⟩ := ins_spec (new := new x) (old := old x) hm hxk.1 h.wf hroom
      unfold insAll
      rw [h1]
      simp only
      have hnew : Holds P key new old v0 (pre ++ [x]) T' := by
        refine ⟨h4, fun k hk => ?_, fun t ht => ?_⟩
        · constructor
          · rintro ⟨t, ht, htk⟩
            rw [h2] at htk
            by_cases hts : t = s
            · simp only [Atomics.set, hts, if_true] at htk
              exact ⟨x, by simp, htk⟩
            · simp only [Atomics.set, hts, if_false] at htk
              obtain ⟨y, hy, hyk⟩ := (h.mem k hk).1 ⟨t, ht, htk⟩
              exact ⟨y, by simp [hy], hyk⟩
          · rintro ⟨y, hy, rfl⟩
            rcases List.mem_append.1 hy with hy | hy
            · obtain ⟨t, ht, htk⟩ := (h.mem _ hk).2 ⟨y, hy, rfl⟩
              refine ⟨t, ht, ?_⟩
              rw [h2]
              by_cases hts : t = s
              · subst hts
                simp only [Atomics.set, if_true]
                rcases h3 with ⟨h5, _, _⟩ | ⟨_, h5, _, _⟩
                · rw [← h5, htk]
                · rw [htk] at h5; exact absurd h5 hk
              · simp only [Atomics.set, hts, if_false]; exact htk
            · simp only [List.mem_singleton] at hy
              subst hy
              exact ⟨s, hs, by rw [h2]; simp only [Atomics.set, if_true]⟩
        · rw [List.filter_append]
          by_cases hts : t = s
          · subst hts
            have hkt : T'.key t = key x := by rw [h2]; simp only [Atomics.set, if_true]
            have hf : [x].filter (fun y => decide (key y = T'.key t)) = [x] := by
              simp [hkt]
            rw [hf]
            rcases h3 with ⟨h5, h6, _⟩ | ⟨h5, h6, h7, _⟩
            · rw [h6]
              simp only [Atomics.set, if_true]
              rw [run_append_of_ne, hkt, h.val t ht, h5]
              rw [hkt]
              obtain ⟨y, hy, hyk⟩ := (h.mem (key x) hxk.1).1 ⟨t, ht, h5⟩
              intro hnil
              have := List.filter_eq_nil_iff.1 hnil y hy
              exact this (by simpa using hyk)
            · rw [h7]
              simp only [Atomics.set, if_true]
              have hnil : pre.filter (fun y => decide (key y = T'.key t)) = [] := by
                rw [List.filter_eq_nil_iff]
                intro y hy hyk
                rw [hkt] at hyk
                exact h5 ((h.mem _ hxk.1).2 ⟨y, hy, by simpa using hyk⟩)
              have hnil2 : pre.filter (fun y => decide (key y = T.key t)) = [] := by
                rw [List.filter_eq_nil_iff]
                intro y hy hyk
                rw [h6] at hyk
                exact (hx y (by simp [hy])).1 (by simpa using hyk)
              rw [hnil, h.val t ht, hnil2]
              rfl
          · have hkt : T'.key t = T.key t := by rw [h2]; simp only [Atomics.set, hts, if_false]
            have hvt : T'.val t = T.val t := by
              rcases h3 with ⟨_, h6, _⟩ | ⟨_, _, h7, _⟩
              · rw [h6]; simp only [Atomics.set, hts, if_false]
              · rw [h7]; simp only [Atomics.set, hts, if_false]
            have hf : [x].filter (fun y => decide (key y = T'.key t)) = [] := by
              rw [List.filter_eq_nil_iff]
              intro y hy hyk
              simp only [List.mem_singleton] at hy
              subst hy
              have hyk : key y = T'.key t := by simpa using hyk
              have : T'.key s = T'.key t := by
                rw [← hyk, h2]; simp only [Atomics.set, if_true]
              exact hts (wf_unique h4 hs ht (by
                rw [h2]; simp only [Atomics.set, if_true]; exact hxk.1) this).symm
            rw [hf, List.append_nil, hvt, hkt]
            exact h.val t ht
      obtain ⟨T'', h5, h6⟩ := ih (pre ++ [x]) T' (by simpa using hx) hnew
      exact ⟨T'', h5, by simpa using h6⟩
  have h0 : Holds P key new old v0 [] T := by
    refine ⟨by rw [hT]; exact wf_empty P, fun k hk => ?_, fun s _ => hV s⟩
    rw [hT]
    constructor
    · rintro ⟨s, _, hs⟩; exact absurd hs.symm hk
    · rintro ⟨x, hx, _⟩; cases hx
  obtain ⟨T', h1, h2⟩ := gen xs [] T (by simpa using hxs) h0
  exact ⟨T', h1, by simpa using h2⟩

/-! ### Compaction and lookup -/

/-- `compactInto` outputs `f` of every entry exactly once and leaves an empty table. -/
theorem compactInto_spec {E : Type} (P : Par K) (ev : V) (f : K × V → Option E) (T : Tab K V) :
    (compactInto P ev f T).2 = (entries P T.key T.val).filterMap f ∧
    (∀ s, s < P.m → (compactInto P ev f T).1.key s = P.emp) ∧
    (∀ s, s < P.m → T.key s ≠ P.emp → (compactInto P ev f T).1.val s = ev) := by
  have gen : ∀ n, n ≤ P.m →
      let st := (List.range n).foldl (compactStep P ev f) (T, [])
      st.2 = (((List.range n).filter fun s => decide (T.key s ≠ P.emp)).map
        fun s => (T.key s, T.val s)).filterMap f ∧
      (∀ s, n ≤ s → st.1.key s = T.key s ∧ st.1.val s = T.val s) ∧
      (∀ s, s < n → st.1.key s = P.emp) ∧ (∀ s, s < n → T.key s ≠ P.emp → st.1.val s = ev) := by
    intro n
    induction n with
    | zero => intro _; simp
    | succ n ih =>
      intro hn
      obtain ⟨h1, h2, h3, h4⟩ := ih (by omega)
      simp only [List.range_succ, List.foldl_append, List.foldl_cons, List.foldl_nil,
        List.filter_append, List.map_append, List.filterMap_append]
      generalize hst : (List.range n).foldl (compactStep P ev f) (T, []) = st at *
      unfold compactStep
      obtain ⟨h5, h6⟩ := h2 n (Nat.le_refl _)
      rw [h5, h6]
      by_cases he : T.key n = P.emp
      · simp only [he, ne_eq, not_true, if_false]
        refine ⟨by simp [h1, he], fun s hs => h2 s (by omega), fun s hs => ?_, fun s hs hse => ?_⟩
        · rcases Nat.lt_succ_iff_lt_or_eq.1 hs with h | rfl
          · exact h3 s h
          · rw [h5, he]
        · rcases Nat.lt_succ_iff_lt_or_eq.1 hs with h | rfl
          · exact h4 s h hse
          · exact absurd he hse
      · simp only [ne_eq, he, not_false_eq_true, if_true]
        refine ⟨?_, fun s hs => ?_, fun s hs => ?_, fun s hs hse => ?_⟩
        · rw [h1]
          cases hf : f (T.key n, T.val n) with
          | none => simp [he, hf]
          | some e => simp [he, hf]
        · have hne : s ≠ n := by omega
          simp only [Atomics.set, hne, if_false]; exact h2 s (by omega)
        · by_cases hsn : s = n
          · simp only [Atomics.set, hsn, if_true]
          · simp only [Atomics.set, hsn, if_false]; exact h3 s (by omega)
        · by_cases hsn : s = n
          · simp only [Atomics.set, hsn, if_true]
          · simp only [Atomics.set, hsn, if_false]; exact h4 s (by omega) hse
  obtain ⟨h1, _, h3, h4⟩ := gen P.m (Nat.le_refl _)
  exact ⟨h1, h3, h4⟩

/-- C21 for any value operations: after the insertions, compaction returns each distinct key exactly
once, with the value obtained from its items in order. -/
theorem compact_insAll {P : Par K} (hm : 0 < P.m) (key : X → K) (new old : X → V → V) (v0 : V)
    (U : List K) (hU : U.length ≤ P.m) (xs : List X)
    (hxs : ∀ x ∈ xs, key x ≠ P.emp ∧ key x ∈ U) (T : Tab K V) (hT : T.key = fun _ => P.emp)
    (hV : ∀ s, T.val s = v0) :
    ∃ T', insAll P key new old xs T = some T' ∧
      ((compactInto P v0 some T').2.map Prod.fst).Nodup ∧
      ∀ k y, (k, y) ∈ (compactInto P v0 some T').2 ↔
        (∃ x ∈ xs, key x = k) ∧ y = run new old v0 (xs.filter fun x => decide (key x = k)) := by
  obtain ⟨T', h1, h2⟩ := insAll_spec hm key new old v0 U hU xs hxs T hT hV
  have hc : (compactInto P v0 some T').2 = entries P T'.key T'.val := by
    rw [(compactInto_spec P v0 some T').1]; simp
  have he := entries_spec T'.val h2.wf
  refine ⟨T', h1, by rw [hc]; exact he.1, fun k y => ?_⟩
  rw [hc, he.2]
  constructor
  · rintro ⟨hk, s, hs, rfl, rfl⟩
    exact ⟨(h2.mem _ hk).1 ⟨s, hs, rfl⟩, h2.val s hs⟩
  · rintro ⟨⟨x, hx, rfl⟩, rfl⟩
    obtain ⟨s, hs, hsk⟩ := (h2.mem _ (hxs x hx).1).2 ⟨x, hx, rfl⟩
    exact ⟨(hxs x hx).1, s, hs, hsk, by rw [h2.val s hs, hsk]⟩

theorem run_count (ks : List K) (k : K) (hk : k ∈ ks) :
    run (fun _ _ => 1) (fun _ c => c + 1) 0 (ks.filter fun x => decide (x = k)) = ks.count k := by
  have : ∀ (l : List K) (c : Nat), l.foldl (fun c _ => c + 1) c = c + l.length := by
    intro l
    induction l with
    | nil => intro c; rfl
    | cons x l ih => intro c; rw [List.foldl_cons, ih]; simp; omega
  have hlen : (ks.filter fun x => decide (x = k)).length = ks.count k := by
    rw [List.count_eq_length_filter]; rfl
  have hne : (ks.filter fun x => decide (x = k)) ≠ [] := by
    intro h
    exact List.filter_eq_nil_iff.1 h k hk (by simp)
  cases hl : ks.filter (fun x => decide (x = k)) with
  | nil => exact absurd hl hne
  | cons x l =>
    rw [hl] at hlen
    simp only [run, this, List.length_cons] at hlen ⊢
    omega

/-- C21, key overload: compaction returns each distinct key with its number of occurrences. -/
theorem insertAddKeys_counts {P : Par K} (hm : 0 < P.m) (U : List K) (hU : U.length ≤ P.m)
    (ks : List K) (hks : ∀ k ∈ ks, k ≠ P.emp ∧ k ∈ U) (T : Tab K Nat)
    (hT : T.key = fun _ => P.emp) (hV : ∀ s, T.val s = 0) :
    ∃ T', insertAddKeys P ks T = some T' ∧
      ((compactInto P 0 some T').2.map Prod.fst).Nodup ∧
      ∀ k c, (k, c) ∈ (compactInto P 0 some T').2 ↔ k ∈ ks ∧ c = ks.count k := by
  obtain ⟨T', h1, h2, h3⟩ := compact_insAll hm id (fun _ _ => 1) (fun _ c => c + 1) 0 U hU ks hks T hT hV
  refine ⟨T', h1, h2, fun k c => ?_⟩
  rw [h3]
  constructor
  · rintro ⟨⟨x, hx, rfl⟩, rfl⟩
    exact ⟨hx, run_count ks _ hx⟩
  · rintro ⟨hk, rfl⟩
    exact ⟨⟨k, hk, rfl⟩, (run_count ks k hk).symm⟩

/-- C21, `insertF` with addition: compaction returns each distinct key with the sum of its values. -/
theorem insertF_sums {P : Par K} (hm : 0 < P.m) (U : List K) (hU : U.length ≤ P.m)
    (kvs : List (K × Nat)) (hks : ∀ kv ∈ kvs, kv.1 ≠ P.emp ∧ kv.1 ∈ U) (T : Tab K Nat)
    (hT : T.key = fun _ => P.emp) (hV : ∀ s, T.val s = 0) :
    ∃ T', insertFPairs P (fun c kv => c + kv.2) kvs T = some T' ∧
      ((compactInto P 0 some T').2.map Prod.fst).Nodup ∧
      ∀ k y, (k, y) ∈ (compactInto P 0 some T').2 ↔
        (∃ kv ∈ kvs, kv.1 = k) ∧ y = ((kvs.filter fun kv => decide (kv.1 = k)).map Prod.snd).sum := by
  obtain ⟨T', h1, h2, h3⟩ := compact_insAll hm Prod.fst (fun kv c => c + kv.2)
    (fun (kv : K × Nat) c => c + kv.2) 0 U hU kvs hks T hT hV
  have hrun : ∀ l : List (K × Nat), run (fun kv c => c + kv.2) (fun kv c => c + kv.2) 0 l =
      (l.map Prod.snd).sum := by
    have : ∀ (l : List (K × Nat)) (c : Nat), l.foldl (fun c kv => c + kv.2) c = c + (l.map Prod.snd).sum := by
      intro l
      induction l with
      | nil => intro c; rfl
      | cons x l ih => intro c; rw [List.foldl_cons, ih]; simp [Nat.add_assoc]
    intro l
    cases l with
    | nil => rfl
    | cons x l => simp only [run, this, List.map_cons, List.sum_cons, Nat.zero_add]
  refine ⟨T', h1, h2, fun k y => ?_⟩
  rw [h3, hrun]

/-- C21, negative part for the pair overload: a single pair `(7, 5)` is compacted to `(7, 1)`. -/
theorem insertAddPairs_wrong :
    (insertAddPairs ⟨4, id, 0⟩ [(7, 5)] ⟨fun _ => 0, fun _ => 0⟩).map
      (fun T => (compactInto ⟨4, id, 0⟩ 0 some T).2) = some [(7, 1)] := by decide +kernel

/-- What the pair overload does compute: one plus the sum of all values of the key but the first. -/
theorem insertAddPairs_partial {P : Par K} (hm : 0 < P.m) (U : List K) (hU : U.length ≤ P.m)
    (kvs : List (K × Nat)) (hks : ∀ kv ∈ kvs, kv.1 ≠ P.emp ∧ kv.1 ∈ U) (T : Tab K Nat)
    (hT : T.key = fun _ => P.emp) (hV : ∀ s, T.val s = 0) :
    ∃ T', insertAddPairs P kvs T = some T' ∧
      ((compactInto P 0 some T').2.map Prod.fst).Nodup ∧
      ∀ k y, (k, y) ∈ (compactInto P 0 some T').2 ↔
        (∃ kv ∈ kvs, kv.1 = k) ∧
          y = 1 + ((kvs.filter fun kv => decide (kv.1 = k)).tail.map Prod.snd).sum := by
  obtain ⟨T', h1, h2, h3⟩ := compact_insAll hm Prod.fst (fun _ _ => 1)
    (fun (kv : K × Nat) c => c + kv.2) 0 U hU kvs hks T hT hV
  have hfold : ∀ (l : List (K × Nat)) (c : Nat),
      l.foldl (fun c kv => c + kv.2) c = c + (l.map Prod.snd).sum := by
    intro l
    induction l with
    | nil => intro c; rfl
    | cons x l ih => intro c; rw [List.foldl_cons, ih]; simp [Nat.add_assoc]
  refine ⟨T', h1, h2, fun k y => ?_⟩
  rw [h3]
  constructor
  · rintro ⟨⟨x, hx, hxk⟩, rfl⟩
    refine ⟨⟨x, hx, hxk⟩, ?_⟩
    have hne : (kvs.filter fun kv => decide (kv.1 = k)) ≠ [] := by
      intro h; exact List.filter_eq_nil_iff.1 h x hx (by simpa using hxk)
    cases hl : kvs.filter (fun kv => decide (kv.1 = k)) with
    | nil => exact absurd hl hne
    | cons y l => simp only [run, hfold, List.tail_cons]
  · rintro ⟨⟨x, hx, hxk⟩, rfl⟩
    refine ⟨⟨x, hx, hxk⟩, ?_⟩
    have hne : (kvs.filter fun kv => decide (kv.1 = k)) ≠ [] := by
      intro h; exact List.filter_eq_nil_iff.1 h x hx (by simpa using hxk)
    cases hl : kvs.filter (fun kv => decide (kv.1 = k)) with
    | nil => exact absurd hl hne
    | cons y l => simp only [run, hfold, List.tail_cons]

/-- `find` returns the entry of a present key, and the empty entry otherwise. -/
theorem find_spec {P : Par K} {T : Tab K V} (ev : V) (hw : WF P T.key) (k : K) (hk : k ≠ P.emp)
    (hroom : In P T.key k ∨ ∃ s, s < P.m ∧ T.key s = P.emp) (hm : 0 < P.m) :
    (∀ s, s < P.m → T.key s = k → find P ev T k P.m 0 = some (k, T.val s)) ∧
    (¬ In P T.key k → find P ev T k P.m 0 = some (P.emp, ev)) := by
  have key : ∀ fuel j, j + fuel = P.m → Passed P T.key k j →
      (∀ s, s < P.m → T.key s = k → find P ev T k fuel j = some (k, T.val s)) ∧
      (¬ In P T.key k → find P ev T k fuel j = some (P.emp, ev)) := by
    intro fuel
    induction fuel with
    | zero =>
      intro j hj hp
      have hf := passed_full hp (by omega)
      rcases hroom with ⟨s, hs, hsk⟩ | ⟨s, hs, hse⟩
      · exact absurd hsk (hf s hs).2
      · exact absurd hse (hf s hs).1
    | succ fuel ih =>
      intro j hj hp
      unfold find
      by_cases h1 : T.key (slot P k j) = P.emp
      · rw [if_pos h1]
        refine ⟨fun s hs hsk => ?_, fun _ => rfl⟩
        exfalso
        obtain ⟨l, hl, hl1, hl2⟩ := hw s hs (by rw [hsk]; exact hk)
        rw [hsk] at hl1 hl2
        rcases Nat.lt_trichotomy j l with hlt | rfl | hlt
        · exact (hl2 j hlt).1 h1
        · rw [hl1, hsk] at h1; exact hk h1
        · have := (hp l hlt).2; rw [hl1] at this; exact this hsk
      · rw [if_neg h1]
        by_cases h2 : T.key (slot P k j) = k
        · rw [if_pos h2]
          refine ⟨fun s hs hsk => ?_, fun h => absurd ⟨_, slot_lt P hm k j, h2⟩ h⟩
          rw [wf_unique hw hs (slot_lt P hm k j) (by rw [hsk]; exact hk) (by rw [hsk, h2]), h2]
        · rw [if_neg h2]
          refine ih (j + 1) (by omega) (fun j' hj' => ?_)
          rcases Nat.lt_succ_iff_lt_or_eq.1 hj' with h3 | rfl
          · exact hp j' h3
          · exact ⟨h1, h2⟩
  exact key P.m 0 (by omega) (fun j' h => absurd h (Nat.not_lt_zero _))

/-- Colliding keys 3, 7, 3, 11, 7, 3 in a table of 4 slots. -/
example : (insertAddKeys ⟨4, id, 0⟩ [3, 7, 3, 11, 7, 3] ⟨fun _ => 0, fun _ => 0⟩).map
      (fun T => (compactInto ⟨4, id, 0⟩ 0 some T).2) = some [(7, 2), (11, 1), (3, 3)] ∧
    (∀ k ∈ [3, 7, 3, 11, 7, 3], k ≠ 0 ∧ k ∈ [3, 7, 11]) ∧ [3, 7, 11].length ≤ 4 := by
  refine ⟨by decide +kernel, by decide, by decide⟩

end Gbbs.SeqHT
