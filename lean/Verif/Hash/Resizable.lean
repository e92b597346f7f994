/-
`gbbs/helpers/resizable_table.h`: a concurrent set of (key, value) pairs with open addressing on the key (C82).
-/
import Verif.Hash.Table
import Verif.Conc.Par
import Verif.EdgeMap.Total
import Mathlib.Data.Nat.ModEq

namespace Gbbs.RT

open Conc Conc.Prog
open Atomics (Steps)

set_option linter.unusedSectionVars false

/-! ### Model -/

/-- A pair `std::tuple<K, V>`. -/
abbrev KV := Nat × Nat

/-- The content of a slot: `none` is the tuple `empty`, recognised by its key. Pairs are assumed not to use the empty key. -/
abbrev Val := Option KV

/-- The memory: the slots of the table and, for `Search_F` (C83), the array `bits` (`some (0, 0)`: true). -/
inductive Loc
  | slot (i : Nat)
  | bit (v : Nat)
deriving DecidableEq

/-- The slot after `j` increments, `firstIndex` and `incrementIndex`, `resizable_table.h:36-41, 104`; the mask is `m - 1` for a power of
two `m`, so masking is the remainder by `m`. -/
def pos (m : Nat) (hash : Nat → Nat) (k j : Nat) : Nat := (hash k + j) % m

/-- `insert`, `resizable_table.h:188-207`, after `j` increments, with at most `f` more iterations; `none` if they do not suffice. The
first access of an iteration reads the key, the second is the CAS, the third and fourth read key and value again. The counter of the
worker is left out, see `Tab.ne`. -/
def insO (m : Nat) (hash : Nat → Nat) : Nat → KV → Nat → Prog Loc Val (Option Bool)
  | 0, _, _ => ret none
  | f + 1, kv, j =>
    let s := Loc.slot (pos m hash kv.1 j)
    let next : Prog Loc Val (Option Bool) := read s fun x =>
      if x.map Prod.fst = some kv.1 then read s fun y =>
        if y.map Prod.snd = some kv.2 then ret (some false) else insO m hash f kv (j + 1)
      else insO m hash f kv (j + 1)
    read s fun x => if x = none then cas s none (some kv) fun b => if b then ret (some true) else next else next

/-- `contains(k, v)`, `resizable_table.h:246-258`. -/
def contains2 (m : Nat) (hash : Nat → Nat) (t : Nat → Val) (kv : KV) : Nat → Nat → Option Bool
  | 0, _ => none
  | f + 1, j =>
    if (t (pos m hash kv.1 j)).map Prod.fst = some kv.1 ∧ (t (pos m hash kv.1 j)).map Prod.snd = some kv.2 then some true
    else if t (pos m hash kv.1 j) = none then some false
    else contains2 m hash t kv f (j + 1)

/-- `contains(k)`, `resizable_table.h:233-244`. -/
def contains1 (m : Nat) (hash : Nat → Nat) (t : Nat → Val) (k : Nat) : Nat → Nat → Option Bool
  | 0, _ => none
  | f + 1, j =>
    if (t (pos m hash k j)).map Prod.fst = some k then some true
    else if t (pos m hash k j) = none then some false
    else contains1 m hash t k f (j + 1)

/-- `num_appearances`, `resizable_table.h:220-231`. -/
def numApp (m : Nat) (hash : Nat → Nat) (t : Nat → Val) (k : Nat) : Nat → Nat → Option Nat
  | 0, _ => none
  | f + 1, j =>
    if (t (pos m hash k j)).map Prod.fst = some k then (numApp m hash t k f (j + 1)).map (· + 1)
    else if t (pos m hash k j) = none then some 0
    else numApp m hash t k f (j + 1)

/-- `init`, `has_next` and `next` of `iter_kv` (`resizable_table.h:60-89`) until `init` or `has_next` returns false: the values found. -/
def iterAll (m : Nat) (hash : Nat → Nat) (t : Nat → Val) (k : Nat) : Nat → Nat → Option (List Nat)
  | 0, _ => none
  | f + 1, j => match t (pos m hash k j) with
    | none => some []
    | some (k', v) => if k' = k then (iterAll m hash t k f (j + 1)).map (v :: ·) else iterAll m hash t k f (j + 1)

/-- `entries`, `resizable_table.h:269-273`; `map` (260-267) applies its function to the same slots. -/
def entries (m : Nat) (t : Nat → Val) : List KV := (List.range m).filterMap t

/-- `parlay::log2_up`. -/
def log2Up (x : Nat) : Nat := if x ≤ 1 then 0 else Nat.log2 (x - 1) + 1

/-- The size made by the constructor, `resizable_table.h:129`. -/
def initSize (s : Nat) : Nat := 2 ^ log2Up (11 * s / 10)

/-- The table: size and slots. -/
structure Tab where
  m : Nat
  t : Nat → Val

/-- The number of elements `ne` after `update_nelms` (112-118): every successful insertion fills one slot and adds one to the counter of
its worker. -/
def Tab.ne (T : Tab) : Nat := (entries T.m T.t).length

/-- The table after the constructor and `clear`. -/
def Tab.new (s : Nat) : Tab := ⟨initSize s, fun _ => none⟩

/-- The memory made of a table and the bits. -/
def mem2 (t bits : Nat → Val) : Loc → Val
  | .slot i => t i
  | .bit v => bits v

/-- Insertions of the pairs of the list by parallel threads, with at most `f` iterations each: thread `i` returned `res i`. -/
def Batch (m : Nat) (hash : Nat → Nat) (f : Nat) (kvs : List KV) (t t' : Nat → Val) (res : Nat → Option Bool) : Prop :=
  Par (fun i => match kvs[i]? with | some kv => insO m hash f kv 0 | none => ret none)
    (mem2 t fun _ => none) (mem2 t' fun _ => none) res

/-- The insertions all returned. -/
def Inserted (m : Nat) (hash : Nat → Nat) (kvs : List KV) (t t' : Nat → Val) (res : Nat → Bool) : Prop :=
  ∃ f, Batch m hash f kvs t t' fun i => if i < kvs.length then some (res i) else none

/-- The size after `maybe_resize(inc)`, `resizable_table.h:160-166`. -/
def grow (m ne inc : Nat) : Nat := if m < 4 * (ne + inc) then 2 ^ log2Up (10 * (ne + inc)) else m

/-- `maybe_resize(inc)`, `resizable_table.h:160-181`. The early return for `m == old_m` (167-169) would leave the table without memory;
`grow_ne` shows that it is not reached. -/
def Resize (hash : Nat → Nat) (inc : Nat) (T T' : Tab) : Prop :=
  T'.m = grow T.m T.ne inc ∧
  if T.m < 4 * (T.ne + inc) then ∃ res, Inserted T'.m hash (entries T.m T.t) (fun _ => none) T'.t res else T'.t = T.t

/-! ### Specification -/

/-- The pairs of the table. -/
def Mem (m : Nat) (t : Nat → Val) (kv : KV) : Prop := ∃ s, s < m ∧ t s = some kv

/-- The parameters of `Hash` for pairs hashed by key. -/
def par (m : Nat) (hash : Nat → Nat) : Hash.Par Val := ⟨m, fun x => match x with | some kv => hash kv.1 | none => 0, none⟩

/-- A table built by insertions, also with respect to other tables: every pair can be found by its probe sequence. -/
def WF (m : Nat) (hash : Nat → Nat) (t : Nat → Val) : Prop := Hash.WF (par m hash) t ∧ ∀ s, m ≤ s → t s = none

theorem slot_par (m : Nat) (hash : Nat → Nat) (kv : KV) (j : Nat) : Hash.slot (par m hash) (some kv) j = pos m hash kv.1 j := rfl

theorem pos_lt {m : Nat} (hm : 0 < m) (hash : Nat → Nat) (k j : Nat) : pos m hash k j < m := Nat.mod_lt _ hm

/-! ### Verification of `insert` -/

variable {ι : Type} [DecidableEq ι]

/-- Ghost state: the table, the thread that filled a slot, the thread that set a bit, and for every thread the key of a pair it has
inserted without having set the bit yet. -/
structure Gh (ι : Type) where
  tab : Nat → Val
  win : Nat → Option ι
  own : Nat → Option ι
  pend : ι → Option Nat

structure SInv (m : Nat) (hash : Nat → Nat) (t0 : Nat → Val) (Good : KV → Prop) (g : Gh ι) (mem : Loc → Val) : Prop where
  slots : ∀ i, mem (.slot i) = g.tab i
  bits : ∀ v, mem (.bit v) = if g.own v = none then none else some (0, 0)
  wf : WF m hash g.tab
  old : ∀ s, t0 s ≠ none → g.tab s = t0 s
  good : ∀ s kv, g.tab s = some kv → Good kv
  win1 : ∀ s i, g.win s = some i → t0 s = none ∧ g.tab s ≠ none
  win2 : ∀ s, g.tab s ≠ none → t0 s = none → ∃ i, g.win s = some i
  fresh : ∀ s kv, g.tab s = some kv → t0 s = none → g.own kv.1 ≠ none ∨ ∃ i, g.pend i = some kv.1

def srg (m : Nat) (hash : Nat → Nat) (t0 : Nat → Val) (Good : KV → Prop) : RG ι (Gh ι) Loc Val where
  Inv := SInv m hash t0 Good
  R i g g' := (∀ s, g.tab s ≠ none → g'.tab s = g.tab s) ∧ (∀ s, g'.win s = some i ↔ g.win s = some i) ∧
    (∀ v, g'.own v = some i ↔ g.own v = some i) ∧ (∀ v, g.own v ≠ none → g'.own v = g.own v) ∧ g'.pend i = g.pend i ∧
    ∀ s, g.win s ≠ none → g'.win s = g.win s
  Gu i g g' := (∀ s, g.tab s ≠ none → g'.tab s = g.tab s) ∧ (∀ s j, j ≠ i → (g'.win s = some j ↔ g.win s = some j)) ∧
    (∀ v j, j ≠ i → (g'.own v = some j ↔ g.own v = some j)) ∧ (∀ v, g.own v ≠ none → g'.own v = g.own v) ∧
    (∀ j, j ≠ i → g'.pend j = g.pend j) ∧ ∀ s, g.win s ≠ none → g'.win s = g.win s
  refl _ _ := ⟨fun _ _ => rfl, fun _ => Iff.rfl, fun _ => Iff.rfl, fun _ _ => rfl, rfl, fun _ _ => rfl⟩
  trans i g g' g'' h1 h2 := ⟨fun s hs => (h2.1 s (by rw [h1.1 s hs]; exact hs)).trans (h1.1 s hs),
    fun s => (h2.2.1 s).trans (h1.2.1 s), fun s => (h2.2.2.1 s).trans (h1.2.2.1 s),
    fun s hs => (h2.2.2.2.1 s (by rw [h1.2.2.2.1 s hs]; exact hs)).trans (h1.2.2.2.1 s hs),
    h2.2.2.2.2.1.trans h1.2.2.2.2.1,
    fun s hs => (h2.2.2.2.2.2 s (by rw [h1.2.2.2.2.2 s hs]; exact hs)).trans (h1.2.2.2.2.2 s hs)⟩
  compat i j g g' hne h := ⟨h.1, fun s => h.2.1 s j (Ne.symm hne), fun s => h.2.2.1 s j (Ne.symm hne), h.2.2.2.1,
    h.2.2.2.2.1 j (Ne.symm hne), h.2.2.2.2.2⟩

theorem srg_gu_refl (m : Nat) (hash : Nat → Nat) (t0 : Nat → Val) (Good : KV → Prop) (i : ι) (g : Gh ι) :
    (srg m hash t0 Good).Gu i g g :=
  ⟨fun _ _ => rfl, fun _ _ _ => Iff.rfl, fun _ _ _ => Iff.rfl, fun _ _ => rfl, fun _ _ => rfl, fun _ _ => rfl⟩

/-- The ghost state after thread `i` filled slot `s` with the pair. -/
def Gh.ins (g : Gh ι) (i : ι) (s : Nat) (kv : KV) : Gh ι :=
  ⟨fun x => if x = s then some kv else g.tab x, fun x => if x = s then some i else g.win x, g.own,
    fun j => if j = i then some kv.1 else g.pend j⟩

section
variable {m : Nat} {hash : Nat → Nat} {t0 : Nat → Val} {Good : KV → Prop} {i : ι}

theorem passed_mono {g g' : Gh ι} (h : ∀ s, g.tab s ≠ none → g'.tab s = g.tab s) {x : Val} {j : Nat}
    (hp : Hash.Passed (par m hash) g.tab x j) : Hash.Passed (par m hash) g'.tab x j := by
  intro j' hj'
  obtain ⟨h1, h2⟩ := hp j' hj'
  rw [h _ h1]
  exact ⟨h1, h2⟩

theorem Mem.mono {g g' : Gh ι} (h : ∀ s, g.tab s ≠ none → g'.tab s = g.tab s) {kv : KV} (hp : Mem m g.tab kv) : Mem m g'.tab kv := by
  obtain ⟨s, hs, he⟩ := hp
  exact ⟨s, hs, by rw [h s (by rw [he]; simp), he]⟩

theorem ins_ok (hm : 0 < m) {g : Gh ι} {mem : Loc → Val} (hi : SInv m hash t0 Good g mem) {kv : KV} (hg : Good kv) {j : Nat}
    (hp : Hash.Passed (par m hash) g.tab (some kv) j) (he : mem (.slot (pos m hash kv.1 j)) = none)
    (hpend : g.pend i = none ∨ g.pend i = some kv.1) :
    (srg m hash t0 Good).Gu i g (g.ins i (pos m hash kv.1 j) kv) ∧
    SInv m hash t0 Good (g.ins i (pos m hash kv.1 j) kv) (put mem (.slot (pos m hash kv.1 j)) (some kv)) := by
  have hjm : j < m := Hash.passed_lt (P := par m hash) hm hp (Or.inl (by rw [slot_par]; exact (hi.slots _).symm.trans he))
  have hs := pos_lt hm hash kv.1 j
  have hse : pos m hash kv.1 j = Hash.slot (par m hash) (some kv) j := rfl
  generalize hsd : pos m hash kv.1 j = s at *
  have he' : g.tab s = none := (hi.slots s).symm.trans he
  have hw : g.win s = none := by
    cases h : g.win s with
    | none => rfl
    | some x => exact absurd he' (hi.win1 s x h).2
  have mono : ∀ x, g.tab x ≠ none → (g.ins i s kv).tab x = g.tab x := by
    intro x hx
    have : x ≠ s := fun h => hx (h ▸ he')
    simp [Gh.ins, this]
  have passed' : ∀ (x : Val) l, Hash.Passed (par m hash) g.tab x l → Hash.Passed (par m hash) (g.ins i s kv).tab x l :=
    fun x l h => passed_mono mono h
  refine ⟨⟨mono, fun x k hk => ?_, fun _ _ _ => Iff.rfl, fun _ _ => rfl, fun k hk => ?_, fun x hx => ?_⟩, ⟨fun x => ?_, fun v => ?_,
    ⟨fun x hx hxe => ?_, fun x hx => ?_⟩, fun x hx => ?_, fun x kv' h => ?_, fun x k h => ?_, fun x h h0 => ?_, fun x kv' h h0 => ?_⟩⟩
  · by_cases h : x = s
    · subst h; simp [Gh.ins, hw, Ne.symm hk]
    · simp [Gh.ins, h]
  · simp [Gh.ins, hk]
  · have : x ≠ s := fun h => hx (h ▸ hw)
    simp [Gh.ins, this]
  · by_cases h : x = s
    · subst h; rw [put_same]; simp [Gh.ins]
    · rw [put_ne _ _ (by simpa using h)]; simp [Gh.ins, h, hi.slots]
  · rw [put_ne _ _ (by simp)]; exact hi.bits v
  · by_cases h : x = s
    · subst h
      have e : (g.ins i x kv).tab x = some kv := by simp [Gh.ins]
      rw [e]
      exact ⟨j, hjm, hse.symm, passed' _ _ hp⟩
    · have e : (g.ins i s kv).tab x = g.tab x := by simp [Gh.ins, h]
      rw [e] at hxe ⊢
      obtain ⟨l, h1, h2, h3⟩ := hi.wf.1 x hx hxe
      exact ⟨l, h1, h2, passed' _ _ h3⟩
  · have : x ≠ s := by omega
    simp only [Gh.ins, this, if_false]
    exact hi.wf.2 x hx
  · have := hi.old x hx
    rw [mono x (by rw [this]; exact hx)]; exact this
  · by_cases h' : x = s
    · simp only [Gh.ins, h', if_true, Option.some.injEq] at h
      rw [← h]; exact hg
    · simp only [Gh.ins, h', if_false] at h
      exact hi.good x _ h
  · by_cases h' : x = s
    · subst h'
      refine ⟨?_, by simp [Gh.ins]⟩
      by_contra h0
      have := hi.old x h0
      rw [he'] at this
      exact h0 this.symm
    · simp only [Gh.ins, h', if_false] at h ⊢
      exact hi.win1 x k h
  · by_cases h' : x = s
    · exact ⟨i, by simp [Gh.ins, h']⟩
    · simp only [Gh.ins, h', if_false] at h ⊢
      exact hi.win2 x h h0
  · by_cases h' : x = s
    · simp only [Gh.ins, h', if_true, Option.some.injEq] at h
      subst h
      exact Or.inr ⟨i, by simp [Gh.ins]⟩
    · simp only [Gh.ins, h', if_false] at h
      rcases hi.fresh x kv' h h0 with h1 | ⟨k, h1⟩
      · exact Or.inl h1
      · refine Or.inr ?_
        by_cases hk : k = i
        · subst hk
          refine ⟨k, ?_⟩
          rcases hpend with hp0 | hp0
          · rw [hp0] at h1; cases h1
          · rw [hp0] at h1; simpa [Gh.ins] using h1
        · exact ⟨k, by simpa [Gh.ins, hk] using h1⟩

/-- `insert` in any environment of insertions: it returns with the pair in the table, true if and only if it filled a slot. -/
theorem ins_safe (hm : 0 < m) (kv : KV) (hg : Good kv) (p : Option Nat) (hp : p = none ∨ p = some kv.1) (w0 o0 : Nat → Prop) (f : Nat) :
    ∀ (j : Nat) (g : Gh ι), Hash.Passed (par m hash) g.tab (some kv) j → g.pend i = p → (∀ s, g.win s = some i ↔ w0 s) →
    (∀ v, g.own v = some i ↔ o0 v) →
    Safe (srg m hash t0 Good) i (fun g r =>
      (r = none → Hash.Passed (par m hash) g.tab (some kv) (j + f)) ∧
      (r = some true → g.pend i = some kv.1 ∧ ∃ s, s < m ∧ g.tab s = some kv ∧ ∀ s', g.win s' = some i ↔ s' = s ∨ w0 s') ∧
      (r = some false → Mem m g.tab kv ∧ g.pend i = p ∧ ∀ s, g.win s = some i ↔ w0 s) ∧ ∀ v, g.own v = some i ↔ o0 v) (insO m hash f kv j) g := by
  induction f with
  | zero =>
    intro j g hpa hpe hw ho g' hr
    exact ⟨fun _ => passed_mono hr.1 hpa, fun h => (by cases h), fun h => (by cases h), fun v => (hr.2.2.1 v).trans (ho v)⟩
  | succ f ih =>
    intro j g hpa hpe hw ho
    have hR : ∀ g' : Gh ι, (srg m hash t0 Good).R i g g' → g'.pend i = p ∧ (∀ s, g'.win s = some i ↔ w0 s) ∧
        Hash.Passed (par m hash) g'.tab (some kv) j ∧ ∀ v, g'.own v = some i ↔ o0 v := fun g' hr =>
      ⟨hr.2.2.2.2.1.trans hpe, fun s => (hr.2.1 s).trans (hw s), passed_mono hr.1 hpa, fun v => (hr.2.2.1 v).trans (ho v)⟩
    -- the second half of an iteration, once the slot is occupied
    have hnext : ∀ g1 : Gh ι, (srg m hash t0 Good).R i g g1 → g1.tab (pos m hash kv.1 j) ≠ none →
        Safe (srg m hash t0 Good) i (fun g r =>
          (r = none → Hash.Passed (par m hash) g.tab (some kv) (j + (f + 1))) ∧
          (r = some true → g.pend i = some kv.1 ∧ ∃ s, s < m ∧ g.tab s = some kv ∧ ∀ s', g.win s' = some i ↔ s' = s ∨ w0 s') ∧
          (r = some false → Mem m g.tab kv ∧ g.pend i = p ∧ ∀ s, g.win s = some i ↔ w0 s) ∧ ∀ v, g.own v = some i ↔ o0 v)
          (read (Loc.slot (pos m hash kv.1 j)) fun x =>
            if x.map Prod.fst = some kv.1 then read (Loc.slot (pos m hash kv.1 j)) fun y =>
              if y.map Prod.snd = some kv.2 then ret (some false) else insO m hash f kv (j + 1)
            else insO m hash f kv (j + 1)) g1 := by
      intro g1 hr1 ho1
      have hgo : ∀ g3 : Gh ι, (srg m hash t0 Good).R i g g3 → g3.tab (pos m hash kv.1 j) ≠ none →
          g3.tab (pos m hash kv.1 j) ≠ some kv →
          Safe (srg m hash t0 Good) i (fun g r =>
            (r = none → Hash.Passed (par m hash) g.tab (some kv) (j + (f + 1))) ∧
            (r = some true → g.pend i = some kv.1 ∧ ∃ s, s < m ∧ g.tab s = some kv ∧ ∀ s', g.win s' = some i ↔ s' = s ∨ w0 s') ∧
            (r = some false → Mem m g.tab kv ∧ g.pend i = p ∧ ∀ s, g.win s = some i ↔ w0 s) ∧ ∀ v, g.own v = some i ↔ o0 v) (insO m hash f kv (j + 1)) g3 := by
        intro g3 hr3 h1 h2
        obtain ⟨ha, hb, hc, hd⟩ := hR g3 hr3
        have := ih (j + 1) g3 (fun j' hj' => by
          rcases Nat.lt_succ_iff_lt_or_eq.1 hj' with h | rfl
          · exact hc j' h
          · exact ⟨h1, h2⟩) ha hb hd
        rwa [show j + 1 + f = j + (f + 1) by omega] at this
      intro g2 m2 hr2 hi2
      have hr02 := (srg m hash t0 Good).trans _ _ _ _ hr1 hr2
      have e2 : g2.tab (pos m hash kv.1 j) = g1.tab (pos m hash kv.1 j) := hr2.1 _ ho1
      refine ⟨g2, srg_gu_refl _ _ _ _ _ _, hi2, ?_⟩
      beta_reduce
      rw [hi2.slots, e2]
      split
      · rename_i hk
        intro g3 m3 hr3 hi3
        have hr03 := (srg m hash t0 Good).trans _ _ _ _ hr02 hr3
        have e3 : g3.tab (pos m hash kv.1 j) = g1.tab (pos m hash kv.1 j) := by rw [hr3.1 _ (by rw [e2]; exact ho1), e2]
        refine ⟨g3, srg_gu_refl _ _ _ _ _ _, hi3, ?_⟩
        beta_reduce
        rw [hi3.slots, e3]
        split
        · rename_i hv
          have hkv : g1.tab (pos m hash kv.1 j) = some kv := by
            rcases hx : g1.tab (pos m hash kv.1 j) with _ | ⟨a, b⟩
            · exact absurd hx ho1
            · rw [hx] at hk hv
              simp only [Option.map_some, Option.some.injEq] at hk hv
              subst hk; subst hv; rfl
          intro g4 hr4
          refine ⟨fun h => (by cases h), fun h => (by cases h), fun _ => ⟨?_, ?_⟩,
            (hR g4 ((srg m hash t0 Good).trans _ _ _ _ hr03 hr4)).2.2.2⟩
          · exact Mem.mono hr4.1 ⟨_, pos_lt hm hash _ _, e3.trans hkv⟩
          · obtain ⟨ha, hb, _⟩ := hR g4 ((srg m hash t0 Good).trans _ _ _ _ hr03 hr4)
            exact ⟨ha, hb⟩
        · rename_i hv
          refine hgo g3 hr03 (by rw [e3]; exact ho1) (by rw [e3]; intro h; rw [h] at hv; exact hv rfl)
      · rename_i hk
        exact hgo g2 hr02 (by rw [e2]; exact ho1) (by rw [e2]; intro h; rw [h] at hk; exact hk rfl)
    intro g1 m1 hr1 hi1
    refine ⟨g1, srg_gu_refl _ _ _ _ _ _, hi1, ?_⟩
    beta_reduce
    split
    · intro g2 m2 hr2 hi2
      have hr02 := (srg m hash t0 Good).trans _ _ _ _ hr1 hr2
      obtain ⟨ha, hb, hc, hd⟩ := hR g2 hr02
      refine ⟨fun he => ?_, fun he => ?_⟩
      · obtain ⟨h1, h2⟩ := ins_ok hm hi2 hg hc he (by rw [ha]; exact hp)
        refine ⟨_, h1, h2, fun g3 hr3 => ⟨fun h => (by cases h), fun _ => ⟨?_, ?_⟩, fun h => (by cases h),
          fun v => (hr3.2.2.1 v).trans (hd v)⟩⟩
        · rw [hr3.2.2.2.2.1]; simp [Gh.ins]
        · refine ⟨_, pos_lt hm hash kv.1 j, ?_, ?_⟩
          · rw [hr3.1 _ (by simp [Gh.ins])]; simp [Gh.ins]
          · intro s'
            rw [hr3.2.1]
            by_cases h : s' = pos m hash kv.1 j
            · simp [Gh.ins, h]
            · simp [Gh.ins, h, hb]
      · refine ⟨g2, srg_gu_refl _ _ _ _ _ _, hi2, hnext g2 hr02 ?_⟩
        rw [← hi2.slots]; exact he
    · rename_i hne
      exact hnext g1 hr1 (by rw [← hi1.slots]; exact hne)

end

/-! ### Insertions -/

theorem length_range_filter_le {α : Type} [DecidableEq α] (l : List α) {n : Nat} (f : Nat → α)
    (hmem : ∀ s, s < n → f s ∈ l) (hinj : ∀ s s', s < n → s' < n → f s = f s' → s = s') : n ≤ l.length := by
  have h1 : ((List.range n).map f).Nodup := by
    refine List.Nodup.map_on ?_ List.nodup_range
    intro a ha b hb h
    exact hinj a b (List.mem_range.1 ha) (List.mem_range.1 hb) h
  have h2 : ((List.range n).map f) ⊆ l := by
    intro x hx
    obtain ⟨s, hs, rfl⟩ := List.mem_map.1 hx
    exact hmem s (List.mem_range.1 hs)
  have := (h1.subperm h2).length_le
  simpa using this

theorem wf_new (m : Nat) (hash : Nat → Nat) : WF m hash fun _ => none :=
  ⟨fun _ _ h => absurd rfl h, fun _ _ => rfl⟩

theorem mem_entries {m : Nat} {t : Nat → Val} {kv : KV} : kv ∈ entries m t ↔ Mem m t kv := by
  unfold entries Mem
  rw [List.mem_filterMap]
  simp only [List.mem_range]

theorem entries_nodup {m : Nat} {hash : Nat → Nat} {t : Nat → Val} (hw : WF m hash t) : (entries m t).Nodup := by
  unfold entries
  rw [List.Nodup, List.pairwise_filterMap]
  refine List.Pairwise.imp_of_mem ?_ (List.nodup_range (n := m))
  intro a b ha hb hab x hx y hy hxy
  subst hxy
  refine hab (Hash.wf_unique (P := par m hash) hw.1 (List.mem_range.1 ha) (List.mem_range.1 hb) ?_ ?_)
  · show t a ≠ none
    rw [hx]; simp
  · rw [hx, hy]

theorem mem2_slot {t t' b b' : Nat → Val} (h : mem2 t b = mem2 t' b') : t = t' :=
  funext fun i => congrFun h (.slot i)

/-- What the invariant says about a batch of insertions. -/
theorem batch_inv {m : Nat} (hm : 0 < m) {hash : Nat → Nat} {f : Nat} {kvs : List KV} {t t' : Nat → Val} {res : Nat → Option Bool}
    (hw : WF m hash t) (h : Batch m hash f kvs t t' res) :
    ∃ g : Gh Nat, SInv m hash t (fun kv => Mem m t kv ∨ kv ∈ kvs) g (mem2 t' fun _ => none) ∧
      ∀ i, (∀ kv, kvs[i]? = some kv →
        (res i = none → Hash.Passed (par m hash) g.tab (some kv) f) ∧
        (res i = some true → ∃ s, s < m ∧ g.tab s = some kv ∧ ∀ s', g.win s' = some i ↔ s' = s) ∧
        (res i = some false → Mem m g.tab kv ∧ ∀ s, g.win s ≠ some i)) ∧
        (kvs[i]? = none → ∀ s, g.win s ≠ some i) := by
  obtain ⟨g, hi, _, hp⟩ := safe_reach (srg (ι := Nat) m hash t (fun kv => Mem m t kv ∨ kv ∈ kvs))
    (fun i g (r : Option Bool) => (∀ kv, kvs[i]? = some kv →
        (r = none → Hash.Passed (par m hash) g.tab (some kv) f) ∧
        (r = some true → ∃ s, s < m ∧ g.tab s = some kv ∧ ∀ s', g.win s' = some i ↔ s' = s) ∧
        (r = some false → Mem m g.tab kv ∧ ∀ s, g.win s ≠ some i)) ∧
        (kvs[i]? = none → ∀ s, g.win s ≠ some i)) h
    (⟨t, fun _ => none, fun _ => none, fun _ => none⟩ : Gh Nat)
    ⟨fun _ => rfl, fun _ => rfl, hw, fun _ _ => rfl, fun s kv hs => Or.inl (by
      by_cases hsm : s < m
      · exact ⟨s, hsm, hs⟩
      · have := (hw.2 s (by omega)).symm.trans hs; cases this), (fun s i h => by cases h), fun s h h0 => absurd h0 h,
      fun s kv h h0 => by have := h0.symm.trans h; cases this⟩ (by
    intro i
    show Safe _ i _ (match kvs[i]? with | some kv => insO m hash f kv 0 | none => ret none) _
    cases hk : kvs[i]? with
    | none =>
      intro g' hr
      refine ⟨fun kv h => (by cases h), fun _ s h => ?_⟩
      have := (hr.2.1 s).1 h
      cases this
    | some kv =>
      refine (ins_safe hm kv (Or.inr (List.mem_of_getElem? hk)) none (Or.inl rfl) (fun _ => False) (fun _ => False) f 0 _
        (fun j hj => absurd hj (Nat.not_lt_zero _)) rfl (fun s => ⟨fun h => (by cases h), False.elim⟩)
        (fun s => ⟨fun h => (by cases h), False.elim⟩)).weaken
        fun r g hr => ⟨fun kv' hkv' => ?_, fun h => (by cases h)⟩
      cases hkv'
      refine ⟨fun h => by simpa using hr.1 h, fun h => ?_, fun h => ?_⟩
      · obtain ⟨_, s, h1, h2, h3⟩ := hr.2.1 h
        exact ⟨s, h1, h2, fun s' => by simpa using h3 s'⟩
      · obtain ⟨h1, _, h2⟩ := hr.2.2.1 h
        exact ⟨h1, fun s hs => (h2 s).1 hs⟩)
  exact ⟨g, hi, fun i => hp i _ rfl⟩

/-- C82, insertions in parallel: the table ends up with its old pairs and the inserted ones, each in one slot; for a pair that was present
no insertion returned true, for a new pair exactly one did; the number of slots filled is the number of insertions that returned true. -/
theorem insert_set {m : Nat} (hm : 0 < m) {hash : Nat → Nat} {kvs : List KV} {t t' : Nat → Val} {res : Nat → Bool}
    (hw : WF m hash t) (h : Inserted m hash kvs t t' res) :
    WF m hash t' ∧ (∀ kv, Mem m t' kv ↔ Mem m t kv ∨ kv ∈ kvs) ∧ (∀ s, t s ≠ none → t' s = t s) ∧
    (∀ i kv, kvs[i]? = some kv → res i = true → ¬ Mem m t kv) ∧
    (∀ kv ∈ kvs, ¬ Mem m t kv → ∃ i, (kvs[i]? = some kv ∧ res i = true) ∧ ∀ j, kvs[j]? = some kv ∧ res j = true → j = i) ∧
    (entries m t').length = (entries m t).length + ((List.range kvs.length).filter res).length := by
  obtain ⟨f, h⟩ := h
  obtain ⟨g, hi, hp⟩ := batch_inv hm hw h
  have hgt : g.tab = t' := funext fun s => (hi.slots s).symm
  have hlt : ∀ i kv, kvs[i]? = some kv → i < kvs.length := by
    intro i kv hk
    by_contra hc
    rw [List.getElem?_eq_none (by omega)] at hk; cases hk
  have htrue : ∀ i kv, kvs[i]? = some kv → res i = true → ∃ s, s < m ∧ t' s = some kv ∧ ∀ s', g.win s' = some i ↔ s' = s := by
    intro i kv hk hr
    have := ((hp i).1 kv hk).2.1 (by rw [if_pos (hlt i kv hk), hr])
    rwa [hgt] at this
  have hwin : ∀ s i, g.win s = some i → ∃ kv, kvs[i]? = some kv ∧ res i = true ∧ t' s = some kv := by
    intro s i hs
    cases hk : kvs[i]? with
    | none => exact absurd hs ((hp i).2 hk s)
    | some kv =>
      cases hr : res i with
      | false => exact absurd hs ((((hp i).1 kv hk).2.2 (by rw [if_pos (hlt i kv hk), hr])).2 s)
      | true =>
        obtain ⟨s', h1, h2, h3⟩ := htrue i kv hk hr
        have := (h3 s).1 hs
        subst this
        exact ⟨kv, rfl, rfl, h2⟩
  have hin : ∀ kv ∈ kvs, Mem m t' kv := by
    intro kv hkv
    obtain ⟨i, hil, hik⟩ := List.getElem_of_mem hkv
    have hk : kvs[i]? = some kv := by rw [List.getElem?_eq_getElem hil, hik]
    cases hr : res i with
    | false =>
      have := (((hp i).1 kv hk).2.2 (by rw [if_pos hil, hr])).1
      rwa [hgt] at this
    | true =>
      obtain ⟨s', h1, h2, _⟩ := htrue i kv hk hr
      exact ⟨s', h1, h2⟩
  have hwf : WF m hash t' := hgt ▸ hi.wf
  have hold : ∀ s, t s ≠ none → t' s = t s := fun s hs => hgt ▸ hi.old s hs
  refine ⟨hwf, fun kv => ⟨?_, ?_⟩, hold, fun i kv hk hr hmem => ?_, fun kv hkv hn => ?_, ?_⟩
  · rintro ⟨s, hs, he⟩
    exact hi.good s kv (by rw [hgt]; exact he)
  · rintro (⟨s, hs, he⟩ | hkv)
    · exact ⟨s, hs, by rw [hold s (by rw [he]; simp), he]⟩
    · exact hin kv hkv
  · obtain ⟨s, h1, h2, h3⟩ := htrue i kv hk hr
    obtain ⟨s', h1', h2'⟩ := hmem
    have h4 : t' s' = some kv := by rw [hold s' (by rw [h2']; simp), h2']
    have : s = s' := Hash.wf_unique (P := par m hash) hwf.1 h1 h1' (by show t' s ≠ none; rw [h2]; simp) (by rw [h2, h4])
    subst this
    have := (hi.win1 s i ((h3 s).2 rfl)).1
    rw [h2'] at this; cases this
  · obtain ⟨s, hs, he⟩ := hin kv hkv
    obtain ⟨i, hwi⟩ := hi.win2 s (by rw [hgt, he]; simp) (by
      cases ht : t s with
      | none => rfl
      | some kv' =>
        have := hold s (by rw [ht]; simp)
        rw [he, ht] at this
        cases this
        exact absurd ⟨s, hs, ht⟩ hn)
    obtain ⟨kv', h1, h2, h3⟩ := hwin s i hwi
    rw [he] at h3; cases h3
    refine ⟨i, ⟨h1, h2⟩, ?_⟩
    rintro j ⟨hj1, hj2⟩
    obtain ⟨s', hs', he', hw'⟩ := htrue j kv hj1 hj2
    have : s = s' := Hash.wf_unique (P := par m hash) hwf.1 hs hs' (by show t' s ≠ none; rw [he]; simp) (by rw [he, he'])
    subst this
    have := (hw' s).2 rfl
    rw [hwi] at this
    exact (Option.some.inj this).symm
  · -- new entries are those of the winners
    have hlen : ∀ u : Nat → Val, (entries m u).length = ((List.range m).filter fun s => decide (u s ≠ none)).length := by
      intro u
      unfold entries
      induction (List.range m) with
      | nil => rfl
      | cons a l ih =>
        rw [List.filterMap_cons, List.filter_cons]
        cases hu : u a with
        | none => simpa using ih
        | some x => simp [ih]
    have hsplit : ((List.range m).filter fun s => decide (t' s ≠ none)).length =
        ((List.range m).filter fun s => decide (t s ≠ none)).length +
        ((List.range m).filter fun s => decide (t s = none ∧ t' s ≠ none)).length := by
      induction (List.range m) with
      | nil => rfl
      | cons a l ih =>
        rw [List.filter_cons, List.filter_cons, List.filter_cons]
        by_cases h1 : t a = none
        · by_cases h2 : t' a = none
          · rw [if_neg (by simp [h2]), if_neg (by simp [h1]), if_neg (by simp [h2])]; exact ih
          · rw [if_pos (by simp [h2]), if_neg (by simp [h1]), if_pos (by simp [h1, h2]), List.length_cons, List.length_cons]; omega
        · have h2 : t' a ≠ none := by rw [hold a h1]; exact h1
          rw [if_pos (by simp [h2]), if_pos (by simp [h1]), if_neg (by simp [h1]), List.length_cons, List.length_cons]; omega
    rw [hlen, hlen, hsplit]
    congr 1
    have hperm : (((List.range m).filter fun s => decide (t s = none ∧ t' s ≠ none)).filterMap g.win).Perm
        ((List.range kvs.length).filter res) := by
      rw [List.perm_ext_iff_of_nodup]
      · intro i
        rw [List.mem_filterMap, List.mem_filter, List.mem_range]
        constructor
        · rintro ⟨s, hs, hsi⟩
          obtain ⟨kv, h1, h2, _⟩ := hwin s i hsi
          exact ⟨hlt i kv h1, h2⟩
        · rintro ⟨hil, hr⟩
          obtain ⟨s, h1, h2, h3⟩ := htrue i _ (List.getElem?_eq_getElem hil) hr
          refine ⟨s, ?_, (h3 s).2 rfl⟩
          rw [List.mem_filter, List.mem_range]
          refine ⟨h1, ?_⟩
          rw [decide_eq_true_eq]
          exact ⟨(hi.win1 s i ((h3 s).2 rfl)).1, by rw [h2]; simp⟩
      · rw [List.Nodup, List.pairwise_filterMap]
        refine List.Pairwise.imp_of_mem ?_ (List.Nodup.filter _ (List.nodup_range (n := m)))
        intro a b ha hb hab x hx y hy hxy
        subst hxy
        obtain ⟨kv, h1, h2, _⟩ := hwin a x hx
        obtain ⟨s, _, _, h3⟩ := htrue x kv h1 h2
        exact hab (((h3 a).1 hx).trans ((h3 b).1 hy).symm)
      · exact List.Nodup.filter _ List.nodup_range
    rw [← hperm.length_eq]
    have hall : ∀ l : List Nat, (∀ s ∈ l, (g.win s).isSome) → l.length = (l.filterMap g.win).length := by
      intro l
      induction l with
      | nil => intro _; rfl
      | cons a l ih =>
        intro hl
        obtain ⟨x, hx⟩ := Option.isSome_iff_exists.1 (hl a List.mem_cons_self)
        rw [List.filterMap_cons, hx]
        simp [ih fun s hs => hl s (List.mem_cons_of_mem _ hs)]
    refine hall _ fun s hs => ?_
    rw [List.mem_filter, decide_eq_true_eq] at hs
    obtain ⟨i, hi'⟩ := hi.win2 s (by rw [hgt]; exact hs.2.2) hs.2.1
    rw [hi']; rfl

/-- C82: insertions return within `m` iterations if the table has room for the pairs. -/
theorem insert_returns {m : Nat} (hm : 0 < m) {hash : Nat → Nat} {f : Nat} {kvs : List KV} {t t' : Nat → Val} {res : Nat → Option Bool}
    (hw : WF m hash t) (hroom : (entries m t).length + kvs.length ≤ m) (hf : m ≤ f) (h : Batch m hash f kvs t t' res) :
    ∀ i, i < kvs.length → res i ≠ none := by
  intro i hil hn
  obtain ⟨g, hi, hp⟩ := batch_inv hm hw h
  have hk : kvs[i]? = some kvs[i] := List.getElem?_eq_getElem hil
  have hpass := ((hp i).1 _ hk).1 hn
  have hfull := Hash.passed_full (P := par m hash) hpass hf
  -- m slots hold pairs other than this one
  have hle := length_range_filter_le (n := m) ((entries m t ++ kvs).filter fun x => x ≠ kvs[i]) (fun s => (g.tab s).getD (0, 0)) (by
    intro s hs
    obtain ⟨h1, h2⟩ := hfull s hs
    rcases hx : g.tab s with _ | kv
    · exact absurd hx h1
    · rw [List.mem_filter, List.mem_append, mem_entries]
      refine ⟨by simpa using hi.good s kv hx, ?_⟩
      rw [decide_eq_true_eq]
      intro he
      simp only [Option.getD_some] at he
      exact h2 (by rw [hx, he])) (by
    intro s s' hs hs' he
    obtain ⟨h1, _⟩ := hfull s hs
    obtain ⟨h1', _⟩ := hfull s' hs'
    refine Hash.wf_unique (P := par m hash) hi.wf.1 hs hs' h1 ?_
    rcases hx : g.tab s with _ | kv
    · exact absurd hx h1
    · rcases hx' : g.tab s' with _ | kv'
      · exact absurd hx' h1'
      · simp only [hx, hx', Option.getD_some] at he
        rw [he])
  have hlt : ((entries m t ++ kvs).filter fun x => x ≠ kvs[i]).length < (entries m t ++ kvs).length := by
    rw [List.length_filter_lt_length_iff_exists]
    exact ⟨kvs[i], List.mem_append_right _ (List.getElem_mem hil), by simp⟩
  rw [List.length_append] at hlt
  omega

/-- The program ends, run alone, and leaves the bits alone. -/
def Quiet {α : Type} (p : Prog Loc Val α) : Prop :=
  ∀ mem, ∃ r mem', Em.exec p mem = some (r, mem') ∧ ∀ v, mem' (.bit v) = mem (.bit v)

theorem insO_quiet (m : Nat) (hash : Nat → Nat) (f : Nat) (kv : KV) : ∀ j, Quiet (insO m hash f kv j) := by
  induction f with
  | zero => exact fun j mem => ⟨_, _, rfl, fun _ => rfl⟩
  | succ f ih =>
    intro j mem
    have hnext : ∃ r mem', Em.exec (read (Loc.slot (pos m hash kv.1 j)) fun x =>
        if x.map Prod.fst = some kv.1 then read (Loc.slot (pos m hash kv.1 j)) fun y =>
          if y.map Prod.snd = some kv.2 then ret (some false) else insO m hash f kv (j + 1)
        else insO m hash f kv (j + 1)) mem = some (r, mem') ∧ ∀ v, mem' (.bit v) = mem (.bit v) := by
      show ∃ r mem', Em.exec (if (mem _).map Prod.fst = some kv.1 then read (Loc.slot (pos m hash kv.1 j)) fun y =>
          if y.map Prod.snd = some kv.2 then ret (some false) else insO m hash f kv (j + 1)
        else insO m hash f kv (j + 1)) mem = some (r, mem') ∧ ∀ v, mem' (.bit v) = mem (.bit v)
      split
      · show ∃ r mem', Em.exec (if (mem _).map Prod.snd = some kv.2 then ret (some false) else insO m hash f kv (j + 1)) mem =
          some (r, mem') ∧ ∀ v, mem' (.bit v) = mem (.bit v)
        split
        · exact ⟨_, _, rfl, fun _ => rfl⟩
        · exact ih _ _
      · exact ih _ _
    show ∃ r mem', Em.exec (if mem (.slot (pos m hash kv.1 j)) = none then _ else _) mem = some (r, mem') ∧ _
    split
    · rename_i he
      show ∃ r mem', (if mem (.slot (pos m hash kv.1 j)) = none then _ else _) = some (r, mem') ∧ _
      rw [if_pos he]
      exact ⟨_, _, rfl, fun v => put_ne _ _ (by simp)⟩
    · exact hnext

theorem runSeq_quiet {α : Type} (th : Nat → Prog Loc Val α) (dflt : Nat → α) (l : List Nat)
    (h : ∀ i, Quiet (th i)) (m : Loc → Val) : ∃ m' o, runSeq th dflt l m = some (m', o) ∧ ∀ v, m' (.bit v) = m (.bit v) := by
  induction l generalizing m with
  | nil => exact ⟨_, _, rfl, fun _ => rfl⟩
  | cons i l ih =>
    obtain ⟨a, m1, h1, h1'⟩ := h i m
    obtain ⟨m2, o, h2, h2'⟩ := ih m1
    exact ⟨m2, fun j => if j = i then a else o j, by rw [runSeq, h1]; simp only [h2], fun v => (h2' v).trans (h1' v)⟩

/-- A batch of insertions has a run, ... -/
theorem batch_exists (m : Nat) (hash : Nat → Nat) (f : Nat) (kvs : List KV) (t : Nat → Val) :
    ∃ t' res, Batch m hash f kvs t t' res ∧ ∀ i, kvs.length ≤ i → res i = none := by
  obtain ⟨m', o, h, hb⟩ := runSeq_quiet
    (fun i => match kvs[i]? with | some kv => insO m hash f kv 0 | none => ret none) (fun _ => none)
    (List.range kvs.length) (fun i => by
      show Quiet (match kvs[i]? with | some kv => insO m hash f kv 0 | none => ret none)
      cases kvs[i]? with
      | none => exact fun mem => ⟨_, _, rfl, fun _ => rfl⟩
      | some kv => exact insO_quiet m hash f kv 0) (mem2 t fun _ => none)
  have hpar := runSeq_par _ _ _ List.nodup_range (fun j hj => by
    rw [List.mem_range] at hj
    rw [List.getElem?_eq_none (by omega)]) h
  have hm' : m' = mem2 (fun i => m' (.slot i)) fun _ => none := by
    funext x
    cases x with
    | slot i => rfl
    | bit v => exact hb v
  rw [hm'] at hpar
  refine ⟨_, o, hpar, fun i hi => ?_⟩
  -- threads without a pair return at once
  have key : ∀ {c c' : Conf Nat Loc Val (Option Bool)}, Steps Step c c' → c.th i = ret none → c'.th i = ret none := by
    intro c c' hs hc
    induction hs with
    | refl => exact hc
    | tail _ hst ih =>
      obtain ⟨k, m', p', hp, rfl⟩ := hst
      show (if i = k then p' else _) = ret none
      split
      · rename_i hk
        subst hk
        rw [ih] at hp; cases hp
      · exact ih
  have := key hpar (by show (match kvs[i]? with | some kv => insO m hash f kv 0 | none => ret none) = ret none
                       rw [List.getElem?_eq_none hi])
  exact Prog.ret.inj this

/-- ... in which all insertions return if there is room. -/
theorem insert_exists {m : Nat} (hm : 0 < m) {hash : Nat → Nat} {kvs : List KV} {t : Nat → Val} (hw : WF m hash t)
    (hroom : (entries m t).length + kvs.length ≤ m) : ∃ t' res, Inserted m hash kvs t t' res := by
  obtain ⟨t', res, h, h0⟩ := batch_exists m hash m kvs t
  refine ⟨t', fun i => (res i).getD false, m, ?_⟩
  have : (fun i => if i < kvs.length then some ((res i).getD false) else none) = res := by
    funext i
    split
    · rename_i hi
      have := insert_returns hm hw hroom (Nat.le_refl m) h i hi
      cases hr : res i with
      | none => exact absurd hr this
      | some b => rfl
    · exact (h0 i (by omega)).symm
  rw [this]; exact h

/-- C82, limitation: in a full table an insertion of a new pair never returns, whatever the number of iterations. -/
theorem insert_full {m : Nat} (hm : 0 < m) {hash : Nat → Nat} {kvs : List KV} {t : Nat → Val} (hw : WF m hash t)
    (hfull : ∀ s, s < m → t s ≠ none) {i : Nat} {kv : KV} (hk : kvs[i]? = some kv) (hn : ¬ Mem m t kv) (f : Nat) {t' : Nat → Val}
    {res : Nat → Option Bool} (h : Batch m hash f kvs t t' res) : res i = none := by
  obtain ⟨g, hi, hp⟩ := batch_inv hm hw h
  cases hr : res i with
  | none => rfl
  | some b =>
    exfalso
    cases b with
    | true =>
      obtain ⟨s, h1, _, h3⟩ := ((hp i).1 kv hk).2.1 hr
      exact hfull s h1 (hi.win1 s i ((h3 s).2 rfl)).1
    | false =>
      obtain ⟨s, h1, h2⟩ := (((hp i).1 kv hk).2.2 hr).1
      exact hn ⟨s, h1, by rw [← hi.old s (hfull s h1)]; exact h2⟩

/-- A table with fewer pairs than slots has an empty slot. -/
theorem exists_free {m : Nat} {hash : Nat → Nat} {t : Nat → Val} (hw : WF m hash t) (h : (entries m t).length < m) :
    ∃ s, s < m ∧ t s = none := by
  by_contra hc
  have hc : ∀ s, s < m → t s ≠ none := fun s hs h => hc ⟨s, hs, h⟩
  have := length_range_filter_le (n := m) (entries m t) (fun s => (t s).getD (0, 0)) (fun s hs => by
    rcases hx : t s with _ | kv
    · exact absurd hx (hc s hs)
    · exact mem_entries.2 ⟨s, hs, by simp [hx]⟩) (fun s s' hs hs' he => by
    refine Hash.wf_unique (P := par m hash) hw.1 hs hs' (hc s hs) ?_
    rcases hx : t s with _ | kv
    · exact absurd hx (hc s hs)
    · rcases hx' : t s' with _ | kv'
      · exact absurd hx' (hc s' hs')
      · simp only [hx, hx', Option.getD_some] at he
        rw [he])
  omega

/-! ### Lookups -/

theorem contains2_eq {m : Nat} {hash : Nat → Nat} {t : Nat → Val} (kv : KV) (f : Nat) :
    ∀ j, contains2 m hash t kv f j = Hash.contains (par m hash) t (some kv) f j := by
  induction f with
  | zero => exact fun _ => rfl
  | succ f ih =>
    intro j
    rw [contains2, Hash.contains, ih (j + 1)]
    have : ((t (pos m hash kv.1 j)).map Prod.fst = some kv.1 ∧ (t (pos m hash kv.1 j)).map Prod.snd = some kv.2) ↔
        t (Hash.slot (par m hash) (some kv) j) = some kv := by
      rw [slot_par]
      rcases t (pos m hash kv.1 j) with _ | ⟨a, b⟩
      · simp
      · simp [Prod.ext_iff]
    simp only [this]
    rfl

/-- C82: `contains(k, v)`. -/
theorem contains2_spec {m : Nat} {hash : Nat → Nat} {t : Nat → Val} (hw : WF m hash t) (hfree : ∃ s, s < m ∧ t s = none) (kv : KV) :
    ∃ b, contains2 m hash t kv m 0 = some b ∧ (b = true ↔ Mem m t kv) := by
  rw [contains2_eq]
  exact Hash.contains_spec (P := par m hash) hw.1 (some kv) (by simp [par]) hfree

/-- The first empty slot of the probe sequence of a key. -/
theorem first_empty {m : Nat} {hash : Nat → Nat} {t : Nat → Val} (k : Nat) (hfree : ∃ s, s < m ∧ t s = none) :
    ∃ j0, j0 < m ∧ t (pos m hash k j0) = none ∧ ∀ j, j < j0 → t (pos m hash k j) ≠ none := by
  classical
  obtain ⟨s, hs, he⟩ := hfree
  obtain ⟨j, hj, hjs⟩ := Hash.slot_surj (par m hash) (some (k, 0)) hs
  have hex : ∃ j, t (pos m hash k j) = none := ⟨j, by rw [slot_par] at hjs; rw [hjs]; exact he⟩
  refine ⟨Nat.find hex, ?_, Nat.find_spec hex, fun j hj => Nat.find_min hex hj⟩
  refine lt_of_le_of_lt (Nat.find_min' hex ?_) hj
  rw [slot_par] at hjs; rw [hjs]; exact he

/-- The values found from index `j` to the empty slot. -/
def found (m : Nat) (hash : Nat → Nat) (t : Nat → Val) (k j n : Nat) : List Nat :=
  (List.range' j n).filterMap fun j' => (t (pos m hash k j')).bind fun kv => if kv.1 = k then some kv.2 else none

theorem iterAll_eq {m : Nat} {hash : Nat → Nat} {t : Nat → Val} {k j0 : Nat} (h0 : t (pos m hash k j0) = none)
    (hb : ∀ j, j < j0 → t (pos m hash k j) ≠ none) (f : Nat) : ∀ j, j ≤ j0 → j0 - j < f →
    iterAll m hash t k f j = some (found m hash t k j (j0 - j)) ∧
    numApp m hash t k f j = some (found m hash t k j (j0 - j)).length ∧
    contains1 m hash t k f j = some (decide (found m hash t k j (j0 - j) ≠ [])) := by
  induction f with
  | zero => intro j _ h; omega
  | succ f ih =>
    intro j hj hf
    rcases Nat.lt_or_eq_of_le hj with hlt | rfl
    · obtain ⟨i1, i2, i3⟩ := ih (j + 1) hlt (by omega)
      have e : j0 - j = (j0 - (j + 1)) + 1 := by omega
      have hfd : found m hash t k j (j0 - j) = ((t (pos m hash k j)).bind fun kv => if kv.1 = k then some kv.2 else none).toList ++
          found m hash t k (j + 1) (j0 - (j + 1)) := by
        rw [e, found, List.range'_succ, List.filterMap_cons]
        cases (t (pos m hash k j)).bind fun kv => if kv.1 = k then some kv.2 else none <;> rfl
      rw [hfd, iterAll, numApp, contains1, i1, i2, i3]
      rcases hx : t (pos m hash k j) with _ | ⟨a, b⟩
      · exact absurd hx (hb j hlt)
      · by_cases hak : a = k
        · simp [hak]
        · simp [hak]
    · rw [iterAll, numApp, contains1, h0]
      simp [found]

/-- C82: the iterator finds every value of the key once; `num_appearances` is their number, `contains(k)` says whether there is one. -/
theorem iter_spec {m : Nat} {hash : Nat → Nat} {t : Nat → Val} (hw : WF m hash t) (hfree : ∃ s, s < m ∧ t s = none) (k : Nat) :
    ∃ l, iterAll m hash t k m 0 = some l ∧ l.Nodup ∧ (∀ v, v ∈ l ↔ Mem m t (k, v)) ∧ numApp m hash t k m 0 = some l.length ∧
      ∃ b, contains1 m hash t k m 0 = some b ∧ (b = true ↔ ∃ v, Mem m t (k, v)) := by
  obtain ⟨j0, hj0, h0, hb⟩ := first_empty (hash := hash) k hfree
  have hm : 0 < m := by omega
  obtain ⟨h1, h2, h3⟩ := iterAll_eq h0 hb m 0 (Nat.zero_le _) (by omega)
  rw [Nat.sub_zero] at h1 h2 h3
  have hval : ∀ j v, ((t (pos m hash k j)).bind fun kv => if kv.1 = k then some kv.2 else none) = some v ↔
      t (pos m hash k j) = some (k, v) := by
    intro j v
    rcases t (pos m hash k j) with _ | ⟨a, b⟩
    · simp
    · by_cases h : a = k
      · simp [h]
      · simp [h]
  have hmem : ∀ v, v ∈ found m hash t k 0 j0 ↔ Mem m t (k, v) := by
    intro v
    unfold found
    rw [List.mem_filterMap]
    constructor
    · rintro ⟨j, _, hj⟩
      exact ⟨_, pos_lt hm hash k j, (hval j v).1 hj⟩
    · rintro ⟨s, hs, he⟩
      obtain ⟨j, hjm, hjs, hp⟩ := hw.1 s hs (by rw [he]; simp [par])
      rw [he] at hjs hp
      rw [slot_par] at hjs
      refine ⟨j, ?_, (hval j v).2 (by rw [hjs]; exact he)⟩
      rw [List.mem_range'_1]
      refine ⟨Nat.zero_le _, ?_⟩
      by_contra hc
      rcases Nat.lt_or_eq_of_le (Nat.le_of_not_lt hc) with hlt | heq
      · have := (hp j0 (by omega)).1
        exact this (by rw [slot_par]; exact h0)
      · rw [Nat.zero_add] at heq
        subst heq
        have h4 : t (pos m hash k j0) = some (k, v) := by rw [show pos m hash k j0 = s from hjs]; exact he
        rw [h0] at h4; cases h4
  refine ⟨_, h1, ?_, hmem, h2, _, h3, ?_⟩
  · unfold found
    rw [List.Nodup, List.pairwise_filterMap]
    refine List.Pairwise.imp_of_mem ?_ (List.nodup_range' (s := 0) (n := j0))
    intro a b ha hb' hab x hx y hy hxy
    subst hxy
    rw [hval] at hx hy
    have := Hash.wf_unique (P := par m hash) hw.1 (pos_lt hm hash k a) (pos_lt hm hash k b) (by rw [hx]; simp [par]) (by rw [hx, hy])
    rw [List.mem_range'_1] at ha hb'
    have hmod : Nat.ModEq m (hash k + a) (hash k + b) := this
    have := Nat.ModEq.add_left_cancel' _ hmod
    exact hab (Nat.ModEq.eq_of_lt_of_lt this (by omega) (by omega))
  · rw [decide_eq_true_eq]
    constructor
    · intro h
      obtain ⟨v, hv⟩ := List.exists_mem_of_ne_nil _ h
      exact ⟨v, (hmem v).1 hv⟩
    · rintro ⟨v, hv⟩ he
      have := (hmem v).2 hv
      rw [he] at this; cases this

/-! ### Resizing -/

theorem le_two_pow_log2Up (x : Nat) : x ≤ 2 ^ log2Up x := by
  unfold log2Up
  split
  · simpa using ‹x ≤ 1›
  · have := Nat.lt_log2_self (n := x - 1)
    omega

/-- The early return of `maybe_resize` (167-169) is not reached. -/
theorem grow_ne {m ne inc : Nat} (h : m < 4 * (ne + inc)) : m < grow m ne inc := by
  unfold grow
  rw [if_pos h]
  have := le_two_pow_log2Up (10 * (ne + inc))
  omega

theorem grow_room (m ne inc : Nat) : 4 * (ne + inc) ≤ grow m ne inc := by
  unfold grow
  split
  · have := le_two_pow_log2Up (10 * (ne + inc))
    omega
  · omega

theorem grow_le (m ne inc : Nat) : m ≤ grow m ne inc := by
  by_cases h : m < 4 * (ne + inc)
  · exact Nat.le_of_lt (grow_ne h)
  · unfold grow; rw [if_neg h]

/-- C82: `maybe_resize(inc)` keeps the pairs, and then three quarters of the table are free even after `inc` insertions. -/
theorem resize_spec {hash : Nat → Nat} {inc : Nat} {T T' : Tab} (hm : 0 < T.m) (hw : WF T.m hash T.t) (h : Resize hash inc T T') :
    WF T'.m hash T'.t ∧ (∀ kv, Mem T'.m T'.t kv ↔ Mem T.m T.t kv) ∧ T'.ne = T.ne ∧ 4 * (T'.ne + inc) ≤ T'.m ∧ T.m ≤ T'.m := by
  obtain ⟨h1, h2⟩ := h
  have hge := grow_le T.m T.ne inc
  have hroom := grow_room T.m T.ne inc
  rw [← h1] at hge hroom
  split at h2
  · obtain ⟨res, h2⟩ := h2
    obtain ⟨a, b, _⟩ := insert_set (by omega) (wf_new _ _) h2
    have hmem : ∀ kv, Mem T'.m T'.t kv ↔ Mem T.m T.t kv := by
      intro kv
      rw [b kv, mem_entries]
      constructor
      · rintro (⟨s, _, h⟩ | h)
        · cases h
        · exact h
      · exact Or.inr
    have hne : T'.ne = T.ne := by
      refine List.Perm.length_eq ?_
      rw [List.perm_ext_iff_of_nodup (entries_nodup a) (entries_nodup hw)]
      intro kv
      rw [mem_entries, mem_entries, hmem]
    exact ⟨a, hmem, hne, by rw [hne]; exact hroom, hge⟩
  · rename_i hlt
    have hm' : T'.m = T.m := by rw [h1]; unfold grow; rw [if_neg hlt]
    have hT : T' = T := by
      cases T; cases T'
      simp only at hm' h2
      subst hm' h2
      rfl
    subst hT
    exact ⟨hw, fun _ => Iff.rfl, rfl, hroom, Nat.le_refl _⟩

theorem resize_exists {hash : Nat → Nat} {inc : Nat} {T : Tab} (hm : 0 < T.m) (hw : WF T.m hash T.t) : ∃ T', Resize hash inc T T' := by
  by_cases h : T.m < 4 * (T.ne + inc)
  · have hge := grow_ne h
    have hroom := grow_room T.m T.ne inc
    obtain ⟨t', res, hi⟩ := insert_exists (m := grow T.m T.ne inc) (by omega) (kvs := entries T.m T.t) (wf_new _ hash) (by
      have : entries (grow T.m T.ne inc) (fun _ => none) = [] := by simp [entries]
      rw [this]
      have : (entries T.m T.t).length = T.ne := rfl
      simp only [List.length_nil]
      omega)
    exact ⟨⟨_, t'⟩, rfl, by rw [if_pos h]; exact ⟨res, hi⟩⟩
  · exact ⟨⟨_, T.t⟩, rfl, by rw [if_neg h]⟩

/-- C82: after `maybe_resize(inc)` any `inc` insertions return. -/
theorem resize_room {hash : Nat → Nat} {inc : Nat} {T T' : Tab} (hm : 0 < T.m) (hw : WF T.m hash T.t) (h : Resize hash inc T T')
    {kvs : List KV} (hk : kvs.length ≤ inc) {f : Nat} (hf : T'.m ≤ f) {t' : Nat → Val} {res : Nat → Option Bool}
    (hb : Batch T'.m hash f kvs T'.t t' res) : ∀ i, i < kvs.length → res i ≠ none := by
  obtain ⟨a, _, _, d, e⟩ := resize_spec hm hw h
  refine insert_returns (by omega) a ?_ hf hb
  show T'.ne + kvs.length ≤ T'.m
  omega

/-! ### Examples -/

/-- The empty table of four slots. -/
def ex0 : Tab := Tab.new 4

/-- Insertions of three pairs, two of them equal and the other with the same key, into four slots. -/
example : ∃ t' res, Inserted ex0.m (fun k => k) [(1, 5), (1, 6), (1, 5)] ex0.t t' res ∧ Mem ex0.m t' (1, 6) ∧ ¬ Mem ex0.m t' (2, 5) ∧
    ((List.range 3).filter res).length = (entries ex0.m t').length ∧ (res 0 = true ↔ ¬ res 2 = true) := by
  have hm : 0 < ex0.m := by decide
  obtain ⟨t', res, h⟩ := insert_exists (hash := fun k => k) (kvs := [(1, 5), (1, 6), (1, 5)]) hm (wf_new _ _) (by decide)
  obtain ⟨_, hmem, _, _, huniq, hlen⟩ := insert_set hm (wf_new _ _) h
  have hno : ∀ kv, ¬ Mem ex0.m ex0.t kv := by rintro kv ⟨s, _, hs⟩; cases hs
  refine ⟨t', res, h, (hmem _).2 (Or.inr (by decide)), fun h1 => ?_, ?_, ?_⟩
  · rcases (hmem _).1 h1 with h1 | h1
    · exact hno _ h1
    · exact absurd h1 (by decide)
  · rw [hlen]
    show _ = 0 + _
    rw [Nat.zero_add]
    rfl
  · obtain ⟨i, ⟨h1, h2⟩, h3⟩ := huniq (1, 5) (by decide) (hno _)
    constructor
    · intro h0 h2'
      have := (h3 0 ⟨rfl, h0⟩).trans (h3 2 ⟨rfl, h2'⟩).symm
      omega
    · intro hn
      have hi : i < 3 := by
        by_contra hc
        rw [List.getElem?_eq_none (by simpa using hc)] at h1; cases h1
      rcases (by omega : i = 0 ∨ i = 1 ∨ i = 2) with rfl | rfl | rfl
      · exact h2
      · exact absurd h1 (by decide)
      · exact absurd h2 hn

/-- A full table of two slots: a third pair is never inserted. -/
example : ∃ t' res, Batch 2 (fun k => k) 1000 [(3, 1)] (fun s => if s = 0 then some (0, 1) else if s = 1 then some (1, 1) else none) t' res ∧
    res 0 = none := by
  obtain ⟨t', res, h, _⟩ := batch_exists 2 (fun k => k) 1000 [(3, 1)]
    (fun s => if s = 0 then some (0, 1) else if s = 1 then some (1, 1) else none)
  refine ⟨t', res, h, insert_full (by decide) ⟨?_, ?_⟩ ?_ (kv := (3, 1)) rfl ?_ 1000 h⟩
  · intro s hs he
    rcases (show s = 0 ∨ s = 1 by have : s < 2 := hs; omega) with rfl | rfl
    · exact ⟨0, by decide, by decide, fun j hj => absurd hj (Nat.not_lt_zero _)⟩
    · exact ⟨0, by decide, by decide, fun j hj => absurd hj (Nat.not_lt_zero _)⟩
  · intro s hs
    rw [if_neg (by omega), if_neg (by omega)]
  · intro s hs
    rcases (show s = 0 ∨ s = 1 by omega) with rfl | rfl <;> simp
  · rintro ⟨s, hs, he⟩
    rcases (show s = 0 ∨ s = 1 by omega) with rfl | rfl <;> simp at he

/-- Lookups and resizing in a table of two pairs with the same key. -/
example : ∃ T', Resize (fun k => k) 7 ⟨4, fun s => if s = 1 then some (1, 5) else if s = 2 then some (1, 6) else none⟩ T' ∧ T'.m = 128 ∧
    T'.ne = 2 ∧ Mem T'.m T'.t (1, 6) ∧ ∃ l, iterAll T'.m (fun k => k) T'.t 1 T'.m 0 = some l ∧ 5 ∈ l ∧ 6 ∈ l ∧ 7 ∉ l := by
  have hw : WF 4 (fun k => k) (fun s => if s = 1 then some (1, 5) else if s = 2 then some (1, 6) else none) := by
    refine ⟨fun s hs he => ?_, fun s hs => ?_⟩
    · have hs : s < 4 := hs
      rcases (by omega : s = 0 ∨ s = 1 ∨ s = 2 ∨ s = 3) with rfl | rfl | rfl | rfl
      · simp [par] at he
      · exact ⟨0, by decide, by decide, fun j hj => absurd hj (Nat.not_lt_zero _)⟩
      · refine ⟨1, by decide, by decide, fun j hj => ?_⟩
        have : j = 0 := by omega
        subst this
        decide
      · simp [par] at he
    · beta_reduce
      rw [if_neg (by omega), if_neg (by omega)]
  obtain ⟨T', hT⟩ := resize_exists (inc := 7) (T := ⟨4, _⟩) (by decide) hw
  obtain ⟨a, b, c, d, _⟩ := resize_spec (T := ⟨4, _⟩) (by decide) hw hT
  have hne : T'.ne = 2 := c.trans (by decide)
  have hm : T'.m = 128 := hT.1.trans (by decide +kernel)
  refine ⟨T', hT, hm, hne, (b _).2 ⟨2, by decide, by decide⟩, ?_⟩
  have hfree : ∃ s, s < T'.m ∧ T'.t s = none := exists_free a (by
    have e : (entries T'.m T'.t).length = 2 := hne
    omega)
  obtain ⟨l, h1, _, h2, _⟩ := iter_spec a hfree 1
  refine ⟨l, h1, (h2 5).2 ((b _).2 ⟨1, by decide, by decide⟩), (h2 6).2 ((b _).2 ⟨2, by decide, by decide⟩), fun h7 => ?_⟩
  obtain ⟨s, hs, he⟩ := (b _).1 ((h2 7).1 h7)
  have hs : s < 4 := hs
  have he : (if s = 1 then some (1, 5) else if s = 2 then some (1, 6) else none) = some (1, 7) := he
  rcases (by omega : s = 0 ∨ s = 1 ∨ s = 2 ∨ s = 3) with rfl | rfl | rfl | rfl <;> simp at he

end Gbbs.RT
