/-
C161: `BiconnectivityStats`, `benchmarks/Biconnectivity/TarjanVishkin/Biconnectivity.cc:46-136`.
-/
import Verif.Bicc.Exists
import Mathlib.Data.Finset.Card

namespace Gbbs.Bicc

open Em Relation
open BFSSF (Adj none32)

variable {W : Type}

/-! ### Model -/

/-- The pairs of the file, `Biconnectivity.h:482-484`: the parents without the marks, and the labels.  Writing and reading the file is not
modelled. -/
def Run.file {G : Gr W} (R : Run G) (i : Nat) : Nat × Nat := (R.parents i &&& valMask, R.cc i)

/-- `bicc_label`, `Biconnectivity.cc:63-77`; `none` if the `assert` in the last case fails. -/
def biccLabel (labels : Nat → Nat × Nat) (u v : Nat) : Option Nat :=
  if v = (labels u).1 then some (labels u).2
  else if u = (labels v).1 then some (labels v).2
  else if (labels u).2 = (labels v).2 then some (labels u).2 else none

/-- `map_bc_label` on one arc, `:83-88`: sets the bit of the label of the arc.  All calls write 1, so the test and the write are one step. -/
def setBit (labels : Nat → Nat × Nat) (bits : Option (Nat → Nat)) (e : Nat × Nat) : Option (Nat → Nat) :=
  bits.bind fun b => (biccLabel labels e.1 e.2).map fun l => if b l = 0 then upd b l 1 else b

/-- The number printed, `:60, 99-101, 132-133`: the arcs are mapped in the order `o`, then the bits are summed up as `uintE`. -/
def numBiccs (n : Nat) (labels : Nat → Nat × Nat) (o : List (Nat × Nat)) : Option Nat :=
  (o.foldl (setBit labels) (some fun _ => 0)).map fun b => ((List.range n).map b).sum % 2 ^ 32

/-! ### Verification -/

theorem setBits {labels : Nat → Nat × Nat} {lab : Nat × Nat → Nat} :
    ∀ (o : List (Nat × Nat)), (∀ e ∈ o, biccLabel labels e.1 e.2 = some (lab e)) → ∀ S : Finset Nat,
      o.foldl (setBit labels) (some fun l => if l ∈ S then 1 else 0) =
        some fun l => if l ∈ S ∪ (o.map lab).toFinset then 1 else 0 := by
  intro o
  induction o with
  | nil => intro _ S; simp
  | cons e o ih =>
    intro h S
    rw [List.foldl_cons]
    have : setBit labels (some fun l => if l ∈ S then 1 else 0) e = some fun l => if l ∈ insert (lab e) S then 1 else 0 := by
      simp only [setBit, Option.bind_some, h e (by simp), Option.map_some, Option.some.injEq]
      funext l
      by_cases h1 : lab e ∈ S
      · rw [if_neg (by rw [if_pos h1]; decide), Finset.insert_eq_of_mem h1]
      · rw [if_pos (by rw [if_neg h1])]
        by_cases h2 : l = lab e
        · subst h2; rw [upd_same, if_pos (Finset.mem_insert_self _ _)]
        · rw [upd_of_ne _ _ h2]; simp [h2]
    rw [this, ih (fun e' he' => h e' (List.mem_cons_of_mem _ he'))]
    have : insert (lab e) S ∪ (o.map lab).toFinset = S ∪ ((e :: o).map lab).toFinset := by
      ext l; simp
    rw [this]

theorem sum_bits (n : Nat) (S : Finset Nat) (h : ∀ l ∈ S, l < n) : ((List.range n).map fun l => if l ∈ S then 1 else 0).sum = S.card := by
  have h1 : ∀ k, ((List.range k).map fun l => if l ∈ S then 1 else 0).sum = ((Finset.range k).filter (· ∈ S)).card := by
    intro k
    induction k with
    | zero => simp
    | succ k ih =>
      rw [List.range_succ, List.map_append, List.sum_append, ih, Finset.range_add_one, Finset.filter_insert]
      by_cases hk : k ∈ S
      · rw [if_pos hk, Finset.card_insert_of_notMem (by simp)]; simp [hk]
      · rw [if_neg hk]; simp [hk]
  rw [h1]
  congr 1
  ext l
  simp only [Finset.mem_filter, Finset.mem_range]
  exact ⟨fun h' => h'.2, fun h' => ⟨h l h', h'⟩⟩

section
variable {G : Gr W} (R : Run G) (hG : G.Ok) (hsym : ∀ u v, Adj G u v → Adj G v u)
include hG hsym

/-- **C161 (labels).** The `assert` never fails, and `bicc_label` is the label of C105. -/
theorem C161_label (hN : G.n ≤ none32) {u v : Nat} (h : Adj G u v) : biccLabel R.file u v = some (R.edgeLabel (u, v)) := by
  obtain ⟨-, -, -, -, -, -, hcc⟩ := R.core hG hsym hN
  obtain ⟨hu, hv⟩ := hG.bound _ _ _ h.choose_spec
  unfold biccLabel Run.edgeLabel Run.file
  simp only
  by_cases h1 : v = R.parents u &&& valMask
  · rw [if_pos h1, if_pos h1.symm]
  · rw [if_neg h1, if_neg (Ne.symm h1)]
    by_cases h2 : u = R.parents v &&& valMask
    · rw [if_pos h2]
    · rw [if_neg h2]
      have : R.cc u = R.cc v := (hcc u v hu hv).2 (.rel _ _ ⟨h, by unfold notCrit; rw [if_neg h1, if_neg (Ne.symm h2)]⟩)
      rw [if_pos this, this]

/-- **C161.** Without self-loops the number printed is the number of biconnected components: whatever the order of the arcs, it is the length
of every list of edges that has exactly one edge of every component. -/
theorem C161_count (hn : G.n ≤ 2 ^ 31) (hloop : ∀ u, ¬ Adj G u u) {o : List (Nat × Nat)} (ho : o.Perm (arcs G))
    {reps : List (Nat × Nat)} (h1 : ∀ e ∈ reps, Adj G e.1 e.2) (h2 : reps.Pairwise fun e f => ¬ SameBlock (Adj G) e f)
    (h3 : ∀ u v, Adj G u v → ∃ e ∈ reps, SameBlock (Adj G) (u, v) e) : numBiccs G.n R.file o = some reps.length := by
  have hN : G.n ≤ none32 := Nat.le_trans hn (by decide)
  have hmem : ∀ e : Nat × Nat, e ∈ o ↔ Adj G e.1 e.2 := fun e => ho.mem_iff.trans (mem_arcs hG)
  have hne : ∀ e : Nat × Nat, Adj G e.1 e.2 → e.1 ≠ e.2 := fun e h h' => hloop e.1 (by rw [← h'] at h; exact h)
  have hb := setBits (labels := R.file) (lab := R.edgeLabel) o (fun e he => C161_label R hG hsym hN ((hmem e).1 he)) ∅
  have hlt : ∀ e, Adj G e.1 e.2 → R.edgeLabel e < G.n := by
    intro e he
    obtain ⟨hu, hv⟩ := hG.bound _ _ _ he.choose_spec
    have hL := UF.simpleUnion_correct R.hcc
    have hc : ∀ v < G.n, R.cc v < G.n := fun v hv => Nat.lt_of_le_of_lt ((hL v hv).2 v (.refl v)) hv
    unfold Run.edgeLabel
    split
    · exact hc _ hu
    · exact hc _ hv
  have hset : (o.map R.edgeLabel).toFinset = (reps.map R.edgeLabel).toFinset := by
    ext l
    simp only [List.mem_toFinset, List.mem_map]
    constructor
    · rintro ⟨e, he, rfl⟩
      have he := (hmem e).1 he
      obtain ⟨f, hf, hs⟩ := h3 e.1 e.2 he
      exact ⟨f, hf, ((R.correct hG hsym hn he (h1 f hf) (hne e he) (hne f (h1 f hf))).2 hs).symm⟩
    · rintro ⟨f, hf, rfl⟩
      exact ⟨f, (hmem f).2 (h1 f hf), rfl⟩
  have hnd : (reps.map R.edgeLabel).Nodup := by
    rw [List.Nodup, List.pairwise_map]
    refine h2.imp_of_mem fun {e f} he hf h hl => h ?_
    exact (R.correct hG hsym hn (h1 e he) (h1 f hf) (hne e (h1 e he)) (hne f (h1 f hf))).1 hl
  have hcard : (o.map R.edgeLabel).toFinset.card = reps.length := by
    rw [hset, List.toFinset_card_of_nodup hnd, List.length_map]
  have hS : ∀ l ∈ (o.map R.edgeLabel).toFinset, l < G.n := by
    intro l hl
    obtain ⟨e, he, rfl⟩ := List.mem_map.1 (List.mem_toFinset.1 hl)
    exact hlt e ((hmem e).1 he)
  have hle : (o.map R.edgeLabel).toFinset.card ≤ G.n := by
    have := Finset.card_le_card (s := (o.map R.edgeLabel).toFinset) (t := Finset.range G.n) fun l hl => Finset.mem_range.2 (hS l hl)
    rwa [Finset.card_range] at this
  unfold numBiccs
  have h0 : (fun _ : Nat => 0) = fun l : Nat => if l ∈ (∅ : Finset Nat) then 1 else 0 := by funext l; simp
  rw [h0, hb, Option.map_some, Finset.empty_union, sum_bits _ _ hS, hcard, Nat.mod_eq_of_lt (by omega)]

/-- **C161 (lists of representatives exist).** So the previous theorem always applies. -/
theorem C161_reps (hn : G.n ≤ 2 ^ 31) (hloop : ∀ u, ¬ Adj G u u) : ∃ reps : List (Nat × Nat), (∀ e ∈ reps, Adj G e.1 e.2) ∧
    (reps.Pairwise fun e f => ¬ SameBlock (Adj G) e f) ∧ ∀ u v, Adj G u v → ∃ e ∈ reps, SameBlock (Adj G) (u, v) e := by
  have hne : ∀ e : Nat × Nat, Adj G e.1 e.2 → e.1 ≠ e.2 := fun e h h' => hloop e.1 (by rw [← h'] at h; exact h)
  obtain ⟨R⟩ := run_exists hG (Nat.le_trans hn (by decide)) hsym
  have key : ∀ l : List (Nat × Nat), (∀ e ∈ l, Adj G e.1 e.2) → ∃ reps : List (Nat × Nat), (∀ e ∈ reps, Adj G e.1 e.2) ∧
      (reps.Pairwise fun e f => R.edgeLabel e ≠ R.edgeLabel f) ∧ ∀ e ∈ l, ∃ f ∈ reps, R.edgeLabel e = R.edgeLabel f := by
    intro l
    induction l with
    | nil => intro _; exact ⟨[], by simp, .nil, by simp⟩
    | cons e l ih =>
      intro hl
      obtain ⟨reps, a, b, c⟩ := ih fun e' he' => hl e' (List.mem_cons_of_mem _ he')
      by_cases h : ∃ f ∈ reps, R.edgeLabel e = R.edgeLabel f
      · refine ⟨reps, a, b, fun e' he' => ?_⟩
        rcases List.mem_cons.1 he' with rfl | he'
        · exact h
        · exact c e' he'
      · refine ⟨e :: reps, ?_, List.pairwise_cons.2 ⟨fun f hf hl => h ⟨f, hf, hl⟩, b⟩, fun e' he' => ?_⟩
        · intro f hf
          rcases List.mem_cons.1 hf with rfl | hf
          · exact hl _ (by simp)
          · exact a f hf
        · rcases List.mem_cons.1 he' with rfl | he'
          · exact ⟨e', by simp, rfl⟩
          · obtain ⟨f, hf, h'⟩ := c e' he'
            exact ⟨f, List.mem_cons_of_mem _ hf, h'⟩
  obtain ⟨reps, a, b, c⟩ := key (arcs G) fun e he => (mem_arcs hG).1 he
  have hb : reps.Pairwise fun e f => ¬ SameBlock (Adj G) e f := by
    refine b.imp_of_mem fun {e f} he hf h hs => h ?_
    exact (R.correct hG hsym hn (a e he) (a f hf) (hne e (a e he)) (hne f (a f hf))).2 hs
  refine ⟨reps, a, hb, fun u v h => ?_⟩
  · obtain ⟨f, hf, h'⟩ := c (u, v) ((mem_arcs hG).2 h)
    exact ⟨f, hf, (R.correct hG hsym hn h (a f hf) (hne (u, v) h) (hne f (a f hf))).1 h'⟩

end

/-- A triangle and an edge at one of its corners: two biconnected components, in every run and for every order of the arcs. -/
example (R : Run exG) {o : List (Nat × Nat)} (ho : o.Perm (arcs exG)) : numBiccs exG.n R.file o = some 2 := by
  have av : ∀ w x y, x ≠ w → y ≠ w → (x = y ∨ Adj exG x y) → Avoid (Adj exG) w x y := by
    rintro w x y hx hy (rfl | h)
    · exact ⟨hx, hy, .refl⟩
    · exact ⟨hx, hy, .single ⟨h, hx, hy⟩⟩
  refine C161_count R exG_ok exG_sym (by decide) (fun u h => ?_) ho (reps := [(0, 1), (2, 3)]) ?_ ?_ ?_
  · have := exG_edges.1 h
    simp at this
    omega
  · intro e he
    simp at he
    rcases he with rfl | rfl <;> exact exG_edges.2 (by decide)
  · simp only [List.pairwise_cons, List.mem_singleton, forall_eq, List.not_mem_nil, false_implies, implies_true, List.Pairwise.nil, and_true]
    intro h
    obtain ⟨x, y, hx, hy, h1, h2, h3⟩ := h 2
    have hy : y = 3 := hy.resolve_left h2
    subst hy
    cases h3 with
    | refl => simp at hx
    | tail _ hs =>
      have := exG_edges.1 hs.1
      simp at this
      exact hs.2.1 this
  · intro u v h
    have := exG_edges.1 h
    simp at this
    by_cases h3 : u = 3 ∨ v = 3
    · refine ⟨(2, 3), by simp, fun w => ?_⟩
      by_cases hw : w = 2
      · exact ⟨3, 3, by omega, by simp, av _ _ _ (by omega) (by omega) (Or.inl rfl)⟩
      · exact ⟨2, 2, by omega, by simp, av _ _ _ (by omega) (by omega) (Or.inl rfl)⟩
    · refine ⟨(0, 1), by simp, fun w => ?_⟩
      have ad : ∀ a b, a < 3 → b < 3 → a ≠ b → Adj exG a b := fun a b ha hb hab => exG_edges.2 (by
        simp; omega)
      have hx : ∃ x, (x = u ∨ x = v) ∧ x ≠ w := by
        by_cases hw : u = w
        · exact ⟨v, Or.inr rfl, by omega⟩
        · exact ⟨u, Or.inl rfl, hw⟩
      have hy : ∃ y, (y = 0 ∨ y = 1) ∧ y ≠ w := by
        by_cases hw : w = 0
        · exact ⟨1, Or.inr rfl, by omega⟩
        · exact ⟨0, Or.inl rfl, by omega⟩
      obtain ⟨x, hx, hxw⟩ := hx
      obtain ⟨y, hy, hyw⟩ := hy
      refine ⟨x, y, hx, hy, av _ _ _ hxw hyw ?_⟩
      by_cases hxy : x = y
      · exact Or.inl hxy
      · exact Or.inr (ad x y (by omega) (by omega) hxy)

end Gbbs.Bicc
