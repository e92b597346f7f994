import Verif.Atomics.Model
import Mathlib.Order.Defs.LinearOrder
import Mathlib.Order.OrderDual
import Mathlib.Algebra.Group.Defs

/-! # Properties C10–C12: atomic read-modify-write loops under every interleaving -/

namespace Gbbs.Atomics

variable {ι α : Type} [DecidableEq ι]

theorem set_same {β : Type} (f : ι → β) (i : ι) (x : β) : set f i x i = x := by simp [set]

theorem set_other {β : Type} (f : ι → β) {i j : ι} (x : β) (h : j ≠ i) : set f i x j = f j := by
  simp [set, h]

theorem set_eq_iff {β : Type} {f : ι → β} {i j : ι} {x y : β} :
    set f i x j = y ↔ (j = i ∧ x = y) ∨ (j ≠ i ∧ f j = y) := by
  by_cases h : j = i
  · subst h; simp [set]
  · simp [set, h]

/-! ## write_min -/

section write_min

variable [LinearOrder α]

/-- Invariant of concurrent `write_min`s started with cell value `v0`. -/
structure WInv (b : ι → α) (v0 : α) (s : WConf ι α) : Prop where
  le_init : s.cell ≤ v0
  origin : s.cell = v0 ∨ ∃ i, s.pc i = .done true ∧ s.cell = b i
  loaded : ∀ i c, s.pc i = .test c → s.cell ≤ c
  finished : ∀ i r, s.pc i = .done r → s.cell ≤ b i
  wonLt : ∀ i, s.pc i = .done true → b i < v0
  distinct : ∀ i j, s.pc i = .done true → s.pc j = .done true → b i = b j → i = j

omit [DecidableEq ι] in
theorem winv_init (b : ι → α) (v0 : α) : WInv b v0 ⟨v0, fun _ => .load⟩ :=
  ⟨le_refl _, Or.inl rfl, fun _ _ h => by simp at h, fun _ _ h => by simp at h,
    fun _ h => by simp at h, fun _ _ h => by simp at h⟩

theorem winv_step (b : ι → α) (v0 : α) {s s' : WConf ι α} (h : WInv b v0 s)
    (hs : WStep (· < ·) b s s') : WInv b v0 s' := by
  cases hs with
  | load i hi =>
    refine ⟨h.le_init, ?_, ?_, ?_, ?_, ?_⟩
    · rcases h.origin with h1 | ⟨j, hj, hc⟩
      · exact Or.inl h1
      · refine Or.inr ⟨j, ?_, hc⟩
        exact set_eq_iff.2 (Or.inr ⟨by rintro rfl; simp [hi] at hj, hj⟩)
    · intro j c hj
      rcases set_eq_iff.1 hj with ⟨_, hj⟩ | ⟨_, hj⟩
      · cases hj; exact le_refl _
      · exact h.loaded j c hj
    · intro j r hj
      rcases set_eq_iff.1 hj with ⟨_, hj⟩ | ⟨_, hj⟩
      · cases hj
      · exact h.finished j r hj
    · intro j hj
      rcases set_eq_iff.1 hj with ⟨_, hj⟩ | ⟨_, hj⟩
      · cases hj
      · exact h.wonLt j hj
    · intro j k hj hk
      rcases set_eq_iff.1 hj with ⟨_, hj⟩ | ⟨_, hj⟩
      · cases hj
      rcases set_eq_iff.1 hk with ⟨_, hk⟩ | ⟨_, hk⟩
      · cases hk
      exact h.distinct j k hj hk
  | exit i c hi hl =>
    refine ⟨h.le_init, ?_, ?_, ?_, ?_, ?_⟩
    · rcases h.origin with h1 | ⟨j, hj, hc⟩
      · exact Or.inl h1
      · refine Or.inr ⟨j, ?_, hc⟩
        exact set_eq_iff.2 (Or.inr ⟨by rintro rfl; simp [hi] at hj, hj⟩)
    · intro j c' hj
      rcases set_eq_iff.1 hj with ⟨_, hj⟩ | ⟨_, hj⟩
      · cases hj
      · exact h.loaded j c' hj
    · intro j r hj
      rcases set_eq_iff.1 hj with ⟨rfl, hj⟩ | ⟨_, hj⟩
      · exact le_trans (h.loaded j c hi) (not_lt.1 hl)
      · exact h.finished j r hj
    · intro j hj
      rcases set_eq_iff.1 hj with ⟨_, hj⟩ | ⟨_, hj⟩
      · cases hj
      · exact h.wonLt j hj
    · intro j k hj hk
      rcases set_eq_iff.1 hj with ⟨_, hj⟩ | ⟨_, hj⟩
      · cases hj
      rcases set_eq_iff.1 hk with ⟨_, hk⟩ | ⟨_, hk⟩
      · cases hk
      exact h.distinct j k hj hk
  | casOk i c hi hl he =>
    have hlt : b i < s.cell := he ▸ hl
    refine ⟨le_trans (le_of_lt hlt) h.le_init, Or.inr ⟨i, set_same _ _ _, rfl⟩, ?_, ?_, ?_, ?_⟩
    · intro j c' hj
      rcases set_eq_iff.1 hj with ⟨_, hj⟩ | ⟨_, hj⟩
      · cases hj
      · exact le_trans (le_of_lt hlt) (h.loaded j c' hj)
    · intro j r hj
      rcases set_eq_iff.1 hj with ⟨rfl, _⟩ | ⟨_, hj⟩
      · exact le_refl _
      · exact le_trans (le_of_lt hlt) (h.finished j r hj)
    · intro j hj
      rcases set_eq_iff.1 hj with ⟨rfl, _⟩ | ⟨_, hj⟩
      · exact lt_of_lt_of_le hlt h.le_init
      · exact h.wonLt j hj
    · intro j k hj hk hjk
      rcases set_eq_iff.1 hj with ⟨rfl, _⟩ | ⟨_, hj'⟩
      · rcases set_eq_iff.1 hk with ⟨rfl, _⟩ | ⟨_, hk'⟩
        · rfl
        · exact absurd hjk (ne_of_lt (lt_of_lt_of_le hlt (h.finished k _ hk')))
      · rcases set_eq_iff.1 hk with ⟨rfl, _⟩ | ⟨_, hk'⟩
        · exact absurd hjk.symm (ne_of_lt (lt_of_lt_of_le hlt (h.finished j _ hj')))
        · exact h.distinct j k hj' hk' hjk
  | casFail i c hi hl he =>
    refine ⟨h.le_init, ?_, ?_, ?_, ?_, ?_⟩
    · rcases h.origin with h1 | ⟨j, hj, hc⟩
      · exact Or.inl h1
      · refine Or.inr ⟨j, ?_, hc⟩
        exact set_eq_iff.2 (Or.inr ⟨by rintro rfl; simp [hi] at hj, hj⟩)
    · intro j c' hj
      rcases set_eq_iff.1 hj with ⟨_, hj⟩ | ⟨_, hj⟩
      · cases hj
      · exact h.loaded j c' hj
    · intro j r hj
      rcases set_eq_iff.1 hj with ⟨_, hj⟩ | ⟨_, hj⟩
      · cases hj
      · exact h.finished j r hj
    · intro j hj
      rcases set_eq_iff.1 hj with ⟨_, hj⟩ | ⟨_, hj⟩
      · cases hj
      · exact h.wonLt j hj
    · intro j k hj hk
      rcases set_eq_iff.1 hj with ⟨_, hj⟩ | ⟨_, hj⟩
      · cases hj
      rcases set_eq_iff.1 hk with ⟨_, hk⟩ | ⟨_, hk⟩
      · cases hk
      exact h.distinct j k hj hk

theorem winv_reach (b : ι → α) (v0 : α) {s : WConf ι α}
    (h : Steps (WStep (· < ·) b) ⟨v0, fun _ => .load⟩ s) : WInv b v0 s := by
  induction h with
  | refl => exact winv_init b v0
  | tail _ hs ih => exact winv_step b v0 ih hs

/-- C10 (`write_min`).  For any set of concurrent `write_min(a, b i)` calls on a cell holding
`v0`, in every reachable configuration where all calls have returned, the cell is the
minimum of `v0` and all arguments; the value was written by a call that returned `true`
unless it is still `v0`; calls that returned `true` had arguments below `v0`, and no two
calls with the same argument both returned `true`. -/
theorem C10_write_min (b : ι → α) (v0 : α) (s : WConf ι α) (r : ι → Bool)
    (hreach : Steps (WStep (· < ·) b) ⟨v0, fun _ => .load⟩ s)
    (hdone : ∀ i, s.pc i = .done (r i)) :
    (s.cell ≤ v0 ∧ (∀ i, s.cell ≤ b i)) ∧
    (s.cell = v0 ∨ ∃ i, r i = true ∧ s.cell = b i) ∧
    (∀ i, r i = true → b i < v0) ∧
    (∀ i j, r i = true → r j = true → b i = b j → i = j) := by
  have h := winv_reach b v0 hreach
  refine ⟨⟨h.le_init, fun i => h.finished i _ (hdone i)⟩, ?_, ?_, ?_⟩
  · rcases h.origin with h1 | ⟨i, hi, hc⟩
    · exact Or.inl h1
    · refine Or.inr ⟨i, ?_, hc⟩
      rw [hdone i] at hi; injection hi
  · intro i hi; exact h.wonLt i (by rw [hdone i, hi])
  · intro i j hi hj; exact h.distinct i j (by rw [hdone i, hi]) (by rw [hdone j, hj])

omit [DecidableEq ι] in
/-- C10, step view: the cell changes exactly in the step in which a call returns `true`,
and then it strictly decreases to that call's argument. -/
theorem C10_write_min_true_iff_lowered [DecidableEq ι] (b : ι → α) {s s' : WConf ι α}
    (hs : WStep (· < ·) b s s') :
    (s'.cell = s.cell ∧ ∀ i, s'.pc i = .done true → s.pc i = .done true) ∨
    (∃ i, s.pc i ≠ .done true ∧ s'.pc i = .done true ∧ s'.cell = b i ∧ b i < s.cell) := by
  cases hs with
  | load i hi =>
    refine Or.inl ⟨rfl, fun j hj => ?_⟩
    rcases set_eq_iff.1 hj with ⟨_, hj⟩ | ⟨_, hj⟩
    · cases hj
    · exact hj
  | exit i c hi hl =>
    refine Or.inl ⟨rfl, fun j hj => ?_⟩
    rcases set_eq_iff.1 hj with ⟨_, hj⟩ | ⟨_, hj⟩
    · cases hj
    · exact hj
  | casOk i c hi hl he =>
    exact Or.inr ⟨i, by simp [hi], set_same _ _ _, rfl, he ▸ hl⟩
  | casFail i c hi hl he =>
    refine Or.inl ⟨rfl, fun j hj => ?_⟩
    rcases set_eq_iff.1 hj with ⟨_, hj⟩ | ⟨_, hj⟩
    · cases hj
    · exact hj

/-- C10 (`write_max`): the dual statement. -/
theorem C10_write_max (b : ι → α) (v0 : α) (s : WConf ι α) (r : ι → Bool)
    (hreach : Steps (WStep (flipRel (· < ·)) b) ⟨v0, fun _ => .load⟩ s)
    (hdone : ∀ i, s.pc i = .done (r i)) :
    (v0 ≤ s.cell ∧ (∀ i, b i ≤ s.cell)) ∧
    (s.cell = v0 ∨ ∃ i, r i = true ∧ s.cell = b i) ∧
    (∀ i, r i = true → v0 < b i) ∧
    (∀ i j, r i = true → r j = true → b i = b j → i = j) := by
  have := C10_write_min (α := αᵒᵈ) (ι := ι) b v0 s r hreach hdone
  exact this

end write_min

/-! ## fetch_and_add -/

section fetch_and_add

variable [AddCommMonoid α]

/-- Sum of the arguments of a list of calls. -/
def total (b : ι → α) (l : List ι) : α := (l.map b).foldl (· + ·) 0

omit [DecidableEq ι] in
theorem foldl_add_init (l : List α) (x : α) : l.foldl (· + ·) x = x + l.foldl (· + ·) 0 := by
  induction l generalizing x with
  | nil => simp
  | cons a l ih => simp only [List.foldl_cons, zero_add]; rw [ih (x + a), ih a, add_assoc]

omit [DecidableEq ι] in
theorem total_append (b : ι → α) (l : List ι) (i : ι) :
    total b (l ++ [i]) = total b l + b i := by
  simp [total, List.map_append, List.foldl_append]

/-- Ghost linearisation order of the completed additions. -/
structure AInv (b : ι → α) (v0 : α) (order : List ι) (s : AConf ι α) : Prop where
  nodup : order.Nodup
  mem : ∀ i, i ∈ order ↔ ∃ old, s.pc i = .done old
  cell : s.cell = v0 + total b order
  olds : ∀ i old, s.pc i = .done old → ∃ pre post, order = pre ++ i :: post ∧
    old = v0 + total b pre

theorem ainv_step (b : ι → α) (v0 : α) {order : List ι} {s s' : AConf ι α}
    (h : AInv b v0 order s) (hs : AStep b s s') : ∃ order', AInv b v0 order' s' := by
  have keep : ∀ (i : ι) (x : APc α), (∀ old, s.pc i ≠ .done old) → (∀ old, x ≠ .done old) →
      AInv b v0 order ⟨s.cell, set s.pc i x⟩ := by
    intro i x hi hx
    refine ⟨h.nodup, fun j => ?_, h.cell, fun j old hj => ?_⟩
    · rw [h.mem]
      constructor
      · rintro ⟨old, ho⟩
        exact ⟨old, set_eq_iff.2 (Or.inr ⟨by rintro rfl; exact hi _ ho, ho⟩)⟩
      · rintro ⟨old, ho⟩
        rcases set_eq_iff.1 ho with ⟨_, ho⟩ | ⟨_, ho⟩
        · exact absurd ho (hx old)
        · exact ⟨old, ho⟩
    · rcases set_eq_iff.1 hj with ⟨_, ho⟩ | ⟨_, ho⟩
      · exact absurd ho (hx old)
      · exact h.olds j old ho
  cases hs with
  | load i hi => exact ⟨order, keep i _ (by simp [hi]) (by simp)⟩
  | casFail i old hi he => exact ⟨order, keep i _ (by simp [hi]) (by simp)⟩
  | casOk i old hi he =>
    have hni : i ∉ order := by
      rw [h.mem]; rintro ⟨o, ho⟩; simp [hi] at ho
    refine ⟨order ++ [i], ?_, fun j => ?_, ?_, fun j o hj => ?_⟩
    · rw [List.nodup_append]
      refine ⟨h.nodup, by simp, ?_⟩
      intro x hx y hy
      simp only [List.mem_singleton] at hy
      rintro rfl; exact hni (hy ▸ hx)
    · simp only [List.mem_append, List.mem_singleton, h.mem]
      constructor
      · rintro (⟨o, ho⟩ | rfl)
        · exact ⟨o, set_eq_iff.2 (Or.inr ⟨by rintro rfl; simp [hi] at ho, ho⟩)⟩
        · exact ⟨old, set_same _ _ _⟩
      · rintro ⟨o, ho⟩
        rcases set_eq_iff.1 ho with ⟨rfl, _⟩ | ⟨_, ho⟩
        · exact Or.inr rfl
        · exact Or.inl ⟨o, ho⟩
    · show old + b i = _
      rw [total_append, ← he, h.cell, add_assoc]
    · rcases set_eq_iff.1 hj with ⟨rfl, ho⟩ | ⟨_, ho⟩
      · injection ho with ho
        subst ho
        exact ⟨order, [], rfl, by rw [← he, h.cell]⟩
      · obtain ⟨pre, post, h1, h2⟩ := h.olds j o ho
        exact ⟨pre, post ++ [i], by rw [h1]; simp, h2⟩

theorem ainv_reach (b : ι → α) (v0 : α) {s : AConf ι α}
    (h : Steps (AStep b) ⟨v0, fun _ => .load⟩ s) : ∃ order, AInv b v0 order s := by
  induction h with
  | refl =>
    exact ⟨[], List.nodup_nil, fun i => by simp, by simp [total], fun i old h => by simp at h⟩
  | tail _ hs ih => obtain ⟨o, ho⟩ := ih; exact ainv_step b v0 ho hs

/-- C11.  Concurrent `fetch_and_add(a, b i)` / `write_add`: whenever all calls have returned
there is an order of the calls (each exactly once) such that each call returned the initial
value plus the arguments of the calls before it, and the cell holds the initial value plus
all arguments.  `α` is any commutative monoid, in particular machine integers with
wrap-around. -/
theorem C11_fetch_and_add (b : ι → α) (v0 : α) (s : AConf ι α) (ret : ι → α)
    (hreach : Steps (AStep b) ⟨v0, fun _ => .load⟩ s) (hdone : ∀ i, s.pc i = .done (ret i)) :
    ∃ order : List ι, order.Nodup ∧ (∀ i, i ∈ order) ∧
      s.cell = v0 + total b order ∧
      ∀ pre i post, order = pre ++ i :: post → ret i = v0 + total b pre := by
  obtain ⟨order, h⟩ := ainv_reach b v0 hreach
  refine ⟨order, h.nodup, fun i => (h.mem i).2 ⟨_, hdone i⟩, h.cell, ?_⟩
  intro pre i post heq
  obtain ⟨pre', post', h1, h2⟩ := h.olds i _ (hdone i)
  rw [h2]
  have hnd := h.nodup
  have : pre = pre' := by
    have e : pre ++ i :: post = pre' ++ i :: post' := by rw [← heq, h1]
    rw [heq] at hnd
    clear h1 heq h2 hreach hdone h
    induction pre generalizing pre' with
    | nil =>
      cases pre' with
      | nil => rfl
      | cons x pre' =>
        simp only [List.nil_append, List.cons_append, List.cons.injEq] at e
        obtain ⟨rfl, e⟩ := e
        simp only [List.nil_append, List.nodup_cons] at hnd
        exact absurd (e ▸ List.mem_append_right pre' (List.mem_cons_self ..)) hnd.1
    | cons y pre ih =>
      cases pre' with
      | nil =>
        simp only [List.nil_append, List.cons_append, List.cons.injEq] at e
        obtain ⟨rfl, e⟩ := e
        simp only [List.cons_append, List.nodup_cons] at hnd
        exact absurd (List.mem_append_right pre (List.mem_cons_self ..)) hnd.1
      | cons x pre' =>
        simp only [List.cons_append, List.cons.injEq] at e hnd
        obtain ⟨rfl, e⟩ := e
        rw [List.nodup_cons] at hnd
        rw [ih pre' hnd.2 e]
  rw [this]

end fetch_and_add

/-! ## fetch_and_add_threshold -/

section threshold

/-- The increment of a finished call: its argument if it succeeded, else nothing. -/
structure TInv (maxV : Nat) (b : ι → Nat) (v0 : Nat) (order : List ι) (s : TConf ι) : Prop where
  nodup : order.Nodup
  mem : ∀ i, i ∈ order ↔ ∃ old, s.pc i = .done (some old)
  cell : s.cell = v0 + (order.map b).sum
  olds : ∀ i old, s.pc i = .done (some old) → old ≤ maxV ∧ ∃ pre post, order = pre ++ i :: post ∧
    old = v0 + (pre.map b).sum
  fails : ∀ i, s.pc i = .done none → maxV < s.cell
  loaded : ∀ i c, s.pc i = .test c → c ≤ s.cell
  bound : ∀ B, (∀ i, b i ≤ B) → s.cell ≤ max v0 (maxV + B)

theorem tinv_step (maxV : Nat) (b : ι → Nat) (v0 : Nat) {order : List ι} {s s' : TConf ι}
    (h : TInv maxV b v0 order s) (hs : TStep maxV b s s') : ∃ o', TInv maxV b v0 o' s' := by
  have keep : ∀ (i : ι) (x : TPc), (∀ old, s.pc i ≠ .done old) → (∀ old, x ≠ .done (some old)) →
      (x = .done none → maxV < s.cell) → (∀ c, x = .test c → c ≤ s.cell) →
      TInv maxV b v0 order ⟨s.cell, set s.pc i x⟩ := by
    intro i x hi hx hf hl
    refine ⟨h.nodup, fun j => ?_, h.cell, fun j old hj => ?_, fun j hj => ?_, fun j c hj => ?_,
      h.bound⟩
    · rw [h.mem]
      constructor
      · rintro ⟨old, ho⟩
        exact ⟨old, set_eq_iff.2 (Or.inr ⟨by rintro rfl; exact hi _ ho, ho⟩)⟩
      · rintro ⟨old, ho⟩
        rcases set_eq_iff.1 ho with ⟨_, ho⟩ | ⟨_, ho⟩
        · exact absurd ho (hx old)
        · exact ⟨old, ho⟩
    · rcases set_eq_iff.1 hj with ⟨_, ho⟩ | ⟨_, ho⟩
      · exact absurd ho (hx old)
      · exact h.olds j old ho
    · rcases set_eq_iff.1 hj with ⟨_, ho⟩ | ⟨_, ho⟩
      · exact hf ho
      · exact h.fails j ho
    · rcases set_eq_iff.1 hj with ⟨_, ho⟩ | ⟨_, ho⟩
      · exact hl c ho
      · exact h.loaded j c ho
  cases hs with
  | load i hi =>
    exact ⟨order, keep i _ (by simp [hi]) (by simp) (by simp) (by rintro c ⟨⟩; exact Nat.le_refl _)⟩
  | casFail i old hi hl he =>
    exact ⟨order, keep i _ (by simp [hi]) (by simp) (by simp) (by simp)⟩
  | exit i old hi hl =>
    exact ⟨order, keep i _ (by simp [hi]) (by simp)
      (fun _ => by have := h.loaded i old hi; omega) (by simp)⟩
  | casOk i old hi hl he =>
    have hni : i ∉ order := by
      rw [h.mem]; rintro ⟨o, ho⟩; simp [hi] at ho
    refine ⟨order ++ [i], ?_, fun j => ?_, ?_, fun j o hj => ?_, fun j hj => ?_, fun j c hj => ?_,
      fun B hB => ?_⟩
    · rw [List.nodup_append]
      refine ⟨h.nodup, by simp, ?_⟩
      intro x hx y hy
      simp only [List.mem_singleton] at hy
      rintro rfl; exact hni (hy ▸ hx)
    · simp only [List.mem_append, List.mem_singleton, h.mem]
      constructor
      · rintro (⟨o, ho⟩ | rfl)
        · exact ⟨o, set_eq_iff.2 (Or.inr ⟨by rintro rfl; simp [hi] at ho, ho⟩)⟩
        · exact ⟨old, set_same _ _ _⟩
      · rintro ⟨o, ho⟩
        rcases set_eq_iff.1 ho with ⟨rfl, _⟩ | ⟨_, ho⟩
        · exact Or.inr rfl
        · exact Or.inl ⟨o, ho⟩
    · show old + b i = _
      have := h.cell
      simp only [List.map_append, List.sum_append, List.map_cons, List.map_nil, List.sum_cons,
        List.sum_nil]
      omega
    · rcases set_eq_iff.1 hj with ⟨rfl, ho⟩ | ⟨_, ho⟩
      · injection ho with ho
        injection ho with ho
        subst ho
        exact ⟨hl, order, [], rfl, by rw [← he, h.cell]⟩
      · obtain ⟨h0, pre, post, h1, h2⟩ := h.olds j o ho
        exact ⟨h0, pre, post ++ [i], by rw [h1]; simp, h2⟩
    · rcases set_eq_iff.1 hj with ⟨_, ho⟩ | ⟨_, ho⟩
      · simp at ho
      · have := h.fails j ho
        show maxV < old + b i
        omega
    · rcases set_eq_iff.1 hj with ⟨_, ho⟩ | ⟨_, ho⟩
      · simp at ho
      · have := h.loaded j c ho
        show c ≤ old + b i
        omega
    · show old + b i ≤ _
      have := hB i
      omega

theorem tinv_reach (maxV : Nat) (b : ι → Nat) (v0 : Nat) {s : TConf ι}
    (h : Steps (TStep maxV b) ⟨v0, fun _ => .load⟩ s) : ∃ o, TInv maxV b v0 o s := by
  induction h with
  | refl =>
    refine ⟨[], List.nodup_nil, fun i => by simp, by simp, fun i old h => by simp at h,
      fun i h => by simp at h, fun i c h => by simp at h, fun B _ => ?_⟩
    show v0 ≤ _
    omega
  | tail _ hs ih => obtain ⟨o, ho⟩ := ih; exact tinv_step maxV b v0 ho hs

/-- C12.  Concurrent `fetch_and_add_threshold(a, b i, maxV)`: at every moment of every
execution the cell equals the initial value plus the arguments of the calls that reported
success; a success reports a previous value at most `maxV`; a failure is reported only when
the cell exceeds `maxV`; the cell never exceeds `max v0 (maxV + B)` when increments are at
most `B`. -/
theorem C12_fetch_and_add_threshold (maxV : Nat) (b : ι → Nat) (v0 : Nat) (s : TConf ι)
    (hreach : Steps (TStep maxV b) ⟨v0, fun _ => .load⟩ s) :
    (∃ order : List ι, order.Nodup ∧ (∀ i, i ∈ order ↔ ∃ old, s.pc i = .done (some old)) ∧
      s.cell = v0 + (order.map b).sum ∧
      ∀ i old, s.pc i = .done (some old) → old ≤ maxV ∧ ∃ pre post, order = pre ++ i :: post ∧
        old = v0 + (pre.map b).sum) ∧
    (∀ i, s.pc i = .done none → maxV < s.cell) ∧
    (∀ B, (∀ i, b i ≤ B) → s.cell ≤ max v0 (maxV + B)) := by
  obtain ⟨o, h⟩ := tinv_reach maxV b v0 hreach
  exact ⟨⟨o, h.nodup, h.mem, h.cell, h.olds⟩, h.fails, h.bound⟩

end threshold

/-! ## Non-vacuity: complete executions exist -/

/-- Two threads writing 3 and 2 into a cell holding 5: thread 0 loads 5, thread 1 loads 5 and
writes 2, thread 0's CAS fails, it reloads 2 and gives up. -/
example : ∃ s : WConf Bool Nat,
    Steps (WStep (· < ·) (fun i => if i then 2 else 3)) ⟨5, fun _ => .load⟩ s ∧
    s.pc false = .done false ∧ s.pc true = .done true ∧ s.cell = 2 := by
  refine ⟨_, .tail (.tail (.tail (.tail (.tail (.tail (.refl _)
    (.load _ false rfl)) (.load _ true rfl)) (.casOk _ true 5 rfl (by decide) rfl))
    (.casFail _ false 5 rfl (by decide) (by decide))) (.load _ false rfl))
    (.exit _ false 2 rfl (by decide)), rfl, rfl, rfl⟩

/-- Two additions with a failed CAS. -/
example : ∃ s : AConf Bool Nat,
    Steps (AStep (fun i => if i then 2 else 3)) ⟨5, fun _ => .load⟩ s ∧
    s.pc false = .done 7 ∧ s.pc true = .done 5 ∧ s.cell = 10 := by
  refine ⟨_, .tail (.tail (.tail (.tail (.tail (.tail (.refl _)
    (.load _ false rfl)) (.load _ true rfl)) (.casOk _ true 5 rfl rfl))
    (.casFail _ false 5 rfl (by decide))) (.load _ false rfl))
    (.casOk _ false 7 rfl rfl), rfl, rfl, rfl⟩

example : ∃ s : TConf Bool,
    Steps (TStep 5 (fun i => if i then 2 else 3)) ⟨5, fun _ => .load⟩ s ∧
    s.pc false = .done none ∧ s.pc true = .done (some 5) ∧ s.cell = 7 := by
  refine ⟨_, .tail (.tail (.tail (.tail (.tail (.tail (.refl _)
    (.load _ false rfl)) (.load _ true rfl)) (.casOk _ true 5 rfl (by decide) rfl))
    (.casFail _ false 5 rfl (by decide) (by decide))) (.load _ false rfl))
    (.exit _ false 7 rfl (by decide)), rfl, rfl, rfl⟩

end Gbbs.Atomics
