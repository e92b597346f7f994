/-
C43, C60: reservations for maximal matching, `benchmarks/MaximalMatching/RandomGreedy/MaximalMatching.h:36-70`, run by `eff_for`.
-/
import Verif.Spec.Loop
import Verif.Algo.Relax

namespace Gbbs.Match

open Conc Conc.Prog SpecFor
open Relax (writeMin)
open Atomics (Steps)

/-! ### Model -/

/-- `UINT_E_MAX`. -/
def none32 : Nat := 4294967295

/-- `R[x]`, `matched[x]`, and the mark (top bit) of `E[i]`. -/
inductive Loc
  | R (x : Nat)
  | mt (x : Nat)
  | mk (i : Nat)
  deriving DecidableEq

/-- `matchStep::reserve`, `MaximalMatching.h:44-51`; `E i` are the ends of edge `i`; `f` bounds the retries of `write_min`
(`speculative_for.h:52-54`). -/
def reserve (f : Nat) (E : Nat → Nat × Nat) (i : Nat) : Prog Loc Nat Bool :=
  read (.mt (E i).1) fun a => if a ≠ 0 then ret false else
    read (.mt (E i).2) fun b => if b ≠ 0 then ret false else
      if (E i).1 = (E i).2 then ret false else
        (writeMin f (.R (E i).1) i).bind fun _ => (writeMin f (.R (E i).2) i).bind fun _ => ret true

/-- `matchStep::commit`, `MaximalMatching.h:53-69`. The mark is the top bit of the first end; it is a separate location here
(vertices are below 2^31, and an edge is not read after it is marked). -/
def commit (E : Nat → Nat × Nat) (i : Nat) : Prog Loc Nat Bool :=
  read (.R (E i).2) fun a =>
    if a = i then
      write (.R (E i).2) none32 (read (.R (E i).1) fun b =>
        if b = i then
          write (.mt (E i).2) 1 (write (.mt (E i).1) 1 (write (.R (E i).1) none32 (write (.mk i) 1 (ret true))))
        else ret false)
    else read (.R (E i).1) fun b => if b = i then write (.R (E i).1) none32 (ret false) else ret false

/-- The two parallel loops of a round of `eff_for` (`speculative_for.h:84-91`) with this step object, one thread per position. -/
def client (E : Nat → Nat × Nat) : Client (Loc → Nat) where
  rsv m cur r m' := ∃ f, Steps Step (⟨m, fun i => if i < cur.length then reserve f E (cur.getD i 0) else ret true⟩ : Conf Nat Loc Nat Bool)
    ⟨m', fun i => ret (r i)⟩
  cmt m cur r c m' := Steps Step (⟨m, fun i => if i < cur.length ∧ r i = true then commit E (cur.getD i 0) else ret false⟩ :
    Conf Nat Loc Nat Bool) ⟨m', fun i => ret (c i)⟩

/-! ### Specification -/

/-- `x` is an end of edge `i`. -/
def End (E : Nat → Nat × Nat) (i x : Nat) : Prop := x = (E i).1 ∨ x = (E i).2

/-- Edges with a common end. -/
def Share (E : Nat → Nat × Nat) (i j : Nat) : Prop := ∃ x, End E i x ∧ End E j x

/-- The greedy matching over the list `E 0, …, E (N-1)`, given the vertices `m0` that are matched beforehand. -/
def IsGreedyM (E : Nat → Nat × Nat) (m0 : Nat → Prop) (N : Nat) (M : Nat → Prop) : Prop :=
  ∀ i, i < N → (M i ↔ (E i).1 ≠ (E i).2 ∧ (∀ x, End E i x → ¬ m0 x) ∧ ∀ j, j < i → M j → ¬ Share E i j)

/-! ### The reserve phase -/

section
variable {E : Nat → Nat × Nat}

/-- Edge `i` can be matched in memory `m`. -/
def Free (E : Nat → Nat × Nat) (m : Loc → Nat) (i : Nat) : Prop := m (.mt (E i).1) = 0 ∧ m (.mt (E i).2) = 0 ∧ (E i).1 ≠ (E i).2

structure RInv (E : Nat → Nat × Nat) (m0 : Loc → Nat) (cur : List Nat) (g m : Loc → Nat) : Prop where
  mem : ∀ x, m x = g x
  mt : ∀ x, g (.mt x) = m0 (.mt x)
  mark : ∀ x, g (.mk x) = m0 (.mk x)
  val : ∀ x, g (.R x) = none32 ∨ ∃ i ∈ cur, Free E m0 i ∧ End E i x ∧ g (.R x) = i

def rrg (E : Nat → Nat × Nat) (m0 : Loc → Nat) (cur : List Nat) : RG Nat (Loc → Nat) Loc Nat where
  Inv := RInv E m0 cur
  R _ g g' := ∀ x, g' (.R x) ≤ g (.R x)
  Gu _ g g' := ∀ x, g' (.R x) ≤ g (.R x)
  refl _ _ _ := Nat.le_refl _
  trans _ _ _ _ h1 h2 x := Nat.le_trans (h2 x) (h1 x)
  compat _ _ _ _ _ h := h

theorem writeMin_spec {m0 : Loc → Nat} {cur : List Nat} {t i x : Nat} (hi : i ∈ cur) (hf : Free E m0 i) (he : End E i x) (f : Nat) :
    ∀ g, Safe (rrg E m0 cur) t (fun g _ => g (.R x) ≤ i) (writeMin f (.R x) i) g := by
  induction f with
  | zero => intro g; trivial
  | succ f ih =>
    intro g g1 m1 hr1 hi1
    refine ⟨g1, fun _ => Nat.le_refl _, hi1, ?_⟩
    beta_reduce
    by_cases hc : i < m1 (.R x)
    · rw [if_pos hc]
      intro g2 m2 hr2 hi2
      refine ⟨fun hx => ?_, fun hx => ⟨g2, fun _ => Nat.le_refl _, hi2, ih g2⟩⟩
      have hx2 : i < g2 (.R x) := by rw [← hi2.mem, hx]; exact hc
      refine ⟨put g2 (.R x) i, fun y => ?_, ⟨fun y => ?_, fun y => ?_, fun y => ?_, fun y => ?_⟩, fun g3 hr3 => ?_⟩
      · by_cases h : Loc.R y = .R x
        · rw [h, put_same]; omega
        · rw [put_ne _ _ h]; exact Nat.le_refl _
      · by_cases h : y = .R x
        · subst h; rw [put_same, put_same]
        · rw [put_ne _ _ h, put_ne _ _ h, hi2.mem]
      · rw [put_ne _ _ (by simp)]; exact hi2.mt y
      · rw [put_ne _ _ (by simp)]; exact hi2.mark y
      · by_cases h : Loc.R y = .R x
        · rw [h, put_same]
          injection h with h
          subst h
          exact Or.inr ⟨i, hi, hf, he, rfl⟩
        · rw [put_ne _ _ h]; exact hi2.val y
      · have := hr3 x
        rw [put_same] at this
        exact this
    · rw [if_neg hc]
      intro g2 hr2
      have h1 := hi1.mem (.R x)
      have h2 := hr2 x
      show g2 (.R x) ≤ i
      omega

theorem reserve_spec {m0 : Loc → Nat} {cur : List Nat} {t i : Nat} (hi : i ∈ cur) (f : Nat) (g : Loc → Nat) :
    Safe (rrg E m0 cur) t (fun g b => (b = true ↔ Free E m0 i) ∧ (b = true → ∀ x, End E i x → g (.R x) ≤ i)) (reserve f E i) g := by
  intro g1 m1 hr1 hi1
  refine ⟨g1, fun _ => Nat.le_refl _, hi1, ?_⟩
  beta_reduce
  have h1 : m1 (.mt (E i).1) = m0 (.mt (E i).1) := (hi1.mem _).trans (hi1.mt _)
  by_cases ha : m1 (.mt (E i).1) = 0
  · rw [if_neg (by simpa using ha)]
    intro g2 m2 hr2 hi2
    refine ⟨g2, fun _ => Nat.le_refl _, hi2, ?_⟩
    beta_reduce
    have h2 : m2 (.mt (E i).2) = m0 (.mt (E i).2) := (hi2.mem _).trans (hi2.mt _)
    by_cases hb : m2 (.mt (E i).2) = 0
    · rw [if_neg (by simpa using hb)]
      by_cases hl : (E i).1 = (E i).2
      · rw [if_pos hl]
        intro g3 hr3
        exact ⟨⟨fun h => (by cases h), fun h => absurd hl h.2.2⟩, fun h => (by cases h)⟩
      · rw [if_neg hl]
        have hf : Free E m0 i := ⟨h1 ▸ ha, h2 ▸ hb, hl⟩
        refine (writeMin_spec hi hf (Or.inl rfl) f g2).bind fun _ g3 h3 => ?_
        have h4 : Safe (rrg E m0 cur) t (fun g _ => g (.R (E i).1) ≤ i ∧ g (.R (E i).2) ≤ i) (writeMin f (.R (E i).2) i) g3 := by
          refine (Em.safe_frame (A := rrg E m0 cur) (i := t) (K := fun g => g (.R (E i).1) ≤ i)
            ⟨fun g g' h hk => Nat.le_trans (h _) hk, fun g g' h hk => Nat.le_trans (h _) hk⟩
            (writeMin_spec hi hf (Or.inr rfl) f g3) h3).weaken fun _ _ h => ⟨h.2, h.1⟩
        refine h4.bind fun _ g4 h5 g5 hr5 => ⟨⟨fun _ => hf, fun _ => rfl⟩, fun _ x hx => ?_⟩
        have e1 := hr5 (E i).1
        have e2 := hr5 (E i).2
        rcases hx with rfl | rfl <;> omega
    · rw [if_pos hb]
      intro g3 hr3
      exact ⟨⟨fun h => (by cases h), fun h => absurd (h2.trans h.2.1) hb⟩, fun h => (by cases h)⟩
  · rw [if_pos ha]
    intro g3 hr3
    exact ⟨⟨fun h => (by cases h), fun h => absurd (h1.trans h.1) ha⟩, fun h => (by cases h)⟩

/-- The effect of the loop of `reserve` calls. -/
theorem reserve_phase {m m1 : Loc → Nat} {cur : List Nat} {r : Nat → Bool} (hR : ∀ x, m (.R x) = none32)
    (h : (client E).rsv m cur r m1) :
    (∀ x, m1 (.mt x) = m (.mt x)) ∧ (∀ x, m1 (.mk x) = m (.mk x)) ∧
    (∀ x, m1 (.R x) = none32 ∨ ∃ i ∈ cur, Free E m i ∧ End E i x ∧ m1 (.R x) = i) ∧
    ∀ t i, cur[t]? = some i → (r t = true ↔ Free E m i) ∧ (Free E m i → ∀ x, End E i x → m1 (.R x) ≤ i) := by
  obtain ⟨f, hs⟩ := h
  obtain ⟨g, hi, -, hp⟩ := safe_reach (rrg E m cur) (fun t g b => ∀ i, cur[t]? = some i →
      (b = true ↔ Free E m i) ∧ (b = true → ∀ x, End E i x → g (.R x) ≤ i)) hs m
    ⟨fun _ => rfl, fun _ => rfl, fun _ => rfl, fun x => Or.inl (hR x)⟩ (by
      intro t
      simp only []
      by_cases ht : t < cur.length
      · rw [if_pos ht]
        have he : cur.getD t 0 = cur[t] := by rw [List.getD_eq_getElem?_getD, List.getElem?_eq_getElem ht]; rfl
        rw [he]
        refine (reserve_spec (List.getElem_mem ht) f m).weaken fun b g hb i hi => ?_
        rw [List.getElem?_eq_getElem ht, Option.some.injEq] at hi
        subst hi
        exact hb
      · rw [if_neg ht]
        intro g _ i hi
        rw [List.getElem?_eq_none (by omega)] at hi
        cases hi)
  refine ⟨fun x => (hi.mem _).trans (hi.mt x), fun x => (hi.mem _).trans (hi.mark x), fun x => ?_, fun t i ht => ?_⟩
  · have hm : m1 (.R x) = g (.R x) := hi.mem _
    rw [hm]; exact hi.val x
  · obtain ⟨h1, h2⟩ := hp t (r t) rfl i ht
    refine ⟨h1, fun hf x hx => ?_⟩
    have hm : m1 (.R x) = g (.R x) := hi.mem _
    rw [hm]
    exact h2 (h1.2 hf) x hx

/-! ### The commit phase -/

/-- Edge `i` holds both ends in `m1`. -/
def Win (E : Nat → Nat × Nat) (m1 : Loc → Nat) (i : Nat) : Prop := m1 (.R (E i).1) = i ∧ m1 (.R (E i).2) = i

structure CInv (E : Nat → Nat × Nat) (m1 : Loc → Nat) (cur : List Nat) (g m : Loc → Nat) : Prop where
  mem : ∀ x, m x = g x
  rsv : ∀ x, g (.R x) = m1 (.R x) ∨ g (.R x) = none32
  mt : ∀ x, g (.mt x) = m1 (.mt x) ∨ (g (.mt x) = 1 ∧ ∃ i ∈ cur, Win E m1 i ∧ End E i x)
  mark : ∀ k, g (.mk k) = m1 (.mk k) ∨ (g (.mk k) = 1 ∧ k ∈ cur ∧ Win E m1 k)

def Own (m1 : Loc → Nat) (cur : List Nat) (t x : Nat) : Prop := cur[t]? = some (m1 (.R x))

def crg (E : Nat → Nat × Nat) (m1 : Loc → Nat) (cur : List Nat) (hn : cur.Nodup) : RG Nat (Loc → Nat) Loc Nat where
  Inv := CInv E m1 cur
  R t g g' := (∀ x, Own m1 cur t x → g' (.R x) = g (.R x)) ∧ (∀ x, g (.mt x) = 1 → g' (.mt x) = 1) ∧
    ∀ x, g (.mk x) = 1 → g' (.mk x) = 1
  Gu t g g' := (∀ x, ¬ Own m1 cur t x → g' (.R x) = g (.R x)) ∧ (∀ x, g (.mt x) = 1 → g' (.mt x) = 1) ∧
    ∀ x, g (.mk x) = 1 → g' (.mk x) = 1
  refl _ _ := ⟨fun _ _ => rfl, fun _ h => h, fun _ h => h⟩
  trans _ _ _ _ h1 h2 := ⟨fun x h => (h2.1 x h).trans (h1.1 x h), fun x h => h2.2.1 x (h1.2.1 x h),
    fun x h => h2.2.2 x (h1.2.2 x h)⟩
  compat i j g g' hij h := ⟨fun x hx => h.1 x fun hy => hij (by
    have h1 : i < cur.length := by
      by_contra hc
      rw [Own, List.getElem?_eq_none (by omega)] at hy; cases hy
    exact (List.getElem?_inj h1 hn).1 (hy.trans hx.symm)), h.2⟩

variable {m1 : Loc → Nat} {cur : List Nat}

theorem CInv.putR {g m : Loc → Nat} (h : CInv E m1 cur g m) (x : Nat) :
    CInv E m1 cur (put g (.R x) none32) (put m (.R x) none32) := by
  refine ⟨fun y => ?_, fun y => ?_, fun y => ?_, fun y => ?_⟩
  · by_cases hy : y = .R x
    · subst hy; rw [put_same, put_same]
    · rw [put_ne _ _ hy, put_ne _ _ hy, h.mem]
  · by_cases hy : Loc.R y = .R x
    · rw [hy, put_same]; exact Or.inr rfl
    · rw [put_ne _ _ hy]; exact h.rsv y
  · rw [put_ne _ _ (by simp)]; exact h.mt y
  · rw [put_ne _ _ (by simp)]; exact h.mark y

theorem CInv.putM {g m : Loc → Nat} (h : CInv E m1 cur g m) {i x : Nat} (hi : i ∈ cur) (hw : Win E m1 i) (he : End E i x) :
    CInv E m1 cur (put g (.mt x) 1) (put m (.mt x) 1) := by
  refine ⟨fun y => ?_, fun y => ?_, fun y => ?_, fun y => ?_⟩
  · by_cases hy : y = .mt x
    · subst hy; rw [put_same, put_same]
    · rw [put_ne _ _ hy, put_ne _ _ hy, h.mem]
  · rw [put_ne _ _ (by simp)]; exact h.rsv y
  · by_cases hy : Loc.mt y = .mt x
    · rw [hy, put_same]; injection hy with hy; subst hy; exact Or.inr ⟨rfl, i, hi, hw, he⟩
    · rw [put_ne _ _ hy]; exact h.mt y
  · rw [put_ne _ _ (by simp)]; exact h.mark y

theorem CInv.putK {g m : Loc → Nat} (h : CInv E m1 cur g m) {i : Nat} (hi : i ∈ cur) (hw : Win E m1 i) :
    CInv E m1 cur (put g (.mk i) 1) (put m (.mk i) 1) := by
  refine ⟨fun y => ?_, fun y => ?_, fun y => ?_, fun y => ?_⟩
  · by_cases hy : y = .mk i
    · subst hy; rw [put_same, put_same]
    · rw [put_ne _ _ hy, put_ne _ _ hy, h.mem]
  · rw [put_ne _ _ (by simp)]; exact h.rsv y
  · rw [put_ne _ _ (by simp)]; exact h.mt y
  · by_cases hy : Loc.mk y = .mk i
    · rw [hy, put_same]; injection hy with hy; subst hy; exact Or.inr ⟨rfl, hi, hw⟩
    · rw [put_ne _ _ hy]; exact h.mark y

theorem guR {hn : cur.Nodup} {t x : Nat} (g : Loc → Nat) (ho : Own m1 cur t x) :
    (crg E m1 cur hn).Gu t g (put g (.R x) none32) := by
  refine ⟨fun y hy => put_ne _ _ ?_, fun y hy => by rw [put_ne _ _ (by simp)]; exact hy,
    fun y hy => by rw [put_ne _ _ (by simp)]; exact hy⟩
  intro h
  injection h with h
  subst h
  exact hy ho

theorem guM {hn : cur.Nodup} {t x : Nat} (g : Loc → Nat) : (crg E m1 cur hn).Gu t g (put g (.mt x) 1) := by
  refine ⟨fun y hy => put_ne _ _ (by simp), fun y hy => ?_, fun y hy => by rw [put_ne _ _ (by simp)]; exact hy⟩
  by_cases h : Loc.mt y = .mt x
  · rw [h, put_same]
  · rw [put_ne _ _ h]; exact hy

theorem guK {hn : cur.Nodup} {t x : Nat} (g : Loc → Nat) : (crg E m1 cur hn).Gu t g (put g (.mk x) 1) := by
  refine ⟨fun y hy => put_ne _ _ (by simp), fun y hy => by rw [put_ne _ _ (by simp)]; exact hy, fun y hy => ?_⟩
  by_cases h : Loc.mk y = .mk x
  · rw [h, put_same]
  · rw [put_ne _ _ h]; exact hy

theorem commit_spec {hn : cur.Nodup} {t i : Nat} (ht : cur[t]? = some i) (hi : i ≠ none32) (hl : (E i).1 ≠ (E i).2) :
    Safe (crg E m1 cur hn) t (fun g b => (b = true ↔ Win E m1 i) ∧ (∀ x, End E i x → m1 (.R x) = i → g (.R x) = none32) ∧
      (Win E m1 i → (∀ x, End E i x → g (.mt x) = 1) ∧ g (.mk i) = 1)) (commit E i) m1 := by
  have hic : i ∈ cur := List.mem_iff_getElem?.2 ⟨t, ht⟩
  have own : ∀ {x}, m1 (.R x) = i → Own m1 cur t x := fun {x} h => by rw [Own, ht, h]
  have hl1 : Loc.R (E i).1 ≠ Loc.R (E i).2 := by simpa using hl
  have grefl : ∀ g, (crg E m1 cur hn).Gu t g g := fun g => ⟨fun _ _ => rfl, fun _ h => h, fun _ h => h⟩
  have dec : ∀ {g c : Loc → Nat} {x : Nat}, CInv E m1 cur g c → c (.R x) = i → m1 (.R x) = i := by
    intro g c x h hx
    rcases h.rsv x with h1 | h1
    · rw [← h1, ← h.mem]; exact hx
    · rw [h.mem, h1] at hx; exact absurd hx.symm hi
  intro g1 c1 hr1 hi1
  refine ⟨g1, grefl _, hi1, ?_⟩
  simp only []
  by_cases hv : m1 (.R (E i).2) = i
  · have ov := own hv
    rw [if_pos (by rw [hi1.mem, hr1.1 _ ov]; exact hv)]
    intro g2 c2 hr2 hi2
    refine ⟨_, guR g2 ov, hi2.putR _, ?_⟩
    intro g3 c3 hr3 hi3
    refine ⟨g3, grefl _, hi3, ?_⟩
    simp only []
    have e3 : g3 (.R (E i).2) = none32 := (hr3.1 _ ov).trans (put_same _ _ _)
    by_cases hu : m1 (.R (E i).1) = i
    · have ou := own hu
      have hw : Win E m1 i := ⟨hu, hv⟩
      rw [if_pos (by rw [hi3.mem, hr3.1 _ ou, put_ne _ _ hl1, hr2.1 _ ou, hr1.1 _ ou]; exact hu)]
      intro g4 c4 hr4 hi4
      refine ⟨_, guM g4, hi4.putM hic hw (Or.inr rfl), ?_⟩
      intro g5 c5 hr5 hi5
      refine ⟨_, guM g5, hi5.putM hic hw (Or.inl rfl), ?_⟩
      intro g6 c6 hr6 hi6
      refine ⟨_, guR g6 ou, hi6.putR _, ?_⟩
      intro g7 c7 hr7 hi7
      refine ⟨_, guK g7, hi7.putK hic hw, ?_⟩
      intro g8 hr8
      have v5 : g5 (.mt (E i).2) = 1 := hr5.2.1 _ (put_same _ _ _)
      have v6 : g6 (.mt (E i).2) = 1 := hr6.2.1 _ (by
        by_cases h : Loc.mt (E i).2 = .mt (E i).1
        · rw [h, put_same]
        · rw [put_ne _ _ h]; exact v5)
      have u6 : g6 (.mt (E i).1) = 1 := hr6.2.1 _ (put_same _ _ _)
      have v7 : g7 (.mt (E i).2) = 1 := hr7.2.1 _ (by rw [put_ne _ _ (by simp)]; exact v6)
      have u7 : g7 (.mt (E i).1) = 1 := hr7.2.1 _ (by rw [put_ne _ _ (by simp)]; exact u6)
      have v8 : g8 (.mt (E i).2) = 1 := hr8.2.1 _ (by rw [put_ne _ _ (by simp)]; exact v7)
      have u8 : g8 (.mt (E i).1) = 1 := hr8.2.1 _ (by rw [put_ne _ _ (by simp)]; exact u7)
      have k8 : g8 (.mk i) = 1 := hr8.2.2 _ (put_same _ _ _)
      have ru : g8 (.R (E i).1) = none32 := by
        rw [hr8.1 _ ou, put_ne _ _ (by simp), hr7.1 _ ou, put_same]
      have rv : g8 (.R (E i).2) = none32 := by
        rw [hr8.1 _ ov, put_ne _ _ (by simp), hr7.1 _ ov, put_ne _ _ hl1.symm, hr6.1 _ ov, put_ne _ _ (by simp),
          hr5.1 _ ov, put_ne _ _ (by simp), hr4.1 _ ov, e3]
      refine ⟨⟨fun _ => hw, fun _ => rfl⟩, fun x hx _ => ?_, fun _ => ⟨fun x hx => ?_, k8⟩⟩
      · rcases hx with rfl | rfl
        · exact ru
        · exact rv
      · rcases hx with rfl | rfl
        · exact u8
        · exact v8
    · rw [if_neg fun h => hu (dec hi3 h)]
      intro g4 hr4
      refine ⟨⟨fun h => (by cases h), fun h => absurd h.1 hu⟩, fun x hx hm => ?_, fun h => absurd h.1 hu⟩
      rcases hx with rfl | rfl
      · exact absurd hm hu
      · rw [hr4.1 _ ov, e3]
  · rw [if_neg fun h => hv (dec hi1 h)]
    intro g2 c2 hr2 hi2
    refine ⟨g2, grefl _, hi2, ?_⟩
    simp only []
    by_cases hu : m1 (.R (E i).1) = i
    · have ou := own hu
      rw [if_pos (by rw [hi2.mem, hr2.1 _ ou, hr1.1 _ ou]; exact hu)]
      intro g3 c3 hr3 hi3
      refine ⟨_, guR g3 ou, hi3.putR _, ?_⟩
      intro g4 hr4
      refine ⟨⟨fun h => (by cases h), fun h => absurd h.2 hv⟩, fun x hx hm => ?_, fun h => absurd h.2 hv⟩
      rcases hx with rfl | rfl
      · rw [hr4.1 _ ou, put_same]
      · exact absurd hm hv
    · rw [if_neg fun h => hu (dec hi2 h)]
      intro g4 hr4
      refine ⟨⟨fun h => (by cases h), fun h => absurd h.2 hv⟩, fun x hx hm => ?_, fun h => absurd h.2 hv⟩
      rcases hx with rfl | rfl
      · exact absurd hm hu
      · exact absurd hm hv

/-- Edge `k` is the first free edge at both its ends. -/
def LocMin (E : Nat → Nat × Nat) (m : Loc → Nat) (cur : List Nat) (k : Nat) : Prop :=
  k ∈ cur ∧ Free E m k ∧ ∀ j ∈ cur, Free E m j → Share E k j → k ≤ j

/-- One round: the free edges reserve, those that are first at both ends are matched, all reservations are withdrawn. -/
theorem round_effect {m m1 m2 : Loc → Nat} {cur : List Nat} {r c : Nat → Bool} (hR : ∀ x, m (.R x) = none32) (hn : cur.Nodup)
    (hb : ∀ i ∈ cur, i < none32) (h1 : (client E).rsv m cur r m1) (h2 : (client E).cmt m1 cur r c m2) :
    (∀ t i, cur[t]? = some i → (r t = true ↔ Free E m i) ∧ (c t = true ↔ LocMin E m cur i)) ∧
    (∀ x, m2 (.R x) = none32) ∧
    (∀ x, m2 (.mt x) ≠ 0 ↔ m (.mt x) ≠ 0 ∨ ∃ k, LocMin E m cur k ∧ End E k x) ∧
    (∀ k, m2 (.mk k) ≠ 0 ↔ m (.mk k) ≠ 0 ∨ LocMin E m cur k) := by
  obtain ⟨pm, pk, pv, pr⟩ := reserve_phase hR h1
  have hwin : ∀ k, k ∈ cur → (Win E m1 k ↔ LocMin E m cur k) := by
    intro k hk
    have hkb := hb k hk
    constructor
    · rintro ⟨hu, hv⟩
      refine ⟨hk, ?_, fun j hj hf ⟨x, hx1, hx2⟩ => ?_⟩
      · rcases pv (E k).1 with h | ⟨i, _, hf, _, he⟩
        · omega
        · rw [hu] at he; subst he; exact hf
      · obtain ⟨t, ht⟩ := List.mem_iff_getElem?.1 hj
        have := (pr t j ht).2 hf x hx2
        rcases hx1 with rfl | rfl <;> omega
    · rintro ⟨_, hf, hm⟩
      obtain ⟨t, ht⟩ := List.mem_iff_getElem?.1 hk
      have key : ∀ x, End E k x → m1 (.R x) = k := by
        intro x hx
        have h3 := (pr t k ht).2 hf x hx
        rcases pv x with h | ⟨i, hi, hfi, hei, he⟩
        · omega
        · have := hm i hi hfi ⟨x, hx, hei⟩
          omega
      exact ⟨key _ (Or.inl rfl), key _ (Or.inr rfl)⟩
  obtain ⟨g, hi, -, hp⟩ := safe_reach (crg E m1 cur hn) (fun t g b => ∀ i, cur[t]? = some i →
      (r t = false → b = false) ∧ (r t = true → (b = true ↔ Win E m1 i) ∧
        (∀ x, End E i x → m1 (.R x) = i → g (.R x) = none32) ∧
        (Win E m1 i → (∀ x, End E i x → g (.mt x) = 1) ∧ g (.mk i) = 1))) h2 m1
    ⟨fun _ => rfl, fun _ => Or.inl rfl, fun _ => Or.inl rfl, fun _ => Or.inl rfl⟩ (by
      intro t
      simp only []
      by_cases ht : t < cur.length ∧ r t = true
      · rw [if_pos ht]
        have he : cur.getD t 0 = cur[t]'ht.1 := by rw [List.getD_eq_getElem?_getD, List.getElem?_eq_getElem ht.1]; rfl
        have hq := List.getElem?_eq_getElem ht.1
        rw [he]
        have hb' := hb _ (List.getElem_mem ht.1)
        refine (commit_spec hq (by omega) ((pr t _ hq).1.1 ht.2).2.2).weaken fun b g hb i hi => ?_
        rw [hq, Option.some.injEq] at hi
        subst hi
        exact ⟨fun h => absurd (ht.2.symm.trans h) (by simp), fun _ => hb⟩
      · rw [if_neg ht]
        intro g _ i hi
        refine ⟨fun _ => rfl, fun h => absurd ⟨?_, h⟩ ht⟩
        by_contra hc
        rw [List.getElem?_eq_none (by omega)] at hi
        cases hi)
  have hpost : ∀ t i, cur[t]? = some i → _ := fun t i ht => hp t (c t) rfl i ht
  have hrt : ∀ k, Win E m1 k → k ∈ cur → ∃ t, cur[t]? = some k ∧ r t = true := by
    intro k hw hk
    obtain ⟨t, ht⟩ := List.mem_iff_getElem?.1 hk
    exact ⟨t, ht, (pr t k ht).1.2 ((hwin k hk).1 hw).2.1⟩
  refine ⟨fun t i ht => ⟨(pr t i ht).1, ?_⟩, fun x => ?_, fun x => ?_, fun k => ?_⟩
  · have hic : i ∈ cur := List.mem_iff_getElem?.2 ⟨t, ht⟩
    rw [← hwin i hic]
    by_cases hr : r t = true
    · exact ((hpost t i ht).2 hr).1
    · rw [(hpost t i ht).1 (by simpa using hr)]
      refine ⟨fun h => (by cases h), fun h => absurd ((pr t i ht).1.2 ((hwin i hic).1 h).2.1) hr⟩
  · show m2 (.R x) = none32
    have hm : m2 (.R x) = g (.R x) := hi.mem _
    rw [hm]
    rcases pv x with h | ⟨i, hic, hf, he, hx⟩
    · rcases hi.rsv x with h' | h'
      · rw [h', h]
      · exact h'
    · obtain ⟨t, ht⟩ := List.mem_iff_getElem?.1 hic
      exact ((hpost t i ht).2 ((pr t i ht).1.2 hf)).2.1 x he hx
  · have hm : m2 (.mt x) = g (.mt x) := hi.mem _
    rw [hm, ← pm x]
    constructor
    · intro h
      rcases hi.mt x with h' | ⟨_, i, hic, hw, he⟩
      · left; rw [← h']; exact h
      · exact Or.inr ⟨i, (hwin i hic).1 hw, he⟩
    · rintro (h | ⟨k, hk, he⟩)
      · rcases hi.mt x with h' | ⟨h', _⟩
        · rw [h']; exact h
        · rw [h']; simp
      · have hw := (hwin k hk.1).2 hk
        obtain ⟨t, ht, hr⟩ := hrt k hw hk.1
        rw [(((hpost t k ht).2 hr).2.2 hw).1 x he]; simp
  · have hm : m2 (.mk k) = g (.mk k) := hi.mem _
    rw [hm, ← pk k]
    constructor
    · intro h
      rcases hi.mark k with h' | ⟨_, hic, hw⟩
      · left; rw [← h']; exact h
      · exact Or.inr ((hwin k hic).1 hw)
    · rintro (h | hk)
      · rcases hi.mark k with h' | ⟨h', _⟩
        · rw [h']; exact h
        · rw [h']; simp
      · have hw := (hwin k hk.1).2 hk
        obtain ⟨t, ht, hr⟩ := hrt k hw hk.1
        rw [(((hpost t k ht).2 hr).2.2 hw).2]; simp

/-! ### The loop -/

structure LInv (E : Nat → Nat × Nat) (m0 : Nat → Prop) (st : Loc → Nat) (h : List Rec) : Prop where
  rn : ∀ x, st (.R x) = none32
  mt : ∀ x, st (.mt x) ≠ 0 ↔ m0 x ∨ ∃ k, st (.mk k) ≠ 0 ∧ End E k x
  dom : ∀ k, st (.mk k) ≠ 0 → Fin h k
  dec : ∀ i, Fin h i → (st (.mk i) ≠ 0 ↔ (E i).1 ≠ (E i).2 ∧ (∀ x, End E i x → ¬ m0 x) ∧
    ∀ j, j < i → st (.mk j) ≠ 0 → ¬ Share E i j)
  ord : ∀ k, st (.mk k) ≠ 0 → ∀ j, j < k → Share E k j → Fin h j
  prog : ∀ q ∈ h, ∃ x, q.finishes x

theorem free_iff {m0 : Nat → Prop} {st : Loc → Nat} {h : List Rec} (hL : LInv E m0 st h) (i : Nat) :
    Free E st i ↔ (E i).1 ≠ (E i).2 ∧ (∀ x, End E i x → ¬ m0 x) ∧ ∀ k, st (.mk k) ≠ 0 → ¬ Share E i k := by
  have key : Free E st i ↔ (E i).1 ≠ (E i).2 ∧ ∀ x, End E i x → ¬ st (.mt x) ≠ 0 := by
    constructor
    · rintro ⟨h1, h2, h3⟩
      refine ⟨h3, fun x hx => ?_⟩
      rcases hx with rfl | rfl
      · exact not_not_intro h1
      · exact not_not_intro h2
    · rintro ⟨h1, h2⟩
      exact ⟨not_not.1 (h2 _ (Or.inl rfl)), not_not.1 (h2 _ (Or.inr rfl)), h1⟩
  rw [key]
  refine and_congr_right fun _ => ⟨fun h => ⟨fun x hx hm => h x hx ((hL.mt x).2 (Or.inl hm)), ?_⟩, fun h x hx hm => ?_⟩
  · rintro k hk ⟨x, h1, h2⟩
    exact h x h1 ((hL.mt x).2 (Or.inr ⟨k, hk, h2⟩))
  · rcases (hL.mt x).1 hm with h' | ⟨k, hk, he⟩
    · exact h.1 x hx h'
    · exact h.2 k hk ⟨x, hx, he⟩

theorem Share.symm {i j : Nat} (h : Share E i j) : Share E j i := by
  obtain ⟨x, h1, h2⟩ := h
  exact ⟨x, h2, h1⟩

theorem LInv.step {m0 : Nat → Prop} {N : Nat} (hN : N ≤ none32) {st st1 st2 : Loc → Nat} {h : List Rec} {q : Rec}
    (hL : LInv E m0 st h) (hq : RoundOk 0 N h q) (h1 : (client E).rsv st q.cur q.r st1)
    (h2 : (client E).cmt st1 q.cur q.r q.c st2) : LInv E m0 st2 (h ++ [q]) := by
  have hn : q.cur.Nodup := hq.sorted.imp Nat.ne_of_lt
  obtain ⟨a1, a2, a3, a4⟩ := round_effect hL.rn hn (fun i hi => by have := (hq.range i hi).2; omega) h1 h2
  have hfin : ∀ x, q.finishes x ↔ x ∈ q.cur ∧ (Free E st x → LocMin E st q.cur x) := by
    intro x
    constructor
    · rintro ⟨t, ht, hr⟩
      obtain ⟨b1, b2⟩ := a1 t x ht
      refine ⟨List.mem_iff_getElem?.2 ⟨t, ht⟩, fun hf => ?_⟩
      rcases hr with hr | hr
      · rw [b1.2 hf] at hr; cases hr
      · exact b2.1 hr
    · rintro ⟨hx, hf⟩
      obtain ⟨t, ht⟩ := List.mem_iff_getElem?.1 hx
      obtain ⟨b1, b2⟩ := a1 t x ht
      refine ⟨t, ht, ?_⟩
      by_cases hr : q.r t = true
      · exact Or.inr (b2.2 (hf (b1.1 hr)))
      · exact Or.inl (by simpa using hr)
  have hlf : ∀ k, LocMin E st q.cur k → q.finishes k := fun k hk => (hfin k).2 ⟨hk.1, fun _ => hk⟩
  refine ⟨a2, fun x => ?_, fun k hk => ?_, fun i hi => ?_, fun k hk j hj hs => ?_, fun q' hq' => ?_⟩
  · rw [a3, hL.mt]
    constructor
    · rintro ((h | ⟨k, hk, he⟩) | ⟨k, hk, he⟩)
      · exact Or.inl h
      · exact Or.inr ⟨k, (a4 k).2 (Or.inl hk), he⟩
      · exact Or.inr ⟨k, (a4 k).2 (Or.inr hk), he⟩
    · rintro (h | ⟨k, hk, he⟩)
      · exact Or.inl (Or.inl h)
      · rcases (a4 k).1 hk with hk | hk
        · exact Or.inl (Or.inr ⟨k, hk, he⟩)
        · exact Or.inr ⟨k, hk, he⟩
  · rw [fin_snoc]
    rcases (a4 k).1 hk with hk | hk
    · exact Or.inl (hL.dom k hk)
    · exact Or.inr (hlf k hk)
  · rw [fin_snoc] at hi
    rcases hi with hi | hi
    · have hnl : ¬ LocMin E st q.cur i := fun hk => hq.fresh i hk.1 hi
      rw [a4, or_iff_left hnl, hL.dec i hi]
      refine and_congr_right fun e1 => and_congr_right fun e2 => ⟨fun hh j hj hm hs => ?_, fun hh j hj hm => ?_⟩
      · rcases (a4 j).1 hm with hm | hm
        · exact hh j hj hm hs
        · exact hq.fresh j hm.1 (hL.ord i ((hL.dec i hi).2 ⟨e1, e2, hh⟩) j hj hs)
      · exact hh j hj ((a4 j).2 (Or.inl hm))
    · obtain ⟨hic, hfl⟩ := (hfin i).1 hi
      have hnf := hq.fresh i hic
      by_cases hf : Free E st i
      · have hlm := hfl hf
        refine ⟨fun _ => ?_, fun _ => (a4 i).2 (Or.inr hlm)⟩
        obtain ⟨e1, e2, e3⟩ := (free_iff hL i).1 hf
        refine ⟨e1, e2, fun j hj hm hs => ?_⟩
        rcases (a4 j).1 hm with hm | hm
        · exact e3 j hm hs
        · have := hlm.2.2 j hm.1 hm.2.1 hs
          omega
      · have hnm : ¬ st2 (.mk i) ≠ 0 := fun h => by
          rcases (a4 i).1 h with h | h
          · exact hnf (hL.dom i h)
          · exact hf h.2.1
        refine ⟨fun h => absurd h hnm, fun ⟨e1, e2, e3⟩ => absurd ((free_iff hL i).2 ⟨e1, e2, fun k hk hs => ?_⟩) hf⟩
        rcases Nat.lt_trichotomy k i with hki | hki | hki
        · exact e3 k hki ((a4 k).2 (Or.inl hk)) hs
        · subst hki; exact hnf (hL.dom k hk)
        · exact hnf (hL.ord k hk i hki hs.symm)
  · rw [fin_snoc]
    rcases (a4 k).1 hk with hk | hk
    · exact Or.inl (hL.ord k hk j hj hs)
    · by_cases hfj : Fin h j
      · exact Or.inl hfj
      · have hjc := hq.order k hk.1 j (Nat.zero_le _) hj hfj
        refine Or.inr ((hfin j).2 ⟨hjc, fun hf => ?_⟩)
        have := hk.2.2 j hjc hf hs
        omega
  · rcases List.mem_append.1 hq' with hq' | hq'
    · exact hL.prog q' hq'
    · rw [List.mem_singleton] at hq'
      subst hq'
      cases hc : q'.cur with
      | nil => exact absurd hc hq.ne
      | cons x l =>
        refine ⟨x, (hfin x).2 ⟨by rw [hc]; exact List.mem_cons_self, fun hf => ⟨by rw [hc]; exact List.mem_cons_self, hf, ?_⟩⟩⟩
        intro j hj _ _
        have hs := hq.sorted
        rw [hc, List.pairwise_cons] at hs
        rw [hc] at hj
        rcases List.mem_cons.1 hj with rfl | hj
        · exact Nat.le_refl _
        · exact Nat.le_of_lt (hs.1 j hj)

/-! ### Theorems -/

/-- The memory before the loop: no reservations, no marks, `m0` matched. -/
structure Start (m0 : Nat → Prop) (st : Loc → Nat) : Prop where
  rn : ∀ x, st (.R x) = none32
  mt : ∀ x, st (.mt x) ≠ 0 ↔ m0 x
  mark : ∀ k, st (.mk k) = 0

variable {eff : Bool} {N g tries : Nat}

theorem match_inv {m0 : Nat → Prop} (hN : N ≤ none32) (hmx : maxSize 0 N g < 2147483648) {st0 : Loc → Nat} (h0 : Start m0 st0)
    {l : LS (Loc → Nat)} (h : Head (client E) eff 0 N g tries st0 l) : LInv E m0 l.st l.hist := by
  refine head_induct (P := fun st h => LInv E m0 st h) (Nat.zero_le _) hmx ?_ ?_ h
  · refine ⟨h0.rn, fun x => ?_, fun k hk => absurd (h0.mark k) hk, fun i hi => ?_, fun k hk => absurd (h0.mark k) hk, ?_⟩
    · rw [h0.mt]
      refine ⟨Or.inl, ?_⟩
      rintro (h | ⟨k, hk, _⟩)
      · exact h
      · exact absurd (h0.mark k) hk
    · obtain ⟨q, hq, _⟩ := hi
      cases hq
    · intro q hq; cases hq
  · intro st st1 st2 h q hP hq h1 h2
    exact hP.step hN hq h1 h2

/-- C43: when the loop ends, the marked edges are the greedy matching of the list; the matched flags are set for exactly its ends
(and the vertices matched before), and all reservations are withdrawn. -/
theorem match_greedy {m0 : Nat → Prop} (hN : N ≤ none32) (hmx : maxSize 0 N g < 2147483648) {st0 : Loc → Nat} (h0 : Start m0 st0)
    {l : LS (Loc → Nat)} (h : Head (client E) eff 0 N g tries st0 l) (hend : ¬ l.done < N) :
    IsGreedyM E m0 N (fun i => l.st (.mk i) ≠ 0) ∧ (∀ i, l.st (.mk i) ≠ 0 → i < N) ∧
    (∀ x, l.st (.mt x) ≠ 0 ↔ m0 x ∨ ∃ k, l.st (.mk k) ≠ 0 ∧ End E k x) ∧ ∀ x, l.st (.R x) = none32 := by
  have hL := match_inv hN hmx h0 h
  have hc := fun x => (spec_complete (Nat.zero_le _) hmx h hend x).1
  exact ⟨fun i hi => hL.dec i ((hc i).1 ⟨Nat.zero_le _, hi⟩), fun i hi => ((hc i).2 (hL.dom i hi)).2, hL.mt, hL.rn⟩

/-- The greedy matching is a matching, it avoids the vertices matched before, and it is maximal: every other edge of the list is a
loop, or meets such a vertex or a matched edge. -/
theorem greedy_maximal {m0 : Nat → Prop} {M : Nat → Prop} (h : IsGreedyM E m0 N M) :
    (∀ i j, i < N → j < N → M i → M j → i ≠ j → ¬ Share E i j) ∧
    (∀ i x, i < N → M i → End E i x → ¬ m0 x ∧ (E i).1 ≠ (E i).2) ∧
    ∀ i, i < N → ¬ M i → (E i).1 ≠ (E i).2 → (∃ x, End E i x ∧ m0 x) ∨ ∃ j, j < i ∧ M j ∧ Share E i j := by
  refine ⟨fun i j hi hj h1 h2 hne hs => ?_, fun i x hi hM hx => ?_, fun i hi hM hl => ?_⟩
  · rcases Nat.lt_or_gt_of_ne hne with hij | hij
    · exact ((h j hj).1 h2).2.2 i hij h1 hs.symm
    · exact ((h i hi).1 h1).2.2 j hij h2 hs
  · obtain ⟨e1, e2, _⟩ := (h i hi).1 hM
    exact ⟨e2 x hx, e1⟩
  · by_contra hc
    rw [not_or] at hc
    refine hM ((h i hi).2 ⟨hl, fun x hx hm => hc.1 ⟨x, hx, hm⟩, fun j hj hm hs => hc.2 ⟨j, hj, hm, hs⟩⟩)

/-- There is one greedy matching. -/
theorem greedy_unique {m0 : Nat → Prop} {M M' : Nat → Prop} (h : IsGreedyM E m0 N M) (h' : IsGreedyM E m0 N M') (i : Nat)
    (hi : i < N) : M i ↔ M' i := by
  induction i using Nat.strongRecOn with
  | _ i ih =>
    rw [h i hi, h' i hi]
    refine and_congr_right fun _ => and_congr_right fun _ => ?_
    exact ⟨fun hh j hj hm => hh j hj ((ih j hj (by omega)).2 hm), fun hh j hj hm => hh j hj ((ih j hj (by omega)).1 hm)⟩

/-- Every round finishes an edge, so there are at most `N` of them: no abort if `N ≤ tries + 1`. -/
theorem match_rounds {m0 : Nat → Prop} (hN : N ≤ none32) (hmx : maxSize 0 N g < 2147483648) {st0 : Loc → Nat} (h0 : Start m0 st0)
    {l : LS (Loc → Nat)} (h : Head (client E) eff 0 N g tries st0 l) :
    l.hist.length ≤ N ∧ (N ≤ tries + 1 → ¬ Aborts N tries l) :=
  spec_progress (Nat.zero_le _) hmx h (match_inv hN hmx h0 h).prog

/-- `eff_for<uintE>(mStep, 0, edges.size(), 50, 0, G.n)`, `MaximalMatching.h:223`: with more than `n + 1` but fewer than 50 edges
the loop never completes; every execution that does not fail otherwise aborts. -/
theorem matching_call_aborts {n : Nat} (h1 : N < 50) (h2 : n + 1 < N) {st0 : Loc → Nat} {l : LS (Loc → Nat)}
    (h : Head (client E) true 0 N 50 n st0 l) : l.done < N :=
  small_range_aborts (by omega) (by rw [maxSize, Nat.div_eq_of_lt (by omega)]; omega) (by omega) h

/-- The same call completes whenever there are at most `n + 1` edges. -/
theorem matching_call_partial {n : Nat} {m0 : Nat → Prop} (h2 : N ≤ n + 1) (hN : N ≤ none32) {st0 : Loc → Nat} (h0 : Start m0 st0)
    {l : LS (Loc → Nat)} (h : Head (client E) true 0 N 50 n st0 l) : ¬ Aborts N n l :=
  (match_rounds hN (by rw [maxSize, none32] at *; omega) h0 h).2 h2

end

/-! ### Examples -/

theorem run_other {c : Conf Nat Loc Nat Bool} {l : List Nat} {i : Nat} (h : i ∉ l) : (run c l).th i = c.th i := by
  induction l generalizing c with
  | nil => rfl
  | cons j l ih =>
    have h1 : i ≠ j := fun e => h (e ▸ List.mem_cons_self)
    have h2 : i ∉ l := fun e => h (List.mem_cons_of_mem _ e)
    rw [run]
    split
    · exact ih h2
    · rw [ih h2]; exact if_neg h1

def isRet : Prog Loc Nat Bool → Option Bool
  | .ret b => some b
  | _ => none

/-- The configurations of the two loops. -/
def c1 (E : Nat → Nat × Nat) (m : Loc → Nat) (cur : List Nat) : Conf Nat Loc Nat Bool :=
  ⟨m, fun i => if i < cur.length then reserve 9 E (cur.getD i 0) else ret true⟩

def c2 (E : Nat → Nat × Nat) (m : Loc → Nat) (cur : List Nat) (r : Nat → Bool) : Conf Nat Loc Nat Bool :=
  ⟨m, fun i => if i < cur.length ∧ r i = true then commit E (cur.getD i 0) else ret false⟩

/-- Results of a run. -/
def res (c : Conf Nat Loc Nat Bool) (i : Nat) : Bool := (isRet (c.th i)).getD false

theorem steps_of_run {c : Conf Nat Loc Nat Bool} {k : Nat} {b : Bool} (sch : List Nat) (hs : ∀ i ∈ sch, i < k)
    (h1 : ∀ i, k ≤ i → c.th i = ret b) (h2 : ∀ i, i < k → (isRet ((run c sch).th i)).isSome) :
    Steps Step c ⟨(run c sch).mem, fun i => ret (res (run c sch) i)⟩ := by
  have h := run_steps c sch
  have he : run c sch = ⟨(run c sch).mem, fun i => ret (res (run c sch) i)⟩ := by
    have : (run c sch).th = fun i => ret (res (run c sch) i) := by
      funext i
      have key : (isRet ((run c sch).th i)).isSome := by
        by_cases hi : i < k
        · exact h2 i hi
        · rw [run_other fun hm => hi (hs i hm), h1 i (by omega)]; rfl
      rw [res]
      generalize (run c sch).th i = p at key
      cases p <;> simp_all [isRet]
    rw [← this]
  rw [he] at h
  exact h

theorem rsv_run {E : Nat → Nat × Nat} {m : Loc → Nat} {cur : List Nat} (sch : List Nat) (hs : ∀ i ∈ sch, i < cur.length)
    (h2 : ∀ i, i < cur.length → (isRet ((run (c1 E m cur) sch).th i)).isSome) :
    (client E).rsv m cur (res (run (c1 E m cur) sch)) (run (c1 E m cur) sch).mem :=
  ⟨9, steps_of_run sch hs (b := true) (fun _ hi => if_neg (by omega)) h2⟩

theorem cmt_run {E : Nat → Nat × Nat} {m : Loc → Nat} {cur : List Nat} {r : Nat → Bool} (sch : List Nat) (hs : ∀ i ∈ sch, i < cur.length)
    (h2 : ∀ i, i < cur.length → (isRet ((run (c2 E m cur r) sch).th i)).isSome) :
    (client E).cmt m cur r (res (run (c2 E m cur r) sch)) (run (c2 E m cur r) sch).mem :=
  steps_of_run sch hs (b := false) (fun _ hi => if_neg (by omega)) h2

/-- The path 1-2, 0-1, 2-3 (in this order). -/
def exE (i : Nat) : Nat × Nat := if i = 0 then (1, 2) else if i = 1 then (0, 1) else (2, 3)

def exM : Loc → Nat
  | .R _ => none32
  | _ => 0

theorem exM_start : Start (fun _ => False) exM := ⟨fun _ => rfl, fun _ => by simp [exM], fun _ => rfl⟩

/-- Three threads, interleaved in reverse; the first edge wins, the others are discarded in the second round. -/
def exS : List Nat := (List.replicate 9 [2, 1, 0]).flatten
def exS2 : List Nat := (List.replicate 9 [1, 0]).flatten

def exA := run (c1 exE exM [0, 1, 2]) exS
def exB := run (c2 exE exA.mem [0, 1, 2] (res exA)) exS
def exA' := run (c1 exE exB.mem [1, 2]) exS2
def exB' := run (c2 exE exA'.mem [1, 2] (res exA')) exS2

theorem ex_head : Head (client exE) true 0 3 1 3 exM
    ⟨exB'.mem, [], 3, 4, 2, 5, [⟨[0, 1, 2], res exA, res exB⟩, ⟨[1, 2], res exA', res exB'⟩]⟩ := by
  have h1 : Head (client exE) true 0 3 1 3 exM ⟨exB.mem, [1, 2], 1, 4, 1, 3, [⟨[0, 1, 2], res exA, res exB⟩]⟩ :=
    .step .init (.mk (r := res exA) (c := res exB) (shrink := false) (grow := false) (by decide) (by decide)
      (rsv_run exS (by decide) (by decide)) (cmt_run exS (by decide) (by decide)))
  exact .step h1 (.mk (r := res exA') (c := res exB') (shrink := false) (grow := false) (by decide) (by decide)
      (rsv_run exS2 (by decide) (by decide)) (cmt_run exS2 (by decide) (by decide)))

/-- The theorem applied: exactly edge 0 is marked. -/
example : IsGreedyM exE (fun _ => False) 3 (fun i => exB'.mem (.mk i) ≠ 0) :=
  (match_greedy (by decide) (by decide) exM_start ex_head (by decide)).1

example : exB'.mem (.mk 0) = 1 ∧ exB'.mem (.mk 1) = 0 ∧ exB'.mem (.mk 2) = 0 := by decide

/-- The complete graph on 4 vertices: `n = 4`, six edges; the call cannot complete. -/
example (E : Nat → Nat × Nat) {l : LS (Loc → Nat)} (h : Head (client E) true 0 6 50 4 exM l) : l.done < 6 :=
  matching_call_aborts (by decide) (by decide) h

end Gbbs.Match
