/-
One `edgeMap` with the relaxation client of Bellman-Ford (`BF_F`,
`benchmarks/GeneralWeightSSSP/BellmanFord/BellmanFord.h:28-60`) under every interleaving.
-/
import Verif.EdgeMap.Rounds

namespace Gbbs.Relax

open Conc Conc.Prog Em
open Atomics (Steps)

/-! ### Model -/

/-- Locations: `SP[d]`, `Visited[d]`. -/
inductive Loc
  | sp (d : Nat)
  | vis (d : Nat)
  deriving DecidableEq

abbrev P (α : Type) := Prog Loc Int α

/-- `write_min`, `bridge.h:300-308`; at most `f` iterations are considered (a longer run is `stuck`). -/
def writeMin {L V : Type} [LT V] [DecidableLT V] : Nat → L → V → Prog L V Bool
  | 0, _, _ => stuck
  | f + 1, a, b => read a fun c => if b < c then cas a c b fun r => if r then ret true else writeMin f a b
      else ret false

/-- `BF_F`, `BellmanFord.h:28-60`. Distances are mathematical integers (see `hB` in C33 for the range). -/
def bfF (f : Nat) : Func Int Loc Int Unit where
  cond _ := ret true
  upd s d w := read (.sp s) fun x => read (.sp d) fun y =>
    if y > x + w then write (.sp d) (x + w) (read (.vis d) fun v =>
      if v = 0 then write (.vis d) 1 (ret (some ())) else ret none)
    else ret none
  updA s d w := read (.sp s) fun x => (writeMin f (.sp d) (x + w)).bind fun r =>
    if r then cas (.vis d) 0 1 fun r => ret (if r then some () else none) else ret none

/-! ### Verification -/

/-- Ghost state: distances, who set the flag of a vertex, and the vertex a thread has lowered without
having tried its flag yet. -/
structure BGh where
  sp : Nat → Int
  own : Nat → Option (Nat × Nat)
  pend : Nat × Nat → Option Nat

structure BInv (inf : Int) (sp0 : Nat → Int) (Good : Nat → Int → Prop) (g : BGh) (m : Loc → Int) : Prop where
  sp : ∀ d, m (.sp d) = g.sp d
  vis : ∀ d, m (.vis d) = if g.own d = none then 0 else 1
  le : ∀ d, g.sp d ≤ sp0 d
  good : ∀ d, g.sp d < inf → Good d (g.sp d)
  own : ∀ d i, g.own d = some i → g.sp d < sp0 d
  low : ∀ d, g.sp d < sp0 d → g.own d ≠ none ∨ ∃ i, g.pend i = some d

def brg (inf : Int) (sp0 : Nat → Int) (Good : Nat → Int → Prop) (may : Nat × Nat → Nat → Prop) :
    RG (Nat × Nat) BGh Loc Int where
  Inv := BInv inf sp0 Good
  R i g g' := (∀ d, g'.sp d ≤ g.sp d) ∧ (∀ d, g'.own d = some i ↔ g.own d = some i) ∧ g'.pend i = g.pend i ∧
    ∀ d, Excl may i d → g'.sp d = g.sp d ∧ g'.own d = g.own d
  Gu i g g' := (∀ d, g'.sp d ≤ g.sp d) ∧ (∀ d j, j ≠ i → (g'.own d = some j ↔ g.own d = some j)) ∧
    (∀ j, j ≠ i → g'.pend j = g.pend j) ∧ ∀ d, ¬ (g'.sp d = g.sp d ∧ g'.own d = g.own d) → may i d
  refl _ _ := ⟨fun _ => Int.le_refl _, fun _ => Iff.rfl, rfl, fun _ _ => ⟨rfl, rfl⟩⟩
  trans i g g' g'' h1 h2 := ⟨fun d => Int.le_trans (h2.1 d) (h1.1 d), fun d => (h2.2.1 d).trans (h1.2.1 d),
    h2.2.2.1.trans h1.2.2.1, fun d hd => ⟨(h2.2.2.2 d hd).1.trans (h1.2.2.2 d hd).1,
      (h2.2.2.2 d hd).2.trans (h1.2.2.2 d hd).2⟩⟩
  compat i j g g' hne h := ⟨h.1, fun d => h.2.1 d j (Ne.symm hne), h.2.2.1 j (Ne.symm hne), fun d hd => by
    by_contra hc
    exact hd i hne (h.2.2.2 d hc)⟩

def BT {D : Type} (i : Nat × Nat) (g : BGh) (l : List (Nat × D)) : Prop :=
  (l.map Prod.fst).Nodup ∧ (∀ d, d ∈ l.map Prod.fst ↔ g.own d = some i) ∧ g.pend i = none

/-- As `BT`, possibly with the obligation to try the flag of `d`. -/
def BTp {D : Type} (d : Nat) (i : Nat × Nat) (g : BGh) (l : List (Nat × D)) : Prop :=
  (l.map Prod.fst).Nodup ∧ (∀ d, d ∈ l.map Prod.fst ↔ g.own d = some i) ∧ (g.pend i = none ∨ g.pend i = some d)

/-- Thread `i` lowers `d`. -/
def BGh.lower (g : BGh) (i : Nat × Nat) (d : Nat) (x : Int) : BGh :=
  ⟨fun y => if y = d then x else g.sp y, g.own, fun j => if j = i then some d else g.pend j⟩

/-- Thread `i` sets the flag of `d`. -/
def BGh.flag (g : BGh) (i : Nat × Nat) (d : Nat) : BGh :=
  ⟨g.sp, fun y => if y = d then some i else g.own y, fun j => if j = i then none else g.pend j⟩

/-- Thread `i` found the flag set. -/
def BGh.pass (g : BGh) (i : Nat × Nat) : BGh :=
  ⟨g.sp, g.own, fun j => if j = i then none else g.pend j⟩

section
variable {D : Type} {inf : Int} {sp0 : Nat → Int} {Good : Nat → Int → Prop} {may : Nat × Nat → Nat → Prop}

theorem brg_gu_refl (i : Nat × Nat) (g : BGh) : (brg inf sp0 Good may).Gu i g g :=
  ⟨fun _ => Int.le_refl _, fun _ _ _ => Iff.rfl, fun _ _ => rfl, fun _ h => absurd ⟨rfl, rfl⟩ h⟩

theorem BT.stable {i : Nat × Nat} {g g' : BGh} {l : List (Nat × D)} (hr : (brg inf sp0 Good may).R i g g')
    (h : BT i g l) : BT i g' l :=
  ⟨h.1, fun d => (h.2.1 d).trans (hr.2.1 d).symm, hr.2.2.1.trans h.2.2⟩

theorem BTp.stable {d : Nat} {i : Nat × Nat} {g g' : BGh} {l : List (Nat × D)}
    (hr : (brg inf sp0 Good may).R i g g') (h : BTp d i g l) : BTp d i g' l :=
  ⟨h.1, fun d => (h.2.1 d).trans (hr.2.1 d).symm, h.2.2.imp hr.2.2.1.trans hr.2.2.1.trans⟩

theorem BT.toP {d : Nat} {i : Nat × Nat} {g : BGh} {l : List (Nat × D)} (h : BT i g l) : BTp d i g l :=
  ⟨h.1, h.2.1, Or.inl h.2.2⟩

theorem lower_ok {i : Nat × Nat} {g : BGh} {m : Loc → Int} (hi : BInv inf sp0 Good g m) {d : Nat} {x : Int}
    (hm : may i d) (hx : x < m (.sp d)) (hgood : Good d x) {l : List (Nat × D)} (hT : BT i g l) :
    (brg inf sp0 Good may).Gu i g (g.lower i d x) ∧ BInv inf sp0 Good (g.lower i d x) (put m (.sp d) x) ∧
    BTp d i (g.lower i d x) l ∧ (g.lower i d x).sp d = x := by
  rw [hi.sp] at hx
  have hle := hi.le d
  refine ⟨⟨fun y => ?_, fun _ _ _ => Iff.rfl, fun j hj => ?_, fun y hy => ?_⟩,
    ⟨fun y => ?_, fun y => ?_, fun y => ?_, fun y => ?_, fun y j hy => ?_, fun y hy => ?_⟩,
    ⟨hT.1, hT.2.1, ?_⟩, ?_⟩
  · by_cases h : y = d
    · subst h; simp only [BGh.lower, if_true]; omega
    · simp [BGh.lower, h]
  · simp [BGh.lower, hj]
  · by_cases h : y = d
    · subst h; exact hm
    · simp [BGh.lower, h] at hy
  · by_cases h : y = d
    · subst h; rw [put_same]; simp [BGh.lower]
    · rw [put_ne _ _ (by simpa using h)]; simp [BGh.lower, h, hi.sp]
  · rw [put_ne _ _ (by simp)]; exact hi.vis y
  · by_cases h : y = d
    · subst h; simp only [BGh.lower, if_true]; omega
    · simp only [BGh.lower, h, if_false]; exact hi.le y
  · by_cases h : y = d
    · subst h; simp only [BGh.lower, if_true]; exact fun _ => hgood
    · simp only [BGh.lower, h, if_false]; exact hi.good y
  · have := hi.own y j hy
    by_cases h : y = d
    · subst h; simp only [BGh.lower, if_true]; omega
    · simp only [BGh.lower, h, if_false]; exact this
  · by_cases h : y = d
    · subst h; exact Or.inr ⟨i, by simp [BGh.lower]⟩
    · simp only [BGh.lower, h, if_false] at hy
      rcases hi.low y hy with h1 | ⟨j, h1⟩
      · exact Or.inl h1
      · refine Or.inr ⟨j, ?_⟩
        have : j ≠ i := by rintro rfl; rw [hT.2.2] at h1; cases h1
        simp [BGh.lower, this, h1]
  · simp [BGh.lower]
  · simp [BGh.lower]

theorem flag_ok {i : Nat × Nat} {g : BGh} {m : Loc → Int} (hi : BInv inf sp0 Good g m) {d : Nat}
    (hm : may i d) (hlow : g.sp d < sp0 d) (hv : m (.vis d) = 0) (x : D) {l : List (Nat × D)} (hT : BTp d i g l) :
    (brg inf sp0 Good may).Gu i g (g.flag i d) ∧ BInv inf sp0 Good (g.flag i d) (put m (.vis d) 1) ∧
    BT i (g.flag i d) ((d, x) :: l) := by
  have hno : g.own d = none := by
    by_contra h
    rw [hi.vis, if_neg h] at hv; omega
  refine ⟨⟨fun _ => Int.le_refl _, fun y j hj => ?_, fun j hj => ?_, fun y hy => ?_⟩,
    ⟨fun y => ?_, fun y => ?_, hi.le, hi.good, fun y j hy => ?_, fun y hy => ?_⟩, ⟨?_, fun y => ?_, ?_⟩⟩
  · by_cases h : y = d
    · subst h; simp [BGh.flag, hno, Ne.symm hj]
    · simp [BGh.flag, h]
  · simp [BGh.flag, hj]
  · by_cases h : y = d
    · subst h; exact hm
    · simp [BGh.flag, h] at hy
  · rw [put_ne _ _ (by simp)]; exact hi.sp y
  · by_cases h : y = d
    · subst h; rw [put_same]; simp [BGh.flag]
    · rw [put_ne _ _ (by simpa using h), hi.vis]; simp [BGh.flag, h]
  · by_cases h : y = d
    · subst h; exact hlow
    · simp only [BGh.flag, h, if_false] at hy; exact hi.own y j hy
  · by_cases h : y = d
    · subst h; exact Or.inl (by simp [BGh.flag])
    · rcases hi.low y hy with h1 | ⟨j, h1⟩
      · exact Or.inl (by simpa [BGh.flag, h] using h1)
      · refine Or.inr ⟨j, ?_⟩
        have : j ≠ i := by
          rintro rfl
          rcases hT.2.2 with h2 | h2
          · rw [h2] at h1; cases h1
          · rw [h2] at h1; exact h (Option.some.inj h1).symm
        simp [BGh.flag, this, h1]
  · rw [List.map_cons, List.nodup_cons]
    refine ⟨fun hin => ?_, hT.1⟩
    have := (hT.2.1 _).1 hin
    rw [hno] at this; cases this
  · rw [List.map_cons, List.mem_cons, hT.2.1]
    by_cases h : y = d <;> simp [BGh.flag, h]
  · simp [BGh.flag]

theorem pass_ok {i : Nat × Nat} {g : BGh} {m : Loc → Int} (hi : BInv inf sp0 Good g m) {d : Nat}
    (hv : m (.vis d) ≠ 0) {l : List (Nat × D)} (hT : BTp d i g l) :
    (brg inf sp0 Good may).Gu i g (g.pass i) ∧ BInv inf sp0 Good (g.pass i) m ∧ BT i (g.pass i) l := by
  have hno : g.own d ≠ none := by
    intro h
    rw [hi.vis, if_pos h] at hv; omega
  refine ⟨⟨fun _ => Int.le_refl _, fun _ _ _ => Iff.rfl, fun j hj => by simp [BGh.pass, hj],
    fun y hy => absurd ⟨rfl, rfl⟩ hy⟩, ⟨hi.sp, hi.vis, hi.le, hi.good, hi.own, fun y hy => ?_⟩,
    ⟨hT.1, hT.2.1, by simp [BGh.pass]⟩⟩
  rcases hi.low y hy with h1 | ⟨j, h1⟩
  · exact Or.inl h1
  · by_cases hj : j = i
    · subst hj
      rcases hT.2.2 with h2 | h2
      · rw [h2] at h1; cases h1
      · rw [h2] at h1
        obtain rfl := Option.some.inj h1
        exact Or.inl hno
    · exact Or.inr ⟨j, by simp [BGh.pass, hj, h1]⟩

theorem writeMin_spec (f : Nat) {i : Nat × Nat} {d : Nat} {x : Int} (hm : may i d) (hgood : Good d x)
    {l : List (Nat × D)} (g : BGh) (hT : BT i g l) :
    Safe (brg inf sp0 Good may) i (fun g r => g.sp d ≤ x ∧
      if r then BTp d i g l ∧ g.sp d < sp0 d else BT i g l) (writeMin f (.sp d) x) g := by
  induction f generalizing g with
  | zero => trivial
  | succ f ih =>
    intro g1 m1 hr1 hi1
    have hT1 := hT.stable hr1
    refine ⟨g1, brg_gu_refl _ _, hi1, ?_⟩
    beta_reduce
    by_cases hx : x < m1 (.sp d)
    · rw [if_pos hx]
      intro g2 m2 hr2 hi2
      have hT2 := hT1.stable hr2
      refine ⟨fun he => ?_, fun _ => ⟨g2, brg_gu_refl _ _, hi2, ih g2 hT2⟩⟩
      obtain ⟨h1, h2, h3, h4⟩ := lower_ok hi2 hm (by rw [he]; exact hx) hgood hT2
      have hlt : x < sp0 d := by
        have := hi1.le d
        rw [hi1.sp] at hx; omega
      refine ⟨_, h1, h2, ?_⟩
      intro g3 hr3
      have := hr3.1 d
      rw [h4] at this
      refine ⟨this, ?_⟩
      rw [if_pos rfl]
      exact ⟨h3.stable hr3, by omega⟩
    · rw [if_neg hx]
      intro g2 hr2
      have := hr2.1 d
      rw [hi1.sp] at hx
      refine ⟨by omega, ?_⟩
      rw [if_neg (by simp)]
      exact hT1.stable hr2

/-- The relaxation client. -/
theorem bf_spec (f : Nat) (inf : Int) (sp0 : Nat → Int) (Good : Nat → Int → Prop) (Ac : Edge Int → Prop)
    (hfin : ∀ e, Ac e → sp0 e.s < inf) (hgood : ∀ e x, Ac e → Good e.s x → Good e.d (x + e.w)) :
    FSpec (brg inf sp0 Good) (bfF f) Ac BT (fun g e => g.sp e.d ≤ sp0 e.s + e.w) where
  keep may i e := ⟨fun g g' hr h => Int.le_trans (hr.1 _) h, fun g g' hr h => Int.le_trans (hr.1 _) h⟩
  stable may i l g g' hr h := h.stable hr
  cond may i l g d hT := fun g' hr => ⟨hT.stable hr, fun h => by cases h⟩
  updA may i l g e he hm hT := by
    intro g1 m1 hr1 hi1
    have hT1 := hT.stable hr1
    refine ⟨g1, brg_gu_refl _ _, hi1, ?_⟩
    have hle : m1 (.sp e.s) ≤ sp0 e.s := by rw [hi1.sp]; exact hi1.le _
    have hg : Good e.d (m1 (.sp e.s) + e.w) := by
      refine hgood e _ he ?_
      rw [hi1.sp]
      refine hi1.good _ ?_
      have := hfin e he
      rw [hi1.sp] at hle; omega
    refine (writeMin_spec f hm hg g1 hT1).bind fun r g2 h2 => ?_
    cases r with
    | false => exact fun g3 hr3 => ⟨BT.stable (l := l) hr3 (by simpa using h2.2), by have := hr3.1 e.d; omega⟩
    | true =>
      have h2' : BTp e.d i g2 l ∧ g2.sp e.d < sp0 e.d := by simpa using h2.2
      rw [if_pos rfl]
      intro g3 m3 hr3 hi3
      have hsp := hr3.1 e.d
      refine ⟨fun hv => ?_, fun hv => ?_⟩
      · obtain ⟨h1, h3, h4⟩ := flag_ok hi3 hm (by omega) hv () (h2'.1.stable hr3)
        refine ⟨_, h1, h3, fun g4 hr4 => ⟨h4.stable hr4, ?_⟩⟩
        have := hr4.1 e.d
        have : (g3.flag i e.d).sp e.d = g3.sp e.d := rfl
        omega
      · obtain ⟨h1, h3, h4⟩ := pass_ok hi3 hv (h2'.1.stable hr3)
        refine ⟨_, h1, h3, fun g4 hr4 => ⟨h4.stable hr4, ?_⟩⟩
        have := hr4.1 e.d
        have : (g3.pass i).sp e.d = g3.sp e.d := rfl
        omega
  upd may i l g e he hm hx hT := by
    intro g1 m1 hr1 hi1
    have hT1 := hT.stable hr1
    refine ⟨g1, brg_gu_refl _ _, hi1, ?_⟩
    have hle : m1 (.sp e.s) ≤ sp0 e.s := by rw [hi1.sp]; exact hi1.le _
    have hg : Good e.d (m1 (.sp e.s) + e.w) := by
      refine hgood e _ he ?_
      rw [hi1.sp]
      refine hi1.good _ ?_
      have := hfin e he
      rw [hi1.sp] at hle; omega
    intro g2 m2 hr2 hi2
    have hT2 := hT1.stable hr2
    refine ⟨g2, brg_gu_refl _ _, hi2, ?_⟩
    beta_reduce
    by_cases hgt : m2 (.sp e.d) > m1 (.sp e.s) + e.w
    · rw [if_pos hgt]
      intro g3 m3 hr3 hi3
      have hsp3 : m3 (.sp e.d) = m2 (.sp e.d) := by rw [hi3.sp, hi2.sp]; exact (hr3.2.2.2 _ hx).1
      obtain ⟨h1, h2, h3, h4⟩ := lower_ok hi3 hm (by rw [hsp3]; exact hgt) hg (hT2.stable hr3)
      have hlt : m1 (.sp e.s) + e.w < sp0 e.d := by
        have := hi2.le e.d
        rw [hi2.sp] at hgt; omega
      refine ⟨_, h1, h2, ?_⟩
      intro g4 m4 hr4 hi4
      have hsp4 := hr4.1 e.d
      rw [h4] at hsp4
      by_cases hv : m4 (.vis e.d) = 0
      · refine ⟨g4, brg_gu_refl _ _, hi4, ?_⟩
        beta_reduce
        rw [if_pos hv]
        intro g5 m5 hr5 hi5
        have hsp5 := hr5.1 e.d
        have hv5 : m5 (.vis e.d) = 0 := by
          rw [hi5.vis, (hr5.2.2.2 _ hx).2, ← hi4.vis]; exact hv
        obtain ⟨k1, k2, k3⟩ := flag_ok hi5 hm (by omega) hv5 () ((h3.stable hr4).stable hr5)
        refine ⟨_, k1, k2, fun g6 hr6 => ⟨k3.stable hr6, ?_⟩⟩
        have := hr6.1 e.d
        have : (g5.flag i e.d).sp e.d = g5.sp e.d := rfl
        omega
      · obtain ⟨k1, k2, k3⟩ := pass_ok hi4 hv (h3.stable hr4)
        refine ⟨_, k1, k2, ?_⟩
        beta_reduce
        rw [if_neg hv]
        intro g6 hr6
        refine ⟨k3.stable hr6, ?_⟩
        have := hr6.1 e.d
        have : (g4.pass i).sp e.d = g4.sp e.d := rfl
        omega
    · rw [if_neg hgt]
      intro g3 hr3
      have := hr3.1 e.d
      rw [hi2.sp] at hgt
      exact ⟨hT2.stable hr3, by omega⟩
end

end Gbbs.Relax
