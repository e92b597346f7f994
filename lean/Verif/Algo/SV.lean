/-
C69, C70: Shiloach-Vishkin connectivity, `benchmarks/Connectivity/ShiloachVishkin/Connectivity.h`.
-/
import Verif.Conc.Par
import Verif.Algo.Relax
import Verif.Algo.UGraph
import Verif.Algo.Components
import Mathlib.Data.Finset.Card
import Mathlib.Data.Finset.Range
import Mathlib.Tactic.FinCases

namespace Gbbs.SV

open Conc Conc.Prog Comp
open Atomics (Steps)
open Relax (writeMin)

/-! ### Model of `compute_components` -/

/-- `map_f`, `Connectivity.h:83-94`, over some edges. `prev_parents` is not written during this loop and is a
parameter. The shared `changed` is only ever set, to `true`; the thread returns whether it executed that branch.
`writeMin f` is bounded by `f` iterations. -/
def hook (f : Nat) (prev : Nat → Nat) : List (Nat × Nat) → Bool → Prog Nat Nat Bool
  | [], c => ret c
  | e :: es, c =>
    let l := min (prev e.1) (prev e.2)
    let h := max (prev e.1) (prev e.2)
    if l ≠ h ∧ h = prev h then (writeMin f h l).bind fun _ => hook f prev es true
    else hook f prev es c

/-- One iteration of `while (changed)`, `Connectivity.h:75-108`. The edges `E` are distributed over threads in any
way. `prev_parents[u]` is written by thread `u` of the second loop only and not read in it: it is the value
returned by the thread. The returned flag is the final `changed`. -/
def Round (n : Nat) (E : Nat × Nat → Prop) (P prev P2 prev2 : Nat → Nat) (ch : Bool) : Prop :=
  ∃ (part : Nat → List (Nat × Nat)) (f f2 : Nat) (P1 : Nat → Nat) (c : Nat → Bool) (out : Nat → Option Nat),
    (∀ e, (∃ i, e ∈ part i) ↔ E e) ∧
    Par (fun i => hook f prev (part i) false) P P1 c ∧
    (ch = true ↔ ∃ i, c i = true) ∧
    Par (fun u => if decide (u < n) then compress f2 u else ret none) P1 P2 out ∧
    (∀ u, u < n → ∃ r, out u = some r ∧ prev2 u = r) ∧ ∀ u, n ≤ u → prev2 u = prev u

/-- The loop; the index counts the iterations. -/
inductive Loop (n : Nat) (E : Nat × Nat → Prop) : Nat → (Nat → Nat) → (Nat → Nat) → (Nat → Nat) → Prop
  | last {P prev P2 prev2} (h : Round n E P prev P2 prev2 false) : Loop n E 1 P prev P2
  | more {k P prev P2 prev2 P'} (h : Round n E P prev P2 prev2 true) (hl : Loop n E k P2 prev2 P') :
      Loop n E (k + 1) P prev P'

/-- `compute_components<sampling_option>(parents, frequent_comp)` after `initialize(parents)`,
`Connectivity.h:39-110`, on the labels `P0`. `frq` is `none` without sampling; otherwise only the vertices not
labelled with it are processed. -/
def Components (G : UG) (frq : Option Nat) (P0 : Nat → Nat) (k : Nat) (par : Nat → Nat) : Prop :=
  Loop G.n (fun e => e.1 < G.n ∧ (∀ c, frq = some c → P0 e.1 ≠ c) ∧ e.2 ∈ G.nb e.1) k P0 P0 par

/-! ### Specification -/

def Adj (G : UG) (u v : Nat) : Prop := v ∈ G.nb u

/-- What the sampling has to provide. -/
abbrev Start (G : UG) (P0 : Nat → Nat) : Prop := Comp.Start G.n (Adj G) P0

theorem UG_symm {G : UG} (hG : G.Sym) {u v : Nat} (h : Adj G u v) : Adj G v u := by
  have := hG.sym u v
  have h1 := List.count_pos_iff.2 h
  exact List.count_pos_iff.1 (this ▸ h1)

theorem UG_lt {G : UG} (hG : G.Sym) {u v : Nat} (h : Adj G u v) : v < G.n := (hG.bound u v h).2

/-! ### Hooking -/

/-- Values written while hooking. -/
def HInv (E : Nat × Nat → Prop) (P m : Nat → Nat) : Prop :=
  ∀ x, m x = P x ∨ P x = x ∧ ∃ e, E e ∧ max (P e.1) (P e.2) = x ∧ min (P e.1) (P e.2) = m x ∧ m x < x

def hRG (E : Nat × Nat → Prop) (P : Nat → Nat) : RG Nat (Nat → Nat) Nat Nat where
  Inv g m := g = m ∧ HInv E P m
  R _ g g' := ∀ x, g' x ≤ g x
  Gu _ g g' := ∀ x, g' x ≤ g x
  refl _ _ _ := Nat.le_refl _
  trans _ _ _ _ h1 h2 x := Nat.le_trans (h2 x) (h1 x)
  compat _ _ _ _ _ h := h

theorem writeMin_safe {E : Nat × Nat → Prop} {P : Nat → Nat} (f i : Nat) {e : Nat × Nat} (he : E e)
    (hr : P (max (P e.1) (P e.2)) = max (P e.1) (P e.2)) (hne : P e.1 ≠ P e.2) (g : Nat → Nat) :
    Safe (hRG E P) i (fun g _ => g (max (P e.1) (P e.2)) ≤ min (P e.1) (P e.2))
      (writeMin f (max (P e.1) (P e.2)) (min (P e.1) (P e.2))) g := by
  induction f generalizing g with
  | zero => trivial
  | succ f ih =>
    rintro g1 m1 _ ⟨rfl, hi1⟩
    refine ⟨g1, fun _ => Nat.le_refl _, ⟨rfl, hi1⟩, ?_⟩
    beta_reduce
    by_cases hlt : min (P e.1) (P e.2) < g1 (max (P e.1) (P e.2))
    · rw [if_pos hlt]
      rintro g2 m2 hr2 ⟨rfl, hi2⟩
      refine ⟨fun heq => ?_, fun _ => ⟨g2, fun _ => Nat.le_refl _, ⟨rfl, hi2⟩, ih g2⟩⟩
      refine ⟨put g2 (max (P e.1) (P e.2)) (min (P e.1) (P e.2)), fun x => ?_, ⟨rfl, fun x => ?_⟩, fun g3 hr3 => ?_⟩
      · by_cases hx : x = max (P e.1) (P e.2)
        · rw [hx, put_same, heq]; omega
        · rw [put_ne _ _ hx]
      · by_cases hx : x = max (P e.1) (P e.2)
        · subst hx
          refine .inr ⟨hr, e, he, rfl, (put_same ..).symm, ?_⟩
          rw [put_same]; omega
        · rw [put_ne _ _ hx]; exact hi2 x
      · have := hr3 (max (P e.1) (P e.2))
        rwa [put_same] at this
    · rw [if_neg hlt]
      intro g2 hr2
      have := hr2 (max (P e.1) (P e.2))
      omega

theorem hook_safe {E : Nat × Nat → Prop} {P : Nat → Nat} (hflat : ∀ x, P (P x) = P x) (f i : Nat)
    (es : List (Nat × Nat)) (hes : ∀ e ∈ es, E e) (c : Bool) (g : Nat → Nat) :
    Safe (hRG E P) i (fun g b => (∀ e ∈ es, P e.1 ≠ P e.2 → g (max (P e.1) (P e.2)) ≤ min (P e.1) (P e.2)) ∧
      (b = true ↔ c = true ∨ ∃ e ∈ es, P e.1 ≠ P e.2)) (hook f P es c) g := by
  induction es generalizing c g with
  | nil => exact fun g' _ => ⟨fun e he => (by cases he), by simp⟩
  | cons e es ih =>
    have hroot : P (max (P e.1) (P e.2)) = max (P e.1) (P e.2) := by
      rcases Nat.le_total (P e.1) (P e.2) with h | h
      · rw [Nat.max_eq_right h]; exact hflat _
      · rw [Nat.max_eq_left h]; exact hflat _
    rw [hook]
    by_cases hne : P e.1 = P e.2
    · rw [if_neg (fun h => h.1 (by rw [hne]; simp))]
      refine (ih (fun e he => hes e (List.mem_cons_of_mem _ he)) c g).weaken fun b g hb => ⟨fun e' he' => ?_, ?_⟩
      · rcases List.mem_cons.1 he' with rfl | h
        · exact fun h => absurd hne h
        · exact hb.1 e' h
      · rw [hb.2]; simp [hne]
    · rw [if_pos ⟨by omega, hroot.symm⟩]
      refine (writeMin_safe f i (hes e List.mem_cons_self) hroot hne g).bind fun _ g1 h1 => ?_
      have keep : ∀ {β : Type} (p : Prog Nat Nat β) (Q : (Nat → Nat) → β → Prop) (g1 : Nat → Nat),
          g1 (max (P e.1) (P e.2)) ≤ min (P e.1) (P e.2) → Safe (hRG E P) i Q p g1 →
          Safe (hRG E P) i (fun g b => g (max (P e.1) (P e.2)) ≤ min (P e.1) (P e.2) ∧ Q g b) p g1 := by
        intro β p Q
        induction p with
        | ret a => exact fun g1 h1 hs g2 hr => ⟨Nat.le_trans (hr _) h1, hs g2 hr⟩
        | stuck => exact fun _ _ _ => trivial
        | read x k ihp =>
          intro g1 h1 hs g2 m2 hr hi
          obtain ⟨g3, a1, a2, a3⟩ := hs g2 m2 hr hi
          exact ⟨g3, a1, a2, ihp _ _ (Nat.le_trans (a1 _) (Nat.le_trans (hr _) h1)) a3⟩
        | write x v k ihp =>
          intro g1 h1 hs g2 m2 hr hi
          obtain ⟨g3, a1, a2, a3⟩ := hs g2 m2 hr hi
          exact ⟨g3, a1, a2, ihp _ (Nat.le_trans (a1 _) (Nat.le_trans (hr _) h1)) a3⟩
        | cas x o v k ihp =>
          intro g1 h1 hs g2 m2 hr hi
          obtain ⟨ha, hb⟩ := hs g2 m2 hr hi
          refine ⟨fun he => ?_, fun he => ?_⟩
          · obtain ⟨g3, a1, a2, a3⟩ := ha he
            exact ⟨g3, a1, a2, ihp _ _ (Nat.le_trans (a1 _) (Nat.le_trans (hr _) h1)) a3⟩
          · obtain ⟨g3, a1, a2, a3⟩ := hb he
            exact ⟨g3, a1, a2, ihp _ _ (Nat.le_trans (a1 _) (Nat.le_trans (hr _) h1)) a3⟩
      refine (keep _ _ g1 h1 (ih (fun e he => hes e (List.mem_cons_of_mem _ he)) true g1)).weaken
        fun b g hb => ⟨fun e' he' => ?_, ?_⟩
      · rcases List.mem_cons.1 he' with rfl | h
        · exact fun _ => hb.1
        · exact hb.2.1 e' h
      · rw [hb.2.2]; simp [hne]

theorem hook_par {E : Nat × Nat → Prop} {P P1 : Nat → Nat} (hflat : ∀ x, P (P x) = P x) {f : Nat}
    {part : Nat → List (Nat × Nat)} (hpart : ∀ e, (∃ i, e ∈ part i) ↔ E e) {c : Nat → Bool}
    (h : Par (fun i => hook f P (part i) false) P P1 c) :
    HInv E P P1 ∧ (∀ e, E e → P e.1 ≠ P e.2 → P1 (max (P e.1) (P e.2)) ≤ min (P e.1) (P e.2)) ∧
    ((∃ i, c i = true) ↔ ∃ e, E e ∧ P e.1 ≠ P e.2) := by
  obtain ⟨g, ⟨rfl, hi⟩, -, hp⟩ := safe_reach (hRG E P) _ h P ⟨rfl, fun _ => .inl rfl⟩
    fun i => hook_safe hflat f i (part i) (fun e he => (hpart e).1 ⟨i, he⟩) false P
  refine ⟨hi, fun e he => ?_, ?_⟩
  · obtain ⟨i, hi'⟩ := (hpart e).2 he
    exact (hp i _ rfl).1 e hi'
  · constructor
    · rintro ⟨i, hc⟩
      obtain ⟨e, he, hne⟩ := ((hp i _ rfl).2.1 hc).resolve_left (by simp)
      exact ⟨e, (hpart e).1 ⟨i, he⟩, hne⟩
    · rintro ⟨e, he, hne⟩
      obtain ⟨i, hi'⟩ := (hpart e).2 he
      exact ⟨i, (hp i _ rfl).2.2 (.inr ⟨e, hi', hne⟩)⟩

/-! ### One round -/

/-- The state at the start of a round. -/
structure SInv (G : UG) (P0 P prev : Nat → Nat) : Prop where
  eq : prev = P
  start : Start G P
  coarse : ∀ x y, P0 x = P0 y → P x = P y
  le : (∀ x, P0 x ≤ x) → ∀ x, P x ≤ x

/-- The forest after hooking. -/
def mu (n : Nat) (P : Nat → Nat) (x : Nat) : Nat := if P x = x then x else n + x

theorem ranked {G : UG} {E : Nat × Nat → Prop} {P P1 : Nat → Nat} (hs : Start G P) (hi : HInv E P P1) :
    Ranked (mu G.n P) P1 := by
  intro x
  rcases hi x with h | ⟨hx, e, -, -, h2, h3⟩
  · by_cases hx : P x = x
    · exact .inl (h.trans hx)
    · have hn : x < G.n := by
        by_contra hge
        exact hx (hs.out x (by omega))
      have := hs.lt x hn
      right
      rw [h]
      simp only [mu, hs.flat, if_true, hx, if_false]
      omega
  · right
    have hr : P (P1 x) = P1 x := by
      rw [← h2]
      rcases Nat.le_total (P e.1) (P e.2) with h | h
      · rw [Nat.min_eq_left h]; exact hs.flat _
      · rw [Nat.min_eq_right h]; exact hs.flat _
    simp only [mu, hx, hr, if_true]
    exact h3

theorem iter_inv {m : Nat → Nat} {S : Nat → Prop} (h : ∀ x, S x → S (m x)) {x : Nat} (hx : S x) (k : Nat) : S (m^[k] x) := by
  induction k with
  | zero => exact hx
  | succ k ih => rw [Function.iterate_succ_apply']; exact h _ ih

theorem round_inv {G : UG} {E : Nat × Nat → Prop} (hE : ∀ e, E e → e.1 < G.n ∧ e.2 < G.n ∧ Adj G e.1 e.2)
    {P0 P prev P2 prev2 : Nat → Nat} {ch : Bool} (h : SInv G P0 P prev) (hr : Round G.n E P prev P2 prev2 ch) :
    SInv G P0 P2 prev2 ∧ (ch = true ↔ ∃ e, E e ∧ P e.1 ≠ P e.2) ∧
    (ch = false → P2 = P) ∧ (∀ x, P2 x = x → P x = x) ∧
    (ch = true → ∃ x, x < G.n ∧ P x = x ∧ P2 x ≠ x) := by
  obtain ⟨part, f, f2, P1, c, out, hpart, hhook, hch, hcomp, hout, hprev⟩ := hr
  obtain ⟨heq, hs, hcoarse, hle⟩ := h
  subst prev
  obtain ⟨hi, hmin, hc⟩ := hook_par hs.flat hpart hhook
  rw [hc] at hch
  have hrk := ranked hs hi
  obtain ⟨rt, hrt⟩ := hrk.isRoot
  obtain ⟨hc1, -, hc3⟩ := compress_par hrk hrt f2 (fun u => decide (u < G.n)) hcomp
  have h1ge : ∀ x, G.n ≤ x → P1 x = x := by
    intro x hx
    rcases hi x with h | ⟨-, e, he, h2, -⟩
    · rw [h, hs.out x hx]
    · obtain ⟨h3, h4, -⟩ := hE e he
      have := hs.lt _ h3
      have := hs.lt _ h4
      omega
  have hP2 : ∀ x, P2 x = rt x ∧ prev2 x = rt x := by
    intro x
    by_cases hx : x < G.n
    · obtain ⟨r, h1, h2⟩ := hout x hx
      obtain ⟨h3, h4⟩ := hc1 x (by simpa using hx) r h1
      exact ⟨h3, h2.trans h4⟩
    · rw [hc3 x (by simpa using hx), hprev x (by omega), h1ge x (by omega), hs.out x (by omega),
        hrt.of_root (h1ge x (by omega))]
      exact ⟨rfl, rfl⟩
  have h1lt : ∀ x, x < G.n → P1 x < G.n := by
    intro x hx
    rcases hi x with h | ⟨-, -, -, -, -, h⟩
    · rw [h]; exact hs.lt x hx
    · omega
  have h1c : ∀ x, Conn (Adj G) x (P1 x) := by
    intro x
    rcases hi x with h | ⟨-, e, he, h2, h3, -⟩
    · rw [h]; exact hs.sound x
    · rw [← h3, ← h2]
      have q := conn_equiv (Adj G)
      have e12 : Conn (Adj G) (P e.1) (P e.2) :=
        q.trans (q.symm (hs.sound _)) (q.trans (.rel _ _ (hE e he).2.2) (hs.sound _))
      rcases Nat.le_total (P e.1) (P e.2) with h | h
      · rw [Nat.max_eq_right h, Nat.min_eq_left h]; exact q.symm e12
      · rw [Nat.max_eq_left h, Nat.min_eq_right h]; exact e12
  have hrtP : ∀ x, rt x = rt (P x) := by
    intro x
    rcases hi x with h | ⟨h, -⟩
    · rw [← h, hrt.step]
    · rw [h]
  have hroots : ∀ x, rt x = x → P x = x := by
    intro x hx
    have h1 := hrt.root x
    rw [hx] at h1
    rcases hi x with h | ⟨h, -⟩
    · rw [← h]; exact h1
    · exact h
  have hself : prev2 = P2 := funext fun x => (hP2 x).2.trans (hP2 x).1.symm
  refine ⟨⟨hself, ⟨fun x hx => ?_, fun x => ?_, fun x => ?_, fun x hx => ?_⟩, fun x y hxy => ?_, fun h0 x => ?_⟩, hch,
    fun hcf => ?_, fun x hx => hroots x ((hP2 x).1.symm.trans hx), fun hct => ?_⟩
  · rw [(hP2 x).1]
    obtain ⟨k, hk⟩ := hrt.path x
    rw [hk]
    exact iter_inv (S := fun y => y < G.n) h1lt hx k
  · rw [(hP2 x).1, (hP2 _).1, hrt.of_root (hrt.root x)]
  · rw [(hP2 x).1]
    obtain ⟨k, hk⟩ := hrt.path x
    rw [hk]
    exact iter_inv (S := fun y => Conn (Adj G) x y) (fun y hy => (conn_equiv _).trans hy (h1c y)) ((conn_equiv _).refl x) k
  · rw [(hP2 x).1, hrt.of_root (h1ge x hx)]
  · rw [(hP2 x).1, (hP2 y).1, hrtP x, hrtP y, hcoarse x y hxy]
  · rw [(hP2 x).1]
    obtain ⟨k, hk⟩ := hrt.path x
    rw [hk]
    refine iter_inv (S := fun y => y ≤ x) (fun y hy => ?_) (Nat.le_refl x) k
    rcases hi y with h | ⟨-, -, -, -, -, h⟩
    · rw [h]; exact Nat.le_trans (hle h0 y) hy
    · omega
  · have hno : ∀ e, E e → P e.1 = P e.2 := by
      intro e he
      by_contra hne
      have := hch.2 ⟨e, he, hne⟩
      rw [hcf] at this; cases this
    have h1 : ∀ x, P1 x = P x := by
      intro x
      rcases hi x with h | ⟨-, e, he, h2, h3, h4⟩
      · exact h
      · have := hno e he
        omega
    funext x
    rw [(hP2 x).1, hrtP x]
    exact hrt.of_root ((h1 _).trans (hs.flat x))
  · obtain ⟨e, he, hne⟩ := hch.1 hct
    have hm := hmin e he hne
    have h1 := hs.lt _ (hE e he).1
    have h2 := hs.lt _ (hE e he).2.1
    have hroot : P (max (P e.1) (P e.2)) = max (P e.1) (P e.2) := by
      rcases Nat.le_total (P e.1) (P e.2) with h | h
      · rw [Nat.max_eq_right h]; exact hs.flat _
      · rw [Nat.max_eq_left h]; exact hs.flat _
    refine ⟨max (P e.1) (P e.2), by omega, hroot, fun h => ?_⟩
    rw [(hP2 _).1] at h
    have h3 := hrt.root (max (P e.1) (P e.2))
    rw [h] at h3
    omega

/-! ### C69 -/

def roots (n : Nat) (P : Nat → Nat) : Nat := ((Finset.range n).filter fun x => P x = x).card

theorem loop_inv {G : UG} {E : Nat × Nat → Prop} (hE : ∀ e, E e → e.1 < G.n ∧ e.2 < G.n ∧ Adj G e.1 e.2)
    {P0 P prev par : Nat → Nat} {k : Nat} (hl : Loop G.n E k P prev par) (h : SInv G P0 P prev) :
    SInv G P0 par par ∧ (∀ e, E e → par e.1 = par e.2) ∧ k ≤ roots G.n P + 1 := by
  induction hl with
  | @last P prev P2 prev2 hr =>
    obtain ⟨h1, h2, h3, -⟩ := round_inv hE h hr
    have := h1.eq
    subst this
    refine ⟨h1, fun e he => ?_, by omega⟩
    rw [h3 rfl]
    by_contra hne
    have := h2.2 ⟨e, he, hne⟩
    cases this
  | @more k P prev P2 prev2 P' hr _ ih =>
    obtain ⟨h1, h2, -, h4, h5⟩ := round_inv hE h hr
    obtain ⟨i1, i2, i3⟩ := ih h1
    refine ⟨i1, i2, ?_⟩
    obtain ⟨x, hx, hx1, hx2⟩ := h5 rfl
    have : roots G.n P2 < roots G.n P := by
      refine Finset.card_lt_card ⟨fun y hy => ?_, fun hsub => hx2 ?_⟩
      · rw [Finset.mem_filter] at hy ⊢
        exact ⟨hy.1, h4 y hy.2⟩
      · exact (Finset.mem_filter.1 (hsub (Finset.mem_filter.2 ⟨Finset.mem_range.2 hx, hx1⟩))).2
    omega

/-- C69: started on the labels of any sampling that meets `Start`, with any choice of the frequent component, in
every interleaving: equal labels exactly within components, the label of a component is a vertex of it, and the
loop ends after at most one round more than there were components at the start. -/
theorem sv_correct {G : UG} (hG : G.Sym) {frq : Option Nat} {P0 par : Nat → Nat} (h0 : Start G P0) {k : Nat}
    (h : Components G frq P0 k par) :
    IsCC G.n (Adj G) par ∧ Start G par ∧ k ≤ roots G.n P0 + 1 := by
  have hsym : ∀ u v, Adj G u v → Adj G v u := fun u v huv => UG_symm hG huv
  obtain ⟨h1, h2, h3⟩ := loop_inv (P0 := P0) (fun e he => ⟨he.1, UG_lt hG he.2.2, he.2.2⟩) h
    ⟨rfl, h0, fun _ _ h => h, fun h => h⟩
  refine ⟨fun u v _ _ => ⟨fun he => ?_, fun hc => ?_⟩, h1.start, h3⟩
  · have q := conn_equiv (Adj G)
    have := h1.start.sound u
    rw [he] at this
    exact q.trans this (q.symm (h1.start.sound v))
  · refine conn_le (s := fun x y => par x = par y) ⟨fun _ => rfl, Eq.symm, Eq.trans⟩ (fun x y hxy => ?_) hc
    have hyx := hsym _ _ hxy
    cases frq with
    | none => exact h2 (x, y) ⟨UG_lt hG hyx, fun c hc => (by cases hc), hxy⟩
    | some c =>
      by_cases hx : P0 x = c
      · by_cases hy : P0 y = c
        · exact h1.coarse x y (hx.trans hy.symm)
        · exact (h2 (y, x) ⟨UG_lt hG hxy, fun c' hc' => by cases hc'; exact hy, hyx⟩).symm
      · exact h2 (x, y) ⟨UG_lt hG hyx, fun c' hc' => by cases hc'; exact hx, hxy⟩

/-- C69: without sampling, i.e. from the identity, the label is the least vertex of the component. -/
theorem sv_least {G : UG} (hG : G.Sym) {par : Nat → Nat} {k : Nat} (h : Components G none (fun x => x) k par) {v : Nat}
    (hv : v < G.n) : Conn (Adj G) v (par v) ∧ ∀ u, u < G.n → Conn (Adj G) v u → par v ≤ u := by
  have h0 : Start G fun x => x := ⟨fun _ h => h, fun _ => rfl, fun x => (conn_equiv _).refl x, fun _ _ => rfl⟩
  obtain ⟨h1, h2, -⟩ := sv_correct hG h0 h
  obtain ⟨h3, -, -⟩ := loop_inv (P0 := fun x => x) (fun e he => ⟨he.1, UG_lt hG he.2.2, he.2.2⟩) h
    ⟨rfl, h0, fun _ _ h => h, fun h => h⟩
  exact ⟨h2.sound v, fun u hu hc => ((h1 v u hv hu).2 hc) ▸ h3.le (fun _ => Nat.le_refl _) u⟩

/-- The inner loops end: `2n + 1` iterations always suffice for each compression. -/
theorem sv_compress_ends {G : UG} {E : Nat × Nat → Prop} {P P1 P2 : Nat → Nat} (hs : Start G P) {f f2 : Nat} {part : Nat → List (Nat × Nat)}
    (hpart : ∀ e, (∃ i, e ∈ part i) ↔ E e) {c : Nat → Bool} {out : Nat → Option Nat}
    (hhook : Par (fun i => hook f P (part i) false) P P1 c)
    (hcomp : Par (fun u => if decide (u < G.n) then compress f2 u else ret none) P1 P2 out) (hf : 2 * G.n < f2)
    {u : Nat} (hu : u < G.n) : out u ≠ none := by
  obtain ⟨hi, -, -⟩ := hook_par hs.flat hpart hhook
  have hrk := ranked hs hi
  obtain ⟨rt, hrt⟩ := hrk.isRoot
  obtain ⟨-, hc2, -⟩ := compress_par hrk hrt f2 (fun u => decide (u < G.n)) hcomp
  refine hc2 u (by simpa using hu) ?_
  have : P1 u < G.n := by
    rcases hi u with h | ⟨-, -, -, -, -, h⟩
    · rw [h]; exact hs.lt u hu
    · omega
  unfold mu
  split <;> omega

/-! ### Example -/

/-- One thread hooks, then the vertices are compressed in order. -/
def execRound (n : Nat) (es : List (Nat × Nat)) (P : Nat → Nat) : Option ((Nat → Nat) × Bool) :=
  (runSeq (fun i => hook 2 P (if i = 0 then es else []) false) (fun _ => false) [0] P).bind fun x =>
    (runSeq (fun u => if decide (u < n) then compress (2 * n + 1) u else ret none) (fun _ => none) (List.range n) x.1).bind
      fun y => if (List.range n).all fun u => y.2 u == some (y.1 u) then some (y.1, x.2 0) else none

theorem execRound_sound {n : Nat} {es : List (Nat × Nat)} {E : Nat × Nat → Prop} (hes : ∀ e, e ∈ es ↔ E e)
    {P P2 : Nat → Nat} {ch : Bool} (h : execRound n es P = some (P2, ch)) :
    Round n E P P P2 (fun u => if u < n then P2 u else P u) ch := by
  rw [execRound, Option.bind_eq_some_iff] at h
  obtain ⟨⟨P1, c⟩, h1, h⟩ := h
  rw [Option.bind_eq_some_iff] at h
  obtain ⟨⟨P2', out⟩, h2, h⟩ := h
  simp only at h h2
  split at h
  · rename_i hall
    cases h
    have hc : ∀ i, i ≠ 0 → c i = false := by
      intro i hi
      rw [runSeq] at h1
      split at h1
      · cases h1
      · rw [runSeq] at h1
        cases h1
        simp [hi]
    refine ⟨fun i => if i = 0 then es else [], 2, 2 * n + 1, P1, c, out, fun e => ?_,
      runSeq_par _ _ [0] (by simp) (fun j hj => ?_) h1, ⟨fun h => ⟨0, h⟩, ?_⟩,
      runSeq_par _ _ (List.range n) List.nodup_range (fun j hj => ?_) h2, fun u hu => ?_, fun u hu => ?_⟩
    · rw [← hes]
      refine ⟨?_, fun h => ⟨0, by simpa using h⟩⟩
      rintro ⟨i, hi⟩
      by_cases h0 : i = 0
      · simpa [h0] using hi
      · simp [h0] at hi
    · have : j ≠ 0 := by simpa using hj
      simp [this, hook]
    · rintro ⟨i, hi⟩
      by_cases h0 : i = 0
      · subst h0; exact hi
      · rw [hc i h0] at hi; cases hi
    · have : ¬ j < n := by simpa using hj
      simp [this]
    · rw [List.all_eq_true] at hall
      have := hall u (by simpa using hu)
      refine ⟨P2 u, by simpa using this, by simp [hu]⟩
    · simp [Nat.not_lt.2 hu]
  · cases h

/-- Two components: `0 - 3 - 1` and `2 - 4`. -/
def exG : UG := UG.ofLists [[3], [3], [4], [0, 1], [2]]

theorem exG_sym : exG.Sym := UG.ofLists_sym (by decide)

def exE : List (Nat × Nat) := [(0, 3), (1, 3), (2, 4), (3, 0), (3, 1), (4, 2)]

theorem exE_mem : ∀ e : Nat × Nat, e ∈ exE ↔ e.1 < exG.n ∧ (∀ c, (none : Option Nat) = some c → e.1 ≠ c) ∧ e.2 ∈ exG.nb e.1 := by
  rintro ⟨u, v⟩
  constructor
  · intro h
    fin_cases h <;> exact ⟨by decide, fun _ h => (by cases h), by decide⟩
  · rintro ⟨h1, -, h2⟩
    have h1 : u < 5 := h1
    have h3 : v < 5 := (exG_sym.bound u v h2).2
    revert h2
    interval_cases u <;> interval_cases v <;> decide

/-- Rounds until nothing changes. -/
def execLoop (n : Nat) (es : List (Nat × Nat)) : Nat → (Nat → Nat) → Option (Nat × (Nat → Nat))
  | 0, _ => none
  | f + 1, P => match execRound n es P with
    | none => none
    | some (P2, false) => some (1, P2)
    | some (P2, true) => (execLoop n es f P2).map fun x => (x.1 + 1, x.2)

theorem execLoop_sound {G : UG} {es : List (Nat × Nat)} {E : Nat × Nat → Prop} (hes : ∀ e, e ∈ es ↔ E e)
    (hE : ∀ e, E e → e.1 < G.n ∧ e.2 < G.n ∧ Adj G e.1 e.2) (f : Nat) {P0 P par : Nat → Nat} {k : Nat} (hs : SInv G P0 P P)
    (h : execLoop G.n es f P = some (k, par)) : Loop G.n E k P P par := by
  induction f generalizing P k with
  | zero => cases h
  | succ f ih =>
    rw [execLoop] at h
    rcases hr : execRound G.n es P with _ | ⟨P2, ch⟩
    · rw [hr] at h; cases h
    · have h1 := execRound_sound hes hr
      rw [hr] at h
      cases ch with
      | false => cases h; exact .last h1
      | true =>
        simp only [Option.map_eq_some_iff] at h
        obtain ⟨⟨k', par'⟩, h2, h3⟩ := h
        cases h3
        obtain ⟨h4, -⟩ := round_inv hE hs h1
        have he := h4.eq
        rw [he] at h1 h4
        exact .more h1 (ih h4 h2)

/-- A run on it: 3 first hooks to 0, then the component of 1. -/
example : ∃ par, Components exG none (fun x => x) 3 par ∧ par 0 = 0 ∧ par 1 = 0 ∧ par 2 = 2 ∧ par 3 = 0 ∧ par 4 = 2 := by
  have h0 : Start exG fun x => x := ⟨fun _ h => h, fun _ => rfl, fun x => (conn_equiv _).refl x, fun _ _ => rfl⟩
  refine ⟨_, execLoop_sound exE_mem (fun e he => ⟨he.1, UG_lt exG_sym he.2.2, he.2.2⟩) 4
    (⟨rfl, h0, fun _ _ h => h, fun h => h⟩ : SInv exG (fun x => x) (fun x => x) (fun x => x)) rfl, ?_⟩
  decide +kernel

end Gbbs.SV
