/-
A parallel loop whose bodies are trees of memory accesses, and the path compression loop shared by the
connectivity algorithms (C69 onwards).
-/
import Verif.EdgeMap.Rounds
import Mathlib.Logic.Function.Iterate
import Mathlib.Tactic.ByContra

namespace Gbbs.Conc

open Prog
open Atomics (Steps)

set_option linter.unusedSectionVars false

variable {L V α : Type} [DecidableEq L] [DecidableEq V]

/-- The threads `th` of a `parallel_for` turn the memory `m` into `m'` in some interleaving and return `out`. -/
def Par (th : Nat → Prog L V α) (m m' : L → V) (out : Nat → α) : Prop :=
  Steps Step ⟨m, th⟩ ⟨m', fun i => ret (out i)⟩

/-- Run the threads of the list one after the other. -/
def runSeq (th : Nat → Prog L V α) (dflt : Nat → α) : List Nat → (L → V) → Option ((L → V) × (Nat → α))
  | [], m => some (m, dflt)
  | i :: l, m => match Em.exec (th i) m with
    | none => none
    | some (a, m1) => match runSeq th dflt l m1 with
      | none => none
      | some (m2, o) => some (m2, fun j => if j = i then a else o j)

theorem runSeq_congr (th th' : Nat → Prog L V α) (dflt : Nat → α) (i : Nat) (a : α) (l : List Nat) (hi : i ∉ l)
    (h : ∀ j, j ≠ i → th' j = th j) {m m' : L → V} {o : Nat → α} (hr : runSeq th dflt l m = some (m', o)) :
    runSeq th' (fun j => if j = i then a else dflt j) l m = some (m', fun j => if j = i then a else o j) := by
  induction l generalizing m m' o with
  | nil => cases hr; rfl
  | cons k l ih =>
    have hk : k ≠ i := fun he => hi (he ▸ List.mem_cons_self)
    rw [runSeq] at hr ⊢
    rw [h k hk]
    rcases he : Em.exec (th k) m with _ | ⟨b, m1⟩
    · rw [he] at hr; cases hr
    · rw [he] at hr
      simp only at hr ⊢
      rcases hs : runSeq th dflt l m1 with _ | ⟨m2, o2⟩
      · rw [hs] at hr; cases hr
      · rw [hs] at hr
        rw [ih (fun h => hi (List.mem_cons_of_mem _ h)) hs]
        cases hr
        simp only [Option.some.injEq, Prod.mk.injEq, true_and]
        funext j
        by_cases h1 : j = k
        · subst h1; simp [hk]
        · simp [h1]

theorem steps_trans {c c' c'' : Conf Nat L V α} (h1 : Steps Step c c') (h2 : Steps Step c' c'') :
    Steps Step c c'' := by
  induction h2 with
  | refl => exact h1
  | tail _ h ih => exact ih.tail h

theorem runSeq_par (th : Nat → Prog L V α) (dflt : Nat → α) (l : List Nat) (hl : l.Nodup)
    (hd : ∀ j, j ∉ l → th j = ret (dflt j)) {m m' : L → V} {o : Nat → α}
    (h : runSeq th dflt l m = some (m', o)) : Par th m m' o := by
  induction l generalizing th dflt m o with
  | nil =>
    cases h
    have : th = fun i => ret (dflt i) := funext fun j => hd j (by simp)
    rw [this]; exact .refl _
  | cons i l ih =>
    rw [List.nodup_cons] at hl
    rw [runSeq] at h
    rcases he : Em.exec (th i) m with _ | ⟨a, m1⟩
    · rw [he] at h; cases h
    · rw [he] at h
      simp only at h
      rcases hs : runSeq th dflt l m1 with _ | ⟨m2, o2⟩
      · rw [hs] at h; cases h
      · rw [hs] at h
        cases h
        have h1 := Em.exec_steps (th i) i th he
        have e1 : (fun j => if j = i then th i else th j) = th := by
          funext j; split
          · rename_i hj; rw [hj]
          · rfl
        rw [e1] at h1
        refine steps_trans h1 (ih (fun j => if j = i then ret a else th j) (fun j => if j = i then a else dflt j) hl.2
          (fun j hj => ?_) (runSeq_congr th _ dflt i a l hl.1 (fun j hj => by simp [hj]) hs))
        by_cases hji : j = i
        · simp [hji]
        · simp only [hji, if_false]
          exact hd j (by simp [hji, hj])

/-! ### Compression -/

/-- `while (parents[u] != parents[parents[u]]) parents[u] = parents[parents[u]];` followed by a read of
`parents[u]`, e.g. `ShiloachVishkin/Connectivity.h:102-107`, `ConnectIt/sampling.h:142-144`. At most `f`
iterations; `none` if they do not suffice. -/
def compress : Nat → Nat → Prog Nat Nat (Option Nat)
  | 0, _ => ret none
  | f + 1, u => read u fun a => read u fun b => read b fun c =>
      if a ≠ c then read u fun d => read d fun e => write u e (compress f u)
      else read u fun a => ret (some a)

/-- The forest at the start of the compression: parents have smaller measure. -/
def Ranked (mu : Nat → Nat) (m : Nat → Nat) : Prop := ∀ x, m x = x ∨ mu (m x) < mu x

/-- `rt` maps every vertex to the root of its tree in the forest `m`. -/
structure IsRoot (m : Nat → Nat) (rt : Nat → Nat) : Prop where
  root : ∀ x, m (rt x) = rt x
  step : ∀ x, rt (m x) = rt x
  path : ∀ x, ∃ k, rt x = m^[k] x

theorem Ranked.isRoot {mu m : Nat → Nat} (h : Ranked mu m) : ∃ rt, IsRoot m rt := by
  have key : ∀ b x, mu x < b → ∃ k, m (m^[k] x) = m^[k] x := by
    intro b
    induction b with
    | zero => intro x hx; omega
    | succ b ih =>
      intro x hx
      rcases h x with he | hlt
      · exact ⟨0, he⟩
      · obtain ⟨k, hk⟩ := ih (m x) (by omega)
        exact ⟨k + 1, hk⟩
  have stay : ∀ x k, m (m^[k] x) = m^[k] x → ∀ j, m^[k + j] x = m^[k] x := by
    intro x k hk j
    induction j with
    | zero => rfl
    | succ j ih => rw [← Nat.add_assoc, Function.iterate_succ_apply', ih, hk]
  have uniq : ∀ x j k, m (m^[j] x) = m^[j] x → m (m^[k] x) = m^[k] x → m^[j] x = m^[k] x := by
    intro x j k hj hk
    rw [← stay x j hj k, ← stay x k hk j, Nat.add_comm]
  choose k hk using fun x => key _ x (Nat.lt_succ_self _)
  refine ⟨fun x => m^[k x] x, hk, fun x => ?_, fun x => ⟨_, rfl⟩⟩
  have h1 := hk (m x)
  exact uniq x (k (m x) + 1) (k x) h1 (hk x)

theorem IsRoot.of_root {m rt : Nat → Nat} (h : IsRoot m rt) {x : Nat} (hx : m x = x) : rt x = x := by
  obtain ⟨k, hk⟩ := h.path x
  rw [hk]
  exact Function.iterate_fixed hx k

/-- The state during the compression that started in `m0`. -/
structure CoInv (mu m0 rt : Nat → Nat) (act : Nat → Prop) (m : Nat → Nat) : Prop where
  root : ∀ x, m x = x ↔ m0 x = x
  same : ∀ x, rt (m x) = rt x
  dec : Ranked mu m
  idle : ∀ x, ¬ act x → m x = m0 x

def coRG (mu m0 rt : Nat → Nat) (act : Nat → Prop) : RG Nat (Nat → Nat) Nat Nat where
  Inv g m := g = m ∧ CoInv mu m0 rt act m
  R i g g' := g' i = g i
  Gu i g g' := ∀ j, j ≠ i → g' j = g j
  refl _ _ := rfl
  trans _ _ _ _ h1 h2 := h2.trans h1
  compat _ j _ _ hne h := h j (Ne.symm hne)

theorem compress_safe {mu m0 rt : Nat → Nat} {act : Nat → Prop} (h0 : IsRoot m0 rt) (f u : Nat) (hu : act u)
    (g0 : Nat → Nat) :
    Safe (coRG mu m0 rt act) u (fun g o => (∀ r, o = some r → g u = rt u ∧ r = rt u) ∧ (o = none → f ≤ mu (g0 u)))
      (compress f u) g0 := by
  induction f generalizing g0 with
  | zero => exact fun g _ => ⟨fun r hr => (by cases hr), fun _ => Nat.zero_le _⟩
  | succ f ih =>
    have gu : ∀ g, (coRG mu m0 rt act).Gu u g g := fun _ _ _ => rfl
    rintro g1 m1 (hr1 : g1 u = g0 u) ⟨rfl, hi1⟩
    refine ⟨g1, gu _, ⟨rfl, hi1⟩, ?_⟩
    rintro g2 m2 (hr2 : g2 u = g1 u) ⟨rfl, hi2⟩
    refine ⟨g2, gu _, ⟨rfl, hi2⟩, ?_⟩
    rintro g3 m3 (hr3 : g3 u = g2 u) ⟨rfl, hi3⟩
    refine ⟨g3, gu _, ⟨rfl, hi3⟩, ?_⟩
    rw [hr2, hr1]
    have e3 : g3 u = g0 u := hr3.trans (hr2.trans hr1)
    generalize hb : g0 u = b at *
    have hrt : rt b = rt u := by rw [← e3]; exact hi3.same u
    beta_reduce
    by_cases hc : b = g3 b
    · rw [if_neg (not_not.2 hc)]
      rintro g4 m4 (hr4 : g4 u = g3 u) ⟨rfl, hi4⟩
      refine ⟨g4, gu _, ⟨rfl, hi4⟩, ?_⟩
      rintro g5 (hr5 : g5 u = g4 u)
      have hroot : rt b = b := h0.of_root ((hi3.root b).1 hc.symm)
      refine ⟨fun r hr => ?_, fun h => (by cases h)⟩
      cases hr
      rw [hr5, hr4, e3, ← hrt, hroot]
      exact ⟨rfl, rfl⟩
    · rw [if_pos hc]
      rintro g4 m4 (hr4 : g4 u = g3 u) ⟨rfl, hi4⟩
      refine ⟨g4, gu _, ⟨rfl, hi4⟩, ?_⟩
      rintro g5 m5 (hr5 : g5 u = g4 u) ⟨rfl, hi5⟩
      refine ⟨g5, gu _, ⟨rfl, hi5⟩, ?_⟩
      rintro g6 m6 (hr6 : g6 u = g5 u) ⟨rfl, hi6⟩
      have e4 : g4 u = b := hr4.trans e3
      have e6 : g6 u = b := hr6.trans (hr5.trans e4)
      rw [e4]
      have hnr : ¬ m0 b = b := fun h => hc ((hi3.root b).2 h).symm
      have hlt : mu (g5 b) < mu b := by
        rcases hi5.dec b with h | h
        · exact absurd ((hi5.root b).1 h) hnr
        · exact h
      have hsame : rt (g5 b) = rt u := (hi5.same b).trans hrt
      generalize g5 b = e at *
      have hbu : b ≠ u := fun h => by
        subst h
        exact hnr ((hi6.root b).1 e6)
      have hbu2 : mu b < mu u := by
        rcases hi6.dec u with h | h
        · exact absurd (e6.symm.trans h) hbu
        · rwa [e6] at h
      have heu : e ≠ u := fun h => by subst h; omega
      refine ⟨put g6 u e, fun j hj => put_ne _ _ hj, ⟨rfl, fun x => ?_, fun x => ?_, fun x => ?_, fun x hx => ?_⟩, ?_⟩
      · by_cases hx : x = u
        · subst hx
          rw [put_same, ← hi6.root x, e6]
          exact ⟨fun h => absurd h heu, fun h => absurd h hbu⟩
        · rw [put_ne _ _ hx]; exact hi6.root x
      · by_cases hx : x = u
        · subst hx; rw [put_same]; exact hsame
        · rw [put_ne _ _ hx]; exact hi6.same x
      · by_cases hx : x = u
        · subst hx; rw [put_same]; exact .inr (by omega)
        · rw [put_ne _ _ hx]; exact hi6.dec x
      · have : x ≠ u := fun h => hx (h ▸ hu)
        rw [put_ne _ _ this]; exact hi6.idle x hx
      · refine (ih (put g6 u e)).weaken fun o g hg => ⟨hg.1, fun ho => ?_⟩
        have := hg.2 ho
        rw [put_same] at this
        omega

/-- A parallel loop that compresses the vertices `act`, in any interleaving: they end up at their roots, no other
vertex changes, and `mu u + 1` iterations suffice for `u`. -/
theorem compress_par {mu m0 rt : Nat → Nat} (hrk : Ranked mu m0) (h0 : IsRoot m0 rt) (f : Nat) (act : Nat → Bool)
    {m' : Nat → Nat} {out : Nat → Option Nat}
    (h : Par (fun u => if act u then compress f u else ret none) m0 m' out) :
    (∀ u, act u = true → ∀ r, out u = some r → m' u = rt u ∧ r = rt u) ∧
    (∀ u, act u = true → mu (m0 u) < f → out u ≠ none) ∧ ∀ u, act u = false → m' u = m0 u := by
  have hsafe : ∀ u, Safe (coRG mu m0 rt fun u => act u = true) u (fun g o => act u = true →
      (∀ r, o = some r → g u = rt u ∧ r = rt u) ∧ (o = none → f ≤ mu (m0 u)))
      (if act u then compress f u else ret none) m0 := by
    intro u
    by_cases hu : act u = true
    · rw [if_pos hu]
      exact (compress_safe h0 f u hu m0).weaken fun o g hg _ => hg
    · rw [if_neg hu]
      exact fun g _ hc => absurd hc hu
  obtain ⟨g, ⟨rfl, hi⟩, -, hp⟩ := safe_reach (coRG mu m0 rt fun u => act u = true) _ h m0 ⟨rfl, fun _ => Iff.rfl, h0.step, hrk, fun _ _ => rfl⟩ hsafe
  refine ⟨fun u hu => (hp u _ rfl hu).1, fun u hu hf hn => ?_, fun u hu => hi.idle u (by simp [hu])⟩
  have := (hp u _ rfl hu).2 hn
  omega

end Gbbs.Conc
