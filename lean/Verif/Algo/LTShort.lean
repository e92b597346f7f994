/-
C89, C90: the Liu-Tarjan connectivity algorithms with a single `shortcut` per round: what they still guarantee, and executions
in which they return wrong labels.
-/
import Verif.Algo.LiuTarjan
import Verif.Conc.ExecL

namespace Gbbs.LT

open Conc Conc.Prog Comp
open Atomics (Steps)
open LabelProp (big key key_inj lpLess lpLess_iff)
open SV (Adj Start)

/-! ### All variants: labels never leave the component -/

theorem lab_sound {C : Nat → Nat → Prop} (hC : Equivalence C) {P : Nat → Nat} (hP : ∀ x, C x (P x)) (u : Nat) : C u (lab P u) := by
  unfold lab
  split
  · exact hC.refl _
  · exact hP u

theorem sends_sound {C : Nat → Nat → Prop} (hC : Equivalence C) {con : Con} {P : Nat → Nat} (hP : ∀ x, C x (P x)) {e : Nat × Nat}
    (he : C e.1 e.2) : ∀ ab ∈ sends con P e, C ab.1 ab.2 := by
  have h1 := lab_sound hC hP e.1
  have h2 := lab_sound hC hP e.2
  have h12 : C (lab P e.1) (lab P e.2) := hC.trans (hC.symm h1) (hC.trans he h2)
  have hmm : ∀ {x y}, C x y → C (ltMax x y) (ltMin x y) := by
    intro x y h
    rcases ltMin_max x y with h' | h'
    · rw [h'.1, h'.2]; exact hC.symm h
    · rw [h'.1, h'.2]; exact h
  intro ab hab
  cases con with
  | simple =>
    simp only [sends] at hab
    split at hab
    · rw [List.mem_singleton.1 hab]; exact hmm he
    · cases hab
  | parent =>
    simp only [sends] at hab
    split at hab
    · rw [List.mem_singleton.1 hab]; exact hmm h12
    · cases hab
  | extended =>
    simp only [sends] at hab
    split at hab
    · cases hab
    · split at hab
      · rcases List.mem_cons.1 hab with rfl | hab
        · exact hC.trans he h2
        · rw [List.mem_singleton.1 hab]; exact h12
      · split at hab
        · rcases List.mem_cons.1 hab with rfl | hab
          · exact hC.symm h12
          · rw [List.mem_singleton.1 hab]; exact hC.trans (hC.symm he) h1
        · cases hab

/-- Labels stay in the class and do not grow. -/
def fRG (C : Nat → Nat → Prop) (n : Nat) (P1 : Nat → Nat) : RG Nat (Nat → Nat) Nat Nat where
  Inv g m := g = m ∧ (∀ x, C x (m x)) ∧ (∀ x, (∀ y, key (P1 y) ≤ key y) → key (m x) ≤ key (P1 x)) ∧
    ∀ x, n ≤ x → m x = P1 x
  R _ _ _ := True
  Gu _ _ _ := True
  refl _ _ := trivial
  trans _ _ _ _ _ _ := trivial
  compat _ _ _ _ _ _ := trivial

theorem put_sound {C : Nat → Nat → Prop} {n : Nat} {P1 g : Nat → Nat} {u q : Nat} (hu : u < n) (h : (fRG C n P1).Inv g g) (hq : C u q)
    (hk : (∀ y, key (P1 y) ≤ key y) → key q ≤ key (P1 u)) : (fRG C n P1).Inv (put g u q) (put g u q) := by
  refine ⟨rfl, fun x => ?_, fun x hx => ?_, fun x hx => ?_⟩
  · by_cases hxu : x = u
    · subst hxu; rw [put_same]; exact hq
    · rw [put_ne _ _ hxu]; exact h.2.1 x
  · by_cases hxu : x = u
    · subst hxu; rw [put_same]; exact hk hx
    · rw [put_ne _ _ hxu]; exact h.2.2.1 x hx
  · rw [put_ne _ _ (by omega)]; exact h.2.2.2 x hx

theorem rootLoop_sound {C : Nat → Nat → Prop} (hC : Equivalence C) {n : Nat} {P1 : Nat → Nat} (f u p : Nat) (hu : u < n) (hp : C u p)
    (hk : (∀ y, key (P1 y) ≤ key y) → key p ≤ key (P1 u)) (g : Nat → Nat) :
    Safe (fRG C n P1) u (fun _ _ => True) (rootLoop u f p) g := by
  induction f generalizing p g with
  | zero => exact fun _ _ => trivial
  | succ f ih =>
    rw [rootLoop]
    split
    · exact fun _ _ => trivial
    · rintro g1 m1 - ⟨rfl, hi1⟩
      refine ⟨g1, trivial, ⟨rfl, hi1⟩, ?_⟩
      beta_reduce
      split
      · rintro g2 m2 - ⟨rfl, hi2⟩
        refine ⟨g2, trivial, ⟨rfl, hi2⟩, ?_⟩
        rintro g3 m3 - ⟨rfl, hi3⟩
        refine ⟨put g3 u (g2 p), trivial, put_sound hu ⟨rfl, hi3⟩ (hC.trans hp (hi2.1 p)) fun h =>
          Nat.le_trans (hi2.2.1 p h) (Nat.le_trans (h p) (hk h)), ?_⟩
        rintro g4 m4 - ⟨rfl, hi4⟩
        exact ⟨g4, trivial, ⟨rfl, hi4⟩, ih _ (hi4.1 u) (hi4.2.1 u) g4⟩
      · exact fun _ _ => trivial

theorem sc_sound {C : Nat → Nat → Prop} (hC : Equivalence C) {n : Nat} {P1 : Nat → Nat} (full : Bool) (f u : Nat) (hu : u < n) (g : Nat → Nat) :
    Safe (fRG C n P1) u (fun _ _ => True) (sc full f u) g := by
  unfold sc
  split
  · rintro g1 m1 - ⟨rfl, hi1⟩
    exact ⟨g1, trivial, ⟨rfl, hi1⟩, rootLoop_sound hC f u _ hu (hi1.1 u) (hi1.2.1 u) g1⟩
  · rintro g1 m1 - ⟨rfl, hi1⟩
    refine ⟨g1, trivial, ⟨rfl, hi1⟩, ?_⟩
    have hp := hi1.1 u
    have hk := hi1.2.1 u
    generalize g1 u = p at *
    beta_reduce
    split
    · exact fun _ _ => trivial
    · rintro g1 m1 - ⟨rfl, hi1⟩
      refine ⟨g1, trivial, ⟨rfl, hi1⟩, ?_⟩
      beta_reduce
      split
      · rintro g2 m2 - ⟨rfl, hi2⟩
        refine ⟨g2, trivial, ⟨rfl, hi2⟩, ?_⟩
        rintro g3 m3 - ⟨rfl, hi3⟩
        refine ⟨put g3 u (g2 p), trivial, put_sound hu ⟨rfl, hi3⟩ (hC.trans hp (hi2.1 p)) fun h =>
          Nat.le_trans (hi2.2.1 p h) (Nat.le_trans (h p) (hk h)), fun _ _ => trivial⟩
      · exact fun _ _ => trivial

theorem sc_par {C : Nat → Nat → Prop} (hC : Equivalence C) {P1 P2 : Nat → Nat} (h1 : ∀ x, C x (P1 x)) {full : Bool} {n f : Nat}
    {out : Nat → Option Unit} (h : Par (fun u => if decide (u < n) then sc full f u else ret none) P1 P2 out) :
    (∀ x, C x (P2 x)) ∧ ((∀ y, key (P1 y) ≤ key y) → ∀ x, key (P2 x) ≤ key (P1 x)) ∧ ∀ x, n ≤ x → P2 x = P1 x := by
  obtain ⟨g, ⟨rfl, hi⟩, -⟩ := safe_reach (fRG C n P1) (fun _ _ _ => True) h P1 ⟨rfl, h1, fun x _ => Nat.le_refl _, fun _ _ => rfl⟩ fun u => by
    dsimp only
    split
    · rename_i hu; exact sc_sound hC full f u (by simpa using hu) P1
    · exact fun _ _ => trivial
  exact ⟨hi.1, fun h x => hi.2.1 x h, hi.2.2⟩

theorem round_sound {M : Type} [DecidableEq M] {K : Msg M} {C : Nat → Nat → Prop} (hC : Equivalence C) {con : Con} {upd : Upd}
    {full : Bool} {n : Nat} {E : Nat × Nat → Prop} {P P1 P2 : Nat → Nat} {m m1 : Nat → M} {ch : Bool}
    (hP : ∀ x, C x (P x)) (hm : ∀ x, C x (K.comp (m x))) (hE : ∀ e, E e → C e.1 e.2)
    (hr : Round K con upd full n E P m P1 P2 m1 ch) : (∀ x, C x (P1 x)) ∧ (∀ x, C x (P2 x)) ∧ ∀ x, C x (K.comp (m1 x)) := by
  obtain ⟨⟨part, f, c, hpart, hcon, -⟩, hup, f2, out, hsc, -⟩ := hr
  obtain ⟨h1, -⟩ := connect_raw hpart hcon
  have hm1 : ∀ x, C x (K.comp (m1 x)) := by
    intro x
    rcases h1 x with h | ⟨b, e, he, hab, h, -⟩
    · rw [h]; exact hm x
    · rw [h, K.comp_of]; exact sends_sound hC hP (hE e he) _ hab
  have hmin : ∀ x, C x (ltMin (P x) (K.comp (m1 x))) := by
    intro x
    rcases ltMin_max (P x) (K.comp (m1 x)) with h | h
    · rw [h.1]; exact hP x
    · rw [h.1]; exact hm1 x
  have hP1 : ∀ x, C x (P1 x) := by
    intro x
    rw [hup x]
    split
    · cases upd with
      | simple => exact hmin x
      | root =>
        rw [update]
        split
        · exact hP x
        · exact hmin x
    · exact hP x
  exact ⟨hP1, (sc_par hC hP1 hsc).1, hm1⟩

theorem loop_sound {C : Nat → Nat → Prop} (hC : Equivalence C) {con : Con} {upd : Upd} {full : Bool} {G : UG}
    (hE : ∀ u v, Adj G u v → C u v) {frq : Option Nat} {k : Nat} {P m par : Nat → Nat}
    (h : Loop con upd full G frq k P m par) (hP : ∀ x, C x (P x)) (hm : ∀ x, C x (m x)) : ∀ x, C x (par x) := by
  induction h with
  | last hr => exact (round_sound (K := natMsg) hC hP hm (fun e he => hE _ _ he.2.2) hr).2.1
  | more hr _ ih =>
    obtain ⟨-, h2, h3⟩ := round_sound (K := natMsg) hC hP hm (fun e he => hE _ _ he.2.2) hr
    exact ih h2 h3

/-- C89, all variants, only soundness: every label is a vertex of the component, so vertices of different components have
different labels. -/
theorem lt_sound_partial {con : Con} {upd : Upd} {full : Bool} {G : UG} {k : Nat} {par : Nat → Nat}
    (h : Components con upd full G k par) : ∀ x, Conn (Adj G) x (par x) :=
  loop_sound (conn_equiv _) (fun u v h => .rel _ _ h) h (fun x => (conn_equiv _).refl x) fun x => (conn_equiv _).refl x

theorem cooLoop_sound {C : Nat → Nat → Prop} (hC : Equivalence C) {con : Con} {upd : Upd} {full : Bool} {n : Nat}
    {es : List (Nat × Nat)} {k : Nat} {P m par : Nat → Nat} (h : LoopCOO con upd full n k es P m par)
    (hE : ∀ e ∈ es, C e.1 e.2) (hP : ∀ x, C x (P x)) (hm : ∀ x, C x (m x)) : ∀ x, C x (par x) := by
  induction h with
  | last hr => exact (round_sound (K := natMsg) hC hP hm (fun e he => hE e he.1) hr).2.1
  | more hr _ ih =>
    obtain ⟨-, h2, h3⟩ := round_sound (K := natMsg) hC hP hm (fun e he => hE e he.1) hr
    refine ih (fun e he => ?_) h2 h3
    obtain ⟨e, he0, rfl⟩ := List.mem_map.1 he
    exact hC.trans (hC.symm (lab_sound hC h2 e.1)) (hC.trans (hE e he0) (lab_sound hC h2 e.2))

/-- C90, all variants, only soundness. -/
theorem coo_sound_partial {con : Con} {upd : Upd} {full : Bool} {n : Nat} {es : List (Nat × Nat)} {k : Nat} {par : Nat → Nat}
    (h : ComponentsCOO con upd full n es k par) : ∀ x, Conn (LAdj es) x (par x) :=
  cooLoop_sound (conn_equiv (LAdj es)) h (fun e he => by
    rw [alter_eq rfl, List.map_id'] at he
    exact .rel _ _ he) (fun x => (conn_equiv _).refl x) fun x => (conn_equiv _).refl x

/-! ### `extended_connect`, `simple_update`, `shortcut` -/

/-- The state between the rounds. -/
structure EInv (C : Nat → Nat → Prop) (n : Nat) (P m : Nat → Nat) : Prop where
  out : ∀ x, n ≤ x → P x = x ∧ m x = x
  le : ∀ x, key (P x) ≤ key (m x)
  mle : ∀ x, key (m x) ≤ key x
  sound : ∀ x, C x (P x)
  msound : ∀ x, C x (m x)

theorem ext_round {C : Nat → Nat → Prop} (hC : Equivalence C) {n : Nat} (hn : n ≤ big) {full : Bool} {E : Nat × Nat → Prop}
    {P P1 P2 m m1 : Nat → Nat} {ch : Bool} (hi : EInv C n P m) (hE : ∀ e, E e → C e.1 e.2 ∧ e.1 < n ∧ e.2 < n)
    (hr : Round natMsg .extended .simple full n E P m P1 P2 m1 ch) :
    EInv C n P2 m1 ∧ (ch = false → P1 = P ∧ ∀ e, E e → P e.1 = P e.2) ∧ (∀ x, key (m1 x) ≤ key (m x)) ∧
    (ch = true → ∃ x, key (m1 x) < key (m x)) := by
  obtain ⟨hs1, hs2, hs3⟩ := round_sound (K := natMsg) hC hi.sound hi.msound (fun e he => (hE e he).1) hr
  obtain ⟨⟨part, f, c, hpart, hcon, hch⟩, hup, f2, out, hsc, -⟩ := hr
  obtain ⟨hm, hle, hno, hyes⟩ := connect_raw hpart hcon
  have hb : P big = big := (hi.out big hn).1
  have hmle : ∀ x, key (m1 x) ≤ key (m x) := by
    intro x
    rcases hm x with h | ⟨b, e, -, -, h, h2⟩
    · rw [h]
    · have h : m1 x = b := h
      have h2 : key b < key (m x) := h2
      rw [h]; omega
  have hrange : ∀ {x y}, key y ≤ key x → y ≠ big → y ≤ x := by
    intro x y h hy
    unfold key at h
    rw [if_neg hy] at h
    split at h <;> omega
  have hmout : ∀ x, n ≤ x → m1 x = x := by
    intro x hx
    rcases hm x with h | ⟨b, e, he, hab, h1, h2⟩
    · rw [h]; exact (hi.out x hx).2
    · exfalso
      have h2 : key b < key (m x) := h2
      obtain ⟨-, he1, he2⟩ := hE e he
      simp only [sends, lab_eq hb] at hab
      have k1 := Nat.le_trans (hi.le e.1) (hi.mle e.1)
      have k2 := Nat.le_trans (hi.le e.2) (hi.mle e.2)
      have hkb : key big = 0 := rfl
      split at hab
      · cases hab
      · split at hab
        · rename_i hl
          rw [lpLess_iff] at hl
          rcases List.mem_cons.1 hab with h | hab
          · cases h; omega
          · cases List.mem_singleton.1 hab
            have := hrange k1 (fun h => by rw [h, hkb] at hl; omega)
            omega
        · rename_i hne hl
          rw [lpLess_iff] at hl
          have hk : key (P e.1) ≠ key (P e.2) := fun h => hne (key_inj h)
          split at hab
          · rcases List.mem_cons.1 hab with h | hab
            · cases h
              have := hrange k2 (fun h => by rw [h, hkb] at hl hk; omega)
              omega
            · cases List.mem_singleton.1 hab; omega
          · cases hab
  have hP1 : ∀ x, key (P1 x) = min (key (P x)) (key (m1 x)) := by
    intro x
    by_cases hx : x < n
    · rw [hup x, if_pos hx, update, key_ltMin]; rfl
    · have := hi.out x (by omega)
      rw [hup x, if_neg hx, this.1, hmout x (by omega)]; omega
  obtain ⟨-, h2, h3⟩ := sc_par hC hs1 hsc
  have h2' := h2 fun y => by
    have := hP1 y
    have := hmle y
    have := hi.mle y
    omega
  refine ⟨⟨fun x hx => ⟨?_, hmout x hx⟩, fun x => ?_, fun x => Nat.le_trans (hmle x) (hi.mle x), hs2, hs3⟩, fun hc => ?_, hmle,
    fun hc => hyes (hch.1 hc)⟩
  · rw [h3 x hx, hup x, if_neg (by omega), (hi.out x hx).1]
  · have := h2' x
    have := hP1 x
    omega
  · have hmm : m1 = m := by
      refine hno fun i => ?_
      by_contra hci
      have : ch = true := hch.2 ⟨i, by simpa using hci⟩
      rw [hc] at this; cases this
    refine ⟨?_, fun e he => ?_⟩
    · funext x
      refine key_inj ?_
      have := hi.le x
      rw [hP1, hmm]; omega
    · by_contra hne
      have hk : key (P e.1) ≠ key (P e.2) := fun h => hne (key_inj h)
      have h4 := hle e he
      rw [hmm] at h4
      simp only [sends, lab_eq hb, if_neg hne] at h4
      by_cases hl : key (P e.2) < key (P e.1)
      · rw [if_pos ((lpLess_iff _ _).2 hl)] at h4
        have h5 : key (m e.1) ≤ key (P e.2) := h4 _ List.mem_cons_self
        have := hi.le e.1
        omega
      · rw [if_neg (by rw [lpLess_iff]; exact hl), if_pos (ltGreater_of (by omega))] at h4
        have h5 : key (m e.2) ≤ key (P e.1) := h4 _ (List.mem_cons_of_mem _ List.mem_cons_self)
        have := hi.le e.2
        omega

/-- From flat trees a shortcut changes nothing. -/
theorem sc_flat {P P2 : Nat → Nat} (hf : ∀ x, P (P x) = P x) {n f : Nat} {out : Nat → Option Unit}
    (h : Par (fun u => if decide (u < n) then sc false f u else ret none) P P2 out) : P2 = P := by
  let A : RG Nat Unit Nat Nat := ⟨fun _ m => m = P, fun _ _ _ => True, fun _ _ _ => True, fun _ _ => trivial,
    fun _ _ _ _ _ _ => trivial, fun _ _ _ _ _ _ => trivial⟩
  obtain ⟨g, hi, -⟩ := safe_reach A (fun _ _ _ => True) h () rfl fun u => by
    dsimp only
    split
    · rw [sc, if_neg (by decide)]
      rintro g1 m1 - (hm1 : m1 = P)
      refine ⟨(), trivial, hm1, ?_⟩
      rw [hm1]
      beta_reduce
      split
      · exact fun _ _ => trivial
      · rintro g2 m2 - (hm2 : m2 = P)
        refine ⟨(), trivial, hm2, ?_⟩
        rw [hm2]
        beta_reduce
        rw [if_neg (not_not.2 (hf u).symm)]
        exact fun _ _ => trivial
    · exact fun _ _ => trivial
  exact hi

theorem ext_loop {adj : Nat → Nat → Prop} {frq0 : Nat} {G : UG} (hG : G.Sym)
    (hn : G.n ≤ big) (hadj : adj = Adj G) {frq : Option Nat} {k : Nat} {P m par : Nat → Nat}
    (h : Loop .extended .simple false G frq k P m par)
    (hi : EInv (fun x y => Conn adj (val frq0 x) (val frq0 y)) G.n P m) :
    (∀ x, Conn adj (val frq0 x) (val frq0 (par x))) ∧ (∀ u v, Adj G u v → par u = par v) ∧ k ≤ pot G.n m + 1 := by
  subst hadj
  have hE : ∀ {P : Nat → Nat} (e : Nat × Nat), Proc G frq P e → Conn (Adj G) (val frq0 e.1) (val frq0 e.2) ∧ e.1 < G.n ∧ e.2 < G.n := by
    intro P e he
    have hb := hG.bound _ _ he.2.2
    rw [val_lt hn hb.1, val_lt hn hb.2]
    exact ⟨.rel _ _ he.2.2, hb⟩
  induction h with
  | @last P m P1 P2 m1 hr =>
    obtain ⟨h1, h2, -⟩ := ext_round (val_equiv (Adj G) frq0) hn hi hE hr
    obtain ⟨rfl, h5⟩ := h2 rfl
    have hadj : ∀ u v, Adj G u v → P1 u = P1 v := by
      intro u v huv
      by_cases hu : ∀ c, frq = some c → P1 u ≠ c
      · exact h5 (u, v) ⟨(hG.bound u v huv).1, hu, huv⟩
      · by_cases hv : ∀ c, frq = some c → P1 v ≠ c
        · exact (h5 (v, u) ⟨(hG.bound u v huv).2, hv, SV.UG_symm hG huv⟩).symm
        · simp only [not_forall, not_not] at hu hv
          obtain ⟨c, rfl, h6⟩ := hu
          obtain ⟨_, h7, h8⟩ := hv
          cases h7
          rw [h6, h8]
    have hcc : ∀ {u v}, Conn (Adj G) u v → P1 u = P1 v := by
      intro u v h
      induction h with
      | rel x y h => exact hadj x y h
      | refl => rfl
      | symm _ _ _ ih => exact ih.symm
      | trans _ _ _ _ _ ih1 ih2 => exact ih1.trans ih2
    have hflat : ∀ x, P1 (P1 x) = P1 x := by
      intro x
      by_cases hb : P1 x = big
      · rw [hb]; exact (hi.out big hn).1
      · by_cases hx : x < G.n
        · have := hi.sound x
          rw [val_lt hn hx, val, if_neg hb] at this
          exact (hcc this).symm
        · rw [(hi.out x (by omega)).1, (hi.out x (by omega)).1]
    obtain ⟨f, out, hsc, -⟩ := hr.short
    have := sc_flat hflat hsc
    subst this
    exact ⟨hi.sound, hadj, by omega⟩
  | @more k P m P1 P2 m1 P' hr _ ih =>
    obtain ⟨h1, -, h3, h4⟩ := ext_round (val_equiv (Adj G) frq0) hn hi hE hr
    obtain ⟨h5, h6, h7⟩ := ih h1
    obtain ⟨x, hx⟩ := h4 rfl
    have : pot G.n m1 < pot G.n m := by
      refine Finset.sum_lt_sum (fun x _ => h3 x) ⟨x, ?_, hx⟩
      rw [Finset.mem_range]
      by_contra hn
      rw [(hi.out x (by omega)).2, (h1.out x (by omega)).2] at hx
      omega
    exact ⟨h5, h6, by omega⟩

/-- C89: `extended_connect` with `simple_update` is right with a single `shortcut` per round, too. -/
theorem lt_extended_short {G : UG} (hG : G.Sym) (hn : G.n ≤ big) {k : Nat} {par : Nat → Nat}
    (h : Components .extended .simple false G k par) : IsCC G.n (Adj G) par ∧ k ≤ G.n * G.n + 1 := by
  obtain ⟨h1, h2, h3⟩ := ext_loop (frq0 := big) hG hn rfl h ⟨fun _ _ => ⟨rfl, rfl⟩, fun _ => Nat.le_refl _, fun _ => Nat.le_refl _,
    fun x => (conn_equiv _).refl _, fun x => (conn_equiv _).refl _⟩
  have hv : ∀ x, val big x = x := fun x => by unfold val; split <;> simp_all
  simp only [hv] at h1
  refine ⟨isCC_of (fun u v _ _ he => ?_) h2, ?_⟩
  · have := h1 u
    rw [he] at this
    exact (conn_equiv _).trans this ((conn_equiv _).symm (h1 v))
  · have := pot_id (n := G.n); omega

/-- The same with sampling. -/
theorem lt_extended_short_sampled {G : UG} (hG : G.Sym) (hn : G.n ≤ big) {P : Nat → Nat} (hP : Start G P) (hle : ∀ x, P x ≤ x)
    {frq : Nat} (hfrq : frq < G.n) {k : Nat} {par : Nat → Nat} (h : Sampled .extended .simple false G frq P k par) :
    IsCC G.n (Adj G) par ∧ k ≤ G.n * G.n + 1 := by
  obtain ⟨p, hl, hpar⟩ := h
  have hi := linv_sampled (upd := .simple) hn hfrq hP fun _ => hle
  obtain ⟨h1, h2, h3⟩ := ext_loop (frq0 := frq) hG hn rfl hl ⟨fun x hx => ⟨hi.out x hx, rfl⟩, hi.simple rfl, hi.mle, hi.sound, hi.msound⟩
  have := pot_id (n := G.n)
  exact ⟨unval hn h1 h2 hpar, by omega⟩

/-! ### Executions -/

/-- A round in which one thread sends all messages and the vertices are shortcut one after the other in the order `ord`. -/
def roundL {M : Type} [DecidableEq M] (K : Msg M) (d : Nat → M) (con : Con) (upd : Upd) (full : Bool) (n : Nat) (es : List (Nat × Nat))
    (ord : List Nat) (P : List Nat) (m : List M) : Option (List Nat × List Nat × List M × Bool) :=
  match runL d (fun i => send K 2 (mail con (tab (fun x => x) P) (if i = 0 then es else [])) false) [0] m with
  | none => none
  | some (m1, c) =>
    let P1 := (List.range n).map fun u => update upd u (tab (fun x => x) P u) (K.comp (tab d m1 u))
    match runL (fun x => x) (fun u => if decide (u < n) then sc full (2 * n + 2) u else ret none) ord P1 with
    | none => none
    | some (P2, o) =>
      if (List.range n).all (fun u => results (fun _ => none) o u == some ()) then some (P1, P2, m1, results (fun _ => false) c 0) else none

theorem roundL_sound {M : Type} [DecidableEq M] {K : Msg M} {d : Nat → M} {con : Con} {upd : Upd} {full : Bool} {n : Nat}
    {es : List (Nat × Nat)} {E : Nat × Nat → Prop} (hes : ∀ e, e ∈ es ↔ E e) {ord : List Nat} (hord : ord.Perm (List.range n))
    {P P1 P2 : List Nat} {m m1 : List M} {ch : Bool} (hP : P.length = n) (h : roundL K d con upd full n es ord P m = some (P1, P2, m1, ch)) :
    Round K con upd full n E (tab (fun x => x) P) (tab d m) (tab (fun x => x) P1) (tab (fun x => x) P2) (tab d m1) ch := by
  rw [roundL] at h
  split at h
  · cases h
  · rename_i m1' c h1
    dsimp only at h
    split at h
    · cases h
    · rename_i P2' o h2
      split at h
      · rename_i hall
        cases h
        have hnd : ord.Nodup := hord.nodup_iff.2 List.nodup_range
        obtain ⟨-, hc⟩ := runL_seq (fun _ => false) (List.nodup_singleton 0) h1
        refine ⟨⟨fun i => if i = 0 then es else [], 2, _, fun e => ?_, runL_par (fun _ => false) (List.nodup_singleton 0) (fun j hj => ?_) h1,
          fun h => ⟨0, h⟩, ?_⟩, fun u => ?_, 2 * n + 2, _, runL_par (fun _ => none) hnd (fun j hj => ?_) h2, fun u hu => ?_⟩
        · rw [← hes]
          refine ⟨?_, fun h => ⟨0, by simpa using h⟩⟩
          rintro ⟨i, hi⟩
          by_cases h0 : i = 0
          · simpa [h0] using hi
          · simp [h0] at hi
        · have : j ≠ 0 := by simpa using hj
          simp [this, mail, send]
        · rintro ⟨i, hi⟩
          by_cases h0 : i = 0
          · subst h0; exact hi
          · exfalso
            match c, hc with
            | [(0, b)], _ =>
              have hb : (i == 0) = false := by simpa using h0
              simp [results, List.lookup, hb] at hi
        · unfold tab
          by_cases hu : u < n
          · rw [if_pos hu, List.getD_eq_getElem?_getD, List.getElem?_map, List.getElem?_range hu]; rfl
          · rw [if_neg hu, List.getD_eq_getElem?_getD, List.getD_eq_getElem?_getD, List.getElem?_eq_none (by simp; omega),
              List.getElem?_eq_none (by omega)]
        · have : ¬ j < n := fun h => hj (hord.mem_iff.2 (List.mem_range.2 h))
          simp [this]
        · rw [List.all_eq_true] at hall
          simpa using hall u (List.mem_range.2 hu)
      · cases h

/-- Rounds until nothing changes, at most `f`. -/
def loopL (con : Con) (upd : Upd) (full : Bool) (n : Nat) (es : List (Nat × Nat)) (ord : List Nat) : Nat → List Nat → List Nat →
    Option (Nat × List Nat)
  | 0, _, _ => none
  | f + 1, P, m => match roundL natMsg (fun x => x) con upd full n es ord P m with
    | none => none
    | some (_, P2, m1, ch) =>
      if P2.length = n then
        if ch then (loopL con upd full n es ord f P2 m1).map fun x => (x.1 + 1, x.2) else some (1, P2)
      else none

theorem loopL_sound {con : Con} {upd : Upd} {full : Bool} {G : UG} {es : List (Nat × Nat)}
    (hes : ∀ P e, e ∈ es ↔ Proc G none P e) {ord : List Nat} (hord : ord.Perm (List.range G.n)) (f : Nat) {P m P' : List Nat} {k : Nat}
    (hP : P.length = G.n) (h : loopL con upd full G.n es ord f P m = some (k, P')) :
    Loop con upd full G none k (tab (fun x => x) P) (tab (fun x => x) m) (tab (fun x => x) P') := by
  induction f generalizing P m k with
  | zero => cases h
  | succ f ih =>
    rw [loopL] at h
    split at h
    · cases h
    · rename_i P1 P2 m1 ch hr
      have h1 := roundL_sound (hes (tab (fun x => x) P)) hord hP hr
      split at h
      · rename_i hl
        split at h
        · rename_i hch
          subst hch
          rw [Option.map_eq_some_iff] at h
          obtain ⟨⟨k', P3⟩, h2, h3⟩ := h
          cases h3
          exact .more h1 (ih hl h2)
        · rename_i hch
          cases h
          have : ch = false := by simpa using hch
          subst this
          exact .last h1
      · cases h

/-- The same on a list of edges. -/
def loopCOOL (con : Con) (upd : Upd) (full : Bool) (n : Nat) (ord : List Nat) : Nat → List (Nat × Nat) → List Nat → List Nat →
    Option (Nat × List Nat)
  | 0, _, _, _ => none
  | f + 1, es, P, m => match roundL natMsg (fun x => x) con upd full n (es.filter fun e => decide (e.1 ≠ e.2)) ord P m with
    | none => none
    | some (_, P2, m1, ch) =>
      if P2.length = n then
        if ch then (loopCOOL con upd full n ord f (alter (tab (fun x => x) P2) es) P2 m1).map fun x => (x.1 + 1, x.2) else some (1, P2)
      else none

theorem loopCOOL_sound {con : Con} {upd : Upd} {full : Bool} {n : Nat} {ord : List Nat} (hord : ord.Perm (List.range n)) (f : Nat)
    {es : List (Nat × Nat)} {P m P' : List Nat} {k : Nat} (hP : P.length = n) (h : loopCOOL con upd full n ord f es P m = some (k, P')) :
    LoopCOO con upd full n k es (tab (fun x => x) P) (tab (fun x => x) m) (tab (fun x => x) P') := by
  induction f generalizing es P m k with
  | zero => cases h
  | succ f ih =>
    rw [loopCOOL] at h
    split at h
    · cases h
    · rename_i P1 P2 m1 ch hr
      have h1 := roundL_sound (E := fun e => e ∈ es ∧ e.1 ≠ e.2) (fun e => by simp) hord hP hr
      split at h
      · rename_i hl
        split at h
        · rename_i hch
          subst hch
          rw [Option.map_eq_some_iff] at h
          obtain ⟨⟨k', P3⟩, h2, h3⟩ := h
          cases h3
          exact .more h1 (ih hl h2)
        · rename_i hch
          cases h
          have : ch = false := by simpa using hch
          subst this
          exact .last h1
      · cases h

theorem tab_range (n : Nat) : tab (fun x => x) (List.range n) = fun x => x := by
  funext x
  unfold tab
  by_cases hx : x < n
  · rw [List.getD_eq_getElem?_getD, List.getElem?_range hx]; rfl
  · rw [List.getD_eq_getElem?_getD, List.getElem?_eq_none (by simp; omega)]; rfl

/-- The path `0 - 1 - ... - (n - 1)`. -/
def path (n : Nat) : UG := ⟨n, fun u => if u < n then (if 0 < u then [u - 1] else []) ++ (if u + 1 < n then [u + 1] else []) else []⟩

def pathE (n : Nat) : List (Nat × Nat) := (List.range n).flatMap fun u => ((path n).nb u).map fun v => (u, v)

theorem mem_pathE {n : Nat} (P : Nat → Nat) (e : Nat × Nat) : e ∈ pathE n ↔ Proc (path n) none P e := by
  unfold pathE Proc
  rw [List.mem_flatMap]
  constructor
  · rintro ⟨u, hu, h⟩
    obtain ⟨v, hv, rfl⟩ := List.mem_map.1 h
    exact ⟨List.mem_range.1 hu, fun c h => (by cases h), hv⟩
  · rintro ⟨h1, -, h3⟩
    exact ⟨e.1, List.mem_range.2 h1, List.mem_map.2 ⟨e.2, h3, rfl⟩⟩

theorem path_adj {n u : Nat} (h : u + 1 < n) : Adj (path n) u (u + 1) := by
  show u + 1 ∈ (path n).nb u
  unfold path
  simp only
  rw [if_pos (by omega), List.mem_append]
  right
  rw [if_pos h]; exact List.mem_singleton_self _

theorem path_sym (n : Nat) : (path n).Sym := by
  have hmem : ∀ u v, v ∈ (path n).nb u ↔ (u < n ∧ v < n ∧ (v + 1 = u ∨ u + 1 = v)) := by
    intro u v
    simp only [path]
    split
    · split <;> split <;> simp <;> omega
    · simp; omega
  have hcnt : ∀ u v, ((path n).nb u).count v = if u < n ∧ v < n ∧ (v + 1 = u ∨ u + 1 = v) then 1 else 0 := by
    intro u v
    simp only [path]
    by_cases h1 : u < n
    · by_cases h2 : 0 < u <;> by_cases h3 : u + 1 < n <;> simp [h1, h2, h3, List.count_cons] <;> grind
    · simp [h1]
  refine ⟨fun u v => ?_, fun u v h => ?_⟩
  · rw [hcnt, hcnt]
    refine if_congr ⟨fun h => ?_, fun h => ?_⟩ rfl rfl
    · omega
    · omega
  · have := (hmem u v).1 h
    exact ⟨this.1, this.2.1⟩

theorem path_conn {n : Nat} (u : Nat) (h : u < n) : Conn (Adj (path n)) 0 u := by
  induction u with
  | zero => exact (conn_equiv _).refl _
  | succ u ih => exact (conn_equiv _).trans (ih (by omega)) (.rel _ _ (path_adj h))

theorem refute_of {con : Con} {upd : Upd} {n f k : Nat} {P' : List Nat} (hn : 0 < n)
    (h : loopL con upd false n (pathE n) (List.range n).reverse f (List.range n) (List.range n) = some (k, P'))
    {u : Nat} (hu : u < n) (hne : tab (fun x => x) P' 0 ≠ tab (fun x => x) P' u) :
    ∃ k par, Components con upd false (path n) k par ∧ ¬ IsCC (path n).n (Adj (path n)) par := by
  have := loopL_sound (G := path n) (fun P e => mem_pathE P e) (List.reverse_perm _) f (by simp [path]) h
  rw [tab_range] at this
  exact ⟨k, _, this, fun hc => hne ((hc 0 u hn hu).2 (path_conn u hu))⟩

/-- C89 fails with a single `shortcut` per round: on the path with 6 vertices, if the vertices are shortcut in descending order,
the loop ends after two rounds with different labels in the only component. -/
theorem lt_short_refuted (upd : Upd) :
    ∃ k par, Components .parent upd false (path 6) k par ∧ ¬ IsCC (path 6).n (Adj (path 6)) par := by
  cases upd with
  | simple => exact refute_of (f := 3) (u := 5) (by decide) rfl (by decide) (by decide)
  | root => exact refute_of (f := 3) (u := 5) (by decide) rfl (by decide) (by decide)

theorem coo_refute_of {con : Con} {upd : Upd} {n f k : Nat} {P' : List Nat} (hn : 0 < n)
    (h : loopCOOL con upd false n (List.range n).reverse f (pathE n) (List.range n) (List.range n) = some (k, P'))
    {u : Nat} (hu : u < n) (hne : tab (fun x => x) P' 0 ≠ tab (fun x => x) P' u) :
    ∃ k par, ComponentsCOO con upd false n (pathE n) k par ∧ ¬ IsCC n (LAdj (pathE n)) par := by
  have := loopCOOL_sound (List.reverse_perm _) f (by simp) h
  rw [tab_range] at this
  refine ⟨k, tab (fun x => x) P', ?_, fun hc => hne ((hc 0 u hn hu).2 ?_)⟩
  · rw [ComponentsCOO, ComputeCOO, alter_eq rfl, List.map_id']
    exact this
  · exact (path_conn u hu).mono fun x y h => (mem_pathE (fun x => x) (x, y)).2 ⟨((path_sym n).bound x y h).1, fun c h => (by cases h), h⟩

/-- C90 fails with a single `shortcut` per round for every connect option and either update. -/
theorem coo_short_refuted (con : Con) (upd : Upd) :
    ∃ n k par, ComponentsCOO con upd false n (pathE n) k par ∧ ¬ IsCC n (LAdj (pathE n)) par := by
  cases con with
  | simple =>
    cases upd with
    | simple => exact ⟨6, coo_refute_of (f := 3) (u := 5) (by decide) rfl (by decide) (by decide)⟩
    | root => exact ⟨6, coo_refute_of (f := 3) (u := 5) (by decide) rfl (by decide) (by decide)⟩
  | parent =>
    cases upd with
    | simple => exact ⟨6, coo_refute_of (f := 3) (u := 5) (by decide) rfl (by decide) (by decide)⟩
    | root => exact ⟨6, coo_refute_of (f := 3) (u := 5) (by decide) rfl (by decide) (by decide)⟩
  | extended =>
    cases upd with
    | simple => exact ⟨13, coo_refute_of (f := 4) (u := 12) (by decide) rfl (by decide) (by decide)⟩
    | root => exact ⟨10, coo_refute_of (f := 4) (u := 9) (by decide) rfl (by decide) (by decide)⟩

/-- Two components: the edge `0 - 1` and the vertex `2`. -/
def twoG : UG := UG.ofLists [[1], [0], []]

/-- Labels of a sample in which `0` has the label `1`. -/
def twoP : Nat → Nat := tab (fun x => x) [1, 1, 2]

theorem twoP_start : Start twoG twoP := by
  have hlt : ∀ x, x < 3 → x = 0 ∨ x = 1 ∨ x = 2 := by omega
  have hout : ∀ x, 3 ≤ x → twoP x = x := fun x hx => by
    unfold twoP tab
    rw [List.getD_eq_getElem?_getD, List.getElem?_eq_none (by simpa using hx)]; rfl
  refine ⟨fun x hx => ?_, fun x => ?_, fun x => ?_, hout⟩
  · rcases hlt x hx with rfl | rfl | rfl <;> decide
  · by_cases hx : x < 3
    · rcases hlt x hx with rfl | rfl | rfl <;> decide
    · rw [hout x (by omega), hout x (by omega)]
  · by_cases hx : x < 3
    · rcases hlt x hx with rfl | rfl | rfl
      · exact .rel _ _ (by show 1 ∈ twoG.nb 0; decide)
      · exact .refl _
      · exact .refl _
    · rw [hout x (by omega)]; exact .refl _

theorem two_proc (e : Nat × Nat) : e ∈ [(0, 1), (1, 0)] ↔ Proc twoG (some big) (tab (fun x => x) [1, 1, big]) e := by
  obtain ⟨u, v⟩ := e
  constructor
  · intro h
    simp only [List.mem_cons, Prod.mk.injEq, List.not_mem_nil, or_false] at h
    rcases h with ⟨rfl, rfl⟩ | ⟨rfl, rfl⟩
    · exact ⟨by decide, fun c h => by cases h; decide, by decide⟩
    · exact ⟨by decide, fun c h => by cases h; decide, by decide⟩
  · rintro ⟨h1, -, h2⟩
    have h1 : u < 3 := h1
    have h2 : v ∈ twoG.nb u := h2
    have : u = 0 ∨ u = 1 ∨ u = 2 := by omega
    rcases this with rfl | rfl | rfl
    · have : v ∈ [1] := h2
      simp_all
    · have : v ∈ [0] := h2
      simp_all
    · have : v ∈ ([] : List Nat) := h2
      simp_all

/-- C89 with sampling fails for `simple_update` if a sample labels a vertex with a larger one: no message is sent, but the vertex
becomes its own parent. With both connect options of this version and both shortcuts. -/
theorem lt_sampled_refuted (con : Con) (full : Bool) (hcon : con ≠ .simple) :
    ∃ k par, Sampled con .simple full twoG 2 twoP k par ∧ ¬ IsCC twoG.n (Adj twoG) par := by
  have hP : (fun x => if twoP x = 2 then big else twoP x) = tab (fun x => x) [1, 1, big] := by
    funext x
    by_cases hx : x < 3
    · have : x = 0 ∨ x = 1 ∨ x = 2 := by omega
      rcases this with rfl | rfl | rfl <;> decide
    · unfold twoP tab
      rw [List.getD_eq_getElem?_getD, List.getElem?_eq_none (by simpa using hx), List.getD_eq_getElem?_getD,
        List.getElem?_eq_none (by simpa using hx)]
      simp; omega
  have hr : Round natMsg con .simple full 3 (Proc twoG (some big) (tab (fun x => x) [1, 1, big])) (tab (fun x => x) [1, 1, big])
      (tab (fun x => x) (List.range 3)) (tab (fun x => x) [0, 1, big]) (tab (fun x => x) [0, 1, big]) (tab (fun x => x) [0, 1, 2]) false := by
    cases con with
    | simple => exact absurd rfl hcon
    | parent => cases full <;> exact roundL_sound (n := 3) two_proc (List.Perm.refl _) rfl rfl
    | extended => cases full <;> exact roundL_sound (n := 3) two_proc (List.Perm.refl _) rfl rfl
  refine ⟨1, fun x => if tab (fun x => x) [0, 1, big] x = big then 2 else tab (fun x => x) [0, 1, big] x,
    ⟨tab (fun x => x) [0, 1, big], ?_, fun _ => rfl⟩, fun hc => ?_⟩
  · rw [tab_range] at hr
    rw [hP]
    exact .last hr
  · have := (hc 0 1 (by decide) (by decide)).2 (.rel _ _ (by show 1 ∈ twoG.nb 0; decide))
    revert this
    decide

/-! ### Examples of runs -/

/-- Runs with `full_shortcut` on the path with 6 vertices, for all options. -/
example (upd : Upd) : ∃ k, Components .parent upd true (path 6) k (tab (fun x => x) [0, 0, 0, 0, 0, 0]) := by
  have := fun h => loopL_sound (con := .parent) (upd := upd) (full := true) (G := path 6) (fun P e => mem_pathE P e) (List.reverse_perm _) 3
    (by simp [path]) (k := 2) (P' := [0, 0, 0, 0, 0, 0]) (P := List.range 6) (m := List.range 6) h
  rw [tab_range] at this
  cases upd
  · exact ⟨2, this rfl⟩
  · exact ⟨2, this rfl⟩

/-- A run of the version that is right with a single `shortcut`. -/
example : ∃ k, Components .extended .simple false (path 6) k (tab (fun x => x) [0, 0, 0, 0, 0, 0]) := by
  have := fun k h => loopL_sound (con := .extended) (upd := .simple) (full := false) (G := path 6) (fun P e => mem_pathE P e) (List.reverse_perm _) 6
    (by simp [path]) (k := k) (P' := [0, 0, 0, 0, 0, 0]) (P := List.range 6) (m := List.range 6) h
  rw [tab_range] at this
  exact ⟨_, this 3 rfl⟩

/-- A run on a list of edges. -/
example : ∃ k, ComponentsCOO .simple .root true 6 (pathE 6) k (tab (fun x => x) [0, 0, 0, 0, 0, 0]) := by
  have := fun k h => loopCOOL_sound (con := .simple) (upd := .root) (full := true) (n := 6) (List.reverse_perm _) 6
    (by simp) (k := k) (es := pathE 6) (P' := [0, 0, 0, 0, 0, 0]) (P := List.range 6) (m := List.range 6) h
  rw [tab_range] at this
  exact ⟨_, this 2 rfl⟩

end Gbbs.LT
