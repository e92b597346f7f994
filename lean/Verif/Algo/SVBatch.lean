/-
C70: incremental Shiloach-Vishkin, `process_batch` in `benchmarks/Connectivity/ShiloachVishkin/Connectivity.h`.
-/
import Verif.Conc.Par
import Verif.Algo.Relax
import Verif.Algo.Components

namespace Gbbs.SVBatch

open Conc Conc.Prog Comp
open Atomics (Steps)
open Relax (writeMin)

/-! ### Model -/

/-- `parents`, `prev_parents` and `flags` (0 is false). -/
inductive L
  | par (x : Nat)
  | prev (x : Nat)
  | flag (x : Nat)
  deriving DecidableEq

/-- An update; the flag tells insertions from queries. -/
abbrev Upd := Nat × Nat × Bool

/-- The first loop, `Connectivity.h:122-138`. Returns whether `changed = true` is executed. -/
def hookB (f : Nat) : Upd → Prog L Nat Bool
  | (u, v, ins) =>
    if ins then
      read (.prev u) fun pu => read (.prev v) fun pv =>
        let l := min pu pv
        let h := max pu pv
        if l ≠ h then read (.prev h) fun ph =>
          if h = ph then (writeMin f (.par h) l).bind fun _ => ret true else ret false
        else ret false
    else ret false

/-- `while (parents[u] != parents[parents[u]]) parents[u] = parents[parents[u]]; prev_parents[u] = parents[u];`,
`Connectivity.h:152-156`. -/
def shrink : Nat → Nat → Prog L Nat Unit
  | 0, _ => stuck
  | f + 1, u => read (.par u) fun a => read (.par u) fun b => read (.par b) fun c =>
      if a ≠ c then read (.par u) fun d => read (.par d) fun e => write (.par u) e (shrink f u)
      else read (.par u) fun a => write (.prev u) a (ret ())

/-- `if (flags[u] == false && CAS(&flags[u], false, true)) ...`, `Connectivity.h:150-157`. -/
def guarded (f u : Nat) : Prog L Nat Unit :=
  read (.flag u) fun x => if x = 0 then cas (.flag u) 0 1 fun b => if b then shrink f u else ret () else ret ()

/-- The second loop, `Connectivity.h:146-167`. -/
def compB (f : Nat) : Upd → Prog L Nat Unit
  | (u, v, _) => (guarded f u).bind fun _ => guarded f v

/-- The third loop, `Connectivity.h:170-179`. -/
def resetB : Upd → Prog L Nat Unit
  | (u, v, _) =>
    (read (.flag u) fun x => if x ≠ 0 then write (.flag u) 0 (ret ()) else ret ()).bind fun _ =>
      read (.flag v) fun x => if x ≠ 0 then write (.flag v) 0 (ret ()) else ret ()

/-- One thread for each update. -/
def each {α : Type} (us : List Upd) (dflt : α) (p : Upd → Prog L Nat α) (i : Nat) : Prog L Nat α :=
  match us[i]? with
  | none => ret dflt
  | some x => p x

/-- One iteration of `while (changed)`, `Connectivity.h:118-198`. -/
def Round (f : Nat) (us : List Upd) (m m' : L → Nat) (ch : Bool) : Prop :=
  ∃ m1 m2 c o1 o2, Par (each us false (hookB f)) m m1 c ∧ Par (each us () (compB f)) m1 m2 o1 ∧
    Par (each us () resetB) m2 m' o2 ∧ (ch = true ↔ ∃ i, c i = true)

/-- `process_batch<false>(parents, updates)`, `Connectivity.h:112-199`. -/
inductive Batch (f : Nat) (us : List Upd) : (L → Nat) → (L → Nat) → Prop
  | last {m m'} (h : Round f us m m' false) : Batch f us m m'
  | more {m m' m''} (h : Round f us m m' true) (hl : Batch f us m' m'') : Batch f us m m''

/-- One batch after the other. -/
inductive Stream (f : Nat) : List (List Upd) → (L → Nat) → (L → Nat) → Prop
  | nil {m} : Stream f [] m m
  | cons {us uss m m' m''} (h : Batch f us m m') (hl : Stream f uss m' m'') : Stream f (us :: uss) m m''

/-- `parents` is the identity and `initialize` (`Connectivity.h:39-42`) was called. -/
def init : L → Nat
  | .par x => x
  | .prev x => x
  | .flag _ => 0

/-! ### Specification -/

/-- `r` is the root of `u`. -/
def Root (m : L → Nat) (u r : Nat) : Prop := (∃ k, (fun x => m (.par x))^[k] u = r) ∧ m (.par r) = r

/-- The inserted edges. -/
def Ins (uss : List (List Upd)) (u v : Nat) : Prop := ∃ us ∈ uss, (u, v, true) ∈ us

/-! ### Soundness -/

/-- Every stored label is in the component. -/
def Sound (C : Nat → Nat → Prop) (m : L → Nat) : Prop := ∀ x, C x (m (.par x)) ∧ C x (m (.prev x))

def sRG (C : Nat → Nat → Prop) : RG Nat (L → Nat) L Nat where
  Inv g m := g = m ∧ Sound C m
  R _ _ _ := True
  Gu _ _ _ := True
  refl _ _ := trivial
  trans _ _ _ _ _ _ := trivial
  compat _ _ _ _ _ _ := trivial

variable {C : Nat → Nat → Prop}

theorem sound_par {m : L → Nat} (h : Sound C m) {u v : Nat} (hc : C u v) : Sound C (put m (.par u) v) := by
  intro x
  refine ⟨?_, by rw [put_ne _ _ (by simp)]; exact (h x).2⟩
  by_cases hx : x = u
  · subst hx; rw [put_same]; exact hc
  · rw [put_ne _ _ (by simpa using hx)]; exact (h x).1

theorem sound_prev {m : L → Nat} (h : Sound C m) {u v : Nat} (hc : C u v) : Sound C (put m (.prev u) v) := by
  intro x
  refine ⟨by rw [put_ne _ _ (by simp)]; exact (h x).1, ?_⟩
  by_cases hx : x = u
  · subst hx; rw [put_same]; exact hc
  · rw [put_ne _ _ (by simpa using hx)]; exact (h x).2

theorem sound_flag {m : L → Nat} (h : Sound C m) {u v : Nat} : Sound C (put m (.flag u) v) := by
  intro x
  rw [put_ne _ _ (by simp), put_ne _ _ (by simp)]
  exact h x

theorem writeMin_safe (i f : Nat) {u v : Nat} (hc : C u v) (g : L → Nat) :
    Safe (sRG C) i (fun _ _ => True) (writeMin f (.par u) v) g := by
  induction f generalizing g with
  | zero => trivial
  | succ f ih =>
    rintro g1 m1 _ ⟨rfl, h1⟩
    refine ⟨g1, trivial, ⟨rfl, h1⟩, ?_⟩
    beta_reduce
    split
    · rintro g2 m2 _ ⟨rfl, h2⟩
      exact ⟨fun _ => ⟨_, trivial, ⟨rfl, sound_par h2 hc⟩, fun _ _ => trivial⟩, fun _ => ⟨g2, trivial, ⟨rfl, h2⟩, ih g2⟩⟩
    · exact fun _ _ => trivial

theorem hookB_safe (hC : Equivalence C) (i f : Nat) (x : Upd) (hx : x.2.2 = true → C x.1 x.2.1) (g : L → Nat) :
    Safe (sRG C) i (fun _ _ => True) (hookB f x) g := by
  obtain ⟨u, v, ins⟩ := x
  rw [hookB]
  split
  · rename_i hins
    rintro g1 m1 _ ⟨rfl, h1⟩
    refine ⟨g1, trivial, ⟨rfl, h1⟩, ?_⟩
    rintro g2 m2 _ ⟨rfl, h2⟩
    refine ⟨g2, trivial, ⟨rfl, h2⟩, ?_⟩
    have hu := (h1 u).2
    have hv := (h2 v).2
    generalize g1 (.prev u) = pu at *
    generalize g2 (.prev v) = pv at *
    have hc : C pu pv := hC.trans (hC.symm hu) (hC.trans (hx hins) hv)
    have hc : C (max pu pv) (min pu pv) := by
      rcases Nat.le_total pu pv with h | h
      · rw [Nat.max_eq_right h, Nat.min_eq_left h]; exact hC.symm hc
      · rw [Nat.max_eq_left h, Nat.min_eq_right h]; exact hc
    beta_reduce
    simp only []
    split
    · rintro g3 m3 _ ⟨rfl, h3⟩
      refine ⟨g3, trivial, ⟨rfl, h3⟩, ?_⟩
      beta_reduce
      split
      · exact (writeMin_safe i f hc g3).bind fun _ _ _ => fun _ _ => trivial
      · exact fun _ _ => trivial
    · exact fun _ _ => trivial
  · exact fun _ _ => trivial

theorem shrink_safe (hC : Equivalence C) (i f u : Nat) (g : L → Nat) : Safe (sRG C) i (fun _ _ => True) (shrink f u) g := by
  induction f generalizing g with
  | zero => trivial
  | succ f ih =>
    rintro g1 m1 _ ⟨rfl, h1⟩
    refine ⟨g1, trivial, ⟨rfl, h1⟩, ?_⟩
    rintro g2 m2 _ ⟨rfl, h2⟩
    refine ⟨g2, trivial, ⟨rfl, h2⟩, ?_⟩
    rintro g3 m3 _ ⟨rfl, h3⟩
    refine ⟨g3, trivial, ⟨rfl, h3⟩, ?_⟩
    beta_reduce
    split
    · rintro g4 m4 _ ⟨rfl, h4⟩
      refine ⟨g4, trivial, ⟨rfl, h4⟩, ?_⟩
      rintro g5 m5 _ ⟨rfl, h5⟩
      refine ⟨g5, trivial, ⟨rfl, h5⟩, ?_⟩
      rintro g6 m6 _ ⟨rfl, h6⟩
      exact ⟨_, trivial, ⟨rfl, sound_par h6 (hC.trans (h4 u).1 (h5 _).1)⟩, ih _⟩
    · rintro g4 m4 _ ⟨rfl, h4⟩
      refine ⟨g4, trivial, ⟨rfl, h4⟩, ?_⟩
      rintro g5 m5 _ ⟨rfl, h5⟩
      exact ⟨_, trivial, ⟨rfl, sound_prev h5 (h4 u).1⟩, fun _ _ => trivial⟩

theorem guarded_safe (hC : Equivalence C) (i f u : Nat) (g : L → Nat) :
    Safe (sRG C) i (fun _ _ => True) (guarded f u) g := by
  rintro g1 m1 _ ⟨rfl, h1⟩
  refine ⟨g1, trivial, ⟨rfl, h1⟩, ?_⟩
  beta_reduce
  split
  · rintro g2 m2 _ ⟨rfl, h2⟩
    refine ⟨fun _ => ⟨_, trivial, ⟨rfl, sound_flag h2⟩, ?_⟩, fun _ => ⟨g2, trivial, ⟨rfl, h2⟩, fun _ _ => trivial⟩⟩
    exact shrink_safe hC i f u _
  · exact fun _ _ => trivial

theorem reset_safe (i u : Nat) (g : L → Nat) : Safe (sRG C) i (fun _ _ => True)
    (read (.flag u) fun x => if x ≠ 0 then write (.flag u) 0 (ret ()) else ret ()) g := by
  rintro g1 m1 _ ⟨rfl, h1⟩
  refine ⟨g1, trivial, ⟨rfl, h1⟩, ?_⟩
  beta_reduce
  split
  · rintro g2 m2 _ ⟨rfl, h2⟩
    exact ⟨_, trivial, ⟨rfl, sound_flag h2⟩, fun _ _ => trivial⟩
  · exact fun _ _ => trivial

theorem par_sound {α : Type} {us : List Upd} {d : α} {p : Upd → Prog L Nat α}
    (hp : ∀ i x, x ∈ us → ∀ g, Safe (sRG C) i (fun _ _ => True) (p x) g) {m m' : L → Nat} {o : Nat → α}
    (h : Par (each us d p) m m' o) (hm : Sound C m) : Sound C m' := by
  obtain ⟨g, ⟨rfl, hi⟩, -⟩ := safe_reach (sRG C) (fun _ _ _ => True) h m ⟨rfl, hm⟩ fun i => by
    show Safe _ _ _ (each us d p i) _
    unfold each
    split
    · exact fun _ _ => trivial
    · rename_i x hx
      exact hp i x (List.mem_of_getElem? hx) m
  exact hi

theorem round_sound (hC : Equivalence C) {f : Nat} {us : List Upd} (hus : ∀ x ∈ us, x.2.2 = true → C x.1 x.2.1)
    {m m' : L → Nat} {ch : Bool} (h : Round f us m m' ch) (hm : Sound C m) : Sound C m' := by
  obtain ⟨m1, m2, c, o1, o2, h1, h2, h3, -⟩ := h
  have s1 := par_sound (fun i x hx g => hookB_safe hC i f x (hus x hx) g) h1 hm
  have s2 := par_sound (fun i x _ g => (guarded_safe hC i f x.1 g).bind fun _ g' _ => guarded_safe hC i f x.2.1 g') h2 s1
  exact par_sound (fun i x _ g => (reset_safe i x.1 g).bind fun _ g' _ => reset_safe i x.2.1 g') h3 s2

theorem batch_sound (hC : Equivalence C) {f : Nat} {us : List Upd} (hus : ∀ x ∈ us, x.2.2 = true → C x.1 x.2.1)
    {m m' : L → Nat} (h : Batch f us m m') (hm : Sound C m) : Sound C m' := by
  induction h with
  | last h => exact round_sound hC hus h hm
  | more h _ ih => exact ih (round_sound hC hus h hm)

theorem stream_sound (hC : Equivalence C) {f : Nat} {uss : List (List Upd)}
    (hus : ∀ us ∈ uss, ∀ x ∈ us, x.2.2 = true → C x.1 x.2.1) {m m' : L → Nat} (h : Stream f uss m m') (hm : Sound C m) :
    Sound C m' := by
  induction h with
  | nil => exact hm
  | @cons us uss _ _ _ h _ ih =>
    exact ih (fun us' h' => hus us' (List.mem_cons_of_mem _ h')) (batch_sound hC (hus us List.mem_cons_self) h hm)

/-- C70, the part that holds: after any batches, in every interleaving, vertices with the same root are connected by
inserted edges. Missing: connected vertices have the same root, see `batch_refuted`. -/
theorem batch_partial {f : Nat} {uss : List (List Upd)} {m : L → Nat} (h : Stream f uss init m) {u v r : Nat}
    (hu : Root m u r) (hv : Root m v r) : Conn (Ins uss) u v := by
  have hs : Sound (Conn (Ins uss)) m := stream_sound (conn_equiv _) (fun us hus x hx hi =>
    .rel _ _ ⟨us, hus, by rw [← hi]; exact hx⟩) h fun x => ⟨(conn_equiv _).refl _, (conn_equiv _).refl _⟩
  have key : ∀ u, Root m u r → Conn (Ins uss) u r := by
    rintro u ⟨⟨k, rfl⟩, -⟩
    clear hu hv
    induction k with
    | zero => exact (conn_equiv _).refl _
    | succ k ih => rw [Function.iterate_succ_apply']; exact (conn_equiv _).trans ih (hs _).1
  exact (conn_equiv _).trans (key u hu) ((conn_equiv _).symm (key v hv))

/-! ### Refutation -/

/-- A loop with one iteration is sequential. -/
theorem par_single {α : Type} {x : Upd} {d : α} {p : Upd → Prog L Nat α} {m m' : L → Nat} {o : Nat → α}
    (h : Par (each [x] d p) m m' o) : Em.exec (p x) m = some (o 0, m') ∧ ∀ i, i ≠ 0 → o i = d := by
  have key : ∀ c, Steps Step ⟨m, each [x] d p⟩ c →
      Em.exec (c.th 0) c.mem = Em.exec (p x) m ∧ ∀ i, i ≠ 0 → c.th i = ret d := by
    intro c hc
    induction hc with
    | refl =>
      refine ⟨rfl, fun i hi => ?_⟩
      show each [x] d p i = _
      have : [x][i]? = none := by rw [List.getElem?_eq_none]; simp; omega
      rw [each, this]
    | @tail b c _ hst ih =>
      obtain ⟨i, m', p', hp, rfl⟩ := hst
      obtain ⟨h1, h2⟩ := ih
      by_cases hi : i = 0
      · subst hi
        refine ⟨?_, fun j hj => ?_⟩
        · rw [← h1]
          simp only [if_true]
          cases hth : b.th 0 with
          | ret a => rw [hth] at hp; cases hp
          | stuck => rw [hth] at hp; cases hp
          | read x k => rw [hth] at hp; cases hp; rfl
          | write x v k => rw [hth] at hp; cases hp; rfl
          | cas x o n k =>
            rw [hth] at hp
            simp only [Prog.step] at hp
            rw [Em.exec]
            split at hp
            · rename_i he; cases hp; rw [if_pos he]
            · rename_i he; cases hp; rw [if_neg he]
        · simp only [hj, if_false]; exact h2 j hj
      · rw [h2 i hi] at hp; cases hp
  obtain ⟨h1, h2⟩ := key _ h
  refine ⟨h1.symm, fun i hi => ?_⟩
  have := h2 i hi
  simpa using this

/-- One round on a single update. -/
def run1 (f : Nat) (x : Upd) (m : L → Nat) : Option (Bool × (L → Nat)) :=
  (Em.exec (hookB f x) m).bind fun a => (Em.exec (compB f x) a.2).bind fun b =>
    (Em.exec (resetB x) b.2).bind fun c => some (a.1, c.2)

theorem round_single {f : Nat} {x : Upd} {m m' : L → Nat} {ch : Bool} (h : Round f [x] m m' ch) :
    run1 f x m = some (ch, m') := by
  obtain ⟨m1, m2, c, o1, o2, h1, h2, h3, h4⟩ := h
  obtain ⟨e1, hc⟩ := par_single h1
  have e2 := (par_single h2).1
  have e3 := (par_single h3).1
  have : c 0 = ch := by
    cases ch with
    | true =>
      obtain ⟨i, hi⟩ := h4.1 rfl
      by_cases h0 : i = 0
      · exact h0 ▸ hi
      · rw [hc i h0] at hi; cases hi
    | false =>
      cases h0 : c 0 with
      | false => rfl
      | true => exact absurd (h4.2 ⟨0, h0⟩) (by simp)
  rw [run1, e1]
  simp only [Option.bind_some, e2, e3, this]

/-- A batch of one update that takes two rounds. -/
def batch1 (f : Nat) (x : Upd) (m : L → Nat) : Option (L → Nat) :=
  (run1 f x m).bind fun a => if a.1 then (run1 f x a.2).bind fun b => if b.1 then none else some b.2 else none

theorem batch_single {f : Nat} {x : Upd} {m m2 m' : L → Nat} (hb : batch1 f x m = some m2) (h : Batch f [x] m m') :
    m' = m2 := by
  rw [batch1, Option.bind_eq_some_iff] at hb
  obtain ⟨⟨c, m1⟩, h1, hb⟩ := hb
  simp only at hb
  split at hb
  · rename_i hc
    subst hc
    rw [Option.bind_eq_some_iff] at hb
    obtain ⟨⟨c, m3⟩, h2, hb⟩ := hb
    simp only at hb
    split at hb
    · cases hb
    · rename_i hc
      cases hb
      cases h with
      | last h => have := (round_single h).symm.trans h1; cases this
      | more h hl =>
        have := (round_single h).symm.trans h1
        cases this
        cases hl with
        | last h => have := (round_single h).symm.trans h2; cases this; rfl
        | more h _ => have := (round_single h).symm.trans h2; cases this; exact absurd rfl hc
  · cases hb

/-- The batches of the refutation. -/
def bad : List (List Upd) := [[(5, 6, true)], [(6, 3, true)], [(5, 1, true)]]

def after (f : Nat) : Option (L → Nat) :=
  (batch1 f (5, 6, true) init).bind fun m1 => (batch1 f (6, 3, true) m1).bind fun m2 => batch1 f (5, 1, true) m2

theorem after_eq (f : Nat) : ∃ m, after (f + 2) = some m ∧ m (.par 1) = 1 ∧ m (.par 3) = 3 ∧ m (.par 5) = 1 ∧ m (.par 6) = 3 :=
  ⟨_, rfl, by decide +kernel, by decide +kernel, by decide +kernel, by decide +kernel⟩

theorem batch_first {f : Nat} {x : Upd} {m m' : L → Nat} (h : Batch f [x] m m') : ∃ a, run1 f x m = some a := by
  cases h with
  | last h => exact ⟨_, round_single h⟩
  | more h _ => exact ⟨_, round_single h⟩

theorem stream_bad {f : Nat} {m : L → Nat} (h : Stream f bad init m) : after f = some m ∧ 2 ≤ f := by
  cases h with
  | cons h1 h =>
  cases h with
  | cons h2 h =>
  cases h with
  | cons h3 h =>
  cases h
  match f with
  | 0 =>
    obtain ⟨a, ha⟩ := batch_first h1
    have h0 : run1 0 (5, 6, true) init = none := rfl
    rw [h0] at ha; cases ha
  | 1 =>
    have e1 : ∃ m1, batch1 1 (5, 6, true) init = some m1 ∧ run1 1 (6, 3, true) m1 = none := ⟨_, rfl, rfl⟩
    obtain ⟨m1, e1, e2⟩ := e1
    have := batch_single e1 h1
    subst this
    obtain ⟨a, ha⟩ := batch_first h2
    rw [e2] at ha; cases ha
  | f + 2 =>
    have e1 : ∃ m1 m2 m3, batch1 (f + 2) (5, 6, true) init = some m1 ∧ batch1 (f + 2) (6, 3, true) m1 = some m2 ∧
      batch1 (f + 2) (5, 1, true) m2 = some m3 := ⟨_, _, _, rfl, rfl, rfl⟩
    obtain ⟨m1, m2, m3, e1, e2, e3⟩ := e1
    have a1 := batch_single e1 h1
    subst a1
    have a2 := batch_single e2 h2
    subst a2
    have a3 := batch_single e3 h3
    subst a3
    rw [after, e1, Option.bind_some, e2, Option.bind_some, e3]
    exact ⟨rfl, by omega⟩

/-- C70 fails: after the three insertions `5 - 6`, `6 - 3`, `5 - 1`, one per batch, every run leaves 5 and 6 with the
roots 1 and 3, although `5 - 6` was inserted. The second batch moves 5 but does not refresh `prev_parents[5]`. -/
theorem batch_refuted {f : Nat} {m : L → Nat} (h : Stream f bad init m) :
    Conn (Ins bad) 5 6 ∧ Root m 5 1 ∧ Root m 6 3 := by
  obtain ⟨h1, h2⟩ := stream_bad h
  obtain ⟨m', e, e1, e3, e5, e6⟩ := after_eq (f - 2)
  rw [show f - 2 + 2 = f by omega, h1] at e
  cases e
  exact ⟨.rel _ _ ⟨[(5, 6, true)], by simp [bad], by simp⟩, ⟨⟨1, e5⟩, e1⟩, ⟨⟨1, e6⟩, e3⟩⟩

/-- `run1` and `batch1` are runs. -/
theorem run1_sound {f : Nat} {x : Upd} {m m' : L → Nat} {ch : Bool} (h : run1 f x m = some (ch, m')) :
    Round f [x] m m' ch := by
  rw [run1, Option.bind_eq_some_iff] at h
  obtain ⟨⟨a, m1⟩, h1, h⟩ := h
  rw [Option.bind_eq_some_iff] at h
  obtain ⟨⟨b, m2⟩, h2, h⟩ := h
  rw [Option.bind_eq_some_iff] at h
  obtain ⟨⟨c, m3⟩, h3, h⟩ := h
  cases h
  have key : ∀ {α : Type} {d a : α} {p : Upd → Prog L Nat α} {m m' : L → Nat}, Em.exec (p x) m = some (a, m') →
      Par (each [x] d p) m m' fun j => if j = 0 then a else d := by
    intro α d a p m m' h
    refine runSeq_par _ (fun _ => d) [0] (by simp) (fun j hj => ?_) ?_
    · have : [x][j]? = none := by rw [List.getElem?_eq_none]; simp at hj ⊢; omega
      rw [each, this]
    · have he : each [x] d p 0 = p x := rfl
      rw [runSeq, he, h]
      rfl
  refine ⟨m1, m2, _, _, _, key (d := false) h1, key (d := ()) h2, key (d := ()) h3, ?_⟩
  constructor
  · rintro rfl; exact ⟨0, rfl⟩
  · rintro ⟨i, hi⟩
    by_cases h0 : i = 0
    · simpa [h0] using hi
    · simp [h0] at hi

theorem batch1_sound {f : Nat} {x : Upd} {m m' : L → Nat} (hb : batch1 f x m = some m') : Batch f [x] m m' := by
  rw [batch1, Option.bind_eq_some_iff] at hb
  obtain ⟨⟨c, m1⟩, h1, hb⟩ := hb
  simp only at hb
  split at hb
  · rename_i hc
    subst hc
    rw [Option.bind_eq_some_iff] at hb
    obtain ⟨⟨c, m3⟩, h2, hb⟩ := hb
    simp only at hb
    split at hb
    · cases hb
    · rename_i hc
      cases hb
      have : c = false := by simpa using hc
      subst this
      exact .more (run1_sound h1) (.last (run1_sound h2))
  · cases hb

/-- There are such runs. -/
example : ∃ m, Stream 2 bad init m ∧ Root m 5 1 ∧ Root m 6 3 ∧ Conn (Ins bad) 5 6 := by
  have e1 : ∃ m1 m2 m3, batch1 2 (5, 6, true) init = some m1 ∧ batch1 2 (6, 3, true) m1 = some m2 ∧
    batch1 2 (5, 1, true) m2 = some m3 := ⟨_, _, _, rfl, rfl, rfl⟩
  obtain ⟨m1, m2, m3, e1, e2, e3⟩ := e1
  have h : Stream 2 bad init m3 := .cons (batch1_sound e1) (.cons (batch1_sound e2) (.cons (batch1_sound e3) .nil))
  obtain ⟨h1, h2, h3⟩ := batch_refuted h
  exact ⟨m3, h, h2, h3, h1⟩

end Gbbs.SVBatch
