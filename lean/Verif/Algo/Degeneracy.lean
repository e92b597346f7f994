/-
C62, C63: `DegeneracyOrder` and `DegeneracyOrderWithLoad`, `benchmarks/KCore/JulienneDBS17/KCore.h:146-253`.
-/
import Verif.Algo.KCore

namespace Gbbs.Degen

open Buckets KCore

/-! ### Model -/

/-- Iterations of the loop of `DegeneracyOrder`, `KCore.h:160-196`, and of `DegeneracyOrderWithLoad`, `:213-249`: as in `KCore`, and the extracted
vertices are appended to the order (`:169-171`, `:222-224`). -/
inductive Run (c : Cfg) (G : UG) : (Nat → Nat) → BS → Nat → List Nat → (Nat → Nat) → BS → Nat → List Nat → Prop
  | nil {D st fin ord} : Run c G D st fin ord D st fin ord
  | cons {D0 s0 f0 o0 D st fin ord fuel k ids st1 h st2} (hr : Run c G D0 s0 f0 o0 D st fin ord) (hf : fin ≠ G.n)
      (hn : nextBucket c D fuel st = some (k, ids, st1)) (hh : IsHist (ids.flatMap G.nb) h) (hu : moveTo1 c st1 (moves k D h) = some st2) :
      Run c G D0 s0 f0 o0 (setAll D (moves k D h)) st2 (fin + ids.length) (ord ++ ids)

/-- `DegeneracyOrder(G, opn + 1)`, `KCore.h:146-200`: the order starts empty (`:157`). -/
def Order (opn : Nat) (G : UG) (ord : List Nat) : Prop :=
  ∃ st0 D st, create (cfg opn) G.n (deg0 G) = some st0 ∧ Run (cfg opn) G (deg0 G) st0 0 [] D st G.n ord

/-- `D` of `DegeneracyOrderWithLoad` as a function on all identifiers. -/
def load (G : UG) (D : Nat → Nat) (v : Nat) : Nat := if v < G.n then D v else null

/-- `DegeneracyOrderWithLoad(G, D, opn + 1)`, `KCore.h:202-253`: the order starts with `n` zeros (`:210`, `sequence<uintE>(n)`). -/
def OrderWithLoad (opn : Nat) (G : UG) (D0 : Nat → Nat) (ord : List Nat) : Prop :=
  ∃ st0 D st, create (cfg opn) G.n (load G D0) = some st0 ∧ Run (cfg opn) G (load G D0) st0 0 (List.replicate G.n 0) D st G.n ord

/-! ### Proof -/

section
open Classical
variable {G : UG} {opn : Nat}

/-- The order so far. -/
structure OInv (G : UG) (D : Nat → Nat) (P : Nat → Prop) (lb : Nat) (ord : List Nat) : Prop where
  nodup : ord.Nodup
  mem : ∀ v, v ∈ ord ↔ v < G.n ∧ ¬ P v
  asc : ord.Pairwise fun a b => D a ≤ D b
  top : ∀ v ∈ ord, D v ≤ lb
  later : ∀ pre v post, ord = pre ++ v :: post → (G.nb v).countP (fun u => decide (u ∉ pre)) ≤ D v

theorem OInv.step (hG : G.Sym) {D D' : Nat → Nat} {P : Nat → Prop} {lb k : Nat} {ord ids : List Nat} (h : OInv G D P lb ord)
    (hP : Peel G P D lb) (hnd : ids.Nodup) (hlb : lb ≤ k) (hids : ∀ v, v ∈ ids ↔ P v ∧ D v = k) (hkeep : ∀ v, ¬ (P v ∧ D v ≠ k) → D' v = D v) :
    OInv G D' (fun v => P v ∧ D v ≠ k) k (ord ++ ids) := by
  have hno : ∀ v ∈ ord, ¬ P v := fun v hv => ((h.mem v).1 hv).2
  have ho : ∀ v ∈ ord, D' v = D v := fun v hv => hkeep v fun hc => hno v hv hc.1
  have hi : ∀ v ∈ ids, D' v = k := fun v hv => (hkeep v fun hc => hc.2 ((hids v).1 hv).2).trans ((hids v).1 hv).2
  refine ⟨?_, fun v => ?_, ?_, fun v hv => ?_, fun pre v post he => ?_⟩
  · rw [List.nodup_append]
    exact ⟨h.nodup, hnd, fun a ha b hb hab => hno a ha (hab ▸ ((hids b).1 hb).1)⟩
  · rw [List.mem_append, h.mem, hids]
    constructor
    · rintro (⟨h1, h2⟩ | ⟨h1, h2⟩)
      · exact ⟨h1, fun hc => h2 hc.1⟩
      · exact ⟨hP.bound v h1, fun hc => hc.2 h2⟩
    · rintro ⟨h1, h2⟩
      by_cases hp : P v
      · exact Or.inr ⟨hp, by by_contra hc; exact h2 ⟨hp, hc⟩⟩
      · exact Or.inl ⟨h1, hp⟩
  · rw [List.pairwise_append]
    refine ⟨h.asc.imp_of_mem fun {a b} ha hb hab => ?_, ?_, fun a ha b hb => ?_⟩
    · rw [ho a ha, ho b hb]; exact hab
    · exact hnd.imp_of_mem fun {a b} ha hb _ => by rw [hi a ha, hi b hb]
    · rw [ho a ha, hi b hb]
      exact Nat.le_trans (h.top a ha) hlb
  · rcases List.mem_append.1 hv with hv | hv
    · rw [ho v hv]; exact Nat.le_trans (h.top v hv) hlb
    · exact Nat.le_of_eq (hi v hv)
  · rcases List.append_eq_append_iff.1 he with ⟨a, h1, h2⟩ | ⟨a, h1, h2⟩
    · -- `v` is one of the new vertices
      have hv : v ∈ ids := by rw [h2]; simp
      have hD := hP.val v ((hids v).1 hv).1
      rw [hi v hv, ← ((hids v).1 hv).2, hD]
      refine Nat.le_trans ?_ (Nat.le_max_left _ _)
      rw [rdeg]
      refine List.countP_mono_left fun u hu hup => ?_
      simp only [decide_eq_true_eq] at hup ⊢
      by_contra hc
      refine hup ?_
      rw [h1]
      exact List.mem_append_left _ ((h.mem u).2 ⟨(hG.bound _ _ hu).2, hc⟩)
    · cases a with
      | nil =>
        rw [List.nil_append] at h2
        rw [List.append_nil] at h1
        have hv : v ∈ ids := by rw [← h2]; simp
        have hD := hP.val v ((hids v).1 hv).1
        rw [hi v hv, ← ((hids v).1 hv).2, hD]
        refine Nat.le_trans ?_ (Nat.le_max_left _ _)
        rw [rdeg]
        refine List.countP_mono_left fun u hu hup => ?_
        simp only [decide_eq_true_eq] at hup ⊢
        by_contra hc
        exact hup (h1 ▸ (h.mem u).2 ⟨(hG.bound _ _ hu).2, hc⟩)
      | cons x a =>
        rw [List.cons_append, List.cons.injEq] at h2
        obtain ⟨rfl, h2⟩ := h2
        rw [ho v (by rw [h1]; simp)]
        exact h.later pre v a h1

theorem run_ok (hG : G.Sym) {D0 D : Nat → Nat} {s0 st : BS} {f0 fin : Nat} {o0 ord : List Nat} {P0 : Nat → Prop} {lb0 : Nat}
    (hr : Run (cfg opn) G D0 s0 f0 o0 D st fin ord) (h : KCore.Inv G (cfg opn) D0 P0 lb0 s0 f0) (ho : OInv G D0 P0 lb0 o0) :
    ∃ P lb, KCore.Inv G (cfg opn) D P lb st fin ∧ OInv G D P lb ord := by
  induction hr with
  | nil => exact ⟨P0, lb0, h, ho⟩
  | cons hr hf hn hh hu ih =>
    obtain ⟨P, lb, h1, h2⟩ := ih
    obtain ⟨_, _, hnd, hlb, hids, hkeep, st2', hst, hinv⟩ := h1.stepX hG hf hn hh
    rw [hu, Option.some.injEq] at hst
    subst hst
    exact ⟨_, _, hinv, h2.step hG h1.peel hnd hlb hids hkeep⟩

end

theorem run_append {c : Cfg} {G : UG} {D0 D : Nat → Nat} {s0 st : BS} {f0 fin : Nat} {o0 ord : List Nat} (hr : Run c G D0 s0 f0 o0 D st fin ord) :
    ∃ l, ord = o0 ++ l ∧ fin = f0 + l.length := by
  induction hr with
  | nil => exact ⟨[], by simp, by simp⟩
  | cons hr _ _ _ _ ih =>
    obtain ⟨l, h1, h2⟩ := ih
    exact ⟨l ++ _, by rw [h1, List.append_assoc], by rw [h2, List.length_append, Nat.add_assoc]⟩

/-! ### Theorems -/

/-- C62: `DegeneracyOrder` returns every vertex once; the coreness does not decrease along the order and no vertex has more neighbours after it
(counting itself, if it has a loop) than its coreness. -/
theorem degeneracy_order {G : UG} (hG : G.Sym) {opn : Nat} (hopn : 0 < opn) (hopn' : opn < null) (hdeg : ∀ v, (G.nb v).length < null)
    {ord : List Nat} (h : Order opn G ord) :
    ord.Perm (List.range G.n) ∧ ∃ core : Nat → Nat, (∀ v, v < G.n → IsCoreness G v (core v)) ∧ (ord.Pairwise fun a b => core a ≤ core b) ∧
      ∀ pre v post, ord = pre ++ v :: post → (G.nb v).countP (fun u => decide (u ∉ pre)) ≤ core v := by
  obtain ⟨st0, D, st, h0, hrun⟩ := h
  obtain ⟨st0', h0', P, lb, hi⟩ := inv_init hG hopn hopn' hdeg
  rw [h0, Option.some.injEq] at h0'
  subst h0'
  classical
  have hP : ∀ v, v < G.n → P v := by
    intro v hv
    by_contra hc
    have h1 := hi.cnt.symm
    rw [Finset.card_eq_zero] at h1
    have h2 : v ∈ (Finset.range G.n).filter fun v => ¬ P v := Finset.mem_filter.2 ⟨Finset.mem_range.2 hv, hc⟩
    have h3 : v ∈ (∅ : Finset Nat) := by rw [← h1]; convert h2
    exact absurd h3 (Finset.notMem_empty v)
  obtain ⟨P', lb', h1, h2⟩ := run_ok hG hrun hi
    ⟨List.nodup_nil, fun v => ⟨fun hc => (by cases hc), fun hc => absurd (hP v hc.1) hc.2⟩, List.Pairwise.nil, fun v hv => (by cases hv),
      fun pre v post he => (by cases pre <;> cases he)⟩
  have hall : ∀ v, v < G.n → ¬ P' v := by
    have h3 := h1.cnt.symm.trans (Finset.card_range _).symm
    rw [Finset.card_filter_eq_iff] at h3
    exact fun v hv => h3 v (Finset.mem_range.2 hv)
  refine ⟨?_, D, fun v hv => (h1.peel.done v hv (hall v hv)).1, h2.asc, fun pre v post he => ?_⟩
  · rw [List.perm_ext_iff_of_nodup h2.nodup List.nodup_range]
    intro v
    rw [h2.mem, List.mem_range]
    exact ⟨fun h => h.1, fun h => ⟨h, hall v h⟩⟩
  · have := h2.later pre v post he
    convert this

/-- C63: the order returned by `DegeneracyOrderWithLoad` has length `2n` and begins with `n` zeros. -/
theorem withLoad_zeros {G : UG} {opn : Nat} {D0 : Nat → Nat} {ord : List Nat} (h : OrderWithLoad opn G D0 ord) :
    ord.length = 2 * G.n ∧ ord.take G.n = List.replicate G.n 0 := by
  obtain ⟨st0, D, st, _, hrun⟩ := h
  obtain ⟨l, h1, h2⟩ := run_append hrun
  refine ⟨?_, ?_⟩
  · rw [h1, List.length_append, List.length_replicate]; omega
  · rw [h1, List.take_append_of_le_length (by simp), List.take_of_length_le (by simp)]

/-- C63: so it is not an order of the vertices as soon as there are two of them. -/
theorem withLoad_not_perm {G : UG} {opn : Nat} {D0 : Nat → Nat} {ord : List Nat} (h : OrderWithLoad opn G D0 ord) (hn : 0 < G.n) :
    ¬ ord.Perm (List.range G.n) := by
  intro hp
  have h1 := (withLoad_zeros h).1
  rw [hp.length_eq, List.length_range] at h1
  omega

theorem run_prefix {c : Cfg} {G : UG} {D0 D : Nat → Nat} {s0 st : BS} {f0 fin : Nat} {o0 ord : List Nat} (hr : Run c G D0 s0 f0 o0 D st fin ord) :
    ∃ l, ord = o0 ++ l ∧ Run c G D0 s0 f0 [] D st fin l := by
  induction hr with
  | nil => exact ⟨[], by simp, .nil⟩
  | cons hr hf hn hh hu ih =>
    obtain ⟨l, h1, h2⟩ := ih
    exact ⟨l ++ _, by rw [h1, List.append_assoc], .cons h2 hf hn hh hu⟩

/-- C63, what does hold: with the degrees as loads, the second half is an order of `DegeneracyOrder`. -/
theorem withLoad_partial {G : UG} {opn : Nat} {ord : List Nat} (h : OrderWithLoad opn G (deg0 G) ord) : Order opn G (ord.drop G.n) := by
  obtain ⟨st0, D, st, h0, hrun⟩ := h
  have he : load G (deg0 G) = deg0 G := by
    funext v
    rw [load, deg0]; split <;> rfl
  rw [he] at h0 hrun
  obtain ⟨l, h1, h2⟩ := run_prefix hrun
  refine ⟨st0, D, st, h0, ?_⟩
  rw [h1, List.drop_append_of_le_length (by simp), List.drop_of_length_le (by simp), List.nil_append]
  exact h2

/-! ### Example -/

/-- One execution. -/
def exec (c : Cfg) (G : UG) : Nat → (Nat → Nat) → BS → Nat → List Nat → Option (List Nat)
  | 0, _, _, _, _ => none
  | j + 1, D, st, fin, ord => if fin = G.n then some ord else
    match nextBucket c D 20 st with
    | none => none
    | some (k, ids, st1) =>
      match moveTo1 c st1 (moves k D (canon (ids.flatMap G.nb))) with
      | none => none
      | some st2 => exec c G j (setAll D (moves k D (canon (ids.flatMap G.nb)))) st2 (fin + ids.length) (ord ++ ids)

theorem exec_sound {c : Cfg} {G : UG} {D0 : Nat → Nat} {s0 : BS} {f0 : Nat} {o0 : List Nat} (j : Nat) :
    ∀ (D : Nat → Nat) (st : BS) (fin : Nat) (ord ord' : List Nat), Run c G D0 s0 f0 o0 D st fin ord →
      exec c G j D st fin ord = some ord' → ∃ D' st', Run c G D0 s0 f0 o0 D' st' G.n ord' := by
  induction j with
  | zero => intro D st fin ord ord' _ h; cases h
  | succ j ih =>
    intro D st fin ord ord' hr h
    rw [exec] at h
    by_cases hf : fin = G.n
    · rw [if_pos hf, Option.some.injEq] at h
      subst h; subst hf
      exact ⟨_, _, hr⟩
    · rw [if_neg hf] at h
      rcases hn : nextBucket c D 20 st with _ | ⟨k, ids, st1⟩
      · rw [hn] at h; cases h
      · rw [hn] at h
        simp only at h
        rcases hm : moveTo1 c st1 (moves k D (canon (ids.flatMap G.nb))) with _ | st2
        · rw [hm] at h; cases h
        · rw [hm] at h
          exact ih _ _ _ _ _ (.cons hr hf hn (canon_isHist _) hm) h

/-- The result of `exec`. -/
def execAll (opn : Nat) (G : UG) (D : Nat → Nat) (o0 : List Nat) : Option (List Nat) :=
  match create (cfg opn) G.n D with
  | none => none
  | some st => exec (cfg opn) G (G.n + 1) D st 0 o0

theorem execAll_sound {opn : Nat} {G : UG} {D : Nat → Nat} {o0 l : List Nat} (h : execAll opn G D o0 = some l) :
    ∃ st0 D' st', create (cfg opn) G.n D = some st0 ∧ Run (cfg opn) G D st0 0 o0 D' st' G.n l := by
  rw [execAll] at h
  rcases hc : create (cfg opn) G.n D with _ | st
  · rw [hc] at h; cases h
  · rw [hc] at h
    obtain ⟨D', st', hr⟩ := exec_sound _ _ _ _ _ _ .nil h
    exact ⟨st, D', st', rfl, hr⟩

example : Order 15 exG [4, 3, 2, 0, 1] ∨ Order 15 exG [4, 3, 0, 1, 2] := by
  first
  | exact Or.inl (execAll_sound (by decide +kernel))
  | exact Or.inr (execAll_sound (by decide +kernel))

end Gbbs.Degen
