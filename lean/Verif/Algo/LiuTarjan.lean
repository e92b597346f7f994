/-
C89, C90: the Liu-Tarjan connectivity algorithms, `benchmarks/Connectivity/LiuTarjan/Connectivity.h` and
`liu_tarjan_rules.h`, and what the spanning forest of C91 shares with them.
-/
import Verif.Conc.Par
import Verif.Algo.UGraph
import Verif.Algo.Components
import Verif.Algo.LabelProp
import Verif.Algo.SV

namespace Gbbs.LT

open Conc Conc.Prog Comp
open Atomics (Steps)
open LabelProp (big key key_inj lpLess lpLess_iff)
open SV (Adj Start)

/-! ### Model -/

/-- The types of the messages: `uintE`, and `message` (`SpanningForest/LiuTarjan/liu_tarjan_rules.h:44-57`), in terms of
the component in a message and the message made for a component and an edge. -/
structure Msg (M : Type) where
  comp : M → Nat
  of : Nat → Nat × Nat → M
  comp_of : ∀ c e, comp (of c e) = c

/-- Messages of the connectivity algorithms: `uintE`. -/
def natMsg : Msg Nat := ⟨fun c => c, fun c _ => c, fun _ _ => rfl⟩

/-- `connect`, `parent_connect`, `extended_connect`: `liu_tarjan_rules.h:47-91`. -/
inductive Con
  | simple
  | parent
  | extended
  deriving DecidableEq

/-- `simple_update`, `root_update`: `liu_tarjan_rules.h:93-110`. -/
inductive Upd
  | simple
  | root
  deriving DecidableEq

/-- `lt_min`, `liu_tarjan_rules.h:26-33`. -/
def ltMin (u v : Nat) : Nat := if u = big then u else if v = big then v else min u v

/-- `lt_max`, `liu_tarjan_rules.h:35-42`. -/
def ltMax (u v : Nat) : Nat := if u = big then v else if v = big then u else max u v

/-- `lt_greater`, `liu_tarjan_rules.h:17-24`; `lt_less` is `lpLess`. -/
def ltGreater (u v : Nat) : Bool := if u = big then v == big else if v = big then true else decide (v < u)

/-- `(u == largest_comp) ? u : P[u]`, `liu_tarjan_rules.h:63-64`, `78-79`. -/
def lab (P : Nat → Nat) (u : Nat) : Nat := if u = big then u else P u

/-- The messages `(to, component)` that are sent for an edge, in the order in which they are sent:
`liu_tarjan_rules.h:47-91`. `P` is not written in this loop and is a parameter. -/
def sends (con : Con) (P : Nat → Nat) (e : Nat × Nat) : List (Nat × Nat) :=
  match con with
  | .simple => if ltMin e.1 e.2 ≠ ltMax e.1 e.2 then [(ltMax e.1 e.2, ltMin e.1 e.2)] else []
  | .parent =>
    let x := lab P e.1
    let y := lab P e.2
    if ltMin x y ≠ ltMax x y then [(ltMax x y, ltMin x y)] else []
  | .extended =>
    let x := lab P e.1
    let y := lab P e.2
    if x = y then []
    else if lpLess y x then [(e.1, y), (x, y)]
    else if ltGreater y x then [(y, x), (e.2, x)]
    else []

/-- `write_min(a, b, less)`, `bridge.h:300-308`; at most `f` iterations are considered. -/
def writeLess {L V : Type} (less : V → V → Bool) : Nat → L → V → Prog L V Bool
  | 0, _, _ => stuck
  | f + 1, a, b => read a fun c => if less b c then cas a c b fun r => if r then ret true else writeLess less f a b
      else ret false

/-- Sends messages, each for an edge; `c` is whether a `write_min` has succeeded. `parents_changed` is only ever set; a
thread returns whether it sets it. -/
def send {M : Type} (K : Msg M) (f : Nat) : List (Nat × Nat × (Nat × Nat)) → Bool → Prog Nat M Bool
  | [], c => ret c
  | (a, b, e) :: l, c =>
    (writeLess (fun x y => lpLess (K.comp x) (K.comp y)) f a (K.of b e)).bind fun r => send K f l (c || r)

/-- The messages of a thread that is given these edges. -/
def mail (con : Con) (P : Nat → Nat) (es : List (Nat × Nat)) : List (Nat × Nat × (Nat × Nat)) :=
  es.flatMap fun e => (sends con P e).map fun ab => (ab.1, ab.2, e)

/-- `simple_update` and `root_update` of `u`, whose parent is `p` and whose message is `m`. -/
def update (upd : Upd) (u p m : Nat) : Nat :=
  match upd with
  | .simple => ltMin p m
  | .root => if u ≠ p then p else ltMin p m

/-- `shortcut`, `liu_tarjan_rules.h:112-117`. -/
def shortcut (u : Nat) : Prog Nat Nat (Option Unit) :=
  read u fun p => if p = big then ret (some ()) else read p fun q =>
    if p ≠ q then read p fun q => write u q (ret (some ())) else ret (some ())

/-- The loop of `root_shortcut`, with `p_u = p`; at most `f` iterations, `none` if they do not suffice. -/
def rootLoop (u : Nat) : Nat → Nat → Prog Nat Nat (Option Unit)
  | 0, _ => ret none
  | f + 1, p => if p = big then ret (some ()) else read p fun q =>
      if p ≠ q then read p fun q => write u q (read u fun p => rootLoop u f p) else ret (some ())

/-- `root_shortcut`, `liu_tarjan_rules.h:119-125`. -/
def rootShortcut (f u : Nat) : Prog Nat Nat (Option Unit) := read u fun p => rootLoop u f p

/-- The shortcut option. -/
def sc (full : Bool) (f u : Nat) : Prog Nat Nat (Option Unit) := if full then rootShortcut f u else shortcut u

/-- One iteration of `while (parents_changed)`: connect, update, shortcut (`Connectivity.h:124-166`, `395-400`) from the
parents `P` and the messages `m`, with parents `P1` after the update. The edges `E` are distributed over threads in any
way. In the second loop thread `u` accesses only `P[u]` and `messages[u]`, so it is a function. -/
structure Round {M : Type} [DecidableEq M] (K : Msg M) (con : Con) (upd : Upd) (full : Bool) (n : Nat) (E : Nat × Nat → Prop) (P : Nat → Nat)
    (m : Nat → M) (P1 P2 : Nat → Nat) (m1 : Nat → M) (ch : Bool) : Prop where
  connect : ∃ (part : Nat → List (Nat × Nat)) (f : Nat) (c : Nat → Bool), (∀ e, (∃ i, e ∈ part i) ↔ E e) ∧
    Par (fun i => send K f (mail con P (part i)) false) m m1 c ∧ (ch = true ↔ ∃ i, c i = true)
  updated : ∀ u, P1 u = if u < n then update upd u (P u) (K.comp (m1 u)) else P u
  short : ∃ (f : Nat) (out : Nat → Option Unit),
    Par (fun u => if decide (u < n) then sc full f u else ret none) P1 P2 out ∧ ∀ u, u < n → out u = some ()

/-- The edges that `compute_components` processes on the graph, `Connectivity.h:138-156`: with sampling only the vertices
not labelled with the frequent component at the time. -/
def Proc (G : UG) (frq : Option Nat) (P : Nat → Nat) (e : Nat × Nat) : Prop :=
  e.1 < G.n ∧ (∀ c, frq = some c → P e.1 ≠ c) ∧ e.2 ∈ G.nb e.1

/-- The loop of `LiuTarjanAlgorithm::compute_components`, `Connectivity.h:119-167`; the index counts the iterations. -/
inductive Loop (con : Con) (upd : Upd) (full : Bool) (G : UG) (frq : Option Nat) :
    Nat → (Nat → Nat) → (Nat → Nat) → (Nat → Nat) → Prop
  | last {P m P1 P2 m1} (h : Round natMsg con upd full G.n (Proc G frq P) P m P1 P2 m1 false) :
      Loop con upd full G frq 1 P m P2
  | more {k P m P1 P2 m1 P'} (h : Round natMsg con upd full G.n (Proc G frq P) P m P1 P2 m1 true)
      (hl : Loop con upd full G frq k P2 m1 P') : Loop con upd full G frq (k + 1) P m P'

/-- `NoSamplingAlgorithmTemplate::components` with `LiuTarjanAlgorithm`, `ConnectIt/sampling.h:67-74`. -/
def Components (con : Con) (upd : Upd) (full : Bool) (G : UG) (k : Nat) (par : Nat → Nat) : Prop :=
  Loop con upd full G none k (fun x => x) (fun x => x) par

/-- `SamplingAlgorithmTemplate::components` with `LiuTarjanAlgorithm`, `ConnectIt/sampling.h:30-56`: the labels `P` of the
sample, the most frequent one (any value) renamed to `largest_comp` and back. -/
def Sampled (con : Con) (upd : Upd) (full : Bool) (G : UG) (frq : Nat) (P : Nat → Nat) (k : Nat) (par : Nat → Nat) :
    Prop :=
  ∃ p, Loop con upd full G (some big) k (fun x => if P x = frq then big else P x) (fun x => x) p ∧
    ∀ x, par x = if p x = big then frq else p x

/-- `my_alter`, `Connectivity.h:359-367`. -/
def alter (P : Nat → Nat) (es : List (Nat × Nat)) : List (Nat × Nat) := es.map fun e => (lab P e.1, lab P e.2)

/-- The loop of `LiuTarjanAlgorithmCOO::compute_components`, `Connectivity.h:395-400`, on the current edges; `my_connect`
skips self-loops (line 373). -/
inductive LoopCOO (con : Con) (upd : Upd) (full : Bool) (n : Nat) :
    Nat → List (Nat × Nat) → (Nat → Nat) → (Nat → Nat) → (Nat → Nat) → Prop
  | last {es P m P1 P2 m1} (h : Round natMsg con upd full n (fun e => e ∈ es ∧ e.1 ≠ e.2) P m P1 P2 m1 false) :
      LoopCOO con upd full n 1 es P m P2
  | more {k es P m P1 P2 m1 P'} (h : Round natMsg con upd full n (fun e => e ∈ es ∧ e.1 ≠ e.2) P m P1 P2 m1 true)
      (hl : LoopCOO con upd full n k (alter P2 es) P2 m1 P') : LoopCOO con upd full n (k + 1) es P m P'

/-- `compute_components` of `LiuTarjanAlgorithmCOO`, `Connectivity.h:389-401`, on the edges `es` from the labels `P`. -/
def ComputeCOO (con : Con) (upd : Upd) (full : Bool) (n : Nat) (es : List (Nat × Nat)) (P : Nat → Nat) (k : Nat)
    (par : Nat → Nat) : Prop :=
  LoopCOO con upd full n k (alter P es) P (fun x => x) par

/-- As `Components`, with the edges in a list. -/
def ComponentsCOO (con : Con) (upd : Upd) (full : Bool) (n : Nat) (es : List (Nat × Nat)) (k : Nat) (par : Nat → Nat) : Prop :=
  ComputeCOO con upd full n es (fun x => x) k par

/-- As `Sampled`, with the edges in a list. -/
def SampledCOO (con : Con) (upd : Upd) (full : Bool) (n : Nat) (es : List (Nat × Nat)) (frq : Nat) (P : Nat → Nat) (k : Nat)
    (par : Nat → Nat) : Prop :=
  ∃ p, ComputeCOO con upd full n es (fun x => if P x = frq then big else P x) k p ∧
    ∀ x, par x = if p x = big then frq else p x

/-! ### Order -/

theorem key_ltMin (u v : Nat) : key (ltMin u v) = min (key u) (key v) := by
  unfold ltMin key
  by_cases hu : u = big <;> by_cases hv : v = big <;> simp [hu, hv]
  omega

theorem key_ltMax (u v : Nat) : key (ltMax u v) = max (key u) (key v) := by
  unfold ltMax key
  by_cases hu : u = big <;> by_cases hv : v = big <;> simp [hu, hv]
  omega

theorem ltMin_max (u v : Nat) : ltMin u v = u ∧ ltMax u v = v ∨ ltMin u v = v ∧ ltMax u v = u := by
  have h1 := key_ltMin u v
  have h2 := key_ltMax u v
  rcases Nat.le_total (key u) (key v) with h | h
  · exact .inl ⟨key_inj (by omega), key_inj (by omega)⟩
  · exact .inr ⟨key_inj (by omega), key_inj (by omega)⟩

theorem ltMin_eq_iff {u v : Nat} : ltMin u v = ltMax u v ↔ u = v := by
  constructor
  · intro h
    have := congrArg key h
    rw [key_ltMin, key_ltMax] at this
    exact key_inj (by omega)
  · rintro rfl
    exact key_inj (by rw [key_ltMin, key_ltMax]; omega)

theorem ltGreater_of {u v : Nat} (h : key v < key u) : ltGreater u v = true := by
  unfold key at h
  unfold ltGreater
  by_cases hu : u = big <;> by_cases hv : v = big <;> simp [hu, hv] at h ⊢
  exact h

theorem lab_eq {P : Nat → Nat} (hb : P big = big) (u : Nat) : lab P u = P u := by
  unfold lab
  split
  · rename_i h; rw [h, hb]
  · rfl

/-- What is sent: the smaller of the two labels to vertices with the larger one, and to the larger one itself. -/
theorem sends_spec {con : Con} {P : Nat → Nat} (hb : P big = big) (hf : ∀ x, P (P x) = P x) {e : Nat × Nat}
    (hs : con = .simple → P e.1 = e.1 ∧ P e.2 = e.2) :
    (∀ ab ∈ sends con P e, P e.1 ≠ P e.2 ∧ ab.2 = ltMin (P e.1) (P e.2) ∧ P ab.1 = ltMax (P e.1) (P e.2) ∧
      (ab.1 = ltMax (P e.1) (P e.2) ∨ ab.1 = e.1 ∨ ab.1 = e.2)) ∧
    (P e.1 ≠ P e.2 → (ltMax (P e.1) (P e.2), ltMin (P e.1) (P e.2)) ∈ sends con P e) := by
  have hmax : P (ltMax (P e.1) (P e.2)) = ltMax (P e.1) (P e.2) := by
    rcases ltMin_max (P e.1) (P e.2) with h | h
    · rw [h.2, hf]
    · rw [h.2, hf]
  cases con with
  | simple =>
    obtain ⟨h1, h2⟩ := hs rfl
    simp only [sends]
    rw [← h1, ← h2, h1, h2]
    by_cases hc : e.1 = e.2
    · simp [hc, ltMin_eq_iff.2 rfl]
    · rw [if_pos (fun h => hc (ltMin_eq_iff.1 h))]
      rw [h1, h2] at hmax ⊢
      refine ⟨fun ab hab => ?_, fun _ => List.mem_singleton_self _⟩
      rw [List.mem_singleton.1 hab]
      exact ⟨hc, rfl, hmax, .inl rfl⟩
  | parent =>
    simp only [sends, lab_eq hb]
    by_cases hc : P e.1 = P e.2
    · simp [hc, ltMin_eq_iff.2 rfl]
    · rw [if_pos (fun h => hc (ltMin_eq_iff.1 h))]
      refine ⟨fun ab hab => ?_, fun _ => List.mem_singleton_self _⟩
      rw [List.mem_singleton.1 hab]
      exact ⟨hc, rfl, hmax, .inl rfl⟩
  | extended =>
    simp only [sends, lab_eq hb]
    by_cases hc : P e.1 = P e.2
    · simp [hc]
    · rw [if_neg hc]
      have h1 := key_ltMin (P e.1) (P e.2)
      have h2 := key_ltMax (P e.1) (P e.2)
      have hk : key (P e.1) ≠ key (P e.2) := fun h => hc (key_inj h)
      by_cases hl : key (P e.2) < key (P e.1)
      · rw [if_pos ((lpLess_iff _ _).2 hl)]
        have e1 : ltMin (P e.1) (P e.2) = P e.2 := key_inj (by omega)
        have e2 : ltMax (P e.1) (P e.2) = P e.1 := key_inj (by omega)
        rw [e1, e2]
        simp [hc, hf]
      · rw [if_neg (by rw [lpLess_iff]; exact hl), if_pos (ltGreater_of (by omega))]
        have e1 : ltMin (P e.1) (P e.2) = P e.1 := key_inj (by omega)
        have e2 : ltMax (P e.1) (P e.2) = P e.2 := key_inj (by omega)
        rw [e1, e2]
        simp [hc, hf]

/-! ### Sending messages -/

section
variable {M : Type} [DecidableEq M] (K : Msg M)

/-- The component in the message of a vertex. -/
abbrev cm (m : Nat → M) (x : Nat) : Nat := K.comp (m x)

/-- Relative to the messages `m0` at the start; `Ok a b e` are the messages that may be sent. The ghost state is the memory
and who wrote a message last. -/
structure SInv (Ok : Nat → Nat → Nat × Nat → Prop) (m0 : Nat → M) (g : (Nat → M) × (Nat → Option Nat)) (m : Nat → M) : Prop where
  mem : g.1 = m
  from' : ∀ x, m x = m0 x ∨ ∃ b e, Ok x b e ∧ m x = K.of b e ∧ key b < key (K.comp (m0 x))
  by' : ∀ x, m x ≠ m0 x → g.2 x ≠ none

def sRG (Ok : Nat → Nat → Nat × Nat → Prop) (m0 : Nat → M) : RG Nat ((Nat → M) × (Nat → Option Nat)) Nat M where
  Inv := SInv K Ok m0
  R i g g' := (∀ x, key (cm K g'.1 x) ≤ key (cm K g.1 x)) ∧ ∀ x, g'.2 x = some i → g.2 x = some i
  Gu i g g' := (∀ x, key (cm K g'.1 x) ≤ key (cm K g.1 x)) ∧ ∀ x j, j ≠ i → g'.2 x = some j → g.2 x = some j
  refl _ _ := ⟨fun _ => Nat.le_refl _, fun _ h => h⟩
  trans _ _ _ _ h1 h2 := ⟨fun x => Nat.le_trans (h2.1 x) (h1.1 x), fun x h => h1.2 x (h2.2 x h)⟩
  compat _ j _ _ hne h := ⟨h.1, fun x => h.2 x j (Ne.symm hne)⟩

variable {K} {Ok : Nat → Nat → Nat × Nat → Prop} {m0 : Nat → M}

/-- What a thread that has sent some messages knows: it changed nothing, or something is smaller. -/
def Know (K : Msg M) (m0 : Nat → M) (i : Nat) (g : (Nat → M) × (Nat → Option Nat)) (c : Bool) : Prop :=
  (c = false → ∀ x, g.2 x ≠ some i) ∧ (c = true → ∃ x, key (cm K g.1 x) < key (cm K m0 x))

theorem Know.stable {i : Nat} {g g' : (Nat → M) × (Nat → Option Nat)} {c : Bool} (h : Know K m0 i g c)
    (hr : (sRG K Ok m0).R i g g') : Know K m0 i g' c :=
  ⟨fun hc x hx => h.1 hc x (hr.2 x hx), fun hc => by
    obtain ⟨x, hx⟩ := h.2 hc
    exact ⟨x, Nat.lt_of_le_of_lt (hr.1 x) hx⟩⟩

theorem SInv.le {g : (Nat → M) × (Nat → Option Nat)} {m : Nat → M} (h : SInv K Ok m0 g m) (x : Nat) :
    key (cm K m x) ≤ key (cm K m0 x) := by
  rcases h.from' x with h | ⟨b, e, -, h1, h2⟩
  · simp only [cm, h]; exact Nat.le_refl _
  · simp only [cm, h1, K.comp_of]; omega

theorem write_safe (f i : Nat) {a b : Nat} {e : Nat × Nat} (hok : Ok a b e) {c : Bool}
    (g : (Nat → M) × (Nat → Option Nat)) (hg : Know K m0 i g c) :
    Safe (sRG K Ok m0) i (fun g r => Know K m0 i g (c || r) ∧ key (cm K g.1 a) ≤ key b)
      (writeLess (fun x y => lpLess (K.comp x) (K.comp y)) f a (K.of b e)) g := by
  induction f generalizing g with
  | zero => trivial
  | succ f ih =>
    have gu : ∀ g, (sRG K Ok m0).Gu i g g := fun g => ⟨fun _ => Nat.le_refl _, fun _ _ _ h => h⟩
    intro g1 m1 hr1 hi1
    have hg1 := hg.stable hr1
    refine ⟨g1, gu _, hi1, ?_⟩
    beta_reduce
    by_cases hlt : key b < key (cm K m1 a)
    · rw [if_pos (by rw [lpLess_iff, K.comp_of]; exact hlt)]
      intro g2 m2 hr2 hi2
      have hg2 := hg1.stable hr2
      refine ⟨fun heq => ?_, fun _ => ⟨g2, gu _, hi2, ih g2 hg2⟩⟩
      have hc2 : key b < key (cm K m2 a) := by
        rw [show cm K m2 a = cm K m1 a from congrArg K.comp heq]
        exact hlt
      have h0 := hi2.le a
      have hput : cm K (put m2 a (K.of b e)) a = b := by simp only [cm, put_same, K.comp_of]
      refine ⟨(put m2 a (K.of b e), fun x => if x = a then some i else g2.2 x), ⟨fun x => ?_, fun x j hj h => ?_⟩,
        ⟨rfl, fun x => ?_, fun x hx => ?_⟩, ?_⟩
      · by_cases hx : x = a
        · subst hx; simp only [hput]; rw [hi2.mem]; omega
        · simp only [cm, put_ne _ _ hx, hi2.mem]; exact Nat.le_refl _
      · dsimp only at h
        by_cases hx : x = a
        · rw [if_pos hx] at h; cases h; exact absurd rfl hj
        · rwa [if_neg hx] at h
      · by_cases hx : x = a
        · subst hx; exact .inr ⟨b, e, hok, put_same .., Nat.lt_of_lt_of_le hc2 h0⟩
        · rw [put_ne _ _ hx]; exact hi2.from' x
      · dsimp only
        by_cases hxa : x = a
        · rw [if_pos hxa]; simp
        · rw [if_neg hxa]; rw [put_ne _ _ hxa] at hx; exact hi2.by' x hx
      · show ∀ g3, _ → _
        intro g3 hr3
        have h3 := hr3.1 a
        dsimp only at h3
        rw [hput] at h3
        refine ⟨⟨fun h => by simp at h, fun _ => ⟨a, by omega⟩⟩, h3⟩
    · rw [if_neg (by rw [lpLess_iff, K.comp_of]; exact hlt)]
      intro g2 hr2
      have := hr2.1 a
      rw [hi1.mem] at this
      refine ⟨by rw [Bool.or_false]; exact hg1.stable hr2, by omega⟩

theorem send_safe (f i : Nat) (l : List (Nat × Nat × (Nat × Nat))) (hl : ∀ x ∈ l, Ok x.1 x.2.1 x.2.2) {c : Bool}
    (g : (Nat → M) × (Nat → Option Nat)) (hg : Know K m0 i g c) :
    Safe (sRG K Ok m0) i (fun g r => Know K m0 i g r ∧ ∀ x ∈ l, key (cm K g.1 x.1) ≤ key x.2.1) (send K f l c) g := by
  induction l generalizing c g with
  | nil => exact fun g' hr => ⟨hg.stable hr, fun x hx => (by cases hx)⟩
  | cons x l ih =>
    obtain ⟨a, b, e⟩ := x
    rw [send]
    refine (write_safe f i (hl _ List.mem_cons_self) g hg).bind fun r g1 h1 => ?_
    have hK : Em.Keeps (sRG K Ok m0) i fun g => key (cm K g.1 a) ≤ key b :=
      ⟨fun g g' hr hk => Nat.le_trans (hr.1 a) hk, fun g g' hr hk => Nat.le_trans (hr.1 a) hk⟩
    refine (Em.safe_frame hK (ih (fun x hx => hl x (List.mem_cons_of_mem _ hx)) g1 h1.1) h1.2).weaken fun r g2 h2 => ?_
    refine ⟨h2.1.1, fun x hx => ?_⟩
    rcases List.mem_cons.1 hx with rfl | hx
    · exact h2.2
    · exact h2.1.2 x hx

end

/-- The loop that sends messages, in any interleaving: every message is one of those that are sent, or smaller, and the flag
tells whether something changed. -/
theorem connect_raw {M : Type} [DecidableEq M] {K : Msg M} {con : Con} {P : Nat → Nat} {E : Nat × Nat → Prop}
    {part : Nat → List (Nat × Nat)} (hpart : ∀ e, (∃ i, e ∈ part i) ↔ E e) {f : Nat} {m0 m1 : Nat → M} {c : Nat → Bool}
    (h : Par (fun i => send K f (mail con P (part i)) false) m0 m1 c) :
    (∀ x, m1 x = m0 x ∨ ∃ b e, E e ∧ (x, b) ∈ sends con P e ∧ m1 x = K.of b e ∧ key b < key (K.comp (m0 x))) ∧
    (∀ e, E e → ∀ ab ∈ sends con P e, key (K.comp (m1 ab.1)) ≤ key ab.2) ∧
    ((∀ i, c i = false) → m1 = m0) ∧ ((∃ i, c i = true) → ∃ x, key (K.comp (m1 x)) < key (K.comp (m0 x))) := by
  let Ok : Nat → Nat → Nat × Nat → Prop := fun a b e => E e ∧ (a, b) ∈ sends con P e
  obtain ⟨g, hi, -, hp⟩ := safe_reach (sRG K Ok m0) _ h (m0, fun _ => none) ⟨rfl, fun _ => .inl rfl, fun x hx => absurd rfl hx⟩
    fun i => send_safe f i (mail con P (part i)) (fun x hx => by
      obtain ⟨e, he, hx⟩ := List.mem_flatMap.1 hx
      obtain ⟨ab, h1, rfl⟩ := List.mem_map.1 hx
      exact ⟨(hpart e).1 ⟨i, he⟩, h1⟩) _ ⟨fun _ _ => by simp, fun h => (by cases h)⟩
  have hm := hi.mem
  dsimp only at hm
  refine ⟨fun x => ?_, fun e he ab hab => ?_, fun hc => ?_, fun ⟨i, hc⟩ => ?_⟩
  · rcases hi.from' x with h | ⟨b, e, ⟨he, hab⟩, h1, h2⟩
    · exact .inl h
    · exact .inr ⟨b, e, he, hab, h1, h2⟩
  · obtain ⟨i, hi'⟩ := (hpart e).2 he
    have := (hp i _ rfl).2 (ab.1, ab.2, e) (List.mem_flatMap.2 ⟨e, hi', List.mem_map.2 ⟨_, hab, rfl⟩⟩)
    dsimp only [cm] at this
    rwa [hm] at this
  · funext x
    by_contra hx
    rcases ho : g.2 x with _ | i
    · exact hi.by' x hx ho
    · exact (hp i _ rfl).1.1 (hc i) x ho
  · obtain ⟨x, hx⟩ := (hp i _ rfl).1.2 hc
    dsimp only [cm] at hx
    rw [hm] at hx
    exact ⟨x, hx⟩

/-- The same from flat trees. -/
theorem connect_par {M : Type} [DecidableEq M] {K : Msg M} {con : Con} {P : Nat → Nat} (hb : P big = big)
    (hf : ∀ x, P (P x) = P x) {E : Nat × Nat → Prop} (hs : con = .simple → ∀ e, E e → P e.1 = e.1 ∧ P e.2 = e.2)
    {part : Nat → List (Nat × Nat)} (hpart : ∀ e, (∃ i, e ∈ part i) ↔ E e) {f : Nat} {m0 m1 : Nat → M} {c : Nat → Bool}
    (h : Par (fun i => send K f (mail con P (part i)) false) m0 m1 c) :
    (∀ x, m1 x = m0 x ∨ ∃ e, E e ∧ P e.1 ≠ P e.2 ∧ m1 x = K.of (ltMin (P e.1) (P e.2)) e ∧
      key (ltMin (P e.1) (P e.2)) < key (K.comp (m0 x)) ∧ P x = ltMax (P e.1) (P e.2) ∧
      (x = ltMax (P e.1) (P e.2) ∨ x = e.1 ∨ x = e.2)) ∧
    (∀ e, E e → P e.1 ≠ P e.2 → key (K.comp (m1 (ltMax (P e.1) (P e.2)))) ≤ key (ltMin (P e.1) (P e.2))) ∧
    ((∀ i, c i = false) → m1 = m0) ∧ ((∃ i, c i = true) → ∃ x, key (K.comp (m1 x)) < key (K.comp (m0 x))) := by
  obtain ⟨h1, h2, h3, h4⟩ := connect_raw hpart h
  refine ⟨fun x => ?_, fun e he hne => h2 e he _ ((sends_spec hb hf fun h => hs h e he).2 hne), h3, h4⟩
  rcases h1 x with h | ⟨b, e, he, hab, h1, h2⟩
  · exact .inl h
  · obtain ⟨h3, h4, h5, h6⟩ := (sends_spec hb hf fun h => hs h e he).1 _ hab
    dsimp only at h4 h5 h6
    subst h4
    exact .inr ⟨e, he, h3, h1, h2, h5, h6⟩

/-! ### Shortcutting -/

theorem rootLoop_safe {mu m0 rt : Nat → Nat} {act : Nat → Prop} (h0 : IsRoot m0 rt) (hb : m0 big = big) (f u : Nat) (hu : act u)
    (g0 : Nat → Nat) (hrt : rt (g0 u) = rt u) :
    Safe (coRG mu m0 rt act) u (fun g o => (o = some () → g u = rt u) ∧ (o = none → f ≤ mu (g0 u)))
      (rootLoop u f (g0 u)) g0 := by
  induction f generalizing g0 with
  | zero => exact fun g _ => ⟨fun h => (by cases h), fun _ => Nat.zero_le _⟩
  | succ f ih =>
    have gu : ∀ g, (coRG mu m0 rt act).Gu u g g := fun _ _ _ => rfl
    generalize hp : g0 u = p at *
    rw [rootLoop]
    by_cases hbig : p = big
    · rw [if_pos hbig]
      rintro g1 (hr1 : g1 u = g0 u)
      refine ⟨fun _ => ?_, fun h => (by cases h)⟩
      rw [hr1, hp, ← hrt, hbig, h0.of_root hb]
    · rw [if_neg hbig]
      rintro g1 m1 (hr1 : g1 u = g0 u) ⟨rfl, hi1⟩
      refine ⟨g1, gu _, ⟨rfl, hi1⟩, ?_⟩
      have e1 : g1 u = p := hr1.trans hp
      beta_reduce
      by_cases hc : p = g1 p
      · rw [if_neg (not_not.2 hc)]
        rintro g2 (hr2 : g2 u = g1 u)
        refine ⟨fun _ => ?_, fun h => (by cases h)⟩
        rw [hr2, e1, ← hrt, h0.of_root ((hi1.root p).1 hc.symm)]
      · rw [if_pos hc]
        rintro g2 m2 (hr2 : g2 u = g1 u) ⟨rfl, hi2⟩
        refine ⟨g2, gu _, ⟨rfl, hi2⟩, ?_⟩
        rintro g3 m3 (hr3 : g3 u = g2 u) ⟨rfl, hi3⟩
        have e3 : g3 u = p := hr3.trans (hr2.trans e1)
        have hnr : ¬ m0 p = p := fun h => hc ((hi1.root p).2 h).symm
        have hlt : mu (g2 p) < mu p := by
          rcases hi2.dec p with h | h
          · exact absurd ((hi2.root p).1 h) hnr
          · exact h
        have hsame : rt (g2 p) = rt u := (hi2.same p).trans hrt
        generalize g2 p = q at *
        have hpu : p ≠ u := fun h => by
          subst h
          exact hnr ((hi3.root p).1 e3)
        have hpu2 : mu p < mu u := by
          rcases hi3.dec u with h | h
          · exact absurd (e3.symm.trans h) hpu
          · rwa [e3] at h
        have hqu : q ≠ u := fun h => by subst h; omega
        refine ⟨put g3 u q, fun j hj => put_ne _ _ hj, ⟨rfl, fun x => ?_, fun x => ?_, fun x => ?_, fun x hx => ?_⟩, ?_⟩
        · by_cases hx : x = u
          · subst hx
            rw [put_same, ← hi3.root x, e3]
            exact ⟨fun h => absurd h hqu, fun h => absurd h hpu⟩
          · rw [put_ne _ _ hx]; exact hi3.root x
        · by_cases hx : x = u
          · subst hx; rw [put_same]; exact hsame
          · rw [put_ne _ _ hx]; exact hi3.same x
        · by_cases hx : x = u
          · subst hx; rw [put_same]; exact .inr (by omega)
          · rw [put_ne _ _ hx]; exact hi3.dec x
        · have : x ≠ u := fun h => hx (h ▸ hu)
          rw [put_ne _ _ this]; exact hi3.idle x hx
        · rintro g4 m4 (hr4 : g4 u = put g3 u q u) ⟨rfl, hi4⟩
          rw [put_same] at hr4
          refine ⟨g4, gu _, ⟨rfl, hi4⟩, ?_⟩
          refine (ih g4 (by rw [hr4]; exact hsame)).weaken fun o g hg => ⟨hg.1, fun ho => ?_⟩
          have := hg.2 ho
          rw [hr4] at this
          omega

/-- `root_shortcut` of all vertices, in any interleaving: every vertex ends at the root of its tree. -/
theorem rootShortcut_par {mu m0 rt : Nat → Nat} (hrk : Ranked mu m0) (h0 : IsRoot m0 rt) (hb : m0 big = big) {n f : Nat}
    {m' : Nat → Nat} {out : Nat → Option Unit}
    (h : Par (fun u => if decide (u < n) then sc true f u else ret none) m0 m' out) :
    (∀ u, u < n → out u = some () → m' u = rt u) ∧ (∀ u, u < n → mu (m0 u) < f → out u = some ()) ∧
    ∀ u, n ≤ u → m' u = m0 u := by
  have hsafe : ∀ u, Safe (coRG mu m0 rt fun u => u < n) u (fun g o => u < n →
      (o = some () → g u = rt u) ∧ (o = none → f ≤ mu (m0 u)))
      (if decide (u < n) then sc true f u else ret none) m0 := by
    intro u
    by_cases hu : u < n
    · rw [if_pos (by simpa using hu), sc, if_pos rfl]
      rintro g m (hr : g u = m0 u) ⟨rfl, hi⟩
      refine ⟨g, fun _ _ => rfl, ⟨rfl, hi⟩, ?_⟩
      refine (rootLoop_safe h0 hb f u hu g (hi.same u)).weaken fun o g' hg _ => ?_
      rw [hr] at hg
      exact hg
    · rw [if_neg (by simpa using hu)]
      exact fun g _ hc => absurd hc hu
  obtain ⟨g, ⟨rfl, hi⟩, -, hp⟩ := safe_reach (coRG mu m0 rt fun u => u < n) _ h m0
    ⟨rfl, fun _ => Iff.rfl, h0.step, hrk, fun _ _ => rfl⟩ hsafe
  refine ⟨fun u hu => (hp u _ rfl hu).1, fun u hu hf => ?_, fun u hu => hi.idle u (by omega)⟩
  rcases ho : out u with _ | _
  · have := (hp u _ rfl hu).2 ho; omega
  · rfl

/-! ### One round with `full_shortcut` -/

/-- The state between the rounds. `C` is an equivalence relation. -/
structure LInv {M : Type} (K : Msg M) (C : Nat → Nat → Prop) (upd : Upd) (n : Nat) (P : Nat → Nat) (m : Nat → M) : Prop where
  flat : ∀ x, P (P x) = P x
  lt : ∀ x, x < n → P x < n ∨ P x = big
  out : ∀ x, n ≤ x → P x = x
  mroot : ∀ x, P x = x → K.comp (m x) = x
  mle : ∀ x, key (K.comp (m x)) ≤ key x
  simple : upd = .simple → ∀ x, key (P x) ≤ key (K.comp (m x))
  sound : ∀ x, C x (P x)
  msound : ∀ x, C x (K.comp (m x))

theorem iter_inv {f : Nat → Nat} {S : Nat → Prop} (h : ∀ x, S x → S (f x)) {x : Nat} (hx : S x) (k : Nat) : S (f^[k] x) := by
  induction k generalizing x with
  | zero => exact hx
  | succ k ih => exact ih (h x hx)

theorem round_inv {M : Type} [DecidableEq M] {K : Msg M} {C : Nat → Nat → Prop} (hC : Equivalence C) {con : Con} {upd : Upd}
    {n : Nat} (hn : n ≤ big) {E : Nat × Nat → Prop} {P P1 P2 : Nat → Nat} {m m1 : Nat → M} {ch : Bool}
    (hi : LInv K C upd n P m) (hE : ∀ e, E e → C e.1 e.2)
    (hlt : ∀ e, E e → (P e.1 < n ∨ P e.1 = big) ∧ (P e.2 < n ∨ P e.2 = big)) (hs : con = .simple → ∀ e, E e → P e.1 = e.1 ∧ P e.2 = e.2)
    (hr : Round K con upd true n E P m P1 P2 m1 ch) :
    LInv K C upd n P2 m1 ∧ IsRoot P1 P2 ∧
    (∀ x, P1 x = P x ∨ ∃ e, E e ∧ P e.1 ≠ P e.2 ∧ m1 x = K.of (ltMin (P e.1) (P e.2)) e ∧ P x = ltMax (P e.1) (P e.2) ∧
      P1 x = ltMin (P e.1) (P e.2) ∧ (x = ltMax (P e.1) (P e.2) ∨ x = e.1 ∨ x = e.2)) ∧
    (ch = false → P2 = P ∧ ∀ e, E e → P e.1 = P e.2) ∧
    (∀ x, key (K.comp (m1 x)) ≤ key (K.comp (m x))) ∧
    (ch = true → ∃ x, key (K.comp (m1 x)) < key (K.comp (m x))) := by
  obtain ⟨⟨part, f, c, hpart, hcon, hch⟩, hup, f2, out, hsc, hout⟩ := hr
  have hb : P big = big := hi.out big hn
  obtain ⟨hm, hle, hno, hyes⟩ := connect_par hb hi.flat hs hpart hcon
  have hlt1 : ∀ x, n ≤ x → m1 x = m x := by
    intro x hx
    rcases hm x with h | ⟨e, he, hne, -, -, h5, -⟩
    · exact h
    · exfalso
      have hx2 := hi.out x hx
      obtain ⟨h1, h2⟩ := hlt e he
      have hk : key (P e.1) ≠ key (P e.2) := fun h => hne (key_inj h)
      have hm1 := key_ltMin (P e.1) (P e.2)
      have hm2 := key_ltMax (P e.1) (P e.2)
      have hkb : key big = 0 := rfl
      have hnb : ltMax (P e.1) (P e.2) ≠ big := fun h => by rw [h, hkb] at hm2; omega
      rcases ltMin_max (P e.1) (P e.2) with h | h
      · rw [h.2] at hnb h5; rcases h2 with h2 | h2
        · omega
        · exact hnb h2
      · rw [h.2] at hnb h5; rcases h1 with h1 | h1
        · omega
        · exact hnb h1
  have hmle : ∀ x, key (K.comp (m1 x)) ≤ key (K.comp (m x)) := by
    intro x
    rcases hm x with h | ⟨e, -, -, h1, h2, -⟩
    · rw [h]
    · rw [h1, K.comp_of]; omega
  have hle1 : ∀ x, key (K.comp (m1 x)) ≤ key x := fun x => Nat.le_trans (hmle x) (hi.mle x)
  have hminle : ∀ (e : Nat × Nat) (x : Nat), P e.1 ≠ P e.2 → P x = ltMax (P e.1) (P e.2) → key (ltMin (P e.1) (P e.2)) < key (P x) := by
    intro e x hne hx
    have hk : key (P e.1) ≠ key (P e.2) := fun h => hne (key_inj h)
    rw [hx, key_ltMin, key_ltMax]; omega
  -- the parents after the update
  have hP1 : ∀ x, P1 x = P x ∨ ∃ e, E e ∧ P e.1 ≠ P e.2 ∧ m1 x = K.of (ltMin (P e.1) (P e.2)) e ∧
      P x = ltMax (P e.1) (P e.2) ∧ P1 x = ltMin (P e.1) (P e.2) ∧
      (x = ltMax (P e.1) (P e.2) ∨ x = e.1 ∨ x = e.2) := by
    intro x
    by_cases hx : x < n
    · have hux := hup x
      rw [if_pos hx] at hux
      rcases hm x with h | ⟨e, he, hne, h1, h2, h3, h4⟩
      · left
        rw [hux, h]
        cases upd with
        | simple =>
          refine key_inj ?_
          have := hi.simple rfl x
          rw [update, key_ltMin]; omega
        | root =>
          rw [update]
          by_cases hr : x = P x
          · rw [if_neg (not_not.2 hr)]
            refine key_inj ?_
            rw [key_ltMin, hi.mroot x hr.symm, ← hr]; omega
          · rw [if_pos hr]
      · have h5 := hminle e x hne h3
        rw [h1, K.comp_of] at hux
        cases upd with
        | simple =>
          refine .inr ⟨e, he, hne, h1, h3, ?_, h4⟩
          rw [hux]
          refine key_inj ?_
          rw [update, key_ltMin]; omega
        | root =>
          rw [update] at hux
          by_cases hr : x = P x
          · rw [if_neg (not_not.2 hr)] at hux
            refine .inr ⟨e, he, hne, h1, h3, ?_, h4⟩
            rw [hux]
            refine key_inj ?_
            rw [key_ltMin]; omega
          · rw [if_pos hr] at hux; exact .inl hux
    · left
      have := hup x
      rwa [if_neg hx] at this
  have hP1out : ∀ x, n ≤ x → P1 x = x := by
    intro x hx
    rw [hup x, if_neg (by omega), hi.out x hx]
  have hlow : ∀ e : Nat × Nat, P (ltMin (P e.1) (P e.2)) = ltMin (P e.1) (P e.2) := by
    intro e
    rcases ltMin_max (P e.1) (P e.2) with h | h
    · rw [h.1, hi.flat]
    · rw [h.1, hi.flat]
  let mu : Nat → Nat := fun x => if P x = x then key x else key (P x) + 1
  have hrk : Ranked mu P1 := by
    intro x
    rcases hP1 x with h | ⟨e, he, hne, h1, h3, h4, -⟩
    · by_cases hx : P x = x
      · left; rw [h, hx]
      · right
        simp only [mu]
        rw [h, if_pos (hi.flat x), if_neg hx]
        omega
    · right
      have h5 := hminle e x hne h3
      simp only [mu]
      rw [h4, if_pos (hlow e)]
      split
      · rename_i hx; rw [hx] at h5; exact h5
      · omega
  obtain ⟨rt, hrt⟩ := hrk.isRoot
  obtain ⟨hs1, -, hs2⟩ := rootShortcut_par hrk hrt (hP1out big hn) hsc
  have hP2 : P2 = rt := by
    funext x
    by_cases hx : x < n
    · exact hs1 x hx (hout x hx)
    · rw [hs2 x (by omega), hrt.of_root (hP1out x (by omega)), hP1out x (by omega)]
  have hP1s : ∀ x, C x (P1 x) := by
    intro x
    rcases hP1 x with h | ⟨e, he, hne, h1, h3, h4, -⟩
    · rw [h]; exact hi.sound x
    · rw [h4]
      refine hC.trans (hi.sound x) ?_
      rw [h3]
      have h1 : C (P e.1) (P e.2) := hC.trans (hC.symm (hi.sound e.1)) (hC.trans (hE e he) (hi.sound e.2))
      rcases ltMin_max (P e.1) (P e.2) with h | h
      · rw [h.1, h.2]; exact hC.symm h1
      · rw [h.1, h.2]; exact h1
  have hP1r : ∀ x, P1 x = x → K.comp (m1 x) = x := by
    intro x hx
    by_cases hxn : x < n
    · have hux := hup x
      rw [if_pos hxn, hx] at hux
      have h1 := hle1 x
      cases upd with
      | simple =>
        rw [update] at hux
        have := congrArg key hux
        rw [key_ltMin] at this
        exact key_inj (by omega)
      | root =>
        rw [update] at hux
        by_cases hr : x = P x
        · rw [if_neg (not_not.2 hr)] at hux
          have := congrArg key hux
          rw [key_ltMin] at this
          exact key_inj (by omega)
        · rw [if_pos hr] at hux; exact absurd hux hr
    · rw [hlt1 x (by omega)]
      exact hi.mroot x (hi.out x (by omega))
  subst hP2
  refine ⟨⟨fun x => hrt.of_root (hrt.root x), fun x hx => ?_, fun x hx => hrt.of_root (hP1out x hx), fun x hx => ?_, hle1, fun hu x => ?_,
    fun x => ?_, fun x => ?_⟩, hrt, hP1, fun hc => ?_, hmle, fun hc => hyes (hch.1 hc)⟩
  · obtain ⟨k, hk⟩ := hrt.path x
    rw [hk]
    refine iter_inv (S := fun y => y < n ∨ y = big) (fun y hy => ?_) (.inl hx) k
    rcases hy with hy | hy
    · rcases hP1 y with h | ⟨e, he, -, -, -, h4, -⟩
      · rw [h]; exact hi.lt y hy
      · rw [h4]
        rcases ltMin_max (P e.1) (P e.2) with h | h
        · rw [h.1]; exact (hlt e he).1
        · rw [h.1]; exact (hlt e he).2
    · rw [hy]; exact .inr (hP1out big hn)
  · refine hP1r x ?_
    have := hrt.root x
    rwa [hx] at this
  · -- the root is below the parent, and this below the message
    have hdec : ∀ x, key (P1 x) ≤ key x ∧ key (P1 x) ≤ key (K.comp (m1 x)) := by
      intro x
      by_cases hx : x < n
      · rw [hup x, if_pos hx, hu, update, key_ltMin]
        have := hle1 x
        omega
      · rw [hP1out x (by omega), hlt1 x (by omega), hi.mroot x (hi.out x (by omega))]
        exact ⟨Nat.le_refl _, Nat.le_refl _⟩
    obtain ⟨k, hk⟩ := hrt.path (P1 x)
    rw [← hrt.step x, hk]
    exact Nat.le_trans (iter_inv (S := fun y => key y ≤ key (P1 x)) (fun y hy => Nat.le_trans (hdec y).1 hy)
      (Nat.le_refl _) k) (hdec x).2
  · obtain ⟨k, hk⟩ := hrt.path x
    rw [hk]
    exact iter_inv (S := fun y => C x y) (fun y hy => hC.trans hy (hP1s y)) (hC.refl x) k
  · rcases hm x with h | ⟨e, he, hne, h1, h2, h3, h4⟩
    · rw [h]; exact hi.msound x
    · rw [h1, K.comp_of]
      refine hC.trans (hi.sound x) ?_
      rw [h3]
      have h1 : C (P e.1) (P e.2) := hC.trans (hC.symm (hi.sound e.1)) (hC.trans (hE e he) (hi.sound e.2))
      rcases ltMin_max (P e.1) (P e.2) with h | h
      · rw [h.1, h.2]; exact hC.symm h1
      · rw [h.1, h.2]; exact h1
  · have hmm : m1 = m := by
      refine hno fun i => ?_
      by_contra hci
      have : ch = true := hch.2 ⟨i, by simpa using hci⟩
      rw [hc] at this; cases this
    have hall : ∀ e, E e → P e.1 = P e.2 := by
      intro e he
      by_contra hne
      have h1 := hle e he hne
      have h2 := hminle e (ltMax (P e.1) (P e.2)) hne
      have h3 : P (ltMax (P e.1) (P e.2)) = ltMax (P e.1) (P e.2) := by
        rcases ltMin_max (P e.1) (P e.2) with h | h
        · rw [h.2, hi.flat]
        · rw [h.2, hi.flat]
      have h4 := h2 h3
      rw [h3] at h4
      rw [hmm, hi.mroot _ h3] at h1
      omega
    refine ⟨?_, hall⟩
    have hPP : P1 = P := by
      funext x
      rcases hP1 x with h | ⟨e, he, hne, -⟩
      · exact h
      · exact absurd (hall e he) hne
    funext x
    rw [← hrt.step x, hPP, hrt.of_root (by rw [hPP]; exact hi.flat x)]

/-! ### Correctness with `full_shortcut` -/

/-- The sum of the messages bounds the number of rounds. -/
def pot (n : Nat) (m : Nat → Nat) : Nat := (Finset.range n).sum fun x => key (m x)

theorem pot_lt {n : Nat} {C : Nat → Nat → Prop} {upd : Upd} {P P2 m m1 : Nat → Nat} (h : LInv natMsg C upd n P m)
    (h2 : LInv natMsg C upd n P2 m1) (hle : ∀ x, key (m1 x) ≤ key (m x)) (hx : ∃ x, key (m1 x) < key (m x)) :
    pot n m1 < pot n m := by
  obtain ⟨x, hx⟩ := hx
  refine Finset.sum_lt_sum (fun x _ => hle x) ⟨x, ?_, hx⟩
  rw [Finset.mem_range]
  by_contra hn
  have h1 : m x = x := h.mroot x (h.out x (by omega))
  have h2 : m1 x = x := h2.mroot x (h2.out x (by omega))
  rw [h1, h2] at hx
  omega

theorem loop_inv {C : Nat → Nat → Prop} (hC : Equivalence C) {con : Con} (hcon : con ≠ .simple) {upd : Upd} {G : UG} (hG : G.Sym)
    (hn : G.n ≤ big) (hE : ∀ u v, Adj G u v → C u v) {frq : Option Nat} {k : Nat} {P m par : Nat → Nat}
    (h : Loop con upd true G frq k P m par) (hi : LInv natMsg C upd G.n P m) :
    (∀ x, C x (par x)) ∧ (∀ u v, Adj G u v → par u = par v) ∧ k ≤ pot G.n m + 1 := by
  have hlt : ∀ {P m : Nat → Nat}, LInv natMsg C upd G.n P m → ∀ e, Proc G frq P e →
      (P e.1 < G.n ∨ P e.1 = big) ∧ (P e.2 < G.n ∨ P e.2 = big) := fun hi e he =>
    ⟨hi.lt _ he.1, hi.lt _ (hG.bound _ _ he.2.2).2⟩
  induction h with
  | @last P m P1 P2 m1 hr =>
    obtain ⟨h1, -, -, h4, -, -⟩ := round_inv hC hn hi (fun e he => hE _ _ he.2.2) (hlt hi) (fun h => absurd h hcon) hr
    obtain ⟨rfl, h5⟩ := h4 rfl
    refine ⟨h1.sound, fun u v huv => ?_, by omega⟩
    by_cases hu : ∀ c, frq = some c → P2 u ≠ c
    · exact h5 (u, v) ⟨(hG.bound u v huv).1, hu, huv⟩
    · by_cases hv : ∀ c, frq = some c → P2 v ≠ c
      · exact (h5 (v, u) ⟨(hG.bound u v huv).2, hv, SV.UG_symm hG huv⟩).symm
      · simp only [not_forall, not_not] at hu hv
        obtain ⟨c, rfl, h6⟩ := hu
        obtain ⟨_, h7, h8⟩ := hv
        cases h7
        rw [h6, h8]
  | more hr _ ih =>
    obtain ⟨h1, -, -, -, h5, h6⟩ := round_inv hC hn hi (fun e he => hE _ _ he.2.2) (hlt hi) (fun h => absurd h hcon) hr
    obtain ⟨h7, h8, h9⟩ := ih h1
    have := pot_lt hi h1 h5 (h6 rfl)
    exact ⟨h7, h8, by omega⟩

theorem linv_id {C : Nat → Nat → Prop} (hC : Equivalence C) (upd : Upd) (n : Nat) :
    LInv natMsg C upd n (fun x => x) (fun x => x) :=
  ⟨fun _ => rfl, fun _ h => .inl h, fun _ _ => rfl, fun _ _ => rfl, fun _ => Nat.le_refl _, fun _ _ => Nat.le_refl _,
    fun x => hC.refl x, fun x => hC.refl x⟩

theorem pot_id {n : Nat} : pot n (fun x => x) ≤ n * n := by
  have : pot n (fun x => x) ≤ (Finset.range n).sum fun _ => n := by
    refine Finset.sum_le_sum fun x hx => ?_
    have := Finset.mem_range.1 hx
    show key x ≤ n
    unfold key
    split <;> omega
  simpa using this

theorem isCC_of {n : Nat} {adj : Nat → Nat → Prop} {par : Nat → Nat}
    (h1 : ∀ u v, u < n → v < n → par u = par v → Conn adj u v) (h2 : ∀ u v, adj u v → par u = par v) : IsCC n adj par := by
  intro u v hu hv
  refine ⟨h1 u v hu hv, fun h => ?_⟩
  clear hu hv
  induction h with
  | rel x y h => exact h2 x y h
  | refl => rfl
  | symm _ _ _ ih => exact ih.symm
  | trans _ _ _ _ _ ih1 ih2 => exact ih1.trans ih2

/-- C89: with `parent_connect` or `extended_connect`, either update and `full_shortcut`, the labels are those of the connected
components, whatever the interleaving, after at most `n * n + 1` rounds. -/
theorem lt_full {con : Con} (hcon : con ≠ .simple) {upd : Upd} {G : UG} (hG : G.Sym) (hn : G.n ≤ big) {k : Nat} {par : Nat → Nat}
    (h : Components con upd true G k par) : IsCC G.n (Adj G) par ∧ k ≤ G.n * G.n + 1 := by
  obtain ⟨h1, h2, h3⟩ := loop_inv (conn_equiv (Adj G)) hcon hG hn (fun u v h => .rel _ _ h) h (linv_id (conn_equiv _) _ _)
  refine ⟨isCC_of (fun u v _ _ he => ?_) h2, ?_⟩
  · have := h1 u
    rw [he] at this
    exact (conn_equiv _).trans this ((conn_equiv _).symm (h1 v))
  · have := pot_id (n := G.n); omega

/-- The vertex that stands for `largest_comp`. -/
def val (frq x : Nat) : Nat := if x = big then frq else x

theorem val_equiv (adj : Nat → Nat → Prop) (frq : Nat) : Equivalence fun x y => Conn adj (val frq x) (val frq y) :=
  ⟨fun _ => (conn_equiv adj).refl _, fun h => (conn_equiv adj).symm h, fun h h' => (conn_equiv adj).trans h h'⟩

theorem val_lt {frq x n : Nat} (hn : n ≤ big) (h : x < n) : val frq x = x := by
  unfold val; rw [if_neg (by omega)]

theorem linv_sampled {n : Nat} {adj : Nat → Nat → Prop} (hn : n ≤ big) {upd : Upd} {frq : Nat} (hfrq : frq < n) {P : Nat → Nat}
    (h : Comp.Start n adj P) (hle : upd = .simple → ∀ x, P x ≤ x) :
    LInv natMsg (fun x y => Conn adj (val frq x) (val frq y)) upd n (fun x => if P x = frq then big else P x) (fun x => x) := by
  have hPb : P big = big := h.out big hn
  have hPn : ∀ x, P x = big → x = big := by
    intro x hx
    by_cases hxn : x < n
    · have := h.lt x hxn; omega
    · rw [h.out x (by omega)] at hx; exact hx
  have hs : ∀ x, Conn adj (val frq x) (val frq (if P x = frq then big else P x)) := by
    intro x
    by_cases hx : x = big
    · subst hx
      rw [hPb, if_neg (by omega)]
      exact (conn_equiv adj).refl _
    · have h1 : val frq x = x := by unfold val; rw [if_neg hx]
      rw [h1]
      by_cases hf : P x = frq
      · rw [if_pos hf, val, if_pos rfl, ← hf]; exact h.sound x
      · rw [if_neg hf, val, if_neg (fun h => hx (hPn x h))]; exact h.sound x
  refine ⟨fun x => ?_, fun x hx => ?_, fun x hx => ?_, fun x _ => rfl, fun x => Nat.le_refl _, fun hu x => ?_, hs, fun x => (conn_equiv adj).refl _⟩
  · by_cases hf : P x = frq
    · rw [if_pos hf, hPb]; split <;> rfl
    · rw [if_neg hf, h.flat, if_neg hf]
  · split
    · exact .inr rfl
    · exact .inl (h.lt x hx)
  · rw [h.out x hx, if_neg (by omega)]
  · have := hle hu x
    show key (if P x = frq then big else P x) ≤ key x
    split
    · exact Nat.zero_le _
    · unfold key
      split
      · omega
      · rename_i hPx
        rw [if_neg (fun he => hPx (by rw [he, hPb]))]
        omega

theorem unval {n : Nat} {adj : Nat → Nat → Prop} (hn : n ≤ big) {frq : Nat}
    {p par : Nat → Nat} (h1 : ∀ x, Conn adj (val frq x) (val frq (p x))) (h2 : ∀ u v, adj u v → p u = p v)
    (hpar : ∀ x, par x = if p x = big then frq else p x) : IsCC n adj par := by
  refine isCC_of (fun u v hu hv he => ?_) (fun u v huv => by rw [hpar, hpar, h2 u v huv])
  have hu' := h1 u
  have hv' := h1 v
  rw [val_lt hn hu] at hu'
  rw [val_lt hn hv] at hv'
  have he' : val frq (p u) = val frq (p v) := by
    rw [hpar, hpar] at he
    exact he
  rw [he'] at hu'
  exact (conn_equiv adj).trans hu' ((conn_equiv adj).symm hv')

/-- C89 with sampling: for every choice of the frequent label. With `simple_update` the sample must label vertices with vertices
that are not larger. -/
theorem lt_full_sampled {con : Con} (hcon : con ≠ .simple) {upd : Upd} {G : UG} (hG : G.Sym) (hn : G.n ≤ big) {P : Nat → Nat}
    (hP : Start G P) (hle : upd = .simple → ∀ x, P x ≤ x) {frq : Nat} (hfrq : frq < G.n) {k : Nat} {par : Nat → Nat}
    (h : Sampled con upd true G frq P k par) : IsCC G.n (Adj G) par ∧ k ≤ G.n * G.n + 1 := by
  obtain ⟨p, hl, hpar⟩ := h
  have hE : ∀ u v, Adj G u v → Conn (Adj G) (val frq u) (val frq v) := by
    intro u v h
    rw [val_lt hn (hG.bound u v h).1, val_lt hn (hG.bound u v h).2]
    exact .rel _ _ h
  obtain ⟨h1, h2, h3⟩ := loop_inv (val_equiv (Adj G) frq) hcon hG hn hE hl (linv_sampled hn hfrq hP hle)
  have := pot_id (n := G.n)
  exact ⟨unval hn h1 h2 hpar, by omega⟩

/-! ### The version on a list of edges -/

/-- The edges of a list. -/
def LAdj (es : List (Nat × Nat)) (u v : Nat) : Prop := (u, v) ∈ es

theorem coo_inv {C : Nat → Nat → Prop} (hC : Equivalence C) {con : Con} {upd : Upd} {n : Nat} (hn : n ≤ big)
    {es0 : List (Nat × Nat)} (hb : ∀ e ∈ es0, e.1 < n ∧ e.2 < n) (hE : ∀ e ∈ es0, C e.1 e.2) {k : Nat} {es : List (Nat × Nat)}
    {P m par : Nat → Nat} (h : LoopCOO con upd true n k es P m par) (hi : LInv natMsg C upd n P m)
    (hes : es = es0.map fun e => (P e.1, P e.2)) :
    (∀ x, C x (par x)) ∧ (∀ e ∈ es0, par e.1 = par e.2) ∧ k ≤ pot n m + 1 := by
  have hE' : ∀ {P m : Nat → Nat} {es : List (Nat × Nat)}, LInv natMsg C upd n P m → (es = es0.map fun e => (P e.1, P e.2)) →
      (∀ e, e ∈ es ∧ e.1 ≠ e.2 → C e.1 e.2) ∧
      (∀ e, e ∈ es ∧ e.1 ≠ e.2 → (P e.1 < n ∨ P e.1 = big) ∧ (P e.2 < n ∨ P e.2 = big)) ∧
      (∀ e, e ∈ es ∧ e.1 ≠ e.2 → P e.1 = e.1 ∧ P e.2 = e.2) := by
    intro P m es hi hes
    refine ⟨?_, ?_, ?_⟩
    all_goals
      rintro e ⟨he, -⟩
      rw [hes] at he
      obtain ⟨e, he0, rfl⟩ := List.mem_map.1 he
      dsimp only
    · exact hC.trans (hC.symm (hi.sound e.1)) (hC.trans (hE e he0) (hi.sound e.2))
    · rw [hi.flat, hi.flat]
      exact ⟨hi.lt _ (hb e he0).1, hi.lt _ (hb e he0).2⟩
    · exact ⟨hi.flat _, hi.flat _⟩
  induction h with
  | @last es P m P1 P2 m1 hr =>
    obtain ⟨ha, hb', hc⟩ := hE' hi hes
    obtain ⟨h1, -, -, h4, -, -⟩ := round_inv hC hn hi ha hb' (fun _ => hc) hr
    obtain ⟨rfl, h5⟩ := h4 rfl
    refine ⟨h1.sound, fun e he => ?_, by omega⟩
    by_contra hne
    have h6 : (P2 e.1, P2 e.2) ∈ es := by rw [hes]; exact List.mem_map.2 ⟨e, he, rfl⟩
    have := h5 (P2 e.1, P2 e.2) ⟨h6, hne⟩
    rw [hi.flat, hi.flat] at this
    exact hne this
  | @more k es P m P1 P2 m1 P' hr _ ih =>
    obtain ⟨ha, hb', hc⟩ := hE' hi hes
    obtain ⟨h1, h2, h3, -, h5, h6⟩ := round_inv hC hn hi ha hb' (fun _ => hc) hr
    have hPP : ∀ x, P2 (P x) = P2 x := by
      intro x
      rcases h3 x with h | ⟨e, he, -, -, h7, -, h8⟩
      · rw [← h, h2.step]
      · have : P x = x := by
          rcases h8 with h8 | h8 | h8
          · rw [h7, ← h8]
          · rw [h8]; exact (hc e he).1
          · rw [h8]; exact (hc e he).2
        rw [this]
    obtain ⟨h7, h8, h9⟩ := ih h1 (by
      rw [alter, hes, List.map_map]
      refine List.map_congr_left fun e he => ?_
      have hb2 : P2 big = big := h1.out big hn
      simp only [Function.comp_apply, lab_eq hb2, hPP])
    have := pot_lt hi h1 h5 (h6 rfl)
    exact ⟨h7, h8, by omega⟩

theorem alter_eq {P : Nat → Nat} (hb : P big = big) (es : List (Nat × Nat)) : alter P es = es.map fun e => (P e.1, P e.2) := by
  simp only [alter, lab_eq hb]

/-- C90: on a list of edges, with any connect option, either update and `full_shortcut`. -/
theorem coo_full {con : Con} {upd : Upd} {n : Nat} (hn : n ≤ big) {es : List (Nat × Nat)} (hb : ∀ e ∈ es, e.1 < n ∧ e.2 < n)
    {k : Nat} {par : Nat → Nat} (h : ComponentsCOO con upd true n es k par) : IsCC n (LAdj es) par ∧ k ≤ n * n + 1 := by
  obtain ⟨h1, h2, h3⟩ := coo_inv (conn_equiv (LAdj es)) hn hb (fun e he => .rel _ _ he) h (linv_id (conn_equiv _) _ _)
    (alter_eq rfl es)
  refine ⟨isCC_of (fun u v _ _ he => ?_) (fun u v h => h2 (u, v) h), ?_⟩
  · have := h1 u
    rw [he] at this
    exact (conn_equiv _).trans this ((conn_equiv _).symm (h1 v))
  · have := pot_id (n := n); omega

/-- C90 with sampling. -/
theorem coo_full_sampled {con : Con} {upd : Upd} {n : Nat} (hn : n ≤ big) {es : List (Nat × Nat)}
    (hb : ∀ e ∈ es, e.1 < n ∧ e.2 < n) {P : Nat → Nat} (hP : Comp.Start n (LAdj es) P) (hle : upd = .simple → ∀ x, P x ≤ x)
    {frq : Nat} (hfrq : frq < n) {k : Nat} {par : Nat → Nat} (h : SampledCOO con upd true n es frq P k par) :
    IsCC n (LAdj es) par ∧ k ≤ n * n + 1 := by
  obtain ⟨p, hl, hpar⟩ := h
  have hi := linv_sampled (upd := upd) hn hfrq hP hle
  have hE : ∀ e ∈ es, Conn (LAdj es) (val frq e.1) (val frq e.2) := by
    intro e he
    rw [val_lt hn (hb e he).1, val_lt hn (hb e he).2]
    exact .rel _ _ he
  obtain ⟨h1, h2, h3⟩ := coo_inv (val_equiv (LAdj es) frq) hn hb hE hl hi (alter_eq (hi.out big hn) es)
  have := pot_id (n := n)
  exact ⟨unval hn h1 (fun u v h => h2 (u, v) h) hpar, by omega⟩

end Gbbs.LT
