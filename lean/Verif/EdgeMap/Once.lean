/-
One `edgeMap` call in which every edge of the frontier is processed exactly once (C18 for the chunked
traversal), for clients that count, e.g. with `fetch_and_add`. The programs of the threads are those of
`Rounds.lean`.
-/
import Verif.EdgeMap.Rounds
import Mathlib.Data.List.Nodup

namespace Gbbs.Em

open Conc Conc.Prog
open Atomics (Steps)

set_option linter.unusedSectionVars false

variable {W L V D : Type}

/-- As `Threads`, but the chunked traversal gives every edge to one thread, once. Stored parallel edges are
distinguished by their weights (a tag for graphs without weights). -/
inductive ThreadsX (F : Func W L V D) (G : Gr W) (inF : Nat → Bool) : (Nat × Nat → Prog L V (List (Nat × D))) → Prop
  | dense (par : Bool) : ThreadsX F G inF (denseProg F G inF par)
  | forward : ThreadsX F G inF (forwardProg F G inF)
  | chunked (work : Nat × Nat → List (Edge W)) (h : ∀ e, (∃ i, e ∈ work i) ↔ Active G inF e)
      (hn : ∀ i, (work i).Nodup) (hd : ∀ i j e, e ∈ work i → e ∈ work j → i = j) :
      ThreadsX F G inF (fun i => sparseRun F (work i) [])

/-- A complete `edgeMap` call, every edge processed once. -/
def EdgeMapX [DecidableEq L] [DecidableEq V] (F : Func W L V D) (G : Gr W) (inF : Nat → Bool) (m m' : L → V)
    (o : List (Nat × D)) : Prop :=
  ∃ th, ThreadsX F G inF th ∧ ∃ (out : Nat × Nat → List (Nat × D)),
    Steps Step (⟨m, th⟩ : Conf (Nat × Nat) L V (List (Nat × D))) ⟨m', fun i => ret (out i)⟩ ∧ Collect out o

/-- No stored edge occurs twice (up to weights). -/
structure Gr.Once (G : Gr W) : Prop where
  fwd : ∀ s, (G.fwd s).Nodup
  bwd : ∀ s, (G.bwd s).Nodup

/-- One thread that processes all edges in the order `es` is a complete call. -/
theorem edgeMapX_seq [DecidableEq L] [DecidableEq V] {F : Func W L V D} {G : Gr W} {inF : Nat → Bool}
    (es : List (Edge W)) (hes : ∀ e, e ∈ es ↔ Active G inF e) (hn : es.Nodup) {m m' : L → V} {o : List (Nat × D)}
    (h : exec (sparseRun F es []) m = some (o, m')) : EdgeMapX F G inF m m' o := by
  refine ⟨_, .chunked (fun i => if i = (0, 0) then es else []) (fun e => ?_) (fun i => ?_) (fun i j e h1 h2 => ?_),
    fun i => if i = (0, 0) then o else [], ?_, ⟨fun x hx => ⟨(0, 0), by simpa using hx⟩, ?_, ?_⟩⟩
  · rw [← hes]
    refine ⟨?_, fun h => ⟨(0, 0), by simpa using h⟩⟩
    rintro ⟨i, hi⟩
    by_cases h0 : i = (0, 0)
    · simpa [h0] using hi
    · simp [h0] at hi
  · by_cases h0 : i = (0, 0) <;> simp [h0, hn]
  · by_cases h0 : i = (0, 0)
    · by_cases h0' : j = (0, 0)
      · rw [h0, h0']
      · simp [h0'] at h2
    · simp [h0] at h1
  · have := exec_steps (sparseRun F es []) ((0, 0) : Nat × Nat) (fun _ => ret []) h
    have e1 : (fun j : Nat × Nat => if j = (0, 0) then sparseRun F es [] else ret []) =
        fun i => sparseRun F (if i = (0, 0) then es else []) [] := by
      funext j; by_cases hj : j = (0, 0) <;> simp [hj, sparseRun]
    have e2 : (fun j : Nat × Nat => if j = (0, 0) then (ret o : Prog L V (List (Nat × D))) else ret []) =
        fun i => ret (if i = (0, 0) then o else []) := by
      funext j; by_cases hj : j = (0, 0) <;> simp [hj]
    rw [e1, e2] at this
    exact this
  · intro i d x hx
    by_cases h0 : i = (0, 0)
    · simp only [h0, if_true] at hx; exact ⟨x, hx⟩
    · simp [h0] at hx
  · intro hn _
    simpa using hn (0, 0)

theorem activeEdges_nodup {G : Gr W} (h : G.Once) (inF : Nat → Bool) : (activeEdges G inF).Nodup := by
  rw [activeEdges, List.nodup_flatMap]
  refine ⟨fun s _ => (h.fwd s).map fun x y hxy => ?_, ?_⟩
  · injection hxy with _ h1 h2
    exact Prod.ext h1 h2
  · refine (List.nodup_range.filter _).imp ?_
    intro a b hab
    rw [Function.onFun, List.disjoint_left]
    intro e h1 h2
    obtain ⟨x, _, rfl⟩ := List.mem_map.1 h1
    obtain ⟨y, _, h3⟩ := List.mem_map.1 h2
    injection h3 with h3
    exact hab h3.symm

/-! ### Verification of a call from the specification of the client functions -/

/-- Who may handle a destination, and who processes an edge. -/
structure Plan (W : Type) where
  may : Nat × Nat → Nat → Prop
  mine : Nat × Nat → Edge W → Prop
  disj : ∀ i j e, mine i e → mine j e → i = j

variable {Gh : Type} [DecidableEq L] [DecidableEq V]

/-- Specification of a client struct within one call: `T P i g l S`: thread `i` has emitted `l` and still has the
edges `S` to process; `Dn g e`: edge `e` needs no further work; `C d` holds whenever `cond(d)` is true. -/
structure XSpec (A : Plan W → RG (Nat × Nat) Gh L V) (F : Func W L V D) (Ac : Edge W → Prop) (C : Nat → Prop)
    (T : Plan W → Nat × Nat → Gh → List (Nat × D) → (Edge W → Prop) → Prop) (Dn : Gh → Edge W → Prop) : Prop where
  keep : ∀ P i e, Keeps (A P) i fun g => Dn g e
  stable : ∀ P i l S g g', (A P).R i g g' → T P i g l S → T P i g' l S
  less : ∀ P i l S S' g, (∀ e, S' e → S e) → T P i g l S → T P i g l S'
  cond : ∀ P i l S g d, T P i g l S → Safe (A P) i
    (fun g b => T P i g l S ∧ (b = true → C d) ∧ (b = false → ∀ e, Ac e → S e → e.d = d → Dn g e)) (F.cond d) g
  updA : ∀ P i l S g e, Ac e → C e.d → P.may i e.d → ¬ S e → T P i g l (fun e' => e' = e ∨ S e') → Safe (A P) i
    (fun g x => T P i g (emit e.d x l) S ∧ Dn g e) (F.updA e.s e.d e.w) g
  upd : ∀ P i l S g e, Ac e → C e.d → P.may i e.d → Excl P.may i e.d → ¬ S e → T P i g l (fun e' => e' = e ∨ S e') →
    Safe (A P) i (fun g x => T P i g (emit e.d x l) S ∧ Dn g e) (F.upd e.s e.d e.w) g

section
variable {A : Plan W → RG (Nat × Nat) Gh L V} {F : Func W L V D} {Ac : Edge W → Prop} {C : Nat → Prop}
  {T : Plan W → Nat × Nat → Gh → List (Nat × D) → (Edge W → Prop) → Prop} {Dn : Gh → Edge W → Prop}

theorem sparseRun_safeX (h : XSpec A F Ac C T Dn) (P : Plan W) (i : Nat × Nat)
    (es : List (Edge W)) (hn : es.Nodup) (hes : ∀ e ∈ es, Ac e ∧ P.may i e.d) (l : List (Nat × D)) (g : Gh)
    (hT : T P i g l (· ∈ es)) :
    Safe (A P) i (fun g l => T P i g l (fun _ => False) ∧ ∀ e ∈ es, Dn g e) (sparseRun F es l) g := by
  induction es generalizing l g with
  | nil => exact fun g' hr => ⟨h.less _ _ _ _ _ _ (fun _ hf => hf.elim) (h.stable _ _ _ _ _ _ hr hT), fun e he => (by cases he)⟩
  | cons e es ih =>
    rw [List.nodup_cons] at hn
    have hes' := fun e he => hes e (List.mem_cons_of_mem _ he)
    obtain ⟨hac, hmay⟩ := hes e List.mem_cons_self
    refine (h.cond P i l _ g e.d hT).bind fun c g1 h1 => ?_
    cases c with
    | true =>
      refine (h.updA P i l (· ∈ es) g1 e hac (h1.2.1 rfl) hmay hn.1
        (h.less _ _ _ _ _ _ (fun e' he' => List.mem_cons.2 he') h1.1)).bind fun x g2 h2 => ?_
      refine (safe_frame (h.keep P i e) (ih hn.2 hes' _ g2 h2.1) h2.2).weaken fun l' g3 h3 => ⟨h3.1.1, fun e' he' => ?_⟩
      rcases List.mem_cons.1 he' with rfl | he'
      · exact h3.2
      · exact h3.1.2 e' he'
    | false =>
      refine (safe_frame (h.keep P i e) (ih hn.2 hes' _ g1 (h.less _ _ _ _ _ _ (fun e' he' => List.mem_cons_of_mem _ he') h1.1))
        (h1.2.2 rfl e hac List.mem_cons_self rfl)).weaken fun l' g3 h3 => ⟨h3.1.1, fun e' he' => ?_⟩
      rcases List.mem_cons.1 he' with rfl | he'
      · exact h3.2
      · exact h3.1.2 e' he'

theorem denseRun_safeX (h : XSpec A F Ac C T Dn) (P : Plan W) (i : Nat × Nat) (v : Nat)
    (inF : Nat → Bool) (op : Nat → Nat → W → Prog L V (Option D))
    (hop : ∀ l S g e, Ac e → C e.d → e.d = v → ¬ S e → T P i g l (fun e' => e' = e ∨ S e') → Safe (A P) i
      (fun g x => T P i g (emit e.d x l) S ∧ Dn g e) (op e.s e.d e.w) g)
    (us : List (Nat × W)) (hn : us.Nodup) (hus : ∀ e, InEdge inF v us e → Ac e) (l : List (Nat × D)) (g : Gh)
    (hT : T P i g l (InEdge inF v us)) :
    Safe (A P) i (fun g l => T P i g l (fun _ => False) ∧ ∀ e, InEdge inF v us e → Dn g e) (denseRun F op inF v us l) g := by
  induction us generalizing l g with
  | nil => exact fun g' hr => ⟨h.less _ _ _ _ _ _ (fun _ hf => hf.elim) (h.stable _ _ _ _ _ _ hr hT), fun e he => (by cases he.2.1)⟩
  | cons u us ih =>
    rw [List.nodup_cons] at hn
    have hus' : ∀ e, InEdge inF v us e → Ac e := fun e he => hus e ⟨he.1, List.mem_cons_of_mem _ he.2.1, he.2.2⟩
    have hsub : ∀ e, InEdge inF v us e → InEdge inF v (u :: us) e :=
      fun e he => ⟨he.1, List.mem_cons_of_mem _ he.2.1, he.2.2⟩
    refine (h.cond P i l _ g v hT).bind fun c g1 h1 => ?_
    cases c with
    | true =>
      rw [if_pos rfl]
      by_cases hu : inF u.1 = true
      · rw [if_pos hu]
        have hin : InEdge inF v (u :: us) ⟨u.1, v, u.2⟩ := ⟨rfl, List.mem_cons_self, hu⟩
        refine (hop l (InEdge inF v us) g1 ⟨u.1, v, u.2⟩ (hus _ hin) (h1.2.1 rfl) rfl (fun hc => hn.1 hc.2.1)
          (h.less _ _ _ _ _ _ (fun e' he' => ?_) h1.1)).bind fun x g2 h2 => ?_
        · rcases he' with rfl | he'
          · exact hin
          · exact hsub e' he'
        refine (safe_frame (h.keep P i ⟨u.1, v, u.2⟩) (ih hn.2 hus' _ g2 h2.1) h2.2).weaken
          fun l' g3 h3 => ⟨h3.1.1, ?_⟩
        rintro ⟨s, d, w⟩ ⟨he1, he2, he3⟩
        rcases List.mem_cons.1 he2 with he | he
        · have hk : Dn g3 ⟨u.1, v, u.2⟩ := h3.2
          have hd : d = v := he1
          subst hd
          rw [← he] at hk; exact hk
        · exact h3.1.2 _ ⟨he1, he, he3⟩
      · rw [if_neg hu]
        refine (ih hn.2 hus' _ g1 (h.less _ _ _ _ _ _ hsub h1.1)).weaken fun l' g3 h3 => ⟨h3.1, ?_⟩
        rintro ⟨s, d, w⟩ ⟨he1, he2, he3⟩
        rcases List.mem_cons.1 he2 with he | he
        · rw [← he] at hu; exact absurd he3 hu
        · exact h3.2 _ ⟨he1, he, he3⟩
    | false =>
      have hall := h1.2.2 rfl
      intro g' hr
      exact ⟨h.less _ _ _ _ _ _ (fun _ hf => hf.elim) (h.stable _ _ _ _ _ _ hr h1.1),
        fun e he => (h.keep P i e).r _ _ hr (hall e (hus e he) he he.1)⟩

/-- Blocks of a list without duplicates do not overlap. -/
theorem block_unique {α : Type} {l : List α} (hl : l.Nodup) {b b' : Nat} {x : α}
    (h : x ∈ (l.drop (b * 2048)).take (min ((b + 1) * 2048) l.length - b * 2048))
    (h' : x ∈ (l.drop (b' * 2048)).take (min ((b' + 1) * 2048) l.length - b' * 2048)) : b = b' := by
  have key : ∀ b, x ∈ (l.drop (b * 2048)).take (min ((b + 1) * 2048) l.length - b * 2048) →
      ∃ j, l[j]? = some x ∧ b * 2048 ≤ j ∧ j < (b + 1) * 2048 := by
    intro b h
    obtain ⟨j, hj⟩ := List.mem_iff_getElem?.1 h
    rw [List.getElem?_take] at hj
    by_cases hlt : j < min ((b + 1) * 2048) l.length - b * 2048
    · rw [if_pos hlt, List.getElem?_drop] at hj
      exact ⟨_, hj, by omega, by omega⟩
    · rw [if_neg hlt] at hj; cases hj
  obtain ⟨j, h1, h2, h3⟩ := key b h
  obtain ⟨j', h1', h2', h3'⟩ := key b' h'
  have : j = j' := by
    have hlt : j < l.length := by
      by_contra hc
      rw [List.getElem?_eq_none (by omega)] at h1; cases h1
    exact (List.getElem?_inj hlt hl).1 (h1.trans h1'.symm)
  omega

/-- The edges processed by a thread of the dense traversal. -/
def dmine (G : Gr W) (inF : Nat → Bool) (par : Bool) (i : Nat × Nat) (e : Edge W) : Prop :=
  i.1 = e.d ∧ Active G inF e ∧ ((par = false ∨ (G.bwd e.d).length < 1000) → i.2 = 0) ∧
  (¬ (par = false ∨ (G.bwd e.d).length < 1000) → i.2 < (G.bwd e.d).length / 2048 + 1 ∧ (e.s, e.w) ∈
    ((G.bwd e.d).drop (i.2 * 2048)).take (min ((i.2 + 1) * 2048) (G.bwd e.d).length - i.2 * 2048))

/-- What the threads together guarantee. -/
theorem edgeMap_safeX (h : XSpec A F Ac C T Dn) (G : Gr W) (hG : G.Ok) (hO : G.Once) (inF : Nat → Bool)
    (hac : ∀ e, Active G inF e → Ac e) {th : Nat × Nat → Prog L V (List (Nat × D))} (ht : ThreadsX F G inF th)
    (g0 : Gh) (hT : ∀ P i, T P i g0 [] (P.mine i)) : ∃ P : Plan W,
      (∀ e, Active G inF e → ∃ i, P.mine i e) ∧
      ∀ i, Safe (A P) i (fun g l => T P i g l (fun _ => False) ∧ ∀ e, P.mine i e → Dn g e) (th i) g0 := by
  cases ht with
  | chunked work hw hn hd =>
    refine ⟨⟨fun _ _ => True, fun i e => e ∈ work i, hd⟩, fun e he => (hw e).2 he, fun i => ?_⟩
    exact sparseRun_safeX h _ i (work i) (hn i) (fun e he => ⟨hac e ((hw e).1 ⟨i, he⟩), trivial⟩) [] g0 (hT _ i)
  | forward =>
    refine ⟨⟨fun _ _ => True, fun i e => i.1 = e.s ∧ Active G inF e ∧ (G.fwd i.1)[i.2]? = some (e.d, e.w), ?_⟩,
      fun e he => ?_, fun i => ?_⟩
    · rintro ⟨s, j⟩ ⟨s', j'⟩ e ⟨h1, _, h3⟩ ⟨h1', _, h3'⟩
      have h1 : s = e.s := h1
      have h1' : s' = e.s := h1'
      subst h1
      subst h1'
      have h3 : (G.fwd e.s)[j]? = some (e.d, e.w) := h3
      have h3' : (G.fwd e.s)[j']? = some (e.d, e.w) := h3'
      have hlt : j < (G.fwd e.s).length := by
        by_contra hc
        rw [List.getElem?_eq_none (by omega)] at h3; cases h3
      exact Prod.ext rfl ((List.getElem?_inj hlt (hO.fwd _)).1 (h3.trans h3'.symm))
    · obtain ⟨j, hj⟩ := List.mem_iff_getElem?.1 he.2
      exact ⟨(e.s, j), rfl, he, hj⟩
    · obtain ⟨s, j⟩ := i
      unfold forwardProg
      by_cases hs : s < G.n ∧ inF s = true
      · simp only [hs, and_self, if_true]
        cases hd : (G.fwd s)[j]? with
        | none =>
          intro g' hr
          exact ⟨h.less _ _ _ _ _ _ (fun _ hf => hf.elim) (h.stable _ _ _ _ _ _ hr (hT _ _)),
            fun e he => (by have h1 := he.2.2; cases h1)⟩
        | some d =>
          have hact : Active G inF ⟨s, d.1, d.2⟩ := ⟨hs.2, List.mem_iff_getElem?.2 ⟨j, hd⟩⟩
          refine (sparseRun_safeX h _ (s, j) [⟨s, d.1, d.2⟩] (List.nodup_singleton _) (fun e he => ?_) [] g0
            (h.less _ _ _ _ _ _ (fun e he => ?_) (hT _ _))).weaken fun l g hl => ⟨hl.1, ?_⟩
          · rw [List.mem_singleton] at he; subst he; exact ⟨hac _ hact, trivial⟩
          · rw [List.mem_singleton] at he; subst he; exact ⟨rfl, hact, hd⟩
          · rintro ⟨s', d', w'⟩ ⟨h1, h2, h3⟩
            have h1 : s = s' := h1
            obtain rfl : d = (d', w') := Option.some.inj h3
            subst h1
            exact hl.2 _ (List.mem_singleton.2 rfl)
      · simp only [hs, if_false]
        intro g' hr
        refine ⟨h.less _ _ _ _ _ _ (fun _ hf => hf.elim) (h.stable _ _ _ _ _ _ hr (hT _ _)), fun e he => absurd ?_ hs⟩
        have h1 : s = e.s := he.1
        subst h1
        exact ⟨(hG.bound _ _ _ he.2.1.2).1, he.2.1.1⟩
  | dense par =>
    have hin : ∀ v us, (∀ x ∈ us, x ∈ G.bwd v) → ∀ e, InEdge inF v us e → Active G inF e := by
      rintro v us hsub ⟨s, d, w⟩ ⟨h1, h2, h3⟩
      have h1 : d = v := h1
      subst h1
      exact ⟨h3, (hG.same _ _ _).2 (hsub _ h2)⟩
    refine ⟨⟨May G (some par), dmine G inF par, ?_⟩, fun e he => ?_, fun i => ?_⟩
    · rintro ⟨v, b⟩ ⟨v', b'⟩ e ⟨h1, _, h3, h4⟩ ⟨h1', _, h3', h4'⟩
      have h1 : v = e.d := h1
      have h1' : v' = e.d := h1'
      refine Prod.ext (h1.trans h1'.symm) ?_
      by_cases hseq : par = false ∨ (G.bwd e.d).length < 1000
      · exact (h3 hseq).trans (h3' hseq).symm
      · exact block_unique (hO.bwd e.d) (h4 hseq).2 (h4' hseq).2
    · by_cases hseq : par = false ∨ (G.bwd e.d).length < 1000
      · exact ⟨(e.d, 0), rfl, he, fun _ => rfl, fun hn => absurd hseq hn⟩
      · obtain ⟨j, hj, hje⟩ := List.mem_iff_getElem.1 ((hG.same _ _ _).1 he.2)
        refine ⟨(e.d, j / 2048), rfl, he, fun hs => absurd hs hseq, fun _ => ⟨?_, ?_⟩⟩
        · show j / 2048 < (G.bwd e.d).length / 2048 + 1
          have := Nat.div_le_div_right (c := 2048) (Nat.le_of_lt hj); omega
        · show (e.s, e.w) ∈ ((G.bwd e.d).drop (j / 2048 * 2048)).take
            (min ((j / 2048 + 1) * 2048) (G.bwd e.d).length - j / 2048 * 2048)
          rw [List.mem_iff_getElem?]
          refine ⟨j - j / 2048 * 2048, ?_⟩
          rw [List.getElem?_take, List.getElem?_drop, if_pos (by omega),
            show j / 2048 * 2048 + (j - j / 2048 * 2048) = j from by omega, List.getElem?_eq_getElem hj, hje]
    · obtain ⟨v, b⟩ := i
      generalize hP : (⟨May G (some par), dmine G inF par, _⟩ : Plan W) = P
      have hmay : P.may = May G (some par) := by rw [← hP]
      have hmine : P.mine = dmine G inF par := by rw [← hP]
      rw [hmine]
      have hempty : (∀ e, ¬ dmine G inF par (v, b) e) → Safe (A P) (v, b)
          (fun g l => T P (v, b) g l (fun _ => False) ∧ ∀ e, dmine G inF par (v, b) e → Dn g e) (ret []) g0 :=
        fun hK g' hr => ⟨h.less _ _ _ _ _ _ (fun _ hf => hf.elim) (h.stable _ _ _ _ _ _ hr (hT _ _)),
          fun e he => absurd he (hK e)⟩
      unfold denseProg
      by_cases hv : v < G.n
      · simp only [hv, if_true]
        by_cases hseq : par = false ∨ (G.bwd v).length < 1000
        · rw [if_pos (by simpa using hseq)]
          by_cases hb : b = 0
          · rw [if_pos hb]
            subst hb
            have hiff : ∀ e, dmine G inF par (v, 0) e ↔ InEdge inF v (G.bwd v) e := by
              rintro ⟨s, d, w⟩
              constructor
              · rintro ⟨h1, h2, _⟩
                have h1 : v = d := h1
                subst h1
                exact ⟨rfl, (hG.same _ _ _).1 h2.2, h2.1⟩
              · intro he
                have h1 : d = v := he.1
                subst h1
                exact ⟨rfl, hin _ _ (fun _ hx => hx) _ he, fun _ => rfl, fun hn => absurd hseq hn⟩
            refine (denseRun_safeX h P (v, 0) v inF F.upd (fun l S g e hace hC hed hS hTl => ?_) (G.bwd v) (hO.bwd v)
              (fun e he => hac e (hin v _ (fun _ hx => hx) e he)) [] g0
              (h.less _ _ _ _ _ _ (fun e he => by rw [hmine]; exact (hiff e).2 he) (hT _ _))).weaken
              fun l g hl => ⟨hl.1, fun e he => hl.2 e ((hiff e).1 he)⟩
            subst hed
            refine h.upd _ _ l S g e hace hC (by rw [hmay]; exact ⟨rfl, fun _ => rfl⟩) (fun j hj hm => hj ?_) hS hTl
            rw [hmay] at hm
            exact Prod.ext hm.1 (hm.2 hseq)
          · rw [if_neg hb]
            refine hempty fun e he => hb ?_
            have h1 : v = e.d := he.1
            exact he.2.2.1 (h1 ▸ hseq)
        · rw [if_neg (by simpa using hseq)]
          by_cases hb : b < (G.bwd v).length / 2048 + 1
          · rw [if_pos hb]
            have hsub : ∀ x ∈ ((G.bwd v).drop (b * 2048)).take
                (min ((b + 1) * 2048) (G.bwd v).length - b * 2048), x ∈ G.bwd v :=
              fun x hx => List.mem_of_mem_drop (List.mem_of_mem_take hx)
            have hnd : (((G.bwd v).drop (b * 2048)).take
                (min ((b + 1) * 2048) (G.bwd v).length - b * 2048)).Nodup :=
              (hO.bwd v).sublist ((List.take_sublist _ _).trans (List.drop_sublist _ _))
            have hiff : ∀ e : Edge W, dmine G inF par (v, b) e ↔
                InEdge inF v (((G.bwd v).drop (b * 2048)).take
                  (min ((b + 1) * 2048) (G.bwd v).length - b * 2048)) e := by
              rintro ⟨s, d, w⟩
              constructor
              · rintro ⟨h1, h2, _, h4⟩
                have h1 : v = d := h1
                subst h1
                exact ⟨rfl, (h4 hseq).2, h2.1⟩
              · intro he
                have h1 : d = v := he.1
                subst h1
                exact ⟨rfl, hin _ _ hsub _ he, fun hs => absurd hs hseq, fun _ => ⟨hb, he.2.1⟩⟩
            have hstop : ∀ g1, T P (v, b) g1 [] (dmine G inF par (v, b)) →
                (∀ e, Ac e → dmine G inF par (v, b) e → e.d = v → Dn g1 e) →
                Safe (A P) (v, b) (fun g l => T P (v, b) g l (fun _ => False) ∧
                  ∀ e, dmine G inF par (v, b) e → Dn g e) (ret []) g1 :=
              fun g1 hT1 hall g' hr => ⟨h.less _ _ _ _ _ _ (fun _ hf => hf.elim) (h.stable _ _ _ _ _ _ hr hT1),
                fun e he => (h.keep _ _ e).r _ _ hr (hall e (hac e he.2.1) he he.1.symm)⟩
            have hT0 : T P (v, b) g0 [] (dmine G inF par (v, b)) := by
              have := hT P (v, b)
              rwa [hmine] at this
            refine (h.cond _ (v, b) [] _ g0 v hT0).bind fun c g1 h1 => ?_
            cases c with
            | false => exact hstop g1 h1.1 (h1.2.2 rfl)
            | true =>
              rw [if_pos rfl]
              refine (h.cond _ (v, b) [] _ g1 v h1.1).bind fun c g2 h2 => ?_
              cases c with
              | false => exact hstop g2 h2.1 (h2.2.2 rfl)
              | true =>
                rw [if_pos rfl]
                refine (denseRun_safeX h P (v, b) v inF F.updA (fun l S g e hace hC hed hS hTl => ?_) _ hnd
                  (fun e he => hac e (hin v _ hsub e he)) [] g2
                  (h.less _ _ _ _ _ _ (fun e he => (hiff e).2 he) h2.1)).weaken
                  fun l g hl => ⟨hl.1, fun e he => hl.2 e ((hiff e).1 he)⟩
                subst hed
                exact h.updA _ _ l S g e hace hC (by rw [hmay]; exact ⟨rfl, fun hs => absurd hs hseq⟩) hS hTl
          · rw [if_neg hb]
            refine hempty fun e he => hb ?_
            have h1 : v = e.d := he.1
            have := (he.2.2.2 (h1 ▸ hseq)).1
            rw [h1]; exact this
      · simp only [hv, if_false]
        refine hempty fun e he => hv ?_
        have h1 : v = e.d := he.1
        rw [h1]; exact (hG.bound _ _ _ he.2.1.2).2

/-- Soundness: a complete call ends in a state satisfying the invariant in which every edge of the frontier
is done and every thread has emitted what `T` says. -/
theorem edgeMap_soundX (h : XSpec A F Ac C T Dn) (G : Gr W) (hG : G.Ok) (hO : G.Once) (inF : Nat → Bool)
    (hac : ∀ e, Active G inF e → Ac e) (Inv : Gh → (L → V) → Prop) (hInv : ∀ P g m, (A P).Inv g m ↔ Inv g m)
    {m m' : L → V} {o : List (Nat × D)} (g0 : Gh) (h0 : Inv g0 m) (hT : ∀ P i, T P i g0 [] (P.mine i))
    (hr : EdgeMapX F G inF m m' o) :
    ∃ P g out, Inv g m' ∧ (∀ e, Active G inF e → Dn g e) ∧ (∀ i, T P i g (out i) (fun _ => False)) ∧
      Collect (ι := Nat × Nat) out o := by
  obtain ⟨th, ht, out, hs, hcol⟩ := hr
  obtain ⟨P, hcov, hsafe⟩ := edgeMap_safeX h G hG hO inF hac ht g0 hT
  obtain ⟨g, hi, _, hp⟩ := safe_reach (A P) (fun i g l => T P i g l (fun _ => False) ∧ ∀ e, P.mine i e → Dn g e) hs g0
    ((hInv P g0 m).2 h0) hsafe
  refine ⟨P, g, out, (hInv P _ _).1 hi, fun e he => ?_, fun i => (hp i _ rfl).1, hcol⟩
  obtain ⟨i, hi⟩ := hcov e he
  exact (hp i _ rfl).2 e hi

end

end Gbbs.Em
