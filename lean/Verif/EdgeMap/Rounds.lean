/-
One `edgeMap` call with an arbitrary client struct, whose functions are trees of memory accesses
(`Conc.Prog`), under every interleaving. Used by the algorithms (C32 onwards).
-/
import Verif.Conc.Prog
import Mathlib.Data.List.Basic

namespace Gbbs.Em

open Conc Conc.Prog
open Atomics (Steps)

set_option linter.unusedSectionVars false

/-! ### Model -/

/-- A client struct of `edgeMap`/`edgeMapData` (`gbbs/edge_map_data.h:137-188`): `cond`, `update` and
`updateAtomic`. The update functions return the data to emit (`Unit` for a plain `true`). -/
structure Func (W L V D : Type) where
  cond : Nat → Prog L V Bool
  upd : Nat → Nat → W → Prog L V (Option D)
  updA : Nat → Nat → W → Prog L V (Option D)

/-- Weighted neighbour lists in the direction of the traversal and against it. -/
structure Gr (W : Type) where
  n : Nat
  fwd : Nat → List (Nat × W)
  bwd : Nat → List (Nat × W)

/-- Both directions list the same edges. -/
structure Gr.Ok {W : Type} (G : Gr W) : Prop where
  same : ∀ s d w, (d, w) ∈ G.fwd s ↔ (s, w) ∈ G.bwd d
  bound : ∀ s d w, (d, w) ∈ G.fwd s → s < G.n ∧ d < G.n

variable {W L V D : Type}

/-- An edge, as passed to the client. -/
structure Edge (W : Type) where
  s : Nat
  d : Nat
  w : W

/-- Append an emission. -/
def emit (d : Nat) (x : Option D) (l : List (Nat × D)) : List (Nat × D) :=
  match x with
  | none => l
  | some x => (d, x) :: l

/-- The loops over edges of the sparse traversals, `vertex.h:304-314, 376-392`
(`edge_map_blocked.h:319-456`): `if (cond(d)) updateAtomic(s, d)`, the emissions so far in `l`. -/
def sparseRun (F : Func W L V D) : List (Edge W) → List (Nat × D) → Prog L V (List (Nat × D))
  | [], l => ret l
  | e :: es, l => (F.cond e.d).bind fun c =>
      if c then (F.updA e.s e.d e.w).bind fun x => sparseRun F es (emit e.d x l) else sparseRun F es l

/-- `decodeBreakEarly`, `vertex.h:263-300`, over some in-neighbours of `v` with the function `op`
(`update` in the sequential branch, `updateAtomic` in the blocks of the parallel one). -/
def denseRun (F : Func W L V D) (op : Nat → Nat → W → Prog L V (Option D)) (inF : Nat → Bool) (v : Nat) :
    List (Nat × W) → List (Nat × D) → Prog L V (List (Nat × D))
  | [], l => ret l
  | u :: us, l => (F.cond v).bind fun c =>
      if c then
        if inF u.1 then (op u.1 v u.2).bind fun x => denseRun F op inF v us (emit v x l)
        else denseRun F op inF v us l
      else ret l

/-- `edgeMapDense`, `edge_map_data.h:46-84`, thread `(v, b)`; the test of `cond(v)` at the start of a
block (`vertex.h:283`) and that of `edgeMapDense` coincide with the first one of the loop, or are repeated
before it without effect (`pre`). -/
def denseProg (F : Func W L V D) (G : Gr W) (inF : Nat → Bool) (par : Bool) : Nat × Nat → Prog L V (List (Nat × D))
  | (v, b) =>
    if v < G.n then
      if !par || (G.bwd v).length < 1000 then
        if b = 0 then denseRun F F.upd inF v (G.bwd v) [] else ret []
      else if b < (G.bwd v).length / 2048 + 1 then
        (F.cond v).bind fun c => if c then (F.cond v).bind fun c => if c then
          denseRun F F.updA inF v
            (((G.bwd v).drop (b * 2048)).take (min ((b + 1) * 2048) (G.bwd v).length - b * 2048)) []
          else ret [] else ret []
      else ret []
    else ret []

/-- `edgeMapDenseForward`, `edge_map_data.h:90-130`: thread `(s, j)` runs the `j`-th edge of `s`. -/
def forwardProg (F : Func W L V D) (G : Gr W) (inF : Nat → Bool) : Nat × Nat → Prog L V (List (Nat × D))
  | (s, j) =>
    if s < G.n ∧ inF s = true then
      match (G.fwd s)[j]? with
      | some d => sparseRun F [⟨s, d.1, d.2⟩] []
      | none => ret []
    else ret []

/-- The edges an `edgeMap` call processes. -/
def Active (G : Gr W) (inF : Nat → Bool) (e : Edge W) : Prop := inF e.s = true ∧ (e.d, e.w) ∈ G.fwd e.s

/-- How the next frontier is made from the emissions `out i` of the threads: sparse traversals
concatenate them (`edge_map_blocked.h:430-456`), dense ones set a flag per vertex, which is then
collected (with the data of one of the emissions). In both cases exactly the emitted vertices, without
duplicates if no vertex is emitted twice. -/
structure Collect {ι : Type} (out : ι → List (Nat × D)) (o : List (Nat × D)) : Prop where
  sub : ∀ x, x ∈ o → ∃ i, x ∈ out i
  all : ∀ i d x, (d, x) ∈ out i → ∃ y, (d, y) ∈ o
  nodup : (∀ i, ((out i).map Prod.fst).Nodup) →
    (∀ i j d x y, (d, x) ∈ out i → (d, y) ∈ out j → i = j) → (o.map Prod.fst).Nodup

/-- The threads of the traversals. `work`: the division of the edges of the frontier by the chunked
traversal (C18: together exactly these edges). -/
inductive Threads (F : Func W L V D) (G : Gr W) (inF : Nat → Bool) : (Nat × Nat → Prog L V (List (Nat × D))) → Prop
  | dense (par : Bool) : Threads F G inF (denseProg F G inF par)
  | forward : Threads F G inF (forwardProg F G inF)
  | chunked (work : Nat × Nat → List (Edge W)) (h : ∀ e, (∃ i, e ∈ work i) ↔ Active G inF e) :
      Threads F G inF (fun i => sparseRun F (work i) [])

/-- A complete `edgeMap` call from memory `m` to memory `m'` with result `o`. The frontier is the set of
vertices `inF`. -/
def EdgeMap [DecidableEq L] [DecidableEq V] (F : Func W L V D) (G : Gr W) (inF : Nat → Bool) (m m' : L → V)
    (o : List (Nat × D)) : Prop :=
  ∃ th, Threads F G inF th ∧ ∃ (out : Nat × Nat → List (Nat × D)),
    Steps Step (⟨m, th⟩ : Conf (Nat × Nat) L V (List (Nat × D))) ⟨m', fun i => ret (out i)⟩ ∧ Collect out o

/-! ### Sequential executions (for examples) -/

/-- Runs a program alone. -/
def exec [DecidableEq L] [DecidableEq V] {α : Type} : Prog L V α → (L → V) → Option (α × (L → V))
  | .ret a, m => some (a, m)
  | .stuck, _ => none
  | .read x k, m => exec (k (m x)) m
  | .write x v k, m => exec k (put m x v)
  | .cas x o n k, m => if m x = o then exec (k true) (put m x n) else exec (k false) m

theorem exec_steps [DecidableEq L] [DecidableEq V] {α ι : Type} [DecidableEq ι] (p : Prog L V α) (i : ι)
    (th : ι → Prog L V α) {m m' : L → V} {a : α} (h : exec p m = some (a, m')) :
    Steps Step ⟨m, fun j => if j = i then p else th j⟩ ⟨m', fun j => if j = i then ret a else th j⟩ := by
  have trans : ∀ {a b d : Conf ι L V α}, Step a b → Steps Step b d → Steps Step a d := by
    intro a b d h1 h2
    induction h2 with
    | refl => exact (Steps.refl _).tail h1
    | tail _ h ih => exact ih.tail h
  have next : ∀ {q : Prog L V α} {m1 : L → V} (p : Prog L V α) (m : L → V), p.step m = some (m1, q) →
      Step (⟨m, fun j => if j = i then p else th j⟩ : Conf ι L V α) ⟨m1, fun j => if j = i then q else th j⟩ := by
    intro q m1 p m hp
    refine ⟨i, m1, q, by simpa using hp, ?_⟩
    congr 1
    funext j
    by_cases hj : j = i <;> simp [hj]
  induction p generalizing m with
  | ret b =>
    simp only [exec, Option.some.injEq, Prod.mk.injEq] at h
    obtain ⟨rfl, rfl⟩ := h
    exact Steps.refl _
  | stuck => simp [exec] at h
  | read x k ih => exact trans (next (.read x k) m rfl) (ih _ h)
  | write x v k ih => exact trans (next (.write x v k) m rfl) (ih h)
  | cas x o n k ih =>
    simp only [exec] at h
    split at h
    · rename_i hx
      exact trans (next (.cas x o n k) m (by simp [Prog.step, hx])) (ih _ h)
    · rename_i hx
      exact trans (next (.cas x o n k) m (by simp [Prog.step, hx])) (ih _ h)

/-- One thread that processes all edges in the order `es` is a complete call. -/
theorem edgeMap_seq [DecidableEq L] [DecidableEq V] {F : Func W L V D} {G : Gr W} {inF : Nat → Bool}
    (es : List (Edge W)) (hes : ∀ e, e ∈ es ↔ Active G inF e) {m m' : L → V} {o : List (Nat × D)}
    (h : exec (sparseRun F es []) m = some (o, m')) : EdgeMap F G inF m m' o := by
  refine ⟨_, .chunked (fun i => if i = (0, 0) then es else []) (fun e => ?_),
    fun i => if i = (0, 0) then o else [], ?_, ⟨fun x hx => ⟨(0, 0), by simpa using hx⟩, ?_, ?_⟩⟩
  · rw [← hes]
    refine ⟨?_, fun h => ⟨(0, 0), by simpa using h⟩⟩
    rintro ⟨i, hi⟩
    by_cases h0 : i = (0, 0)
    · simpa [h0] using hi
    · simp [h0] at hi
  · have := exec_steps (sparseRun F es []) ((0, 0) : Nat × Nat) (fun _ => ret []) h
    have e1 : (fun j : Nat × Nat => if j = (0, 0) then sparseRun F es [] else ret []) =
        fun i => sparseRun F (if i = (0, 0) then es else []) [] := by
      funext j; by_cases hj : j = (0, 0) <;> simp [hj, sparseRun]
    have e2 : (fun j : Nat × Nat => if j = (0, 0) then (ret o : Prog L V (List (Nat × D))) else ret []) =
        fun i => ret (if i = (0, 0) then o else []) := by
      funext j; by_cases hj : j = (0, 0) <;> simp [hj]
    rw [e1, e2] at this
    exact this
  · intro i d x hx
    by_cases h0 : i = (0, 0)
    · simp only [h0, if_true] at hx; exact ⟨x, hx⟩
    · simp [h0] at hx
  · intro hn _
    simpa using hn (0, 0)

/-- Runs two threads in the given order of accesses. -/
def exec2 [DecidableEq L] [DecidableEq V] {α : Type} :
    List Bool → Prog L V α → Prog L V α → (L → V) → Option (Prog L V α × Prog L V α × (L → V))
  | [], p, q, m => some (p, q, m)
  | false :: l, p, q, m => (p.step m).bind fun x => exec2 l x.2 q x.1
  | true :: l, p, q, m => (q.step m).bind fun x => exec2 l p x.2 x.1

theorem exec2_steps [DecidableEq L] [DecidableEq V] {α ι : Type} [DecidableEq ι] (l : List Bool) (i j : ι) (hij : i ≠ j)
    (th : ι → Prog L V α) {p q p' q' : Prog L V α} {m m' : L → V} (h : exec2 l p q m = some (p', q', m')) :
    Steps Step ⟨m, fun k => if k = i then p else if k = j then q else th k⟩
      ⟨m', fun k => if k = i then p' else if k = j then q' else th k⟩ := by
  have trans : ∀ {a b d : Conf ι L V α}, Step a b → Steps Step b d → Steps Step a d := by
    intro a b d h1 h2
    induction h2 with
    | refl => exact (Steps.refl _).tail h1
    | tail _ h ih => exact ih.tail h
  induction l generalizing p q m with
  | nil =>
    simp only [exec2, Option.some.injEq, Prod.mk.injEq] at h
    obtain ⟨rfl, rfl, rfl⟩ := h
    exact Steps.refl _
  | cons b l ih =>
    cases b with
    | false =>
      obtain ⟨⟨m1, p1⟩, h1, h2⟩ := Option.bind_eq_some_iff.1 h
      refine trans ⟨i, m1, p1, by simpa using h1, ?_⟩ (ih h2)
      congr 1
      funext k
      by_cases hk : k = i <;> simp [hk]
    | true =>
      obtain ⟨⟨m1, q1⟩, h1, h2⟩ := Option.bind_eq_some_iff.1 h
      refine trans ⟨j, m1, q1, by simpa [hij.symm] using h1, ?_⟩ (ih h2)
      congr 1
      funext k
      by_cases hk : k = j
      · subst hk; simp [hij.symm]
      · by_cases hk' : k = i <;> simp [hk, hk', hij]

/-- Two threads with interleaved accesses. -/
theorem edgeMap_two [DecidableEq L] [DecidableEq V] {F : Func W L V D} {G : Gr W} {inF : Nat → Bool}
    (es es' : List (Edge W)) (hes : ∀ e, (e ∈ es ∨ e ∈ es') ↔ Active G inF e) (l : List Bool) {m m' : L → V}
    {o o' : List (Nat × D)}
    (h : exec2 l (sparseRun F es []) (sparseRun F es' []) m = some (ret o, ret o', m')) :
    EdgeMap F G inF m m' (o ++ o') := by
  refine ⟨_, .chunked (fun i => if i = (0, 0) then es else if i = (0, 1) then es' else []) (fun e => ?_),
    fun i => if i = (0, 0) then o else if i = (0, 1) then o' else [], ?_,
    ⟨fun x hx => ?_, fun i d x hx => ?_, fun hn hd => ?_⟩⟩
  · rw [← hes]
    constructor
    · rintro ⟨i, hi⟩
      by_cases h0 : i = (0, 0)
      · left; simpa [h0] using hi
      · by_cases h1 : i = (0, 1)
        · right; simpa [h1] using hi
        · simp [h0, h1] at hi
    · rintro (h | h)
      · exact ⟨(0, 0), by simpa using h⟩
      · exact ⟨(0, 1), by simpa using h⟩
  · have := exec2_steps l ((0, 0) : Nat × Nat) (0, 1) (by decide) (fun _ => ret []) h
    have e1 : (fun j : Nat × Nat => if j = (0, 0) then sparseRun F es [] else if j = (0, 1) then sparseRun F es' []
        else ret []) = fun i => sparseRun F (if i = (0, 0) then es else if i = (0, 1) then es' else []) [] := by
      funext j
      by_cases hj : j = (0, 0)
      · simp [hj]
      · by_cases hj' : j = (0, 1) <;> simp [hj, hj', sparseRun]
    have e2 : (fun j : Nat × Nat => if j = (0, 0) then (ret o : Prog L V (List (Nat × D))) else
        if j = (0, 1) then ret o' else ret []) =
        fun i => ret (if i = (0, 0) then o else if i = (0, 1) then o' else []) := by
      funext j
      by_cases hj : j = (0, 0)
      · simp [hj]
      · by_cases hj' : j = (0, 1) <;> simp [hj, hj']
    rw [e1, e2] at this
    exact this
  · rcases List.mem_append.1 hx with h | h
    · exact ⟨(0, 0), by simpa using h⟩
    · exact ⟨(0, 1), by simpa using h⟩
  · by_cases h0 : i = (0, 0)
    · simp only [h0, if_true] at hx; exact ⟨x, List.mem_append_left _ hx⟩
    · by_cases h1 : i = (0, 1)
      · simp [h1] at hx; exact ⟨x, List.mem_append_right _ hx⟩
      · simp [h0, h1] at hx
  · rw [List.map_append, List.nodup_append]
    refine ⟨by simpa using hn (0, 0), by simpa using hn (0, 1), ?_⟩
    rintro a ha b hb rfl
    obtain ⟨⟨a', x⟩, h1, rfl⟩ := List.mem_map.1 ha
    obtain ⟨⟨b', y⟩, h2, h3⟩ := List.mem_map.1 hb
    simp only at h3
    subst h3
    have := hd (0, 0) (0, 1) b' x y (by simpa using h1) (by simpa using h2)
    simp at this

/-- All active edges of a graph. -/
def activeEdges (G : Gr W) (inF : Nat → Bool) : List (Edge W) :=
  ((List.range G.n).filter inF).flatMap fun s => (G.fwd s).map fun x => ⟨s, x.1, x.2⟩

theorem mem_activeEdges {G : Gr W} (hG : G.Ok) {inF : Nat → Bool} (e : Edge W) :
    e ∈ activeEdges G inF ↔ Active G inF e := by
  obtain ⟨s, d, w⟩ := e
  simp only [activeEdges, List.mem_flatMap, List.mem_filter, List.mem_range, List.mem_map, Active]
  constructor
  · rintro ⟨s', ⟨_, h1⟩, x, h2, h3⟩
    injection h3 with h3 h4 h5
    subst h3; subst h4; subst h5
    exact ⟨h1, h2⟩
  · rintro ⟨h1, h2⟩
    exact ⟨s, ⟨(hG.bound _ _ _ h2).1, h1⟩, (d, w), h2, rfl⟩

/-- A graph given by lists (for examples). -/
def Gr.ofLists (f b : List (List (Nat × W))) : Gr W := ⟨f.length, fun v => f.getD v [], fun v => b.getD v []⟩

/-- The check behind `ofLists_ok`. -/
def Gr.checkLists [DecidableEq W] (f b : List (List (Nat × W))) : Bool :=
  decide (f.length = b.length) &&
  ((List.range f.length).all fun s => (f.getD s []).all fun x => decide (x.1 < f.length) && decide ((s, x.2) ∈ b.getD x.1 [])) &&
  ((List.range f.length).all fun s => (b.getD s []).all fun x => decide (x.1 < f.length) && decide ((s, x.2) ∈ f.getD x.1 []))

theorem Gr.ofLists_ok [DecidableEq W] {f b : List (List (Nat × W))} (h : Gr.checkLists f b = true) :
    (Gr.ofLists f b).Ok := by
  simp only [Gr.checkLists, Bool.and_eq_true, decide_eq_true_eq, List.all_eq_true, List.mem_range] at h
  obtain ⟨⟨hl, h1⟩, h2⟩ := h
  have hlt : ∀ (l : List (List (Nat × W))) v x, x ∈ l.getD v [] → v < l.length := by
    intro l v x hx
    by_contra hc
    rw [List.getD_eq_getElem?_getD, List.getElem?_eq_none (by omega)] at hx
    cases hx
  refine ⟨fun s d w => ⟨fun hm => ?_, fun hm => ?_⟩, fun s d w hm => ?_⟩
  · exact (h1 s (hlt _ _ _ hm) _ hm).2
  · exact (h2 d (hl ▸ hlt _ _ _ hm) _ hm).2
  · exact ⟨hlt _ _ _ hm, (h1 s (hlt _ _ _ hm) _ hm).1⟩

/-! ### Verification of a call from the specification of the client functions -/

variable {ι Gh : Type} [DecidableEq L] [DecidableEq V]

/-- A fact kept by the thread and by the others. -/
structure Keeps (A : RG ι Gh L V) (i : ι) (K : Gh → Prop) : Prop where
  r : ∀ g g', A.R i g g' → K g → K g'
  gu : ∀ g g', A.Gu i g g' → K g → K g'

theorem safe_frame {α : Type} {A : RG ι Gh L V} {i : ι} {K : Gh → Prop} (hK : Keeps A i K)
    {Post : Gh → α → Prop} {p : Prog L V α} {g : Gh} (h : Safe A i Post p g) (hk : K g) :
    Safe A i (fun g a => Post g a ∧ K g) p g := by
  induction p generalizing g with
  | ret a => exact fun g' hr => ⟨h g' hr, hK.r _ _ hr hk⟩
  | stuck => trivial
  | read x k ih =>
    intro g' m hr hi
    obtain ⟨g'', h1, h2, h3⟩ := h g' m hr hi
    exact ⟨g'', h1, h2, ih _ h3 (hK.gu _ _ h1 (hK.r _ _ hr hk))⟩
  | write x v k ih =>
    intro g' m hr hi
    obtain ⟨g'', h1, h2, h3⟩ := h g' m hr hi
    exact ⟨g'', h1, h2, ih h3 (hK.gu _ _ h1 (hK.r _ _ hr hk))⟩
  | cas x o n k ih =>
    intro g' m hr hi
    obtain ⟨ha, hb⟩ := h g' m hr hi
    refine ⟨fun he => ?_, fun he => ?_⟩
    · obtain ⟨g'', h1, h2, h3⟩ := ha he
      exact ⟨g'', h1, h2, ih _ h3 (hK.gu _ _ h1 (hK.r _ _ hr hk))⟩
    · obtain ⟨g'', h1, h2, h3⟩ := hb he
      exact ⟨g'', h1, h2, ih _ h3 (hK.gu _ _ h1 (hK.r _ _ hr hk))⟩

/-- Which thread may handle which destination: everything in sparse traversals; only its own vertex in
dense ones, and only block 0 if the vertex is processed sequentially. -/
def May (G : Gr W) (dense : Option Bool) (i : Nat × Nat) (d : Nat) : Prop :=
  match dense with
  | none => True
  | some par => i.1 = d ∧ ((par = false ∨ (G.bwd d).length < 1000) → i.2 = 0)

/-- No other thread handles `d`. -/
def Excl (may : ι → Nat → Prop) (i : ι) (d : Nat) : Prop := ∀ j, j ≠ i → ¬ may j d

/-- Specification of a client struct within one call: `T i g l`: thread `i` has emitted `l`;
`Dn g e`: edge `e` needs no further work. -/
structure FSpec (A : (Nat × Nat → Nat → Prop) → RG (Nat × Nat) Gh L V) (F : Func W L V D) (Ac : Edge W → Prop)
    (T : Nat × Nat → Gh → List (Nat × D) → Prop) (Dn : Gh → Edge W → Prop) : Prop where
  keep : ∀ may i e, Keeps (A may) i fun g => Dn g e
  stable : ∀ may i l g g', (A may).R i g g' → T i g l → T i g' l
  cond : ∀ may i l g d, T i g l → Safe (A may) i
    (fun g b => T i g l ∧ (b = false → ∀ e, Ac e → e.d = d → Dn g e)) (F.cond d) g
  updA : ∀ may i l g e, Ac e → may i e.d → T i g l → Safe (A may) i
    (fun g x => T i g (emit e.d x l) ∧ Dn g e) (F.updA e.s e.d e.w) g
  upd : ∀ may i l g e, Ac e → may i e.d → Excl may i e.d → T i g l → Safe (A may) i
    (fun g x => T i g (emit e.d x l) ∧ Dn g e) (F.upd e.s e.d e.w) g

/-- The same for clients whose `update` relies on the test of `cond` before it: `Cn d g`: what `cond(d)` returning true
establishes if no other thread handles `d`. -/
structure FSpecC (A : (Nat × Nat → Nat → Prop) → RG (Nat × Nat) Gh L V) (F : Func W L V D) (Ac : Edge W → Prop)
    (T : Nat × Nat → Gh → List (Nat × D) → Prop) (Dn : Gh → Edge W → Prop) (Cn : Nat → Gh → Prop) : Prop where
  keep : ∀ may i e, Keeps (A may) i fun g => Dn g e
  stable : ∀ may i l g g', (A may).R i g g' → T i g l → T i g' l
  cond : ∀ may i l g d, T i g l → Safe (A may) i
    (fun g b => T i g l ∧ (b = false → ∀ e, Ac e → e.d = d → Dn g e) ∧ (b = true → Excl may i d → Cn d g)) (F.cond d) g
  updA : ∀ may i l g e, Ac e → may i e.d → T i g l → Safe (A may) i
    (fun g x => T i g (emit e.d x l) ∧ Dn g e) (F.updA e.s e.d e.w) g
  upd : ∀ may i l g e, Ac e → may i e.d → Excl may i e.d → Cn e.d g → T i g l → Safe (A may) i
    (fun g x => T i g (emit e.d x l) ∧ Dn g e) (F.upd e.s e.d e.w) g

theorem FSpec.toC {A : (Nat × Nat → Nat → Prop) → RG (Nat × Nat) Gh L V} {F : Func W L V D} {Ac : Edge W → Prop}
    {T : Nat × Nat → Gh → List (Nat × D) → Prop} {Dn : Gh → Edge W → Prop} (h : FSpec A F Ac T Dn) :
    FSpecC A F Ac T Dn fun _ _ => True where
  keep := h.keep
  stable := h.stable
  cond may i l g d hT := (h.cond may i l g d hT).weaken fun _ _ hb => ⟨hb.1, hb.2, fun _ _ => trivial⟩
  updA := h.updA
  upd may i l g e h1 h2 h3 _ h4 := h.upd may i l g e h1 h2 h3 h4

/-- The same for clients whose updates, atomic or not, rely on what `cond(d)` returning true establishes, `Ca d g`. -/
structure FSpecD (A : (Nat × Nat → Nat → Prop) → RG (Nat × Nat) Gh L V) (F : Func W L V D) (Ac : Edge W → Prop)
    (T : Nat × Nat → Gh → List (Nat × D) → Prop) (Dn : Gh → Edge W → Prop) (Cn Ca : Nat → Gh → Prop) : Prop where
  keep : ∀ may i e, Keeps (A may) i fun g => Dn g e
  stable : ∀ may i l g g', (A may).R i g g' → T i g l → T i g' l
  cond : ∀ may i l g d, T i g l → Safe (A may) i
    (fun g b => T i g l ∧ (b = false → ∀ e, Ac e → e.d = d → Dn g e) ∧ (b = true → (Excl may i d → Cn d g) ∧ Ca d g))
    (F.cond d) g
  updA : ∀ may i l g e, Ac e → may i e.d → Ca e.d g → T i g l → Safe (A may) i
    (fun g x => T i g (emit e.d x l) ∧ Dn g e) (F.updA e.s e.d e.w) g
  upd : ∀ may i l g e, Ac e → may i e.d → Excl may i e.d → Cn e.d g → Ca e.d g → T i g l → Safe (A may) i
    (fun g x => T i g (emit e.d x l) ∧ Dn g e) (F.upd e.s e.d e.w) g

theorem FSpecC.toD {A : (Nat × Nat → Nat → Prop) → RG (Nat × Nat) Gh L V} {F : Func W L V D} {Ac : Edge W → Prop}
    {T : Nat × Nat → Gh → List (Nat × D) → Prop} {Dn : Gh → Edge W → Prop} {Cn : Nat → Gh → Prop}
    (h : FSpecC A F Ac T Dn Cn) : FSpecD A F Ac T Dn Cn fun _ _ => True where
  keep := h.keep
  stable := h.stable
  cond may i l g d hT := (h.cond may i l g d hT).weaken fun _ _ hb => ⟨hb.1, hb.2.1, fun ht => ⟨hb.2.2 ht, trivial⟩⟩
  updA may i l g e h1 h2 _ h4 := h.updA may i l g e h1 h2 h4
  upd may i l g e h1 h2 h3 h4 _ h5 := h.upd may i l g e h1 h2 h3 h4 h5

section
variable {A : (Nat × Nat → Nat → Prop) → RG (Nat × Nat) Gh L V} {F : Func W L V D} {Ac : Edge W → Prop}
  {T : Nat × Nat → Gh → List (Nat × D) → Prop} {Dn : Gh → Edge W → Prop} {Cn Ca : Nat → Gh → Prop}

theorem keeps_all (h : FSpecD A F Ac T Dn Cn Ca) (may : Nat × Nat → Nat → Prop) (i : Nat × Nat)
    (S : Edge W → Prop) : Keeps (A may) i fun g => ∀ e, S e → Dn g e :=
  ⟨fun g g' hr hk e he => (h.keep may i e).r _ _ hr (hk e he),
    fun g g' hr hk e he => (h.keep may i e).gu _ _ hr (hk e he)⟩

theorem sparseRun_safe (h : FSpecD A F Ac T Dn Cn Ca) (may : Nat × Nat → Nat → Prop) (i : Nat × Nat)
    (es : List (Edge W)) (hes : ∀ e ∈ es, Ac e ∧ may i e.d) (l : List (Nat × D)) (g : Gh) (hT : T i g l) :
    Safe (A may) i (fun g l => T i g l ∧ ∀ e ∈ es, Dn g e) (sparseRun F es l) g := by
  induction es generalizing l g with
  | nil => exact fun g' hr => ⟨h.stable _ _ _ _ _ hr hT, fun e he => (by cases he)⟩
  | cons e es ih =>
    have hes' := fun e he => hes e (List.mem_cons_of_mem _ he)
    obtain ⟨hac, hmay⟩ := hes e List.mem_cons_self
    refine (h.cond may i l g e.d hT).bind fun c g1 h1 => ?_
    cases c with
    | true =>
      refine (h.updA may i l g1 e hac hmay (h1.2.2 rfl).2 h1.1).bind fun x g2 h2 => ?_
      refine (safe_frame (h.keep may i e) (ih hes' _ g2 h2.1) h2.2).weaken fun l' g3 h3 => ⟨h3.1.1, fun e' he' => ?_⟩
      rcases List.mem_cons.1 he' with rfl | he'
      · exact h3.2
      · exact h3.1.2 e' he'
    | false =>
      refine (safe_frame (h.keep may i e) (ih hes' _ g1 h1.1) (h1.2.1 rfl e hac rfl)).weaken
        fun l' g3 h3 => ⟨h3.1.1, fun e' he' => ?_⟩
      rcases List.mem_cons.1 he' with rfl | he'
      · exact h3.2
      · exact h3.1.2 e' he'

/-- The edges of a list of in-neighbours. -/
def InEdge (inF : Nat → Bool) (v : Nat) (us : List (Nat × W)) (e : Edge W) : Prop :=
  e.d = v ∧ (e.s, e.w) ∈ us ∧ inF e.s = true

theorem denseRun_safe (h : FSpecD A F Ac T Dn Cn Ca) (may : Nat × Nat → Nat → Prop) (i : Nat × Nat) (v : Nat)
    (inF : Nat → Bool) (op : Nat → Nat → W → Prog L V (Option D))
    (hop : ∀ l g e, Ac e → e.d = v → (Excl may i v → Cn v g) ∧ Ca v g → T i g l → Safe (A may) i
      (fun g x => T i g (emit e.d x l) ∧ Dn g e) (op e.s e.d e.w) g)
    (us : List (Nat × W)) (hus : ∀ e, InEdge inF v us e → Ac e) (l : List (Nat × D)) (g : Gh) (hT : T i g l) :
    Safe (A may) i (fun g l => T i g l ∧ ∀ e, InEdge inF v us e → Dn g e) (denseRun F op inF v us l) g := by
  induction us generalizing l g with
  | nil => exact fun g' hr => ⟨h.stable _ _ _ _ _ hr hT, fun e he => (by cases he.2.1)⟩
  | cons u us ih =>
    have hus' : ∀ e, InEdge inF v us e → Ac e := fun e he => hus e ⟨he.1, List.mem_cons_of_mem _ he.2.1, he.2.2⟩
    refine (h.cond may i l g v hT).bind fun c g1 h1 => ?_
    cases c with
    | true =>
      rw [if_pos rfl]
      by_cases hu : inF u.1 = true
      · rw [if_pos hu]
        have hac : Ac ⟨u.1, v, u.2⟩ := hus ⟨u.1, v, u.2⟩ ⟨rfl, List.mem_cons_self, hu⟩
        refine (hop l g1 ⟨u.1, v, u.2⟩ hac rfl (h1.2.2 rfl) h1.1).bind fun x g2 h2 => ?_
        refine (safe_frame (h.keep may i ⟨u.1, v, u.2⟩) (ih hus' _ g2 h2.1) h2.2).weaken
          fun l' g3 h3 => ⟨h3.1.1, ?_⟩
        rintro ⟨s, d, w⟩ ⟨he1, he2, he3⟩
        rcases List.mem_cons.1 he2 with he | he
        · have hk : Dn g3 ⟨u.1, v, u.2⟩ := h3.2
          have hd : d = v := he1
          subst hd
          rw [← he] at hk; exact hk
        · exact h3.1.2 _ ⟨he1, he, he3⟩
      · rw [if_neg hu]
        refine (ih hus' _ g1 h1.1).weaken fun l' g3 h3 => ⟨h3.1, ?_⟩
        rintro ⟨s, d, w⟩ ⟨he1, he2, he3⟩
        rcases List.mem_cons.1 he2 with he | he
        · rw [← he] at hu; exact absurd he3 hu
        · exact h3.2 _ ⟨he1, he, he3⟩
    | false =>
      have hall := h1.2.1 rfl
      intro g' hr
      exact ⟨h.stable _ _ _ _ _ hr h1.1, fun e he => (h.keep may i e).r _ _ hr (hall e (hus e he) he.1)⟩

/-- What the threads together guarantee. -/
theorem edgeMap_safe (h : FSpecD A F Ac T Dn Cn Ca) (G : Gr W) (hG : G.Ok) (inF : Nat → Bool)
    (hac : ∀ e, Active G inF e → Ac e) {th : Nat × Nat → Prog L V (List (Nat × D))} (ht : Threads F G inF th)
    (g0 : Gh) (hT : ∀ i, T i g0 []) : ∃ (may : Nat × Nat → Nat → Prop) (part : Nat × Nat → Edge W → Prop),
      (∀ e, Active G inF e → ∃ i, part i e) ∧
      ∀ i, Safe (A may) i (fun g l => T i g l ∧ ∀ e, part i e → Dn g e) (th i) g0 := by
  cases ht with
  | chunked work hw =>
    refine ⟨fun _ _ => True, fun i e => e ∈ work i, fun e he => (hw e).2 he, fun i => ?_⟩
    exact sparseRun_safe h _ i (work i) (fun e he => ⟨hac e ((hw e).1 ⟨i, he⟩), trivial⟩) [] g0 (hT i)
  | forward =>
    refine ⟨fun _ _ => True, fun i e => i.1 = e.s ∧ Active G inF e ∧ (G.fwd i.1)[i.2]? = some (e.d, e.w), fun e he => ?_, fun i => ?_⟩
    · obtain ⟨j, hj⟩ := List.mem_iff_getElem?.1 he.2
      exact ⟨(e.s, j), rfl, he, hj⟩
    · obtain ⟨s, j⟩ := i
      unfold forwardProg
      by_cases hs : s < G.n ∧ inF s = true
      · simp only [hs, and_self, if_true]
        cases hd : (G.fwd s)[j]? with
        | none =>
          intro g' hr
          exact ⟨h.stable _ _ _ _ _ hr (hT _), fun e he => (by have := he.2.2; cases this)⟩
        | some d =>
          have hact : Active G inF ⟨s, d.1, d.2⟩ := ⟨hs.2, List.mem_iff_getElem?.2 ⟨j, hd⟩⟩
          refine (sparseRun_safe h _ (s, j) [⟨s, d.1, d.2⟩] (fun e he => ?_) [] g0 (hT _)).weaken
            fun l g hl => ⟨hl.1, ?_⟩
          · rw [List.mem_singleton] at he; subst he; exact ⟨hac _ hact, trivial⟩
          · rintro ⟨s', d', w'⟩ ⟨h1, h2, h3⟩
            have h1 : s = s' := h1
            obtain rfl : d = (d', w') := Option.some.inj h3
            subst h1
            exact hl.2 _ (List.mem_singleton.2 rfl)
      · simp only [hs, if_false]
        intro g' hr
        refine ⟨h.stable _ _ _ _ _ hr (hT _), fun e he => absurd ?_ hs⟩
        have h1 : s = e.s := he.1
        subst h1
        exact ⟨(hG.bound _ _ _ he.2.1.2).1, he.2.1.1⟩
  | dense par =>
    have hin : ∀ v us, (∀ x ∈ us, x ∈ G.bwd v) → ∀ e, InEdge inF v us e → Ac e := by
      rintro v us hsub ⟨s, d, w⟩ ⟨h1, h2, h3⟩
      have h1 : d = v := h1
      subst h1
      exact hac _ ⟨h3, (hG.same _ _ _).2 (hsub _ h2)⟩
    refine ⟨May G (some par), fun i e => i.1 = e.d ∧ Active G inF e ∧
      ((par = false ∨ (G.bwd e.d).length < 1000) → i.2 = 0) ∧
      (¬ (par = false ∨ (G.bwd e.d).length < 1000) → i.2 < (G.bwd e.d).length / 2048 + 1 ∧ (e.s, e.w) ∈
        ((G.bwd e.d).drop (i.2 * 2048)).take (min ((i.2 + 1) * 2048) (G.bwd e.d).length - i.2 * 2048)),
      fun e he => ?_, fun i => ?_⟩
    · by_cases hseq : par = false ∨ (G.bwd e.d).length < 1000
      · exact ⟨(e.d, 0), rfl, he, fun _ => rfl, fun hn => absurd hseq hn⟩
      · obtain ⟨j, hj, hje⟩ := List.mem_iff_getElem.1 ((hG.same _ _ _).1 he.2)
        refine ⟨(e.d, j / 2048), rfl, he, fun hs => absurd hs hseq, fun _ => ⟨?_, ?_⟩⟩
        · show j / 2048 < (G.bwd e.d).length / 2048 + 1
          have := Nat.div_le_div_right (c := 2048) (Nat.le_of_lt hj); omega
        · show (e.s, e.w) ∈ ((G.bwd e.d).drop (j / 2048 * 2048)).take
            (min ((j / 2048 + 1) * 2048) (G.bwd e.d).length - j / 2048 * 2048)
          rw [List.mem_iff_getElem?]
          refine ⟨j - j / 2048 * 2048, ?_⟩
          rw [List.getElem?_take, List.getElem?_drop, if_pos (by omega),
            show j / 2048 * 2048 + (j - j / 2048 * 2048) = j from by omega, List.getElem?_eq_getElem hj, hje]
    · obtain ⟨v, b⟩ := i
      have hempty : ∀ (K : Edge W → Prop), (∀ e, K e → False) → Safe (A (May G (some par))) (v, b)
          (fun g l => T (v, b) g l ∧ ∀ e, K e → Dn g e) (ret []) g0 :=
        fun K hK g' hr => ⟨h.stable _ _ _ _ _ hr (hT _), fun e he => (hK e he).elim⟩
      unfold denseProg
      by_cases hv : v < G.n
      · simp only [hv, if_true]
        by_cases hseq : par = false ∨ (G.bwd v).length < 1000
        · rw [if_pos (by simpa using hseq)]
          by_cases hb : b = 0
          · rw [if_pos hb]
            subst hb
            refine (denseRun_safe h _ (v, 0) v inF F.upd (fun l g e hace hed hcn hTl => ?_) (G.bwd v)
              (hin v _ fun _ hx => hx) [] g0 (hT _)).weaken fun l g hl => ⟨hl.1, fun e he => ?_⟩
            · subst hed
              have hex : Excl (May G (some par)) (e.d, 0) e.d := fun j hj hm => hj (Prod.ext hm.1 (hm.2 hseq))
              exact h.upd _ _ l g e hace ⟨rfl, fun _ => rfl⟩ hex (hcn.1 hex) hcn.2 hTl
            · have h1 : v = e.d := he.1
              refine hl.2 e ⟨h1.symm, ?_, he.2.1.1⟩
              have := (hG.same _ _ _).1 he.2.1.2
              rw [← h1] at this; exact this
          · rw [if_neg hb]
            refine hempty _ fun e he => hb ?_
            have h1 : v = e.d := he.1
            exact he.2.2.1 (h1 ▸ hseq)
        · rw [if_neg (by simpa using hseq)]
          by_cases hb : b < (G.bwd v).length / 2048 + 1
          · rw [if_pos hb]
            have hsub : ∀ x ∈ ((G.bwd v).drop (b * 2048)).take
                (min ((b + 1) * 2048) (G.bwd v).length - b * 2048), x ∈ G.bwd v :=
              fun x hx => List.mem_of_mem_drop (List.mem_of_mem_take hx)
            have hfin : ∀ e : Edge W, (v, b).1 = e.d ∧ Active G inF e ∧
                ((par = false ∨ (G.bwd e.d).length < 1000) → (v, b).2 = 0) ∧
                (¬ (par = false ∨ (G.bwd e.d).length < 1000) → (v, b).2 < (G.bwd e.d).length / 2048 + 1 ∧ (e.s, e.w) ∈
                  ((G.bwd e.d).drop ((v, b).2 * 2048)).take
                    (min (((v, b).2 + 1) * 2048) (G.bwd e.d).length - (v, b).2 * 2048)) →
                InEdge inF v (((G.bwd v).drop (b * 2048)).take
                  (min ((b + 1) * 2048) (G.bwd v).length - b * 2048)) e := by
              rintro ⟨s, d, w⟩ ⟨h1, h2, _, h4⟩
              have h1 : v = d := h1
              subst h1
              exact ⟨rfl, (h4 hseq).2, h2.1⟩
            have hstop : ∀ g1, T (v, b) g1 [] → (∀ e, Ac e → e.d = v → Dn g1 e) →
                Safe (A (May G (some par))) (v, b) (fun g l => T (v, b) g l ∧ ∀ e : Edge W, (v, b).1 = e.d ∧ Active G inF e ∧
                ((par = false ∨ (G.bwd e.d).length < 1000) → (v, b).2 = 0) ∧
                (¬ (par = false ∨ (G.bwd e.d).length < 1000) → (v, b).2 < (G.bwd e.d).length / 2048 + 1 ∧ (e.s, e.w) ∈
                  ((G.bwd e.d).drop ((v, b).2 * 2048)).take
                    (min (((v, b).2 + 1) * 2048) (G.bwd e.d).length - (v, b).2 * 2048)) → Dn g e) (ret []) g1 :=
              fun g1 hT1 hall g' hr => ⟨h.stable _ _ _ _ _ hr hT1,
                fun e he => (h.keep _ _ e).r _ _ hr (hall e (hac e he.2.1) he.1.symm)⟩
            refine (h.cond _ (v, b) [] g0 v (hT _)).bind fun c g1 h1 => ?_
            cases c with
            | false => exact hstop g1 h1.1 (h1.2.1 rfl)
            | true =>
              rw [if_pos rfl]
              refine (h.cond _ (v, b) [] g1 v h1.1).bind fun c g2 h2 => ?_
              cases c with
              | false => exact hstop g2 h2.1 (h2.2.1 rfl)
              | true =>
                rw [if_pos rfl]
                refine (denseRun_safe h _ (v, b) v inF F.updA (fun l g e hace hed hcn hTl => ?_) _
                  (hin v _ hsub) [] g2 h2.1).weaken fun l g hl => ⟨hl.1, fun e he => hl.2 e (hfin e he)⟩
                subst hed
                exact h.updA _ _ l g e hace ⟨rfl, fun hs => absurd hs hseq⟩ hcn.2 hTl
          · rw [if_neg hb]
            refine hempty _ fun e he => hb ?_
            have h1 : v = e.d := he.1
            have := (he.2.2.2 (h1 ▸ hseq)).1
            rw [h1]; exact this
      · simp only [hv, if_false]
        refine hempty _ fun e he => hv ?_
        have h1 : v = e.d := he.1
        rw [h1]; exact (hG.bound _ _ _ he.2.1.2).2

/-- Soundness: a complete call ends in a state satisfying the invariant in which every edge of the frontier
is done and every thread has emitted what `T` says. -/
theorem edgeMap_soundD (h : FSpecD A F Ac T Dn Cn Ca) (G : Gr W) (hG : G.Ok) (inF : Nat → Bool)
    (hac : ∀ e, Active G inF e → Ac e) (Inv : Gh → (L → V) → Prop) (hInv : ∀ may g m, (A may).Inv g m ↔ Inv g m)
    {m m' : L → V} {o : List (Nat × D)} (g0 : Gh) (h0 : Inv g0 m) (hT : ∀ i, T i g0 [])
    (hr : EdgeMap F G inF m m' o) :
    ∃ g out, Inv g m' ∧ (∀ e, Active G inF e → Dn g e) ∧ (∀ i, T i g (out i)) ∧ Collect (ι := Nat × Nat) out o := by
  obtain ⟨th, ht, out, hs, hcol⟩ := hr
  obtain ⟨may, part, hcov, hsafe⟩ := edgeMap_safe h G hG inF hac ht g0 hT
  obtain ⟨g, hi, _, hp⟩ := safe_reach (A may) (fun i g l => T i g l ∧ ∀ e, part i e → Dn g e) hs g0
    ((hInv may g0 m).2 h0) hsafe
  refine ⟨g, out, (hInv may _ _).1 hi, fun e he => ?_, fun i => (hp i _ rfl).1, hcol⟩
  obtain ⟨i, hi⟩ := hcov e he
  exact (hp i _ rfl).2 e hi

theorem edgeMap_soundC (h : FSpecC A F Ac T Dn Cn) (G : Gr W) (hG : G.Ok) (inF : Nat → Bool)
    (hac : ∀ e, Active G inF e → Ac e) (Inv : Gh → (L → V) → Prop) (hInv : ∀ may g m, (A may).Inv g m ↔ Inv g m)
    {m m' : L → V} {o : List (Nat × D)} (g0 : Gh) (h0 : Inv g0 m) (hT : ∀ i, T i g0 [])
    (hr : EdgeMap F G inF m m' o) :
    ∃ g out, Inv g m' ∧ (∀ e, Active G inF e → Dn g e) ∧ (∀ i, T i g (out i)) ∧ Collect (ι := Nat × Nat) out o :=
  edgeMap_soundD h.toD G hG inF hac Inv hInv g0 h0 hT hr

theorem edgeMap_sound (h : FSpec A F Ac T Dn) (G : Gr W) (hG : G.Ok) (inF : Nat → Bool)
    (hac : ∀ e, Active G inF e → Ac e) (Inv : Gh → (L → V) → Prop) (hInv : ∀ may g m, (A may).Inv g m ↔ Inv g m)
    {m m' : L → V} {o : List (Nat × D)} (g0 : Gh) (h0 : Inv g0 m) (hT : ∀ i, T i g0 [])
    (hr : EdgeMap F G inF m m' o) :
    ∃ g out, Inv g m' ∧ (∀ e, Active G inF e → Dn g e) ∧ (∀ i, T i g (out i)) ∧ Collect (ι := Nat × Nat) out o :=
  edgeMap_soundC h.toC G hG inF hac Inv hInv g0 h0 hT hr
end

end Gbbs.Em
