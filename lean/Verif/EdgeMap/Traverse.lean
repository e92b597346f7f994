/-
C19, C54: the traversals behind `edgeMap` (`gbbs/edge_map_data.h`, `gbbs/vertex.h`) for client
functions of the "claim" kind, under every interleaving; and the choice of traversal.
-/
import Verif.Atomics.Model
import Mathlib.Data.List.Nodup
import Mathlib.Data.List.GetD

namespace Gbbs.EdgeMap

open Gbbs.Atomics (Steps)

/-! ### Client function and traversals -/

/-- A client struct of the claim kind, e.g. `BFS_F` of `benchmarks/BFS/.../BFS.h:31-44`:
`cond(d)` is `c0 d` and "`d` is not claimed"; `update`/`updateAtomic(s,d)` claims `d` and returns
true iff `acc s d` and `d` was not claimed. -/
structure Fn where
  c0 : Nat → Bool
  acc : Nat → Nat → Bool

/-- One access of a traversal thread.
`check d k`: evaluate `cond(d)`, skip the next `k` operations when false.
`upd s d`: `updateAtomic(s,d)` (or `update` in the sequential dense loop, where no other thread
handles `d`), and output `d` when true (`edge_map_utils.h:43-67,151-160`). -/
inductive Op
  | check (d k : Nat)
  | upd (s d : Nat)
deriving DecidableEq

/-- Shared state: the claims, the output vertices (latest first), what each thread has left. -/
structure Conf (ι : Type) where
  claimed : Nat → Bool
  out : List Nat
  rest : ι → List Op

variable {ι : Type} [DecidableEq ι]

/-- One atomic access by some thread. -/
inductive Step (f : Fn) : Conf ι → Conf ι → Prop
  | checkT (c : Conf ι) (i : ι) (d k : Nat) (r : List Op) (h : c.rest i = .check d k :: r)
      (hc : f.c0 d = true ∧ c.claimed d = false) :
      Step f c ⟨c.claimed, c.out, Atomics.set c.rest i r⟩
  | checkF (c : Conf ι) (i : ι) (d k : Nat) (r : List Op) (h : c.rest i = .check d k :: r)
      (hc : ¬ (f.c0 d = true ∧ c.claimed d = false)) :
      Step f c ⟨c.claimed, c.out, Atomics.set c.rest i (r.drop k)⟩
  | updT (c : Conf ι) (i : ι) (s d : Nat) (r : List Op) (h : c.rest i = .upd s d :: r)
      (hc : f.acc s d = true ∧ c.claimed d = false) :
      Step f c ⟨Atomics.set c.claimed d true, d :: c.out, Atomics.set c.rest i r⟩
  | updF (c : Conf ι) (i : ι) (s d : Nat) (r : List Op) (h : c.rest i = .upd s d :: r)
      (hc : ¬ (f.acc s d = true ∧ c.claimed d = false)) :
      Step f c ⟨c.claimed, c.out, Atomics.set c.rest i r⟩

/-- Loop bodies of `decode_block` (`vertex.h:376-392`), `decode` (`vertex.h:304-314`),
`decodeSparse*` over a list of edges `(s, d)`: test `cond(d)`, then `updateAtomic(s, d)`. -/
def sparseOps : List (Nat × Nat) → List Op
  | [] => []
  | e :: es => .check e.2 1 :: .upd e.1 e.2 :: sparseOps es

/-- `decodeBreakEarly`, `vertex.h:263-300`, over a list of in-neighbours of `v`: test `cond(v)`
and leave the loop when false; `update` when the neighbour is in the frontier.  The tests of the
sequential loop are made by `edgeMapDense` (`edge_map_data.h:60`) before the first neighbour and by
the loop after each one. -/
def denseLoop (inF : Nat → Bool) (v : Nat) : List Nat → List Op
  | [] => []
  | u :: us =>
    let r := (if inF u then [.upd u v] else []) ++ denseLoop inF v us
    .check v r.length :: r

/-- The parallel branch of `decodeBreakEarly`, `vertex.h:275-298`, for one block: also the tests
of `edgeMapDense` and at the start of the block (each block is given its own copy of the first,
which only adds interleavings). -/
def denseBlock (inF : Nat → Bool) (v : Nat) (us : List Nat) : List Op :=
  let r := denseLoop inF v us
  .check v (r.length + 1) :: .check v r.length :: r

/-- Neighbour lists of the graph in the direction of the traversal and against it. -/
structure Gr where
  n : Nat
  fwd : Nat → List Nat
  bwd : Nat → List Nat

/-- What the graph data structure guarantees: both directions list the same edges. -/
def Gr.Ok (G : Gr) : Prop :=
  (∀ s d, d ∈ G.fwd s ↔ s ∈ G.bwd d) ∧ ∀ s d, d ∈ G.fwd s → s < G.n ∧ d < G.n

/-- `edgeMapDense`, `edge_map_data.h:46-84`; thread `(v, b)` runs block `b` of vertex `v`
(only block 0 in the sequential case). `par` is the flag `dense_parallel`. -/
def denseOps (G : Gr) (inF : Nat → Bool) (par : Bool) : Nat × Nat → List Op
  | (v, b) =>
    if v < G.n then
      if !par || (G.bwd v).length < 1000 then
        if b = 0 then denseLoop inF v (G.bwd v) else []
      else if b < (G.bwd v).length / 2048 + 1 then
        denseBlock inF v (((G.bwd v).drop (b * 2048)).take (min ((b + 1) * 2048) (G.bwd v).length - b * 2048))
      else []
    else []

/-- `edgeMapDenseForward`, `edge_map_data.h:90-130`: thread `(s, j)` runs the `j`-th edge of the
vertex `s` of the frontier. -/
def forwardOps (G : Gr) (inF : Nat → Bool) : Nat × Nat → List Op
  | (s, j) =>
    if s < G.n ∧ inF s = true then
      match (G.fwd s)[j]? with
      | some d => sparseOps [(s, d)]
      | none => []
    else []

/-- The sparse traversal, `edge_map_blocked.h:319-456`: thread `g` processes the edges `work g`. -/
def chunkedOps (work : ι → List (Nat × Nat)) (g : ι) : List Op := sparseOps (work g)

/-- What C18 (`Chunked.chunked_correct_partial`) guarantees about the work of the groups: together
they process exactly the edges of the frontier. -/
def WorkOk (G : Gr) (inF : Nat → Bool) (work : ι → List (Nat × Nat)) : Prop :=
  ∀ e, (∃ g, e ∈ work g) ↔ inF e.1 = true ∧ e.2 ∈ G.fwd e.1

/-! ### Specification -/

/-- The vertices `edgeMap` should return: not yet claimed, satisfying the condition, with an
accepted edge from the frontier. -/
def Target (G : Gr) (f : Fn) (inF : Nat → Bool) (claimed : Nat → Bool) (d : Nat) : Prop :=
  f.c0 d = true ∧ claimed d = false ∧ ∃ s, inF s = true ∧ d ∈ G.fwd s ∧ f.acc s d = true

/-- A completed traversal: every thread is done. -/
def Complete (f : Fn) (claimed : Nat → Bool) (ops : ι → List Op) (c : Conf ι) : Prop :=
  Steps (Step f) ⟨claimed, [], ops⟩ c ∧ ∀ i, c.rest i = []

/-! ### Proof -/

def Op.dest : Op → Nat
  | .check d _ => d
  | .upd _ d => d

/-- Programs in which a skip only skips operations on the tested vertex and every update is done
under the condition, on an allowed edge. -/
inductive Ok (f : Fn) (edge : Nat → Nat → Prop) : List Op → Prop
  | nil : Ok f edge []
  | upd (s d : Nat) (r : List Op) : f.c0 d = true → edge s d → Ok f edge r →
      Ok f edge (.upd s d :: r)
  | check (d k : Nat) (r : List Op) : (∀ o ∈ r.take k, o.dest = d) →
      (f.c0 d = true → Ok f edge r) → Ok f edge (r.drop k) → Ok f edge (.check d k :: r)

theorem ok_sparse (f : Fn) (edge : Nat → Nat → Prop) (es : List (Nat × Nat))
    (h : ∀ e ∈ es, edge e.1 e.2) : Ok f edge (sparseOps es) := by
  induction es with
  | nil => exact .nil
  | cons e es ih =>
    have h1 := ih fun e he => h e (List.mem_cons_of_mem _ he)
    refine .check _ _ _ ?_ (fun hc => .upd _ _ _ hc (h e List.mem_cons_self) h1) h1
    intro o ho
    simp at ho
    subst ho; rfl

theorem dest_denseLoop (inF : Nat → Bool) (v : Nat) (us : List Nat) :
    ∀ o ∈ denseLoop inF v us, o.dest = v := by
  induction us with
  | nil => intro o ho; cases ho
  | cons u us ih =>
    intro o ho
    simp only [denseLoop, List.mem_cons, List.mem_append] at ho
    rcases ho with rfl | ho | ho
    · rfl
    · split at ho
      · simp at ho; subst ho; rfl
      · cases ho
    · exact ih o ho

theorem ok_denseLoop (f : Fn) (edge : Nat → Nat → Prop) (inF : Nat → Bool) (v : Nat)
    (us : List Nat) (h : ∀ u ∈ us, inF u = true → edge u v) : Ok f edge (denseLoop inF v us) := by
  induction us with
  | nil => exact .nil
  | cons u us ih =>
    have h1 := ih fun u hu => h u (List.mem_cons_of_mem _ hu)
    refine .check _ _ _ ?_ ?_ ?_
    · intro o ho
      have := List.mem_of_mem_take ho
      exact dest_denseLoop inF v (u :: us) o (List.mem_cons_of_mem _ this)
    · intro hc
      by_cases hu : inF u = true
      · simp only [hu, if_true, List.cons_append, List.nil_append]
        exact .upd _ _ _ hc (h u List.mem_cons_self hu) h1
      · simp only [hu]
        exact h1
    · rw [List.drop_length]; exact .nil

theorem ok_denseBlock (f : Fn) (edge : Nat → Nat → Prop) (inF : Nat → Bool) (v : Nat)
    (us : List Nat) (h : ∀ u ∈ us, inF u = true → edge u v) : Ok f edge (denseBlock inF v us) := by
  have h1 := ok_denseLoop f edge inF v us h
  have h2 : Ok f edge (.check v (denseLoop inF v us).length :: denseLoop inF v us) := by
    refine .check _ _ _ ?_ (fun _ => h1) (by rw [List.drop_length]; exact .nil)
    intro o ho
    exact dest_denseLoop inF v us o (List.mem_of_mem_take ho)
  refine .check _ _ _ ?_ (fun _ => h2) ?_
  · intro o ho
    have := List.mem_of_mem_take ho
    rcases List.mem_cons.1 this with rfl | h3
    · rfl
    · exact dest_denseLoop inF v us o h3
  · have : (Op.check v (denseLoop inF v us).length :: denseLoop inF v us).drop
        ((denseLoop inF v us).length + 1) = [] := by
      rw [List.drop_succ_cons, List.drop_length]
    rw [this]; exact .nil

/-- The invariant. -/
structure Inv (f : Fn) (edge : Nat → Nat → Prop) (cl0 : Nat → Bool) (c : Conf ι) : Prop where
  ok : ∀ i, Ok f edge (c.rest i)
  nodup : c.out.Nodup
  claim : ∀ d, c.claimed d = true ↔ cl0 d = true ∨ d ∈ c.out
  fresh : ∀ d ∈ c.out, cl0 d = false
  sound : ∀ d ∈ c.out, f.c0 d = true ∧ ∃ s, edge s d ∧ f.acc s d = true
  live : ∀ s d, edge s d → f.c0 d = true → f.acc s d = true →
    c.claimed d = true ∨ ∃ i, .upd s d ∈ c.rest i

theorem inv_step {f : Fn} {edge : Nat → Nat → Prop} {cl0 : Nat → Bool} {c c' : Conf ι}
    (hi : Inv f edge cl0 c) (hs : Step f c c') : Inv f edge cl0 c' := by
  cases hs with
  | checkT i d k r h hc =>
    have hok := hi.ok i
    rw [h] at hok
    cases hok with
    | check _ _ _ h1 h2 h3 =>
      refine ⟨fun j => ?_, hi.nodup, hi.claim, hi.fresh, hi.sound, fun s d' he hc' ha => ?_⟩
      · show Ok f edge (Atomics.set c.rest i r j)
        by_cases hj : j = i
        · simp only [Atomics.set, hj, if_true]; exact h2 hc.1
        · simp only [Atomics.set, hj, if_false]; exact hi.ok j
      · rcases hi.live s d' he hc' ha with h4 | ⟨j, h4⟩
        · exact Or.inl h4
        · refine Or.inr ⟨j, ?_⟩
          show _ ∈ Atomics.set c.rest i r j
          by_cases hj : j = i
          · subst hj
            rw [h] at h4
            simp only [Atomics.set, if_true]
            simpa using h4
          · simp only [Atomics.set, hj, if_false]; exact h4
  | checkF i d k r h hc =>
    have hok := hi.ok i
    rw [h] at hok
    cases hok with
    | check _ _ _ h1 h2 h3 =>
      refine ⟨fun j => ?_, hi.nodup, hi.claim, hi.fresh, hi.sound, fun s d' he hc' ha => ?_⟩
      · show Ok f edge (Atomics.set c.rest i (r.drop k) j)
        by_cases hj : j = i
        · simp only [Atomics.set, hj, if_true]; exact h3
        · simp only [Atomics.set, hj, if_false]; exact hi.ok j
      · rcases hi.live s d' he hc' ha with h4 | ⟨j, h4⟩
        · exact Or.inl h4
        · by_cases hj : j = i
          · subst hj
            rw [h] at h4
            have h5 : Op.upd s d' ∈ r := by simpa using h4
            rw [← List.take_append_drop k r, List.mem_append] at h5
            rcases h5 with h5 | h5
            · have h6 := h1 _ h5
              have h6 : d' = d := h6
              subst h6
              left
              show c.claimed d' = true
              cases hcl : c.claimed d' with
              | true => rfl
              | false => exact absurd ⟨hc', hcl⟩ hc
            · right
              exact ⟨j, by simp only [Atomics.set, if_true]; exact h5⟩
          · right
            exact ⟨j, by simp only [Atomics.set, hj, if_false]; exact h4⟩
  | updT i s d r h hc =>
    have hok := hi.ok i
    rw [h] at hok
    cases hok with
    | upd _ _ _ h1 h2 h3 =>
      have hnot : d ∉ c.out := by
        intro hd
        have := (hi.claim d).2 (Or.inr hd)
        rw [hc.2] at this; cases this
      have hfr : cl0 d = false := by
        cases hcl : cl0 d with
        | false => rfl
        | true =>
          have := (hi.claim d).2 (Or.inl hcl)
          rw [hc.2] at this; cases this
      refine ⟨fun j => ?_, List.nodup_cons.2 ⟨hnot, hi.nodup⟩, fun d' => ?_, ?_, ?_,
        fun s' d' he hc' ha => ?_⟩
      · show Ok f edge (Atomics.set c.rest i r j)
        by_cases hj : j = i
        · simp only [Atomics.set, hj, if_true]; exact h3
        · simp only [Atomics.set, hj, if_false]; exact hi.ok j
      · show Atomics.set c.claimed d true d' = true ↔ cl0 d' = true ∨ d' ∈ d :: c.out
        by_cases hd : d' = d
        · subst hd; simp [Atomics.set]
        · simp only [Atomics.set, hd, if_false, List.mem_cons, false_or]; exact hi.claim d'
      · intro d' hd'
        rcases List.mem_cons.1 hd' with rfl | h4
        · exact hfr
        · exact hi.fresh d' h4
      · intro d' hd'
        rcases List.mem_cons.1 hd' with rfl | h4
        · exact ⟨h1, s, h2, hc.1⟩
        · exact hi.sound d' h4
      · by_cases hd : d' = d
        · left; show Atomics.set c.claimed d true d' = true; subst hd; simp [Atomics.set]
        · rcases hi.live s' d' he hc' ha with h4 | ⟨j, h4⟩
          · left; show Atomics.set c.claimed d true d' = true; simp only [Atomics.set, hd, if_false]; exact h4
          · right
            refine ⟨j, ?_⟩
            show _ ∈ Atomics.set c.rest i r j
            by_cases hj : j = i
            · subst hj
              rw [h] at h4
              simp only [Atomics.set, if_true]
              rcases List.mem_cons.1 h4 with h5 | h5
              · injection h5 with _ h6; exact absurd h6 hd
              · exact h5
            · simp only [Atomics.set, hj, if_false]; exact h4
  | updF i s d r h hc =>
    have hok := hi.ok i
    rw [h] at hok
    cases hok with
    | upd _ _ _ h1 h2 h3 =>
      refine ⟨fun j => ?_, hi.nodup, hi.claim, hi.fresh, hi.sound, fun s' d' he hc' ha => ?_⟩
      · show Ok f edge (Atomics.set c.rest i r j)
        by_cases hj : j = i
        · simp only [Atomics.set, hj, if_true]; exact h3
        · simp only [Atomics.set, hj, if_false]; exact hi.ok j
      · rcases hi.live s' d' he hc' ha with h4 | ⟨j, h4⟩
        · exact Or.inl h4
        · by_cases hj : j = i
          · subst hj
            rw [h] at h4
            rcases List.mem_cons.1 h4 with h5 | h5
            · injection h5 with h6 h7
              subst h6 h7
              left
              show c.claimed d' = true
              cases hcl : c.claimed d' with
              | true => rfl
              | false => exact absurd ⟨ha, hcl⟩ hc
            · right
              exact ⟨j, by simp only [Atomics.set, if_true]; exact h5⟩
          · right
            exact ⟨j, by simp only [Atomics.set, hj, if_false]; exact h4⟩

theorem inv_steps {f : Fn} {edge : Nat → Nat → Prop} {cl0 : Nat → Bool} {c c' : Conf ι}
    (hi : Inv f edge cl0 c) (hs : Steps (Step f) c c') : Inv f edge cl0 c' := by
  induction hs with
  | refl => exact hi
  | tail _ h ih => exact inv_step ih h

/-- Any well-formed set of threads that covers the edges computes the target. -/
theorem complete_correct {f : Fn} {edge : Nat → Nat → Prop} {cl0 : Nat → Bool}
    {ops : ι → List Op} (hok : ∀ i, Ok f edge (ops i))
    (hcov : ∀ s d, edge s d → ∃ i, .upd s d ∈ ops i)
    {c : Conf ι} (hc : Complete f cl0 ops c) :
    c.out.Nodup ∧
    (∀ d, d ∈ c.out ↔ f.c0 d = true ∧ cl0 d = false ∧ ∃ s, edge s d ∧ f.acc s d = true) ∧
    ∀ d, c.claimed d = true ↔ cl0 d = true ∨ d ∈ c.out := by
  have h0 : Inv f edge cl0 (⟨cl0, [], ops⟩ : Conf ι) :=
    ⟨hok, List.nodup_nil, fun d => by simp, (fun d h => by cases h), (fun d h => by cases h),
      fun s d he _ _ => Or.inr (hcov s d he)⟩
  have hi := inv_steps h0 hc.1
  refine ⟨hi.nodup, fun d => ⟨fun h => ?_, ?_⟩, hi.claim⟩
  · obtain ⟨h1, h2⟩ := hi.sound d h
    exact ⟨h1, hi.fresh d h, h2⟩
  · rintro ⟨h1, h2, s, h3, h4⟩
    rcases hi.live s d h3 h1 h4 with h5 | ⟨i, h5⟩
    · rcases (hi.claim d).1 h5 with h6 | h6
      · rw [h2] at h6; cases h6
      · exact h6
    · rw [hc.2 i] at h5; cases h5

/-- `f`'s edges out of the frontier. -/
def frontierEdge (G : Gr) (inF : Nat → Bool) (s d : Nat) : Prop := inF s = true ∧ d ∈ G.fwd s

theorem upd_mem_denseLoop {inF : Nat → Bool} {v u : Nat} {us : List Nat} (h : u ∈ us)
    (hu : inF u = true) : .upd u v ∈ denseLoop inF v us := by
  induction us with
  | nil => cases h
  | cons w us ih =>
    rcases List.mem_cons.1 h with rfl | h
    · simp [denseLoop, hu]
    · have := ih h
      simp [denseLoop, this]

theorem upd_mem_sparseOps {es : List (Nat × Nat)} {e : Nat × Nat} (h : e ∈ es) :
    .upd e.1 e.2 ∈ sparseOps es := by
  induction es with
  | nil => cases h
  | cons w us ih =>
    rcases List.mem_cons.1 h with rfl | h
    · simp [sparseOps]
    · have := ih h
      simp [sparseOps, this]

theorem target_iff (G : Gr) (f : Fn) (inF cl0 : Nat → Bool) (d : Nat) :
    Target G f inF cl0 d ↔
      f.c0 d = true ∧ cl0 d = false ∧ ∃ s, frontierEdge G inF s d ∧ f.acc s d = true := by
  unfold Target frontierEdge
  constructor
  · rintro ⟨h1, h2, s, h3, h4, h5⟩; exact ⟨h1, h2, s, ⟨h3, h4⟩, h5⟩
  · rintro ⟨h1, h2, s, ⟨h3, h4⟩, h5⟩; exact ⟨h1, h2, s, h3, h4, h5⟩

/-- C19, sparse traversal. -/
theorem chunked_target (G : Gr) (f : Fn) (inF cl0 : Nat → Bool) (work : ι → List (Nat × Nat))
    (hw : WorkOk G inF work) (c : Conf ι) (hc : Complete f cl0 (chunkedOps work) c) :
    c.out.Nodup ∧ ∀ d, d ∈ c.out ↔ Target G f inF cl0 d := by
  have h := complete_correct (edge := frontierEdge G inF) (fun g => ok_sparse f _ (work g)
    (fun e he => (hw e).1 ⟨g, he⟩)) (fun s d he => by
      obtain ⟨g, hg⟩ := (hw (s, d)).2 he
      exact ⟨g, upd_mem_sparseOps hg⟩) hc
  exact ⟨h.1, fun d => (h.2.1 d).trans (target_iff G f inF cl0 d).symm⟩

/-- C19, dense forward traversal. -/
theorem forward_target (G : Gr) (hG : G.Ok) (f : Fn) (inF cl0 : Nat → Bool) (c : Conf (Nat × Nat))
    (hc : Complete f cl0 (forwardOps G inF) c) :
    c.out.Nodup ∧ ∀ d, d ∈ c.out ↔ Target G f inF cl0 d := by
  have h := complete_correct (edge := frontierEdge G inF) (ops := forwardOps G inF) (by
    rintro ⟨s, j⟩
    simp only [forwardOps]
    split
    · rename_i hs
      split
      · rename_i d hd
        apply ok_sparse
        intro e he
        simp only [List.mem_singleton] at he
        subst he
        exact ⟨hs.2, List.mem_of_getElem? hd⟩
      · exact .nil
    · exact .nil) (fun s d he => by
      obtain ⟨j, hj⟩ := List.mem_iff_getElem?.1 he.2
      refine ⟨(s, j), ?_⟩
      show _ ∈ ite _ _ _
      rw [if_pos ⟨(hG.2 s d he.2).1, he.1⟩, hj]
      exact upd_mem_sparseOps (e := (s, d)) List.mem_cons_self) hc
  exact ⟨h.1, fun d => (h.2.1 d).trans (target_iff G f inF cl0 d).symm⟩

theorem mem_block {l : List Nat} {u : Nat} (h : u ∈ l) :
    ∃ b, b < l.length / 2048 + 1 ∧
      u ∈ (l.drop (b * 2048)).take (min ((b + 1) * 2048) l.length - b * 2048) := by
  obtain ⟨i, hi, rfl⟩ := List.mem_iff_getElem.1 h
  refine ⟨i / 2048, ?_, ?_⟩
  · have := Nat.div_le_div_right (c := 2048) (Nat.le_of_lt hi); omega
  · rw [List.mem_iff_getElem]
    have h1 := Nat.div_add_mod i 2048
    have h2 := Nat.mod_lt i (show 0 < 2048 by omega)
    refine ⟨i % 2048, ?_, ?_⟩
    · simp only [List.length_take, List.length_drop]; omega
    · simp only [List.getElem_take, List.getElem_drop]
      congr 1; omega

/-- C19, dense traversal, sequential or parallel over the neighbours. -/
theorem dense_target (G : Gr) (hG : G.Ok) (f : Fn) (inF cl0 : Nat → Bool) (par : Bool)
    (c : Conf (Nat × Nat)) (hc : Complete f cl0 (denseOps G inF par) c) :
    c.out.Nodup ∧ ∀ d, d ∈ c.out ↔ Target G f inF cl0 d := by
  have h := complete_correct (edge := frontierEdge G inF) (ops := denseOps G inF par) (by
    rintro ⟨v, b⟩
    simp only [denseOps]
    split
    · split
      · split
        · apply ok_denseLoop
          intro u hu hF
          exact ⟨hF, (hG.1 u v).2 hu⟩
        · exact .nil
      · split
        · apply ok_denseBlock
          intro u hu hF
          exact ⟨hF, (hG.1 u v).2 (List.mem_of_mem_drop (List.mem_of_mem_take hu))⟩
        · exact .nil
    · exact .nil) (fun s d he => by
      have hb := (hG.1 s d).1 he.2
      have hd := (hG.2 s d he.2).2
      by_cases hp : (!par || decide ((G.bwd d).length < 1000)) = true
      · refine ⟨(d, 0), ?_⟩
        show _ ∈ ite _ _ _
        rw [if_pos hd, if_pos (by simpa using hp), if_pos rfl]
        exact upd_mem_denseLoop hb he.1
      · obtain ⟨b, hb1, hb2⟩ := mem_block hb
        refine ⟨(d, b), ?_⟩
        show _ ∈ ite _ _ _
        rw [if_pos hd, if_neg (by simpa using hp), if_pos hb1]
        unfold denseBlock
        exact List.mem_cons_of_mem _ (List.mem_cons_of_mem _ (upd_mem_denseLoop hb2 he.1))) hc
  exact ⟨h.1, fun d => (h.2.1 d).trans (target_iff G f inF cl0 d).symm⟩

/-! ### The choice of the traversal -/

/-- What `edgeMapData` does after the choice. -/
inductive Choice
  | empty
  | dense
  | forward
  | chunked
deriving DecidableEq

/-- The parts of the arguments that determine the choice, `edge_map_data.h:137-188`: the size `m`
of the subset, its representation, its cached degree sum (`none`: not set). `degSum` is the sum of
the degrees of the subset in the direction of the call, `numEdges = GA.m`. -/
structure Args where
  m : Nat
  isDense : Bool
  cache : Option Nat
  numVertices : Nat
  numEdges : Nat
  threshold : Option Nat
  denseOnly : Bool
  denseForward : Bool
  noDense : Bool
  degSum : Nat

/-- `edgeMapData`, `edge_map_data.h:137-188`: the traversal that runs, and the new cached sum.
`threshold = none` is the default `-1`. -/
def choose (a : Args) : Choice × Option Nat :=
  let dn : Choice := if a.denseForward then .forward else .dense
  let thr := a.threshold.getD (a.numEdges / 20)
  if a.m = 0 then (.empty, a.cache)
  else if a.denseOnly || (a.isDense && decide (a.m > a.numVertices / 10)) then (dn, a.cache)
  else
    let out := a.cache.getD a.degSum
    if out = 0 then (.empty, some out)
    else if a.m + out > thr && !a.noDense then (dn, some out)
    else (.chunked, some out)

/-- `edgeMapData` completed with output `o`: the chosen traversal, in any interleaving. -/
def Ran (G : Gr) (f : Fn) (inF cl0 : Nat → Bool) (par : Bool) (ch : Choice) (o : List Nat) : Prop :=
  match ch with
  | .empty => o = []
  | .dense => ∃ c, Complete f cl0 (denseOps G inF par) c ∧ o = c.out
  | .forward => ∃ c, Complete f cl0 (forwardOps G inF) c ∧ o = c.out
  | .chunked => ∃ (work : Nat → List (Nat × Nat)) (c : Conf Nat), WorkOk G inF work ∧
      Complete f cl0 (chunkedOps work) c ∧ o = c.out

/-- The subset of vertices of a frontier list `F`. -/
def memF (F : List Nat) (v : Nat) : Bool := decide (v ∈ F)

/-- The degree sum that `edgeMapData` computes. -/
def degSum (G : Gr) (F : List Nat) : Nat := (F.map fun v => (G.fwd v).length).sum

theorem le_sum_of_mem {l : List Nat} {x : Nat} (h : x ∈ l) : x ≤ l.sum := by
  induction l with
  | nil => cases h
  | cons y l ih =>
    rw [List.sum_cons]
    rcases List.mem_cons.1 h with rfl | h
    · omega
    · have := ih h; omega

/-- C54, positive part.  If no degree sum is cached, or the cached one is right for this call, `edgeMap` returns
exactly the target set, each vertex once, whatever traversal is chosen and however the updates
interleave. -/
theorem edgeMap_correct_partial (G : Gr) (hG : G.Ok) (f : Fn) (F : List Nat) (cl0 : Nat → Bool) (par : Bool)
    (a : Args) (hm : a.m = F.length) (hd : a.degSum = degSum G F)
    (hcache : ∀ x, a.cache = some x → x = degSum G F)
    (o : List Nat) (hr : Ran G f (memF F) cl0 par (choose a).1 o) :
    o.Nodup ∧ ∀ d, d ∈ o ↔ Target G f (memF F) cl0 d := by
  cases hch : (choose a).1 with
  | dense =>
    rw [hch] at hr
    obtain ⟨c, hc, rfl⟩ := hr
    exact dense_target G hG f _ cl0 par c hc
  | forward =>
    rw [hch] at hr
    obtain ⟨c, hc, rfl⟩ := hr
    exact forward_target G hG f _ cl0 c hc
  | chunked =>
    rw [hch] at hr
    obtain ⟨work, c, hw, hc, rfl⟩ := hr
    exact chunked_target G f _ cl0 work hw c hc
  | empty =>
    rw [hch] at hr
    have ho : o = [] := hr
    subst ho
    refine ⟨List.nodup_nil, fun d => ⟨fun h => (by cases h), ?_⟩⟩
    rintro ⟨_, _, s, hs, hsd, _⟩
    exfalso
    have hsF : s ∈ F := by simpa [memF] using hs
    have hpos : 0 < degSum G F := by
      have h1 : (G.fwd s).length ≤ degSum G F := le_sum_of_mem
        (List.mem_map.2 ⟨s, hsF, rfl⟩)
      have h2 := List.length_pos_of_mem hsd
      omega
    have hlen := List.length_pos_of_mem hsF
    have hout : a.cache.getD a.degSum = degSum G F := by
      cases hcc : a.cache with
      | none => simpa using hd
      | some x => simpa using hcache x hcc
    unfold choose at hch
    simp only [hout] at hch
    rw [if_neg (by omega)] at hch
    split at hch
    · simp only at hch; split at hch <;> cases hch
    · rw [if_neg (by omega)] at hch
      split at hch
      · simp only at hch; split at hch <;> cases hch
      · cases hch

/-- C19.  `edgeMap` on a subset not used by `edgeMap` before (no degree sum cached) returns exactly
the target set, each vertex once, whatever traversal is chosen and however the updates
interleave. -/
theorem edgeMap_correct (G : Gr) (hG : G.Ok) (f : Fn) (F : List Nat) (cl0 : Nat → Bool) (par : Bool)
    (a : Args) (hm : a.m = F.length) (hd : a.degSum = degSum G F) (hcache : a.cache = none)
    (o : List Nat) (hr : Ran G f (memF F) cl0 par (choose a).1 o) :
    o.Nodup ∧ ∀ d, d ∈ o ↔ Target G f (memF F) cl0 d :=
  edgeMap_correct_partial G hG f F cl0 par a hm hd (by rw [hcache]; intro x h; cases h) o hr

/-! ### Examples and the stale cache -/

/-- The path 0 → 1 → 2 and the edge 0 → 2. -/
def exG : Gr :=
  { n := 3, fwd := fun v => [[1, 2], [2], []].getD v [], bwd := fun v => [[], [0], [0, 1]].getD v [] }

theorem exG_ok : exG.Ok := by
  have key : ∀ s d, (d ∈ exG.fwd s ↔ (s, d) ∈ [(0, 1), (0, 2), (1, 2)]) ∧
      (s ∈ exG.bwd d ↔ (s, d) ∈ [(0, 1), (0, 2), (1, 2)]) := by
    intro s d
    constructor
    · match s with
      | 0 => simp [exG]
      | 1 => simp [exG]
      | 2 => simp [exG]
      | s + 3 => simp [exG]
    · match d with
      | 0 => simp [exG]
      | 1 => simp [exG]
      | 2 => simp [exG]
      | d + 3 => simp [exG]
  refine ⟨fun s d => ((key s d).1.trans (key s d).2.symm), fun s d h => ?_⟩
  have := (key s d).1.1 h
  simp [exG] at this ⊢
  omega

/-- `exG` with the direction flag `in_edges`. -/
def exGin : Gr := { n := 3, fwd := exG.bwd, bwd := exG.fwd }

/-- A BFS-like client on the frontier `{0}` with 0 claimed: a completed dense traversal exists,
the target is `{1, 2}`. -/
example : (∃ c : Conf (Nat × Nat), Complete ⟨fun _ => true, fun _ _ => true⟩ (fun v => v == 0)
      (forwardOps exG (memF [0])) c ∧ c.out = [2, 1]) ∧
    Target exG ⟨fun _ => true, fun _ _ => true⟩ (memF [0]) (fun v => v == 0) 2 := by
  constructor
  · refine ⟨_, ⟨.tail (.tail (.tail (.tail (.refl _)
      (.checkT _ (0, 0) 1 1 [.upd 0 1] rfl ⟨rfl, rfl⟩))
      (.updT _ (0, 0) 0 1 [] rfl ⟨rfl, rfl⟩))
      (.checkT _ (0, 1) 2 1 [.upd 0 2] rfl ⟨rfl, rfl⟩))
      (.updT _ (0, 1) 0 2 [] rfl ⟨rfl, rfl⟩), ?_⟩, rfl⟩
    rintro ⟨s, j⟩
    simp only [Atomics.set, Prod.mk.injEq]
    by_cases h1 : s = 0 ∧ j = 1
    · rw [if_pos h1]
    · rw [if_neg h1, if_neg h1]
      by_cases h0 : s = 0 ∧ j = 0
      · rw [if_pos h0]
      · rw [if_neg h0, if_neg h0]
        simp only [forwardOps]
        split
        · rename_i hs
          have hs0 : s = 0 := by simpa [memF] using hs.2
          subst hs0
          match j with
          | 0 => exact absurd ⟨rfl, rfl⟩ h0
          | 1 => exact absurd ⟨rfl, rfl⟩ h1
          | j + 2 => simp [exG]
        · rfl
  · exact ⟨rfl, rfl, 0, rfl, by simp [exG], rfl⟩

/-- The two calls of C54 on the frontier `{0}` of `exG`: first with `in_edges`, then without. -/
def firstCall : Args :=
  { m := 1, isDense := false, cache := none, numVertices := 3, numEdges := 3, threshold := none,
    denseOnly := false, denseForward := false, noDense := false, degSum := degSum exGin [0] }

def secondCall : Args := { firstCall with cache := (choose firstCall).2, degSum := degSum exG [0] }

/-- C54, negative: the degree sum is cached in the subset without its direction, so after a call of
`edgeMap` with `in_edges` the call without returns the empty set although the target contains 1. -/
theorem stale_direction : (choose firstCall).2 = some 0 ∧ (choose secondCall).1 = .empty ∧
    (∀ o, Ran exG ⟨fun _ => true, fun _ _ => true⟩ (memF [0]) (fun v => v == 0) false
      (choose secondCall).1 o → o = []) ∧
    Target exG ⟨fun _ => true, fun _ _ => true⟩ (memF [0]) (fun v => v == 0) 1 := by
  have h : (choose secondCall).1 = .empty := by decide
  refine ⟨by decide, h, fun o ho => ?_, ⟨rfl, rfl, 0, rfl, by simp [exG], rfl⟩⟩
  rw [h] at ho
  exact ho

/-- C54, negative: the cache survives `add_to_vsubset` (`vertex_subset.h:479-500`), which does not touch it.
Frontier `{2}` of `exG` (no out-edges), one `edgeMap`, then vertex 0 is added: the next `edgeMap`
returns the empty set although vertex 0 has edges. -/
theorem stale_after_add :
    let a : Args := { firstCall with degSum := degSum exG [2] }
    let b : Args := { firstCall with m := 2, cache := (choose a).2, degSum := degSum exG [2, 0] }
    (choose b).1 = .empty ∧
    Target exG ⟨fun _ => true, fun _ _ => true⟩ (memF [2, 0]) (fun v => v == 0) 1 := by
  refine ⟨by decide, rfl, rfl, 0, rfl, by simp [exG], rfl⟩

end Gbbs.EdgeMap
