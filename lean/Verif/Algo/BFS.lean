/-
C32: breadth-first search, `benchmarks/BFS/NonDeterministicBFS/BFS.h`.
-/
import Verif.EdgeMap.Claim
import Mathlib.Data.Finset.Card
import Mathlib.Data.Fin.VecNotation

namespace Gbbs.BFS

open Conc Conc.Prog Em
open Atomics (Steps)

variable {W : Type}

/-! ### Model -/

/-- `UINT_E_MAX`. -/
def none32 : Nat := 4294967295

/-- `BFS_F`, `BFS.h:30-46`: the claimed value is the source of the edge. -/
def bfsF : Func W Nat Nat Unit := claimF none32 fun s _ _ => s

/-- The loop of `BFS`, `BFS.h:58-63`, from `Parents` and a frontier: any number of rounds, each an
`edgeMap` in any traversal and interleaving (when the frontier has no edges `edgeMap` returns the empty
set without a traversal, which is the same as a traversal without edges). The counter and the output of the
frontier sizes are left out. The index counts the rounds. -/
inductive Loop (G : Gr W) : Nat → (Nat → Nat) → List Nat → (Nat → Nat) → Prop
  | done (m) : Loop G 0 m [] m
  | round {k m F m' o m''} (hF : F ≠ []) (h : EdgeMap bfsF G (fun v => decide (v ∈ F)) m m' o)
      (hl : Loop G k m' (o.map Prod.fst) m'') : Loop G (k + 1) m F m''

/-- `BFS(G, src)`, `BFS.h:48-66`, returned `par` after `k` rounds. -/
def Bfs (G : Gr W) (src k : Nat) (par : Nat → Nat) : Prop :=
  Loop G k (fun i => if i = src then src else none32) [src] par

/-! ### Specification -/

/-- `v` can be reached from `s` along `k` edges. -/
inductive Walk (G : Gr W) (s : Nat) : Nat → Nat → Prop
  | nil : Walk G s s 0
  | cons {u v k} (w : W) (h : Walk G s u k) (e : (v, w) ∈ G.fwd u) : Walk G s v (k + 1)

/-- The distance from `s` to `v` is `k`. -/
def Dist (G : Gr W) (s v k : Nat) : Prop := Walk G s v k ∧ ∀ j, Walk G s v j → k ≤ j

/-! ### Proof -/

theorem exists_dist {G : Gr W} {s v k : Nat} (h : Walk G s v k) : ∃ j, j ≤ k ∧ Dist G s v j := by
  classical
  let j := Nat.find (⟨k, h⟩ : ∃ k, Walk G s v k)
  exact ⟨j, Nat.find_min' _ h, Nat.find_spec (⟨k, h⟩ : ∃ k, Walk G s v k), fun i hi => Nat.find_min' _ hi⟩

theorem dist_unique {G : Gr W} {s v j k : Nat} (h : Dist G s v j) (h' : Dist G s v k) : j = k :=
  Nat.le_antisymm (h.2 _ h'.1) (h'.2 _ h.1)

/-- State before round `k`. -/
structure Inv (G : Gr W) (src k : Nat) (m : Nat → Nat) (F : List Nat) : Prop where
  frontier : ∀ v, v ∈ F ↔ Dist G src v k
  nodup : F.Nodup
  seen : ∀ v, m v ≠ none32 ↔ ∃ j, j ≤ k ∧ Dist G src v j
  self : m src = src
  tree : ∀ v j, Dist G src v (j + 1) → j + 1 ≤ k → Dist G src (m v) j ∧ ∃ w, (v, w) ∈ G.fwd (m v)

theorem Inv.step {G : Gr W} (hG : G.Ok) (hn : G.n ≤ none32) {src k : Nat} (hsrc : src < G.n) {m m' : Nat → Nat}
    {F : List Nat} {o : List (Nat × Unit)}
    (h : Inv G src k m F) (hr : EdgeMap bfsF G (fun v => decide (v ∈ F)) m m' o) :
    Inv G src (k + 1) m' (o.map Prod.fst) := by
  have hbound : ∀ e : Edge W, Active G (fun v => decide (v ∈ F)) e → e.s < G.n := fun e he =>
    (hG.bound _ _ _ he.2).1
  obtain ⟨h1, h2, h3, h4⟩ := claim_round G hG _ (fun e he => by have := hbound e he; show e.s ≠ _; omega) hr
  have hact : ∀ e : Edge W, Active G (fun v => decide (v ∈ F)) e ↔ Dist G src e.s k ∧ (e.d, e.w) ∈ G.fwd e.s := by
    intro e
    simp only [Active, decide_eq_true_eq, h.frontier]
  have hunseen : ∀ v, m v = none32 ↔ ¬ ∃ j, j ≤ k ∧ Dist G src v j := fun v => by
    rw [← h.seen]; simp
  have hfr : ∀ v, v ∈ o.map Prod.fst ↔ Dist G src v (k + 1) := by
    intro v
    rw [h2]
    constructor
    · rintro ⟨hm, e, he, rfl⟩
      obtain ⟨hd, hw⟩ := (hact e).1 he
      have hwalk : Walk G src e.d (k + 1) := .cons e.w hd.1 hw
      obtain ⟨j, hj, hdj⟩ := exists_dist hwalk
      have : j = k + 1 := by
        by_contra hne
        exact (hunseen _).1 hm ⟨j, by omega, hdj⟩
      exact this ▸ hdj
    · intro hd
      refine ⟨(hunseen v).2 ?_, ?_⟩
      · rintro ⟨j, hj, hdj⟩
        have := dist_unique hd hdj; omega
      · obtain ⟨hw, hmin⟩ := hd
        cases hw with
        | @cons u _ _ w hu e =>
          refine ⟨⟨u, v, w⟩, (hact _).2 ⟨⟨hu, fun j hj => ?_⟩, e⟩, rfl⟩
          have := hmin _ (.cons w hj e); omega
  have hval : ∀ v, Dist G src v (k + 1) → Dist G src (m' v) k ∧ ∃ w, (v, w) ∈ G.fwd (m' v) := by
    intro v hv
    obtain ⟨e, he, rfl, hm'⟩ := h3 v ((hfr v).2 hv)
    obtain ⟨hd, hw⟩ := (hact e).1 he
    have hm' : m' e.d = e.s := hm'
    rw [hm']; exact ⟨hd, e.w, hw⟩
  have hold : ∀ v j, j ≤ k → Dist G src v j → m' v = m v := fun v j hj hd =>
    h4 v fun hin => by have := dist_unique ((hfr v).1 hin) hd; omega
  refine ⟨hfr, h1, fun v => ?_, ?_, fun v j hd hj => ?_⟩
  · by_cases hin : v ∈ o.map Prod.fst
    · have hd := (hfr v).1 hin
      refine ⟨fun _ => ⟨k + 1, Nat.le_refl _, hd⟩, fun _ => ?_⟩
      obtain ⟨_, w, hw⟩ := hval v hd
      have := (hG.bound _ _ _ hw).1
      omega
    · rw [h4 v hin, h.seen]
      constructor
      · rintro ⟨j, hj, hd⟩; exact ⟨j, by omega, hd⟩
      · rintro ⟨j, hj, hd⟩
        refine ⟨j, ?_, hd⟩
        by_contra hlt
        have : j = k + 1 := by omega
        exact hin ((hfr v).2 (this ▸ hd))
  · have : Dist G src src 0 := ⟨.nil, fun _ _ => Nat.zero_le _⟩
    rw [hold src 0 (Nat.zero_le _) this]; exact h.self
  · by_cases hjk : j + 1 = k + 1
    · have : j = k := by omega
      subst this; exact hval v hd
    · have hjk' : j + 1 ≤ k := by omega
      rw [hold v (j + 1) hjk' hd]; exact h.tree v j hd hjk'

theorem inv_init (G : Gr W) (src : Nat) (hs : src < none32) :
    Inv G src 0 (fun i => if i = src then src else none32) [src] := by
  have h0 : ∀ v, Dist G src v 0 ↔ v = src := by
    intro v
    constructor
    · rintro ⟨h, _⟩; cases h; rfl
    · rintro rfl; exact ⟨.nil, fun _ _ => Nat.zero_le _⟩
  refine ⟨fun v => by rw [h0]; simp, by simp, fun v => ?_, by simp, fun v j _ h => by omega⟩
  by_cases hv : v = src
  · subst hv
    simp only [if_true]
    exact ⟨fun _ => ⟨0, Nat.le_refl _, (h0 v).2 rfl⟩, fun _ => by omega⟩
  · simp only [hv, if_false]
    refine ⟨fun h => absurd rfl h, ?_⟩
    rintro ⟨j, hj, hd⟩
    have : j = 0 := by omega
    exact absurd ((h0 v).1 (this ▸ hd)) hv

theorem no_more {G : Gr W} {src k : Nat} (h : ∀ v, ¬ Dist G src v k) : ∀ j, k ≤ j → ∀ v, ¬ Dist G src v j := by
  intro j hj
  induction j, hj using Nat.le_induction with
  | base => exact h
  | succ j _ ih =>
    rintro v ⟨hw, hmin⟩
    cases hw with
    | @cons u _ _ w hu e =>
      refine ih u ⟨hu, fun i hi => ?_⟩
      have := hmin _ (.cons w hi e); omega

theorem loop_correct {G : Gr W} (hG : G.Ok) (hn : G.n ≤ none32) {src : Nat} (hsrc : src < G.n) {r : Nat}
    {m : Nat → Nat} {F : List Nat} {par : Nat → Nat} (h : Loop G r m F par) {k : Nat} (hi : Inv G src k m F) :
    Inv G src (k + r) par [] := by
  induction h generalizing k with
  | done m => exact hi
  | @round r m F m' o m'' _ he _ ih =>
    have := ih (hi.step hG hn hsrc he)
    rwa [show k + 1 + r = k + (r + 1) from by omega] at this

/-- C32: exactly the reachable vertices have a parent; the source is its own; the parent of any other vertex
is a predecessor that is one step closer. -/
theorem bfs_correct {G : Gr W} (hG : G.Ok) (hn : G.n ≤ none32) {src : Nat} (hsrc : src < G.n) {r : Nat}
    {par : Nat → Nat} (h : Bfs G src r par) :
    (∀ v, par v ≠ none32 ↔ ∃ k, Walk G src v k) ∧ par src = src ∧
    ∀ v k, Dist G src v (k + 1) → Dist G src (par v) k ∧ ∃ w, (v, w) ∈ G.fwd (par v) := by
  have hi := loop_correct hG hn hsrc h (inv_init G src (by omega))
  rw [Nat.zero_add] at hi
  have hno := no_more (fun v hd => by have := (hi.frontier v).2 hd; cases this)
  refine ⟨fun v => ?_, hi.self, fun v k hd => ?_⟩
  · rw [hi.seen]
    constructor
    · rintro ⟨j, _, hd⟩; exact ⟨j, hd.1⟩
    · rintro ⟨j, hw⟩
      obtain ⟨i, _, hd⟩ := exists_dist hw
      refine ⟨i, ?_, hd⟩
      by_contra hlt
      exact hno i (by omega) v hd
  · refine hi.tree v k hd ?_
    by_contra hlt
    exact hno (k + 1) (by omega) v hd

/-- C32: following parents reaches the source in exactly the distance. -/
theorem bfs_path {G : Gr W} (hG : G.Ok) (hn : G.n ≤ none32) {src : Nat} (hsrc : src < G.n) {r : Nat}
    {par : Nat → Nat} (h : Bfs G src r par) {v k : Nat} (hd : Dist G src v k) :
    par^[k] v = src ∧ ∀ j, j < k → par^[j] v ≠ src := by
  obtain ⟨_, _, ht⟩ := bfs_correct hG hn hsrc h
  have h0 : Dist G src src 0 := ⟨.nil, fun _ _ => Nat.zero_le _⟩
  induction k generalizing v with
  | zero =>
    refine ⟨?_, fun j hj => by omega⟩
    obtain ⟨hw, _⟩ := hd
    cases hw; rfl
  | succ k ih =>
    obtain ⟨h1, h2⟩ := ih (ht v k hd).1
    refine ⟨h1, fun j hj => ?_⟩
    cases j with
    | zero =>
      rintro rfl
      have := dist_unique hd h0; omega
    | succ j => exact h2 j (by omega)

/-- The loop ends: the number of rounds is at most the number of vertices. -/
theorem bfs_rounds {G : Gr W} (hG : G.Ok) (hn : G.n ≤ none32) {src : Nat} (hsrc : src < G.n) {r : Nat}
    {par : Nat → Nat} (h : Bfs G src r par) : r ≤ G.n := by
  have main : ∀ {r : Nat} {m : Nat → Nat} {F : List Nat} {par : Nat → Nat}, Loop G r m F par →
      ∀ {k : Nat}, Inv G src k m F → ∀ j, k ≤ j → j < k + r → ∃ v, Dist G src v j := by
    intro r m F par h
    induction h with
    | done m => intro k _ j h1 h2; omega
    | @round r m F m' o m'' hF he hl ih =>
      intro k hi j h1 h2
      by_cases hjk : j = k
      · subst hjk
        obtain ⟨v, hv⟩ := List.exists_mem_of_ne_nil F hF
        exact ⟨v, (hi.frontier v).1 hv⟩
      · exact ih (hi.step hG hn hsrc he) j (by omega) (by omega)
  have hs : src < none32 := by omega
  have hex : ∀ j, j < r → ∃ v, Dist G src v j := fun j hj => main h (inv_init G src hs) j (Nat.zero_le _) (by rw [Nat.zero_add]; exact hj)
  choose f hf using hex
  have hlt : ∀ v j, Dist G src v j → v < G.n := by
    rintro v j ⟨hw, _⟩
    cases hw with
    | nil => exact hsrc
    | cons w _ e => exact (hG.bound _ _ _ e).2
  have hcard := Finset.card_le_card_of_injOn (s := (Finset.range r).attach) (t := Finset.range G.n)
    (fun j => f j.1 (Finset.mem_range.1 j.2)) (fun j _ => Finset.mem_coe.2 (Finset.mem_range.2 (hlt _ j.1 (hf j.1 _))))
    (fun i _ j _ hij => Subtype.ext (by
      have h1 := hf i.1 (Finset.mem_range.1 i.2)
      have h2 := hf j.1 (Finset.mem_range.1 j.2)
      have hij : f i.1 (Finset.mem_range.1 i.2) = f j.1 (Finset.mem_range.1 j.2) := hij
      rw [hij] at h1
      exact dist_unique h1 h2))
  rw [Finset.card_attach, Finset.card_range, Finset.card_range] at hcard
  exact hcard

/-! ### Example -/

/-- The directed graph 0 → 1, 0 → 2, 1 → 3, 2 → 3, 4 → 0. -/
def exG : Gr Unit := Gr.ofLists [[(1, ()), (2, ())], [(3, ())], [(3, ())], [], [(0, ())]]
  [[(4, ())], [(0, ())], [(0, ())], [(1, ()), (2, ())], []]

theorem exG_ok : exG.Ok := Gr.ofLists_ok (by decide)

/-- A run on it: vertex 4 is not reached. -/
example : ∃ par, Bfs exG 0 3 par ∧ par 0 = 0 ∧ par 1 = 0 ∧ par 2 = 0 ∧ par 3 = 1 ∧ par 4 = none32 := by
  refine ⟨_, .round (by decide) (edgeMap_seq (activeEdges exG _) (mem_activeEdges exG_ok) rfl)
    (.round (by decide) (edgeMap_seq (activeEdges exG _) (mem_activeEdges exG_ok) rfl)
    (.round (by decide) (edgeMap_seq (activeEdges exG _) (mem_activeEdges exG_ok) rfl) (.done _))),
    ?_, ?_, ?_, ?_, ?_⟩ <;> decide

end Gbbs.BFS
