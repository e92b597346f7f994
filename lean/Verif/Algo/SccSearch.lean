/-
The searches of `benchmarks/StronglyConnectedComponents/RandomGreedyBGSS16/StronglyConnectedComponents.h`: `first_search` and
`multi_search` (C83).
-/
import Verif.Hash.Resizable
import Verif.EdgeMap.Claim
import Mathlib.Logic.Relation

namespace Gbbs.Scc

open Conc Conc.Prog Gbbs.Em Gbbs.RT
open Atomics (Steps)
open Relation (ReflTransGen)

variable {W : Type}

/-! ### Model -/

/-- The bit `TOP_BIT` (`StronglyConnectedComponents.h:35-36`). Labels are below it, so `label | TOP_BIT` is a sum, `label & TOP_BIT` a
comparison and `label & VAL_MASK` a remainder. -/
def top : Nat := 2 ^ 63

/-- `labels[v] & TOP_BIT`. -/
def done (x : Nat) : Bool := decide (top ≤ x)

/-- The graph with the directions exchanged, for the flag `in_edges`. -/
def rev (G : Gr W) : Gr W := ⟨G.n, G.bwd, G.fwd⟩

/-- `First_Search`, `StronglyConnectedComponents.h:153-169`: `cond(d)`: not done and not visited; `updateAtomic` sets `visited[d]` with a
CAS; `update` sets it without looking. The labels do not change during the search. -/
def firstF (dn : Nat → Bool) : Func W Nat Nat Unit where
  cond d := if dn d then ret false else read d fun x => ret (x == 0)
  updA _ d _ := cas d 0 1 fun b => ret (if b then some () else none)
  upd _ d _ := write d 1 (ret (some ()))

/-- The loop of `first_search`, `StronglyConnectedComponents.h:187-193`. -/
inductive FirstLoop (G : Gr W) (dn : Nat → Bool) : (Nat → Nat) → List Nat → (Nat → Nat) → Prop
  | stop (vis : Nat → Nat) : FirstLoop G dn vis [] vis
  | step {vis vis1 vis' : Nat → Nat} {fr : List Nat} {o : List (Nat × Unit)} (h : fr ≠ [])
      (hm : EdgeMap (firstF dn) G (fun v => decide (v ∈ fr)) vis vis1 o) (hl : FirstLoop G dn vis1 (o.map Prod.fst) vis') :
      FirstLoop G dn vis fr vis'

/-- `first_search`, `StronglyConnectedComponents.h:176-195`. -/
def FirstSearch (G : Gr W) (dn : Nat → Bool) (start : Nat) (vis : Nat → Nat) : Prop :=
  FirstLoop G dn (fun v => if v = start then 1 else 0) [start] vis

/-- The loop of `Search_F::updateAtomic` over the labels of `s`, `StronglyConnectedComponents.h:65-79`, with `init`, `has_next` and `next`
of the iterator (`resizable_table.h:60-89`): at index `j`, at most `f` more slots and `F` iterations of each insertion; `ch`:
`labels_changed`. -/
def iter (m : Nat) (hash : Nat → Nat) (F s d : Nat) : Nat → Nat → Bool → Prog Loc Val Bool
  | 0, _, _ => stuck
  | f + 1, j, ch =>
    read (.slot (pos m hash s j)) fun x => if x = none then ret ch else
      read (.slot (pos m hash s j)) fun y => if y.map Prod.fst = some s then
        read (.slot (pos m hash s j)) fun z => match z with
          | some kv => (insO m hash F (d, kv.2) 0).bind fun r => match r with
            | some b => iter m hash F s d f (j + 1) (ch || b)
            | none => stuck
          | none => stuck -- not reached, no slot is emptied
      else iter m hash F s d f (j + 1) ch

/-- `Search_F`, `StronglyConnectedComponents.h:50-94`. -/
def searchF (lab : Nat → Nat) (m : Nat) (hash : Nat → Nat) (f : Nat) : Func W Loc Val Unit where
  cond d := ret (!done (lab d))
  updA s d _ := if lab s = lab d then (iter m hash f s d f 0 false).bind fun ch =>
      if ch then cas (.bit d) none (some (0, 0)) fun b => ret (if b then some () else none) else ret none
    else ret none
  upd s d _ := if lab s = lab d then (iter m hash f s d f 0 false).bind fun ch =>
      if ch then cas (.bit d) none (some (0, 0)) fun b => ret (if b then some () else none) else ret none
    else ret none

/-- `effective_degree`, `StronglyConnectedComponents.h:127-133`. -/
def effDeg (G : Gr W) (lab : Nat → Nat) (v : Nat) : Nat := ((G.fwd v).filter fun e => decide (lab e.1 = lab v)).length

/-- The increment announced to `maybe_resize`, `StronglyConnectedComponents.h:122-138`; `none`: `num_appearances` does not return. -/
def planned (G : Gr W) (lab : Nat → Nat) (hash : Nat → Nat) (T : Tab) (fr : List Nat) : Option Nat :=
  (fr.mapM fun v => (numApp T.m hash T.t v T.m 0).map (effDeg G lab v * ·)).map List.sum

/-- The loop of `multi_search`, `StronglyConnectedComponents.h:119-148`. -/
inductive MSLoop (G : Gr W) (lab : Nat → Nat) (hash : Nat → Nat) : Tab → (Nat → Val) → List Nat → Tab → (Nat → Val) → Prop
  | stop (T : Tab) (bits : Nat → Val) : MSLoop G lab hash T bits [] T bits
  | step {T T1 T' : Tab} {bits bits2 bits' t2 : Nat → Val} {fr : List Nat} {o : List (Nat × Unit)} {inc : Nat} (f : Nat) (h : fr ≠ [])
      (hp : planned G lab hash T fr = some inc) (hr : Resize hash inc T T1)
      (hm : EdgeMap (searchF lab T1.m hash f) G (fun v => decide (v ∈ fr)) (mem2 T1.t fun v => if v ∈ fr then none else bits v)
        (mem2 t2 bits2) o)
      (hl : MSLoop G lab hash ⟨T1.m, t2⟩ bits2 (o.map Prod.fst) T' bits') : MSLoop G lab hash T bits fr T' bits'

/-- The size of the table made for `k` centers, `StronglyConnectedComponents.h:107-109`. -/
def startSize (k : Nat) : Nat := initSize (2 ^ log2Up (k * 2))

/-- `multi_search`, `StronglyConnectedComponents.h:96-150`, from the table without pairs. -/
def MultiSearch (G : Gr W) (lab : Nat → Nat) (hash : Nat → Nat) (bits : Nat → Val) (centers : List Nat) (start : Nat) (T : Tab)
    (bits' : Nat → Val) : Prop :=
  ∃ t0 res, Inserted (startSize centers.length) hash (centers.zipIdx start) (fun _ => none) t0 res ∧
    MSLoop G lab hash ⟨startSize centers.length, t0⟩ bits centers T bits'

/-! ### Specification -/

/-- There is an edge. -/
def E (G : Gr W) (u v : Nat) : Prop := ∃ w, (v, w) ∈ G.fwd u

/-- An edge within a subproblem. -/
def Sub (G : Gr W) (lab : Nat → Nat) (u v : Nat) : Prop := E G u v ∧ lab u = lab v

/-- An edge to a vertex that is not done. -/
def Open (G : Gr W) (dn : Nat → Bool) (u v : Nat) : Prop := E G u v ∧ dn v = false

theorem rev_ok {G : Gr W} (hG : G.Ok) : (rev G).Ok :=
  ⟨fun s d w => (hG.same d s w).symm, fun s d w h => (hG.bound d s w ((hG.same d s w).2 h)).symm⟩

theorem E_rev {G : Gr W} (hG : G.Ok) (u v : Nat) : E (rev G) u v ↔ E G v u :=
  ⟨fun ⟨w, h⟩ => ⟨w, (hG.same v u w).2 h⟩, fun ⟨w, h⟩ => ⟨w, (hG.same v u w).1 h⟩⟩

/-! ### `first_search` -/

/-- Clients that differ only for destinations rejected at once by `cond` make the same calls. -/
theorem edgeMap_congr {L V D : Type} [DecidableEq L] [DecidableEq V] {F F' : Func W L V D} (hc : ∀ d, F.cond d = F'.cond d)
    (hu : ∀ d, F.cond d = ret false ∨ ∀ s w, F.updA s d w = F'.updA s d w ∧ F.upd s d w = F'.upd s d w) {G : Gr W} {inF : Nat → Bool}
    {m m' : L → V} {o : List (Nat × D)} (h : EdgeMap F G inF m m' o) : EdgeMap F' G inF m m' o := by
  have hsparse : ∀ (es : List (Edge W)) l, sparseRun F es l = sparseRun F' es l := by
    intro es
    induction es with
    | nil => exact fun l => rfl
    | cons e es ih =>
      intro l
      rw [sparseRun, sparseRun, ← hc]
      rcases hu e.d with h | h
      · rw [h]; exact ih l
      · congr 1
        funext c
        split
        · rw [(h e.s e.w).1]; congr 1; funext x; exact ih _
        · exact ih l
  have hdense : ∀ (b : Bool) v us l, denseRun F (if b then F.updA else F.upd) inF v us l =
      denseRun F' (if b then F'.updA else F'.upd) inF v us l := by
    intro b v us
    induction us with
    | nil => exact fun l => rfl
    | cons u us ih =>
      intro l
      rw [denseRun, denseRun, ← hc]
      rcases hu v with h | h
      · rw [h]; rfl
      · congr 1
        funext c
        split
        · split
          · have : (if b then F.updA else F.upd) u.1 v u.2 = (if b then F'.updA else F'.upd) u.1 v u.2 := by
              cases b
              · exact (h u.1 u.2).2
              · exact (h u.1 u.2).1
            rw [this]; congr 1; funext x; exact ih _
          · exact ih l
        · rfl
  obtain ⟨th, ht, rest⟩ := h
  refine ⟨th, ?_, rest⟩
  cases ht with
  | dense par =>
    have : denseProg F G inF par = denseProg F' G inF par := by
      funext ⟨v, b⟩
      have h1 := hdense true
      have h2 := hdense false
      simp only [if_true, Bool.false_eq_true, if_false] at h1 h2
      simp only [denseProg, h1, h2, hc]
    rw [this]; exact .dense par
  | forward =>
    have : forwardProg F G inF = forwardProg F' G inF := by
      funext ⟨s, j⟩
      simp only [forwardProg, hsparse]
    rw [this]; exact .forward
  | chunked work hw =>
    have : (fun i => sparseRun F (work i) []) = fun i => sparseRun F' (work i) [] := funext fun i => hsparse _ _
    rw [this]; exact .chunked work hw

/-- `First_Search` with updates that skip done destinations, which `cond` rejects anyway. -/
def firstF' (dn : Nat → Bool) : Func W Nat Nat Unit where
  cond d := if dn d then ret false else read d fun x => ret (x == 0)
  updA _ d _ := if dn d then ret none else cas d 0 1 fun b => ret (if b then some () else none)
  upd _ d _ := if dn d then ret none else write d 1 (ret (some ()))

theorem first_spec (dn : Nat → Bool) (p0 : Nat → Nat) (Ac : Edge W → Prop) :
    FSpecC (crg 0 p0 (fun e => Ac e ∧ dn e.d = false) fun _ _ _ => 1) (firstF' dn) Ac CT
      (fun g e => dn e.d = true ∨ g.p e.d ≠ 0) (fun d g => g.p d = 0) where
  keep may i e := ⟨fun g g' hr h => h.imp id fun h => by rw [hr.2.1 _ h]; exact h,
    fun g g' hr h => h.imp id fun h => by rw [hr.2.1 _ h]; exact h⟩
  stable may i l g g' hr h := h.stable hr
  cond may i l g d hT := by
    show Safe _ i _ (if dn d then ret false else read d fun x => ret (x == 0)) g
    by_cases hd : dn d = true
    · rw [if_pos hd]
      intro g2 hr2
      exact ⟨hT.stable hr2, fun _ e _ he => Or.inl (he ▸ hd), fun h => (by cases h)⟩
    · rw [if_neg hd]
      intro g1 m1 hr1 hi1
      refine ⟨g1, crg_gu_refl _ _, hi1, ?_⟩
      intro g2 hr2
      refine ⟨(hT.stable hr1).stable hr2, fun hb e _ he => ?_, fun hb hx => ?_⟩
      · subst he
        have hne : g1.p e.d ≠ 0 := by
          rw [← hi1.mem]
          simpa using hb
        exact Or.inr (by rw [hr2.2.1 _ hne]; exact hne)
      · rw [hr2.2.2 _ hx, ← hi1.mem]
        simpa using hb
  updA may i l g e he hm hT := by
    show Safe _ i _ (if dn e.d then ret none else cas e.d 0 1 fun b => ret (if b then some () else none)) g
    by_cases hd : dn e.d = true
    · rw [if_pos hd]
      intro g2 hr2
      exact ⟨hT.stable hr2, Or.inl hd⟩
    · rw [if_neg hd]
      exact ((claim_spec 0 p0 (fun e => Ac e ∧ dn e.d = false) (fun _ _ _ => 1) fun _ _ => one_ne_zero).updA may i l g e
        ⟨he, by simpa using hd⟩ hm hT).weaken fun x g h => ⟨h.1, Or.inr h.2⟩
  upd may i l g e he hm hx hc hT := by
    show Safe _ i _ (if dn e.d then ret none else write e.d 1 (ret (some ()))) g
    by_cases hd : dn e.d = true
    · rw [if_pos hd]
      intro g2 hr2
      exact ⟨hT.stable hr2, Or.inl hd⟩
    · rw [if_neg hd]
      intro g2 m2 hr2 hi2
      have hu2 : m2 e.d = 0 := by rw [hi2.mem, hr2.2.2 _ hx]; exact hc
      have hac : Ac e ∧ dn e.d = false := ⟨he, by simpa using hd⟩
      obtain ⟨h1, h2, h3, h4⟩ := claim_ok (Ac := fun e => Ac e ∧ dn e.d = false) (val := fun _ _ _ => 1) (p0 := p0)
        (fun _ _ => one_ne_zero) hi2 hac hm hu2 (hT.stable hr2)
      refine ⟨_, h1, h2, fun g3 hr3 => ⟨h3.stable hr3, Or.inr ?_⟩⟩
      rw [hr3.2.1 _ h4]; exact h4

/-- One round of `first_search`. -/
theorem first_round {G : Gr W} (hG : G.Ok) {dn : Nat → Bool} {fr : List Nat} {vis vis' : Nat → Nat} {o : List (Nat × Unit)}
    (h : EdgeMap (firstF dn) G (fun v => decide (v ∈ fr)) vis vis' o) :
    (∀ v, vis v ≠ 0 → vis' v ≠ 0) ∧ (∀ v, vis' v ≠ 0 → vis v ≠ 0 ∨ v ∈ o.map Prod.fst ∧ ∃ u ∈ fr, Open G dn u v) ∧
    (∀ u ∈ fr, ∀ v, Open G dn u v → vis' v ≠ 0) ∧ (∀ v ∈ o.map Prod.fst, vis' v ≠ 0) := by
  have h' : EdgeMap (firstF' dn) G (fun v => decide (v ∈ fr)) vis vis' o := by
    refine edgeMap_congr (F := firstF dn) (F' := firstF' dn) (fun d => rfl) (fun d => ?_) h
    by_cases hd : dn d = true
    · left
      show (if dn d then ret false else read d fun x => ret (x == 0)) = ret false
      rw [if_pos hd]
    · right
      intro s w
      constructor
      · show _ = if dn d then ret none else _
        rw [if_neg hd]; rfl
      · show _ = if dn d then ret none else _
        rw [if_neg hd]; rfl
  obtain ⟨g, out, hi, hdn, hT, hcol⟩ := edgeMap_soundC (first_spec dn vis (Active G fun v => decide (v ∈ fr))) G hG _ (fun _ h => h)
    (CInv 0 vis (fun e => Active G (fun v => decide (v ∈ fr)) e ∧ dn e.d = false) fun _ _ _ => 1) (fun _ _ _ => Iff.rfl)
    ⟨vis, fun _ => none⟩ ⟨fun _ => rfl, fun _ _ => rfl, fun _ _ h => (by cases h)⟩
    (fun i => ⟨List.nodup_nil, fun d => ⟨fun h => (by cases h), fun h => (by cases h)⟩⟩) h'
  have hmem : ∀ d, d ∈ o.map Prod.fst ↔ ∃ i, g.own d = some i := by
    intro d
    constructor
    · intro h
      obtain ⟨⟨d', x⟩, h1, rfl⟩ := List.mem_map.1 h
      obtain ⟨i, hi'⟩ := hcol.sub _ h1
      exact ⟨i, ((hT i).2 _).1 (List.mem_map.2 ⟨_, hi', rfl⟩)⟩
    · rintro ⟨i, h⟩
      obtain ⟨⟨d', x⟩, h1, rfl⟩ := List.mem_map.1 (((hT i).2 d).2 h)
      obtain ⟨y, hy⟩ := hcol.all i _ _ h1
      exact List.mem_map.2 ⟨_, hy, rfl⟩
  have hnew : ∀ d i, g.own d = some i → vis' d ≠ 0 ∧ ∃ u ∈ fr, Open G dn u d := by
    intro d i hd
    obtain ⟨_, ⟨s, d', w⟩, ⟨⟨h1, h2⟩, h3⟩, rfl, h4⟩ := hi.new d i hd
    refine ⟨?_, s, by simpa using h1, ⟨w, h2⟩, h3⟩
    rw [hi.mem]
    show g.p _ ≠ 0
    rw [h4]; exact one_ne_zero
  refine ⟨fun v hv => ?_, fun v hv => ?_, fun u hu v hov => ?_, fun v hv => ?_⟩
  · cases ho : g.own v with
    | none => rw [hi.mem, hi.old v ho]; exact hv
    | some i => exact (hnew v i ho).1
  · cases ho : g.own v with
    | none => left; rwa [hi.mem, hi.old v ho] at hv
    | some i => exact Or.inr ⟨(hmem v).2 ⟨i, ho⟩, (hnew v i ho).2⟩
  · obtain ⟨⟨w, hw⟩, hd⟩ := hov
    rcases hdn ⟨u, v, w⟩ ⟨by simpa using hu, hw⟩ with h | h
    · have h : dn v = true := h
      rw [hd] at h; cases h
    · rw [hi.mem]; exact h
  · obtain ⟨i, h⟩ := (hmem v).1 hv
    exact (hnew v i h).1

/-- `first_search` visits what can be reached from its start through vertices that are not done. -/
theorem first_search {G : Gr W} (hG : G.Ok) {dn : Nat → Bool} {start : Nat} {vis : Nat → Nat} (h : FirstSearch G dn start vis) (v : Nat) :
    vis v ≠ 0 ↔ ReflTransGen (Open G dn) start v := by
  have main : ∀ {vis0 fr vis}, FirstLoop G dn vis0 fr vis → vis0 start ≠ 0 → (∀ v, vis0 v ≠ 0 → ReflTransGen (Open G dn) start v) →
      (∀ u, vis0 u ≠ 0 → u ∉ fr → ∀ v, Open G dn u v → vis0 v ≠ 0) → (∀ u ∈ fr, vis0 u ≠ 0) →
      vis start ≠ 0 ∧ (∀ v, vis v ≠ 0 → ReflTransGen (Open G dn) start v) ∧ ∀ u, vis u ≠ 0 → ∀ v, Open G dn u v → vis v ≠ 0 := by
    intro vis0 fr vis hl
    induction hl with
    | stop vis => exact fun h1 h2 h3 _ => ⟨h1, h2, fun u hu => h3 u hu (by simp)⟩
    | step hne hm hl ih =>
      intro h1 h2 h3 h4
      obtain ⟨a, b, c, d⟩ := first_round hG hm
      refine ih (a _ h1) (fun v hv => ?_) (fun u hu hun v hov => ?_) (fun u hu => d u hu)
      · rcases b v hv with hv | ⟨_, u, hu, hov⟩
        · exact h2 v hv
        · exact (h2 u (h4 u hu)).tail hov
      · rcases b u hu with hu' | ⟨hu', _⟩
        · rename_i vis0' vis1 vis' fr' o'
          by_cases hf : u ∈ fr'
          · exact c u hf v hov
          · exact a v (h3 u hu' hf v hov)
        · exact absurd hu' hun
  obtain ⟨h1, h2, h3⟩ := main h (by simp) (fun v hv => by
    by_cases hvs : v = start
    · rw [hvs]
    · simp [hvs] at hv) (fun u hu hun => by
    by_cases hvs : u = start
    · simp [hvs] at hun
    · simp [hvs] at hu) (fun u hu => by simp at hu; simp [hu])
  refine ⟨h2 v, fun hr => ?_⟩
  induction hr with
  | refl => exact h1
  | tail _ hbc ih => exact h3 _ ih _ hbc

/-! ### `multi_search` -/

section
variable {m : Nat} {hash : Nat → Nat} {t0 : Nat → Val} {Good : KV → Prop} {i : Nat × Nat}

/-- The loop over the labels of `s` gives all of those present at the start to `d`. -/
theorem iter_safe (hm : 0 < m) (hw0 : WF m hash t0) {s d F : Nat} (hgood : ∀ l, Good (s, l) → Good (d, l)) (o0 : Nat → Prop) (f : Nat) :
    ∀ (j : Nat) (ch : Bool) (g : Gh (Nat × Nat)), g.pend i = (if ch then some d else none) → (∀ v, g.own v = some i ↔ o0 v) →
      (∀ p, p < j → ∀ l, t0 (pos m hash s p) = some (s, l) → Mem m g.tab (d, l)) →
      Safe (srg m hash t0 Good) i (fun g ch => g.pend i = (if ch then some d else none) ∧ (∀ v, g.own v = some i ↔ o0 v) ∧
        ∀ l, Mem m t0 (s, l) → Mem m g.tab (d, l)) (iter m hash F s d f j ch) g := by
  induction f with
  | zero => intro j ch g _ _ _; trivial
  | succ f ih =>
    intro j ch g hpe ho hsc
    have hR : ∀ g' : Gh (Nat × Nat), (srg m hash t0 Good).R i g g' → g'.pend i = (if ch then some d else none) ∧
        (∀ v, g'.own v = some i ↔ o0 v) ∧ (∀ p, p < j → ∀ l, t0 (pos m hash s p) = some (s, l) → Mem m g'.tab (d, l)) := fun g' hr =>
      ⟨hr.2.2.2.2.1.trans hpe, fun v => (hr.2.2.1 v).trans (ho v), fun p hp l hl => Mem.mono hr.1 (hsc p hp l hl)⟩
    intro g1 m1 hr1 hi1
    refine ⟨g1, srg_gu_refl _ _ _ _ _ _, hi1, ?_⟩
    beta_reduce
    split
    · rename_i hx
      rw [hi1.slots] at hx
      intro g2 hr2
      obtain ⟨ha, hb, hc⟩ := hR g2 ((srg m hash t0 Good).trans _ _ _ _ hr1 hr2)
      refine ⟨ha, hb, ?_⟩
      rintro l ⟨s', hs', he⟩
      obtain ⟨p, hpm, hps, hp⟩ := hw0.1 s' hs' (by rw [he]; simp [par])
      rw [he] at hps hp
      rw [slot_par] at hps
      refine hc p ?_ l (by rw [hps]; exact he)
      by_contra hcon
      have hne : t0 (pos m hash s j) ≠ none := by
        rcases Nat.lt_or_eq_of_le (Nat.le_of_not_lt hcon) with hlt | heq
        · have := (hp j hlt).1
          rwa [slot_par] at this
        · rw [heq, show pos m hash s p = s' from hps, he]; simp
      have := hi1.old _ hne
      rw [hx] at this
      exact hne this.symm
    · rename_i hx
      rw [hi1.slots] at hx
      intro g2 m2 hr2 hi2
      have hr02 := (srg m hash t0 Good).trans _ _ _ _ hr1 hr2
      have e2 : g2.tab (pos m hash s j) = g1.tab (pos m hash s j) := hr2.1 _ hx
      refine ⟨g2, srg_gu_refl _ _ _ _ _ _, hi2, ?_⟩
      beta_reduce
      rw [hi2.slots, e2]
      split
      · rename_i hk
        intro g3 m3 hr3 hi3
        have hr03 := (srg m hash t0 Good).trans _ _ _ _ hr02 hr3
        have e3 : g3.tab (pos m hash s j) = g1.tab (pos m hash s j) := by rw [hr3.1 _ (by rw [e2]; exact hx), e2]
        refine ⟨g3, srg_gu_refl _ _ _ _ _ _, hi3, ?_⟩
        beta_reduce
        rw [hi3.slots, e3]
        rcases hkv : g1.tab (pos m hash s j) with _ | ⟨a, l⟩
        · exact absurd hkv hx
        · rw [hkv] at hk
          simp only [Option.map_some, Option.some.injEq] at hk
          subst hk
          obtain ⟨ha, hb, hc⟩ := hR g3 hr03
          have hgd : Good (d, l) := hgood l (hi3.good _ _ (e3.trans hkv))
          have hj : ∀ l', t0 (pos m hash a j) = some (a, l') → l' = l := by
            intro l' hl'
            have := hi3.old _ (by rw [hl']; simp)
            rw [e3, hkv, hl'] at this
            exact (Prod.mk.inj (Option.some.inj this)).2.symm
          refine (safe_frame (A := srg m hash t0 Good) (i := i)
            (K := fun g => ∀ p, p < j → ∀ l, t0 (pos m hash a p) = some (a, l) → Mem m g.tab (d, l))
            ⟨fun g g' hr hk p hp l hl => Mem.mono hr.1 (hk p hp l hl), fun g g' hr hk p hp l hl => Mem.mono hr.1 (hk p hp l hl)⟩
            (ins_safe hm (d, l) hgd (if ch then some d else none) (by cases ch <;> simp) (fun s => g3.win s = some i) o0 F 0 g3
            (fun j hj => absurd hj (Nat.not_lt_zero _)) ha (fun _ => Iff.rfl) hb) hc).bind fun r g4 hr4 => ?_
          obtain ⟨⟨_, htr, hfa, hown⟩, hk4⟩ := hr4
          cases r with
          | none => trivial
          | some b =>
            have hmem : Mem m g4.tab (d, l) ∧ g4.pend i = (if ch || b then some d else none) := by
              cases b with
              | true =>
                obtain ⟨h1, s', h2, h3, _⟩ := htr rfl
                exact ⟨⟨s', h2, h3⟩, by rw [h1]; simp⟩
              | false =>
                obtain ⟨h1, h2, _⟩ := hfa rfl
                exact ⟨h1, by rw [h2]; simp⟩
            refine ih (j + 1) (ch || b) g4 hmem.2 hown fun p hp l' hl' => ?_
            rcases Nat.lt_succ_iff_lt_or_eq.1 hp with h | rfl
            · exact hk4 p h l' hl'
            · rw [hj l' hl']; exact hmem.1
      · rename_i hk
        obtain ⟨ha, hb, hc⟩ := hR g2 hr02
        refine ih (j + 1) ch g2 ha hb fun p hp l hl => ?_
        rcases Nat.lt_succ_iff_lt_or_eq.1 hp with h | rfl
        · exact hc p h l hl
        · exfalso
          have := hi2.old _ (by rw [hl]; simp)
          rw [e2, hl] at this
          rw [this] at hk
          exact hk rfl

/-- The ghost state after thread `i` set the bit of `d`, or found it set. -/
def setBit (g : Gh (Nat × Nat)) (i : Nat × Nat) (d : Nat) : Gh (Nat × Nat) :=
  ⟨g.tab, g.win, fun v => if v = d then some i else g.own v, fun j => if j = i then none else g.pend j⟩

def seenBit (g : Gh (Nat × Nat)) (i : Nat × Nat) : Gh (Nat × Nat) :=
  ⟨g.tab, g.win, g.own, fun j => if j = i then none else g.pend j⟩

/-- Emissions of a thread. -/
def ST (i : Nat × Nat) (g : Gh (Nat × Nat)) (l : List (Nat × Unit)) : Prop :=
  (l.map Prod.fst).Nodup ∧ (∀ d, g.own d = some i ↔ d ∈ l.map Prod.fst) ∧ g.pend i = none

theorem ST.stable {g g' : Gh (Nat × Nat)} {l : List (Nat × Unit)} (hr : (srg m hash t0 Good).R i g g') (h : ST i g l) : ST i g' l :=
  ⟨h.1, fun d => (hr.2.2.1 d).trans (h.2.1 d), hr.2.2.2.2.1.trans h.2.2⟩

theorem update_safe (hm : 0 < m) (hw0 : WF m hash t0) {lab : Nat → Nat} {f s d : Nat} (hgood : lab s = lab d → ∀ l, Good (s, l) → Good (d, l))
    (l : List (Nat × Unit)) (g : Gh (Nat × Nat)) (hT : ST i g l) :
    Safe (srg m hash t0 Good) i (fun g x => ST i g (emit d x l) ∧ (lab s = lab d → ∀ l, Mem m t0 (s, l) → Mem m g.tab (d, l)))
      (if lab s = lab d then (iter m hash f s d f 0 false).bind fun ch =>
        if ch then cas (.bit d) none (some (0, 0)) fun b => ret (if b then some () else none) else ret none
      else ret none) g := by
  by_cases hl : lab s = lab d
  · rw [if_pos hl]
    refine (iter_safe hm hw0 (hgood hl) (fun v => v ∈ l.map Prod.fst) f 0 false g hT.2.2 hT.2.1
      (fun p hp => absurd hp (Nat.not_lt_zero _))).bind fun ch g1 h1 => ?_
    obtain ⟨hp1, ho1, hd1⟩ := h1
    cases ch with
    | false =>
      intro g2 hr2
      exact ⟨⟨hT.1, fun v => (hr2.2.2.1 v).trans (ho1 v), hr2.2.2.2.2.1.trans hp1⟩, fun _ l' hl' => Mem.mono hr2.1 (hd1 l' hl')⟩
    | true =>
      have hp1 : g1.pend i = some d := hp1
      intro g2 m2 hr2 hi2
      have hp2 : g2.pend i = some d := hr2.2.2.2.2.1.trans hp1
      have ho2 : ∀ v, g2.own v = some i ↔ v ∈ l.map Prod.fst := fun v => (hr2.2.2.1 v).trans (ho1 v)
      refine ⟨fun hb => ?_, fun hb => ?_⟩
      · have hno : g2.own d = none := by
          have := hi2.bits d
          rw [hb] at this
          by_contra hc
          rw [if_neg hc] at this; cases this
        have hnl : d ∉ l.map Prod.fst := by rw [← ho2]; rw [hno]; simp
        refine ⟨setBit g2 i d, ⟨fun _ _ => rfl, fun _ _ _ => Iff.rfl, fun v j hj => ?_, fun v hv => ?_, fun j hj => ?_, fun _ _ => rfl⟩,
          ⟨fun x => ?_, fun v => ?_, hi2.wf, hi2.old, hi2.good, hi2.win1, hi2.win2, fun x kv h h0 => ?_⟩, fun g3 hr3 => ⟨⟨?_, fun v => ?_, ?_⟩,
          fun _ l' hl' => Mem.mono hr3.1 (Mem.mono hr2.1 (hd1 l' hl'))⟩⟩
        · by_cases h : v = d
          · subst h; simp [setBit, hno, Ne.symm hj]
          · simp [setBit, h]
        · have : v ≠ d := fun h => hv (h ▸ hno)
          simp [setBit, this]
        · simp [setBit, hj]
        · rw [put_ne _ _ (by simp)]; exact hi2.slots x
        · by_cases h : v = d
          · subst h; rw [put_same]; simp [setBit]
          · rw [put_ne _ _ (by simpa using h), hi2.bits]; simp [setBit, h]
        · rcases hi2.fresh x kv h h0 with h1 | ⟨j, h1⟩
          · left
            show (if kv.1 = d then some i else g2.own kv.1) ≠ none
            split
            · simp
            · exact h1
          · by_cases hj : j = i
            · subst hj
              left
              rw [hp2] at h1
              have h1 := (Option.some.inj h1).symm
              simp [setBit, h1]
            · exact Or.inr ⟨j, by simpa [setBit, hj] using h1⟩
        · show ((d :: l.map Prod.fst).Nodup)
          exact List.nodup_cons.2 ⟨hnl, hT.1⟩
        · rw [hr3.2.2.1]
          show _ ↔ v ∈ d :: l.map Prod.fst
          by_cases h : v = d
          · simp [setBit, h]
          · simp only [setBit, h, if_false, List.mem_cons, false_or]; exact ho2 v
        · rw [hr3.2.2.2.2.1]; simp [setBit]
      · have hno : g2.own d ≠ none := by
          intro hc
          rw [hi2.bits, if_pos hc] at hb
          exact hb rfl
        refine ⟨seenBit g2 i, ⟨fun _ _ => rfl, fun _ _ _ => Iff.rfl, fun v j hj => Iff.rfl, fun v hv => rfl, fun j hj => ?_, fun _ _ => rfl⟩,
          ⟨hi2.slots, hi2.bits, hi2.wf, hi2.old, hi2.good, hi2.win1, hi2.win2, fun x kv h h0 => ?_⟩, fun g3 hr3 => ⟨⟨hT.1,
          fun v => (hr3.2.2.1 v).trans (ho2 v), ?_⟩, fun _ l' hl' => Mem.mono hr3.1 (Mem.mono hr2.1 (hd1 l' hl'))⟩⟩
        · simp [seenBit, hj]
        · rcases hi2.fresh x kv h h0 with h1 | ⟨j, h1⟩
          · exact Or.inl h1
          · by_cases hj : j = i
            · subst hj
              left
              rw [hp2] at h1
              have h1 := (Option.some.inj h1).symm
              show g2.own kv.1 ≠ none
              rw [h1]; exact hno
            · exact Or.inr ⟨j, by simpa [seenBit, hj] using h1⟩
        · rw [hr3.2.2.2.2.1]; simp [seenBit]
  · rw [if_neg hl]
    intro g2 hr2
    exact ⟨hT.stable hr2, fun h => absurd h hl⟩

theorem search_spec (hm : 0 < m) (hw0 : WF m hash t0) {lab : Nat → Nat} {f : Nat} {Ac : Edge W → Prop}
    (hund : ∀ kv, Good kv → done (lab kv.1) = false)
    (hgood : ∀ e : Edge W, Ac e → lab e.s = lab e.d → ∀ l, Good (e.s, l) → Good (e.d, l)) (hm0 : ∀ kv, Mem m t0 kv → Good kv) :
    FSpec (fun _ => srg m hash t0 Good) (searchF lab m hash f) Ac ST
      (fun g e => lab e.s = lab e.d → ∀ l, Mem m t0 (e.s, l) → Mem m g.tab (e.d, l)) where
  keep may i e := ⟨fun g g' hr h hl l hm => Mem.mono hr.1 (h hl l hm), fun g g' hr h hl l hm => Mem.mono hr.1 (h hl l hm)⟩
  stable may i l g g' hr h := h.stable hr
  cond may i l g d hT := by
    intro g2 hr2
    refine ⟨hT.stable hr2, fun hb e he hd hl l hml => ?_⟩
    have := hund _ (hm0 _ hml)
    have this : done (lab e.s) = false := this
    rw [hl, hd] at this
    rw [this] at hb; cases hb
  updA may i l g e he _ hT := update_safe hm hw0 (hgood e he) l g hT
  upd may i l g e he _ _ hT := update_safe hm hw0 (hgood e he) l g hT

/-- One round of `multi_search`. -/
theorem search_round {G : Gr W} (hG : G.Ok) (hm : 0 < m) (hw0 : WF m hash t0) {lab : Nat → Nat} {f : Nat} {fr : List Nat}
    (hund : ∀ kv, Good kv → done (lab kv.1) = false) (hgood : ∀ u v, Sub G lab u v → ∀ l, Good (u, l) → Good (v, l))
    (hm0 : ∀ kv, Mem m t0 kv → Good kv) {b0 t' b' : Nat → Val} (hb0 : ∀ v, b0 v = none) {o : List (Nat × Unit)}
    (h : EdgeMap (searchF lab m hash f) G (fun v => decide (v ∈ fr)) (mem2 t0 b0) (mem2 t' b') o) :
    WF m hash t' ∧ (∀ kv, Mem m t0 kv → Mem m t' kv) ∧ (∀ kv, Mem m t' kv → Good kv) ∧
    (∀ kv, Mem m t' kv → ¬ Mem m t0 kv → kv.1 ∈ o.map Prod.fst) ∧
    (∀ u ∈ fr, ∀ v, Sub G lab u v → ∀ l, Mem m t0 (u, l) → Mem m t' (v, l)) ∧ (∀ v, b' v ≠ none → v ∈ o.map Prod.fst) := by
  obtain ⟨g, out, hi, hdn, hT, hcol⟩ := edgeMap_sound (search_spec (f := f) hm hw0 hund
    (fun e he hl l => hgood e.s e.d ⟨⟨e.w, he.2⟩, hl⟩ l) hm0) G hG (fun v => decide (v ∈ fr)) (fun _ h => h)
    (SInv m hash t0 Good) (fun _ _ _ => Iff.rfl) ⟨t0, fun _ => none, fun _ => none, fun _ => none⟩
    ⟨fun _ => rfl, fun v => hb0 v, hw0, fun _ _ => rfl, fun s kv hs => hm0 kv (by
      by_cases hsm : s < m
      · exact ⟨s, hsm, hs⟩
      · have := (hw0.2 s (by omega)).symm.trans hs; cases this), (fun s i h => by cases h), fun s h h0 => absurd h0 h,
      fun s kv h h0 => by have := h0.symm.trans h; cases this⟩
    (fun i => ⟨List.nodup_nil, fun d => ⟨fun h => (by cases h), fun h => (by cases h)⟩, rfl⟩) h
  have hgt : g.tab = t' := funext fun s => (hi.slots s).symm
  have hmem : ∀ d, g.own d ≠ none → d ∈ o.map Prod.fst := by
    intro d hd
    obtain ⟨i, h⟩ := Option.ne_none_iff_exists'.1 hd
    obtain ⟨⟨d', x⟩, h1, rfl⟩ := List.mem_map.1 (((hT i).2.1 d).1 h)
    obtain ⟨y, hy⟩ := hcol.all i _ _ h1
    exact List.mem_map.2 ⟨_, hy, rfl⟩
  refine ⟨hgt ▸ hi.wf, ?_, ?_, ?_, ?_, ?_⟩
  · rintro kv ⟨s, hs, he⟩
    exact ⟨s, hs, by rw [← hgt, hi.old s (by rw [he]; simp), he]⟩
  · rintro kv ⟨s, hs, he⟩
    exact hi.good s kv (by rw [hgt]; exact he)
  · rintro kv ⟨s, hs, he⟩ hn
    have h0 : t0 s = none := by
      cases ht : t0 s with
      | none => rfl
      | some kv' =>
        have := hi.old s (by rw [ht]; simp)
        rw [hgt, he, ht] at this
        cases this
        exact absurd ⟨s, hs, ht⟩ hn
    rcases hi.fresh s kv (by rw [hgt]; exact he) h0 with h1 | ⟨i, h1⟩
    · exact hmem _ h1
    · rw [(hT i).2.2] at h1; cases h1
  · rintro u hu v ⟨⟨w, hw⟩, hl⟩ l hml
    have := hdn ⟨u, v, w⟩ ⟨by simpa using hu, hw⟩ hl l hml
    rwa [hgt] at this
  · intro v hv
    refine hmem v fun hc => hv ?_
    have := hi.bits v
    rw [if_pos hc] at this
    exact this

end

theorem initSize_pos (s : Nat) : 0 < initSize s := Nat.two_pow_pos _

/-- The pairs a search should find: `(v, start + i)` if `v` can be reached from the `i`-th center within its subproblem. -/
def Reached (G : Gr W) (lab : Nat → Nat) (centers : List Nat) (start : Nat) (kv : KV) : Prop :=
  ∃ i c, centers[i]? = some c ∧ kv.2 = start + i ∧ ReflTransGen (Sub G lab) c kv.1

theorem sub_lab {G : Gr W} {lab : Nat → Nat} {u v : Nat} (h : ReflTransGen (Sub G lab) u v) : lab u = lab v := by
  induction h with
  | refl => rfl
  | tail _ hbc ih => exact ih.trans hbc.2

/-- `multi_search` finds exactly the pairs of centers and vertices they reach within their subproblems. -/
theorem multi_search {G : Gr W} (hG : G.Ok) {lab : Nat → Nat} {hash : Nat → Nat} {bits bits' : Nat → Val} {centers : List Nat}
    {start : Nat} {T : Tab} (hc : ∀ c ∈ centers, done (lab c) = false) (hb : ∀ v, bits v = none)
    (h : MultiSearch G lab hash bits centers start T bits') :
    WF T.m hash T.t ∧ (∀ kv, Mem T.m T.t kv ↔ Reached G lab centers start kv) ∧ ∀ v, bits' v = none := by
  obtain ⟨t0, res, hins, hl⟩ := h
  obtain ⟨hw, hmem, _⟩ := insert_set (m := startSize centers.length) (initSize_pos _) (wf_new _ _) hins
  have hmem : ∀ kv, Mem (startSize centers.length) t0 kv ↔ kv ∈ centers.zipIdx start := by
    intro kv
    rw [hmem]
    constructor
    · rintro (⟨s, _, h⟩ | h)
      · cases h
      · exact h
    · exact Or.inr
  have hzip : ∀ kv, kv ∈ centers.zipIdx start ↔ ∃ i c, centers[i]? = some c ∧ kv.2 = start + i ∧ kv.1 = c := by
    rintro ⟨k, v⟩
    rw [List.mem_zipIdx_iff_le_and_getElem?_sub]
    constructor
    · rintro ⟨h1, h2⟩
      exact ⟨_, k, h2, by show v = _; have : start ≤ v := h1; show v = start + (v - start); omega, rfl⟩
    · rintro ⟨i, c, h1, h2, h3⟩
      have h2 : v = start + i := h2
      have h3 : k = c := h3
      subst h2 h3
      exact ⟨Nat.le_add_right _ _, by simpa using h1⟩
  have hund : ∀ kv, Reached G lab centers start kv → done (lab kv.1) = false := by
    rintro kv ⟨i, c, h1, _, h3⟩
    rw [← sub_lab h3]
    exact hc c (List.mem_of_getElem? h1)
  have hclo : ∀ u v, Sub G lab u v → ∀ l, Reached G lab centers start (u, l) → Reached G lab centers start (v, l) := by
    rintro u v huv l ⟨i, c, h1, h2, h3⟩
    exact ⟨i, c, h1, h2, h3.tail huv⟩
  have main : ∀ {T bits fr T' bits'}, MSLoop G lab hash T bits fr T' bits' → 0 < T.m → WF T.m hash T.t →
      (∀ kv, Mem T.m T.t kv → Reached G lab centers start kv) → (∀ kv ∈ centers.zipIdx start, Mem T.m T.t kv) →
      (∀ u l, Mem T.m T.t (u, l) → u ∉ fr → ∀ v, Sub G lab u v → Mem T.m T.t (v, l)) → (∀ v, bits v ≠ none → v ∈ fr) →
      WF T'.m hash T'.t ∧ (∀ kv, Mem T'.m T'.t kv → Reached G lab centers start kv) ∧ (∀ kv ∈ centers.zipIdx start, Mem T'.m T'.t kv) ∧
      (∀ u l, Mem T'.m T'.t (u, l) → ∀ v, Sub G lab u v → Mem T'.m T'.t (v, l)) ∧ ∀ v, bits' v = none := by
    intro T bits fr T' bits' hl
    induction hl with
    | stop T bits =>
      intro _ h1 h2 h3 h4 h5
      refine ⟨h1, h2, h3, fun u l hu => h4 u l hu (by simp), fun v => ?_⟩
      by_contra hcon
      exact absurd (h5 v hcon) (by simp)
    | step f hne hp hr hm hl ih =>
      rename_i T T1 T' bits bits2 bits' t2 fr o inc
      intro h0 h1 h2 h3 h4 h5
      obtain ⟨a, b, _, _, e⟩ := resize_spec h0 h1 hr
      have h01 : 0 < T1.m := by omega
      obtain ⟨r1, r2, r3, r4, r5, r6⟩ := search_round hG h01 a hund hclo (fun kv hkv => h2 kv ((b kv).1 hkv))
        (fun v => by
          beta_reduce
          split
          · rfl
          · rename_i hv
            by_contra hcon
            exact hv (h5 v hcon)) hm
      refine ih h01 r1 r3 (fun kv hkv => r2 kv ((b kv).2 (h3 kv hkv))) (fun u l hu hun v huv => ?_) r6
      by_cases hold : Mem T1.m T1.t (u, l)
      · by_cases hf : u ∈ fr
        · exact r5 u hf v huv l hold
        · exact r2 _ ((b _).2 (h4 u l ((b _).1 hold) hf v huv))
      · exact absurd (r4 _ hu hold) hun
  obtain ⟨h1, h2, h3, h4, h5⟩ := main hl (initSize_pos _) hw (fun kv hkv => by
      obtain ⟨i, c, a1, a2, a3⟩ := (hzip kv).1 ((hmem kv).1 hkv)
      exact ⟨i, c, a1, a2, a3 ▸ .refl⟩) (fun kv hkv => (hmem kv).2 hkv) (fun u l hu hun => by
      obtain ⟨i, c, a1, a2, a3⟩ := (hzip _).1 ((hmem _).1 hu)
      have a3 : u = c := a3
      exact absurd (a3 ▸ List.mem_of_getElem? a1) hun) (fun v hv => absurd (hb v) hv)
  refine ⟨h1, fun kv => ⟨h2 kv, ?_⟩, h5⟩
  rintro ⟨i, c, a1, a2, a3⟩
  obtain ⟨k, v⟩ := kv
  have a2 : v = start + i := a2
  replace a3 : ReflTransGen (Sub G lab) c k := a3
  induction a3 with
  | refl => exact h3 _ ((hzip _).2 ⟨i, c, a1, a2, rfl⟩)
  | tail _ hbc ih => exact h4 _ _ (ih a2) _ hbc

end Gbbs.Scc
