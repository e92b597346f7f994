/-
`StronglyConnectedComponents` does not always return (C83): `multi_search` makes room for the pairs of the labels that the vertices of the
frontier have at the start of a round, but `Search_F` also passes on labels that arrive during the round. The table can overflow, and then
`insert` loops forever.
-/
import Verif.Algo.SCC

namespace Gbbs.Scc

open Conc Conc.Prog Gbbs.Em Gbbs.RT
open Relation (ReflTransGen)

variable {W : Type}

/-! ### `first_search` returns -/

/-- `first_search` always has a run that returns. -/
theorem first_search_exists {G : Gr W} (hG : G.Ok) (dn : Nat → Bool) (start : Nat) : ∃ vis, FirstSearch G dn start vis := by
  have tot : ∀ (fr : List Nat) (vis : Nat → Nat), ∃ vis' o, EdgeMap (firstF (W := W) dn) G (fun v => decide (v ∈ fr)) vis vis' o ∧
      ∀ v ∈ o.map Prod.fst, vis v = 0 ∧ v < G.n := by
    intro fr vis
    have hrun : ∀ (es : List (Edge W)) (l : List (Nat × Unit)) (m : Nat → Nat), (∀ e ∈ es, e.d < G.n) → (∀ v, vis v ≠ 0 → m v ≠ 0) →
        (∀ v ∈ l.map Prod.fst, vis v = 0 ∧ v < G.n) →
        ∃ o m', exec (sparseRun (firstF (W := W) dn) es l) m = some (o, m') ∧ ∀ v ∈ o.map Prod.fst, vis v = 0 ∧ v < G.n := by
      intro es
      induction es with
      | nil => intro l m _ _ hl; exact ⟨l, m, rfl, hl⟩
      | cons e es ih =>
        intro l m he hm hl
        have hes : ∀ e ∈ es, e.d < G.n := fun e' h => he e' (List.mem_cons_of_mem _ h)
        show ∃ o m', exec ((if dn e.d then ret false else read e.d fun x => ret (x == 0)).bind fun c =>
          if c then (cas e.d 0 1 fun b => ret (if b then some () else none)).bind fun x => sparseRun (firstF dn) es (emit e.d x l)
          else sparseRun (firstF dn) es l) m = some (o, m') ∧ _
        by_cases hd : dn e.d = true
        · rw [if_pos hd]
          exact ih l m hes hm hl
        · rw [if_neg hd]
          by_cases h0 : m e.d = 0
          · show ∃ o m', exec (if m e.d == 0 then (cas e.d 0 1 fun b => ret (if b then some () else none)).bind fun x =>
              sparseRun (firstF dn) es (emit e.d x l) else sparseRun (firstF dn) es l) m = some (o, m') ∧ _
            rw [if_pos (by simpa using h0)]
            show ∃ o m', (if m e.d = 0 then exec (sparseRun (firstF dn) es ((e.d, ()) :: l)) (put m e.d 1)
              else exec (sparseRun (firstF dn) es l) m) = some (o, m') ∧ _
            rw [if_pos h0]
            refine ih _ _ hes (fun v hv => ?_) ?_
            · by_cases hve : v = e.d
              · rw [hve, put_same]; exact one_ne_zero
              · rw [put_ne _ _ hve]; exact hm v hv
            · intro v hv
              rw [List.map_cons, List.mem_cons] at hv
              rcases hv with rfl | hv
              · refine ⟨?_, he e List.mem_cons_self⟩
                by_contra hc
                exact hm _ hc h0
              · exact hl v hv
          · show ∃ o m', exec (if m e.d == 0 then (cas e.d 0 1 fun b => ret (if b then some () else none)).bind fun x =>
              sparseRun (firstF dn) es (emit e.d x l) else sparseRun (firstF dn) es l) m = some (o, m') ∧ _
            rw [if_neg (by simpa using h0)]
            exact ih l m hes hm hl
    obtain ⟨o, m', h1, h2⟩ := hrun (activeEdges G fun v => decide (v ∈ fr)) [] vis
      (fun e he => (hG.bound _ _ _ ((mem_activeEdges hG e).1 he).2).2) (fun _ h => h) (fun v hv => (by cases hv))
    exact ⟨m', o, edgeMap_seq _ (mem_activeEdges hG) h1, h2⟩
  have main : ∀ (k : Nat) (fr : List Nat) (vis : Nat → Nat), ((List.range G.n).filter fun v => decide (vis v = 0)).length < k →
      ∃ vis', FirstLoop G dn vis fr vis' := by
    intro k
    induction k with
    | zero => intro fr vis h; omega
    | succ k ih =>
      intro fr vis hk
      rcases fr with _ | ⟨a, fr⟩
      · exact ⟨vis, .stop vis⟩
      · obtain ⟨vis1, o, he, ho⟩ := tot (a :: fr) vis
        rcases hol : o.map Prod.fst with _ | ⟨b, os⟩
        · exact ⟨vis1, .step (by simp) he (by rw [hol]; exact .stop vis1)⟩
        · have hb : b ∈ o.map Prod.fst := by rw [hol]; exact List.mem_cons_self
          obtain ⟨h1, _, _, h4⟩ := first_round hG he
          have hlt : ((List.range G.n).filter fun v => decide (vis1 v = 0)).length <
              ((List.range G.n).filter fun v => decide (vis v = 0)).length := by
            have hsub : ((List.range G.n).filter fun v => decide (vis1 v = 0)) =
                ((List.range G.n).filter fun v => decide (vis v = 0)).filter fun v => decide (vis1 v = 0) := by
              rw [List.filter_filter]
              refine List.filter_congr fun v _ => ?_
              by_cases hv : vis1 v = 0
              · have : vis v = 0 := by
                  by_contra hc
                  exact h1 v hc hv
                simp [hv, this]
              · simp [hv]
            rw [hsub, List.length_filter_lt_length_iff_exists]
            refine ⟨b, List.mem_filter.2 ⟨List.mem_range.2 (ho b hb).2, by simpa using (ho b hb).1⟩, ?_⟩
            simpa using h4 b hb
          obtain ⟨vis', hl⟩ := ih (o.map Prod.fst) vis1 (by omega)
          exact ⟨vis', .step (by simp) he hl⟩
  exact main _ _ _ (Nat.lt_succ_self _)

/-! ### Sequential runs of `Search_F` -/

/-- Filled slots keep their pairs. -/
def Grows (M M' : Loc → Val) : Prop := ∀ i, M (.slot i) ≠ none → M' (.slot i) = M (.slot i)

theorem Grows.refl (M : Loc → Val) : Grows M M := fun _ _ => rfl
theorem Grows.trans {M M' M'' : Loc → Val} (h : Grows M M') (h' : Grows M' M'') : Grows M M'' :=
  fun i hi => (h' i (by rw [h i hi]; exact hi)).trans (h i hi)

/-- The pair is found by probing. -/
def Found (m : Nat) (hash : Nat → Nat) (M : Loc → Val) (kv : KV) : Prop :=
  ∃ j, M (.slot (pos m hash kv.1 j)) = some kv ∧ ∀ j', j' < j → M (.slot (pos m hash kv.1 j')) ≠ none

theorem Found.mono {m : Nat} {hash : Nat → Nat} {M M' : Loc → Val} {kv : KV} (h : Found m hash M kv) (hg : Grows M M') :
    Found m hash M' kv := by
  obtain ⟨j, h1, h2⟩ := h
  exact ⟨j, by rw [hg _ (by rw [h1]; simp), h1], fun j' hj => by rw [hg _ (h2 j' hj)]; exact h2 j' hj⟩

theorem insO_exec {m : Nat} {hash : Nat → Nat} (kv : KV) (f : Nat) : ∀ j M r M',
    (∀ j', j' < j → M (.slot (pos m hash kv.1 j')) ≠ none) → exec (insO m hash f kv j) M = some (r, M') →
    Grows M M' ∧ (r ≠ none → Found m hash M' kv) := by
  induction f with
  | zero =>
    intro j M r M' _ h
    cases h
    exact ⟨.refl _, fun h => absurd rfl h⟩
  | succ f ih =>
    intro j M r M' hj h
    by_cases he : M (.slot (pos m hash kv.1 j)) = none
    · have h : exec (if M (.slot (pos m hash kv.1 j)) = none then
          cas (.slot (pos m hash kv.1 j)) none (some kv) fun b => if b then ret (some true) else _ else _) M = some (r, M') := h
      rw [if_pos he] at h
      have h : (if M (.slot (pos m hash kv.1 j)) = none then
        some (some true, put M (.slot (pos m hash kv.1 j)) (some kv)) else _) = some (r, M') := h
      rw [if_pos he] at h
      cases h
      have hgr : Grows M (put M (.slot (pos m hash kv.1 j)) (some kv)) := by
        intro i hi
        exact put_ne _ _ (by intro h; injection h with h; rw [h] at hi; exact hi he)
      exact ⟨hgr, fun _ => ⟨j, put_same _ _ _, fun j' hj' => by rw [hgr _ (hj j' hj')]; exact hj j' hj'⟩⟩
    · have hj' : ∀ j', j' < j + 1 → M (.slot (pos m hash kv.1 j')) ≠ none := by
        intro j' hlt
        rcases Nat.lt_succ_iff_lt_or_eq.1 hlt with h | rfl
        · exact hj j' h
        · exact he
      have h : exec (if M (.slot (pos m hash kv.1 j)) = none then _ else
          read (.slot (pos m hash kv.1 j)) fun x => if x.map Prod.fst = some kv.1 then read (.slot (pos m hash kv.1 j)) fun y =>
            if y.map Prod.snd = some kv.2 then ret (some false) else insO m hash f kv (j + 1)
          else insO m hash f kv (j + 1)) M = some (r, M') := h
      rw [if_neg he] at h
      have h : exec (if (M (.slot (pos m hash kv.1 j))).map Prod.fst = some kv.1 then read (.slot (pos m hash kv.1 j)) fun y =>
            if y.map Prod.snd = some kv.2 then ret (some false) else insO m hash f kv (j + 1)
          else insO m hash f kv (j + 1)) M = some (r, M') := h
      split at h
      · rename_i hk
        have h : exec (if (M (.slot (pos m hash kv.1 j))).map Prod.snd = some kv.2 then ret (some false)
          else insO m hash f kv (j + 1)) M = some (r, M') := h
        split at h
        · rename_i hv
          cases h
          refine ⟨.refl _, fun _ => ⟨j, ?_, hj⟩⟩
          rcases hx : M (.slot (pos m hash kv.1 j)) with _ | ⟨a, b⟩
          · exact absurd hx he
          · rw [hx] at hk hv
            simp only [Option.map_some, Option.some.injEq] at hk hv
            rw [hk, hv]
        · exact ih _ _ _ _ hj' h
      · exact ih _ _ _ _ hj' h

theorem iter_exec {m : Nat} {hash : Nat → Nat} {F s d : Nat} (f : Nat) : ∀ j ch M r M',
    exec (iter m hash F s d f j ch) M = some (r, M') →
    Grows M M' ∧ ∀ j1 x, j ≤ j1 → (∀ j', j ≤ j' → j' < j1 → M (.slot (pos m hash s j')) ≠ none) →
      M (.slot (pos m hash s j1)) = some (s, x) → Found m hash M' (d, x) := by
  induction f with
  | zero => intro j ch M r M' h; cases h
  | succ f ih =>
    intro j ch M r M' h
    by_cases he : M (.slot (pos m hash s j)) = none
    · have h : exec (if M (.slot (pos m hash s j)) = none then ret ch else _) M = some (r, M') := h
      rw [if_pos he] at h
      cases h
      refine ⟨.refl _, fun j1 x h1 h2 h3 => ?_⟩
      rcases Nat.lt_or_eq_of_le h1 with h1 | rfl
      · exact absurd he (h2 j (Nat.le_refl _) h1)
      · rw [he] at h3; cases h3
    · have h : exec (if M (.slot (pos m hash s j)) = none then ret ch else
          read (.slot (pos m hash s j)) fun y => if y.map Prod.fst = some s then
            read (.slot (pos m hash s j)) fun z => match z with
              | some kv => (insO m hash F (d, kv.2) 0).bind fun r => match r with
                | some b => iter m hash F s d f (j + 1) (ch || b)
                | none => stuck
              | none => stuck
          else iter m hash F s d f (j + 1) ch) M = some (r, M') := h
      rw [if_neg he] at h
      have h : exec (if (M (.slot (pos m hash s j))).map Prod.fst = some s then
            read (.slot (pos m hash s j)) fun z => match z with
              | some kv => (insO m hash F (d, kv.2) 0).bind fun r => match r with
                | some b => iter m hash F s d f (j + 1) (ch || b)
                | none => stuck
              | none => stuck
          else iter m hash F s d f (j + 1) ch) M = some (r, M') := h
      split at h
      · rcases hx : M (.slot (pos m hash s j)) with _ | ⟨a, b⟩
        · exact absurd hx he
        · have h : exec (match M (.slot (pos m hash s j)) with
              | some kv => (insO m hash F (d, kv.2) 0).bind fun r => match r with
                | some b => iter m hash F s d f (j + 1) (ch || b)
                | none => stuck
              | none => stuck) M = some (r, M') := h
          rw [hx] at h
          simp only [] at h
          rw [exec_bind] at h
          rcases hins : exec (insO m hash F (d, b) 0) M with _ | ⟨r1, M1⟩
          · rw [hins] at h; cases h
          · rw [hins] at h
            obtain ⟨g1, g2⟩ := insO_exec (d, b) F 0 M r1 M1 (fun j' hj' => absurd hj' (Nat.not_lt_zero _)) hins
            rcases r1 with _ | c
            · cases h
            · obtain ⟨k1, k2⟩ := ih _ _ _ _ _ h
              refine ⟨g1.trans k1, fun j1 x h1 h2 h3 => ?_⟩
              rcases Nat.lt_or_eq_of_le h1 with h1 | rfl
              · refine k2 j1 x h1 (fun j' ha hb => ?_) ?_
                · show M1 _ ≠ none
                  rw [g1 _ (h2 j' (by omega) hb)]; exact h2 j' (by omega) hb
                · show M1 _ = _
                  rw [g1 _ (by rw [h3]; simp), h3]
              · rw [hx] at h3
                cases h3
                exact (g2 (by simp)).mono k1
      · rename_i hk
        obtain ⟨k1, k2⟩ := ih _ _ _ _ _ h
        refine ⟨k1, fun j1 x h1 h2 h3 => ?_⟩
        rcases Nat.lt_or_eq_of_le h1 with h1 | rfl
        · exact k2 j1 x h1 (fun j' ha hb => h2 j' (by omega) hb) h3
        · rw [h3] at hk
          exact absurd rfl hk

/-- What an edge of a returning sequential run does. -/
theorem run_edge {lab : Nat → Nat} {m : Nat} {hash : Nat → Nat} {f : Nat} {e : Edge W} {es : List (Edge W)} {l o : List (Nat × Unit)}
    {M M' : Loc → Val} (h : exec (sparseRun (searchF lab m hash f) (e :: es) l) M = some (o, M')) :
    ∃ l1 M1, exec (sparseRun (searchF lab m hash f) es l1) M1 = some (o, M') ∧ Grows M M1 ∧
      (done (lab e.d) = false → lab e.s = lab e.d → ∀ x, Found m hash M (e.s, x) → Found m hash M1 (e.d, x)) := by
  have h : exec (if !done (lab e.d) then ((if lab e.s = lab e.d then (iter m hash f e.s e.d f 0 false).bind fun ch =>
      if ch then cas (.bit e.d) none (some (0, 0)) fun b => ret (if b then some () else none) else ret none
    else ret none) : Prog Loc Val (Option Unit)).bind fun x => sparseRun (searchF lab m hash f) es (emit e.d x l)
    else sparseRun (searchF lab m hash f) es l) M = some (o, M') := h
  split at h
  · split at h
    · rename_i hd hl
      rw [exec_bind, exec_bind] at h
      rcases hi : exec (iter m hash f e.s e.d f 0 false) M with _ | ⟨ch, M1⟩
      · rw [hi] at h; cases h
      · rw [hi] at h
        obtain ⟨g1, g2⟩ := iter_exec f 0 false M ch M1 hi
        have hfin : ∀ M2, Grows M1 M2 → Grows M M2 ∧
            (done (lab e.d) = false → lab e.s = lab e.d → ∀ x, Found m hash M (e.s, x) → Found m hash M2 (e.d, x)) := by
          intro M2 hg
          refine ⟨g1.trans hg, fun _ _ x ⟨j, h1, h2⟩ => (g2 j x (Nat.zero_le _) (fun j' _ hj' => h2 j' hj') h1).mono hg⟩
        cases ch with
        | false => exact ⟨_, M1, h, hfin M1 (.refl _)⟩
        | true =>
          have h : (exec (cas (.bit e.d) none (some (0, 0)) fun b => ret (if b then some () else none)) M1).bind
            (fun r => exec (sparseRun (searchF lab m hash f) es (emit e.d r.1 l)) r.2) = some (o, M') := h
          by_cases hb : M1 (.bit e.d) = none
          · rw [exec, if_pos hb] at h
            exact ⟨_, _, h, hfin (put M1 (.bit e.d) (some (0, 0))) fun i hi => put_ne _ _ (show Loc.slot i ≠ Loc.bit e.d from fun hc => by cases hc)⟩
          · rw [exec, if_neg hb] at h
            exact ⟨_, _, h, hfin _ (.refl _)⟩
    · rename_i hl
      exact ⟨_, M, h, .refl _, fun _ hl' => absurd hl' hl⟩
  · rename_i hd
    exact ⟨_, M, h, .refl _, fun hd' => by rw [hd'] at hd; exact absurd rfl hd⟩

/-- Along a path all labels are passed on in one round. -/
theorem run_path {lab : Nat → Nat} {m : Nat} {hash : Nat → Nat} {f : Nat} {rest : List (Edge Unit)} {o : List (Nat × Unit)}
    {M' : Loc → Val} (k : Nat) : ∀ a l M, (∀ i, i ≤ k → lab (a + i) = 0) →
    exec (sparseRun (searchF lab m hash f) ((List.range' a k).map (fun v => ⟨v, v + 1, ()⟩) ++ rest) l) M = some (o, M') →
    ∃ l1 M1, exec (sparseRun (searchF lab m hash f) rest l1) M1 = some (o, M') ∧ Grows M M1 ∧
      ∀ i j x, i ≤ j → j ≤ k → Found m hash M (a + i, x) → Found m hash M1 (a + j, x) := by
  induction k with
  | zero =>
    intro a l M _ h
    refine ⟨l, M, h, .refl _, fun i j x h1 h2 h3 => ?_⟩
    have : i = j := by omega
    rwa [← this]
  | succ k ih =>
    intro a l M hl h
    rw [List.range'_succ, List.map_cons, List.cons_append] at h
    obtain ⟨l1, M1, h1, g1, p1⟩ := run_edge h
    have hlab : ∀ i, i ≤ k → lab (a + 1 + i) = 0 := fun i hi => by
      have := hl (i + 1) (by omega)
      rwa [← Nat.add_assoc, Nat.add_right_comm] at this
    obtain ⟨l2, M2, h2, g2, p2⟩ := ih (a + 1) l1 M1 hlab h1
    refine ⟨l2, M2, h2, g1.trans g2, fun i j x hij hjk hf => ?_⟩
    have p1 := p1 (by show done (lab (a + 1)) = false; rw [hl 1 (by omega)]; decide)
      (by show lab a = lab (a + 1); rw [hl 1 (by omega)]; exact hl 0 (by omega)) x
    rcases j with _ | j
    · have : i = 0 := by omega
      subst this
      exact (hf.mono g1).mono g2
    · have e : a + (j + 1) = a + 1 + j := by omega
      rw [e]
      rcases i with _ | i
      · exact p2 0 j x (by omega) (by omega) (p1 hf)
      · refine p2 i j x (by omega) (by omega) ?_
        have e : a + 1 + i = a + (i + 1) := by omega
        rw [e]; exact hf.mono g1

/-! ### The graph -/

/-- A cycle 0, ..., 116; a path 167 → ... → 117 with a loop at its end; a vertex 168 without in-edges, before the path; a loop at 169. -/
def hF : List (List (Nat × Unit)) :=
  (List.range 170).map fun v => if v < 117 then [((v + 1) % 117, ())] else if v = 117 then [(117, ())] else if v < 169 then [(v - 1, ())]
    else [(169, ())]

def hB : List (List (Nat × Unit)) :=
  (List.range 170).map fun v => if v < 117 then [((v + 116) % 117, ())] else if v = 117 then [(117, ()), (118, ())]
    else if v < 168 then [(v + 1, ())] else if v = 168 then [] else [(169, ())]

def hG : Gr Unit := Gr.ofLists hF hB

theorem hG_ok : hG.Ok := Gr.ofLists_ok (by decide +kernel)

theorem hG_n : hG.n = 170 := by decide +kernel

theorem h_fwd (v : Nat) (hv : v < 170) : hG.fwd v = if v < 117 then [((v + 1) % 117, ())] else if v = 117 then [(117, ())] else
    if v < 169 then [(v - 1, ())] else [(169, ())] := by
  show hF.getD v [] = _
  rw [hF, List.getD_eq_getElem?_getD, List.getElem?_map, List.getElem?_range hv]
  rfl

theorem h_bwd (v : Nat) (hv : v < 170) : hG.bwd v = if v < 117 then [((v + 116) % 117, ())] else if v = 117 then [(117, ()), (118, ())]
    else if v < 168 then [(v + 1, ())] else if v = 168 then [] else [(169, ())] := by
  show hB.getD v [] = _
  rw [hB, List.getD_eq_getElem?_getD, List.getElem?_map, List.getElem?_range hv]
  rfl

theorem h_E {u v : Nat} (h : E hG u v) : u < 170 ∧ ((u < 117 ∧ v = (u + 1) % 117) ∨ (u = 117 ∧ v = 117) ∨
    (117 < u ∧ u < 169 ∧ v = u - 1) ∨ (u = 169 ∧ v = 169)) := by
  obtain ⟨w, hw⟩ := h
  have hu : u < 170 := (hG_ok.bound _ _ _ hw).1
  rw [h_fwd u hu] at hw
  refine ⟨hu, ?_⟩
  split at hw
  · rename_i h
    have := congrArg Prod.fst (List.mem_singleton.1 hw)
    exact Or.inl ⟨h, this⟩
  · split at hw
    · rename_i h
      have := congrArg Prod.fst (List.mem_singleton.1 hw)
      exact Or.inr (Or.inl ⟨h, this⟩)
    · split at hw
      · rename_i h1 h2 h3
        have := congrArg Prod.fst (List.mem_singleton.1 hw)
        exact Or.inr (Or.inr (Or.inl ⟨by omega, h3, this⟩))
      · have := congrArg Prod.fst (List.mem_singleton.1 hw)
        exact Or.inr (Or.inr (Or.inr ⟨by omega, this⟩))

theorem h_zero : zero hG = [168] := by decide +kernel

theorem h_nonZero : nonZero hG = List.range 168 ++ [169] := by decide +kernel

theorem h_start : start hG = 169 := by decide +kernel

theorem h_lab0 (v : Nat) : lab0 hG v = if v = 168 then top + 1 else 0 := by
  unfold lab0
  rw [h_zero]
  by_cases h : v = 168
  · subst h; decide +kernel
  · rw [if_neg (by simpa using h), if_neg h]

/-- The labels after the first search from 169, ... -/
def hL1 (v : Nat) : Nat := if v = 169 then top + 2 else if v = 168 then top + 1 else 0

/-- ... and after that from 0. -/
def hL2 (v : Nat) : Nat := if v < 117 then top + 3 else hL1 v

theorem h_init : Init hG (List.range 168 ++ [169]) ⟨hL1, fun _ => none, 1, 0, 0, 3⟩ (List.range 168) := by
  refine ⟨by rw [h_nonZero], ⟨hL1, 3, ?_, rfl⟩, by decide +kernel⟩
  rw [h_start, h_lab0, h_zero]
  rw [if_neg (by decide)]
  refine ⟨?_, rfl⟩
  obtain ⟨vin, hin⟩ := first_search_exists (rev_ok hG_ok) (fun v => done (lab0 hG v)) 169
  obtain ⟨vout, hout⟩ := first_search_exists hG_ok (fun v => done (lab0 hG v)) 169
  refine ⟨vin, vout, hin, hout, ?_⟩
  have h1 : ∀ v, vin v ≠ 0 ↔ v = 169 := by
    intro v
    rw [first_search (rev_ok hG_ok) hin]
    constructor
    · intro h
      induction h with
      | refl => rfl
      | tail _ h ih =>
        subst ih
        have := h_E ((E_rev hG_ok _ _).1 h.1)
        omega
    · rintro rfl; exact .refl
  have h2 : ∀ v, vout v ≠ 0 ↔ v = 169 := by
    intro v
    rw [first_search hG_ok hout]
    constructor
    · intro h
      induction h with
      | refl => rfl
      | tail _ h ih =>
        subst ih
        have := h_E h.1
        omega
    · rintro rfl; exact .refl
  funext v
  unfold mark hL1
  rw [h_lab0]
  simp only [h1, h2]
  by_cases hv : v = 169
  · subst hv; rfl
  · simp [hv]

theorem h_first : FirstRound hG hL1 0 3 hL2 := by
  obtain ⟨vin, hin⟩ := first_search_exists (rev_ok hG_ok) (fun v => done (hL1 v)) 0
  obtain ⟨vout, hout⟩ := first_search_exists hG_ok (fun v => done (hL1 v)) 0
  refine ⟨vin, vout, hin, hout, ?_⟩
  have hnd : ∀ v, v < 117 → done (hL1 v) = false := by
    intro v hv
    unfold hL1
    rw [if_neg (by omega), if_neg (by omega)]; decide
  have hedge : ∀ v, v < 117 → E hG v ((v + 1) % 117) := by
    intro v hv
    refine ⟨(), ?_⟩
    rw [h_fwd v (by omega), if_pos hv]
    exact List.mem_singleton.2 rfl
  have h1 : ∀ v, vin v ≠ 0 ↔ v < 117 := by
    intro v
    rw [first_search (rev_ok hG_ok) hin]
    constructor
    · intro h
      induction h with
      | refl => omega
      | tail _ h ih =>
        have := h_E ((E_rev hG_ok _ _).1 h.1)
        omega
    · intro hv
      have : ∀ k, k < 117 → ReflTransGen (Open (rev hG) fun v => done (hL1 v)) 0 (116 - k) := by
        intro k
        induction k with
        | zero => exact fun _ => ReflTransGen.single ⟨(E_rev hG_ok _ _).2 (hedge 116 (by omega)), hnd _ (by omega)⟩
        | succ k ih =>
          intro hk
          refine (ih (by omega)).tail ⟨(E_rev hG_ok _ _).2 ?_, hnd _ (by omega)⟩
          have := hedge (116 - (k + 1)) (by omega)
          rwa [show (116 - (k + 1) + 1) % 117 = 116 - k by omega] at this
      have := this (116 - v) (by omega)
      rwa [show 116 - (116 - v) = v by omega] at this
  have h2 : ∀ v, vout v ≠ 0 ↔ v < 117 := by
    intro v
    rw [first_search hG_ok hout]
    constructor
    · intro h
      induction h with
      | refl => omega
      | tail _ h ih =>
        have := h_E h.1
        omega
    · intro hv
      induction v with
      | zero => exact .refl
      | succ v ih =>
        refine (ih (by omega)).tail ⟨?_, hnd _ (by omega)⟩
        have := hedge v (by omega)
        rwa [show (v + 1) % 117 = v + 1 by omega] at this
  funext v
  unfold mark hL2
  simp only [h1, h2]
  by_cases hv : v < 117
  · simp [hv]
  · simp [hv]

theorem h_drop (c k : Nat) : ((List.range 168).drop c).take k = (List.range' c (168 - c)).take k := by
  rw [List.range_eq_range', List.drop_range', Nat.zero_add, Nat.mul_one]

/-- Rounds without centers. -/
theorem h_skip (hash : Nat → Nat) {k c r k' : Nat} (h : c + k ≤ 117) (hk : ⌈(k : ℚ) * (3 / 2)⌉₊ = k') :
    Round hG hash (3 / 2) (List.range 168) ⟨hL2, fun _ => none, k, c, r, 4⟩ ⟨hL2, fun _ => none, k', c + k, r + 1, 4⟩ := by
  have hc : centersOf (List.range 168) ⟨hL2, fun _ => none, k, c, r, 4⟩ = [] := by
    unfold centersOf
    rw [List.filter_eq_nil_iff]
    intro v hv
    simp only [List.length_range] at hv
    rw [h_drop] at hv
    have hlt : v < c + k := by
      rw [List.mem_iff_getElem?] at hv
      obtain ⟨i, hi⟩ := hv
      rw [List.getElem?_take] at hi
      split at hi
      · rename_i hik
        rw [List.getElem?_eq_some_iff] at hi
        obtain ⟨hil, hi⟩ := hi
        rw [List.getElem_range'] at hi
        omega
      · cases hi
    have : done (hL2 v) = true := by
      unfold hL2
      rw [if_pos (by omega)]; decide
    simp [this]
  have := Round.skip (G := hG) (hash := hash) (beta := 3 / 2) (Q := List.range 168) ⟨hL2, fun _ => none, k, c, r, 4⟩
    (by show c < (List.range 168).length; rw [List.length_range]; omega) hc
  have e : advance (3 / 2) (List.range 168) ⟨hL2, fun _ => none, k, c, r, 4⟩ hL2 (fun _ => none) =
      ⟨hL2, fun _ => none, k', c + k, r + 1, 4⟩ := by
    unfold advance
    rw [hc]
    simp only [hk, List.length_nil, Nat.add_zero, List.length_range]
    congr 1
    omega
  rw [← e]
  exact this

/-- The state before the round that does not end. -/
def hS : St := ⟨hL2, fun _ => none, 62, 117, 9, 4⟩

theorem h_rounds (hash : Nat → Nat) :
    ReflTransGen (Round hG hash (3 / 2) (List.range 168)) ⟨hL1, fun _ => none, 1, 0, 0, 3⟩ hS := by
  have h1 : Round hG hash (3 / 2) (List.range 168) ⟨hL1, fun _ => none, 1, 0, 0, 3⟩ ⟨hL2, fun _ => none, 2, 1, 1, 4⟩ := by
    have hc : centersOf (List.range 168) ⟨hL1, fun _ => none, 1, 0, 0, 3⟩ = [0] := by decide +kernel
    have := Round.first (G := hG) (hash := hash) (beta := 3 / 2) (Q := List.range 168) ⟨hL1, fun _ => none, 1, 0, 0, 3⟩ 0 [] hL2
      (by show 0 < (List.range 168).length; rw [List.length_range]; omega) hc rfl h_first
    have e : advance (3 / 2) (List.range 168) ⟨hL1, fun _ => none, 1, 0, 0, 3⟩ hL2 (fun _ => none) = ⟨hL2, fun _ => none, 2, 1, 1, 4⟩ := by
      unfold advance
      rw [hc]
      have hb : ⌈((1 : Nat) : ℚ) * (3 / 2)⌉₊ = 2 := by rw [Nat.ceil_eq_iff (by norm_num)]; norm_num
      simp only [hb, List.length_range, List.length_singleton]
      rfl
    rw [← e]
    exact this
  have cl : ∀ k k' : Nat, k' ≠ 0 → ((k' - 1 : ℕ) : ℚ) < (k : ℚ) * (3 / 2) → (k : ℚ) * (3 / 2) ≤ (k' : ℚ) → ⌈(k : ℚ) * (3 / 2)⌉₊ = k' := by
    intro k k' h0 h1 h2
    exact (Nat.ceil_eq_iff h0).2 ⟨h1, h2⟩
  have s2 := h_skip hash (k := 2) (c := 1) (r := 1) (k' := 3) (by omega) (cl _ _ (by omega) (by norm_num) (by norm_num))
  have s3 := h_skip hash (k := 3) (c := 3) (r := 2) (k' := 5) (by omega) (cl _ _ (by omega) (by norm_num) (by norm_num))
  have s4 := h_skip hash (k := 5) (c := 6) (r := 3) (k' := 8) (by omega) (cl _ _ (by omega) (by norm_num) (by norm_num))
  have s5 := h_skip hash (k := 8) (c := 11) (r := 4) (k' := 12) (by omega) (cl _ _ (by omega) (by norm_num) (by norm_num))
  have s6 := h_skip hash (k := 12) (c := 19) (r := 5) (k' := 18) (by omega) (cl _ _ (by omega) (by norm_num) (by norm_num))
  have s7 := h_skip hash (k := 18) (c := 31) (r := 6) (k' := 27) (by omega) (cl _ _ (by omega) (by norm_num) (by norm_num))
  have s8 := h_skip hash (k := 27) (c := 49) (r := 7) (k' := 41) (by omega) (cl _ _ (by omega) (by norm_num) (by norm_num))
  have s9 := h_skip hash (k := 41) (c := 76) (r := 8) (k' := 62) (by omega) (cl _ _ (by omega) (by norm_num) (by norm_num))
  exact ((((((((ReflTransGen.single h1).tail s2).tail s3).tail s4).tail s5).tail s6).tail s7).tail s8).tail s9

theorem h_centers : centersOf (List.range 168) hS = List.range' 117 51 := by decide +kernel

deriving instance DecidableEq for Edge

theorem h_edges : activeEdges (rev hG) (fun v => decide (v ∈ List.range' 117 51)) =
    ⟨117, 117, ()⟩ :: ((List.range' 117 50).map (fun v => ⟨v, v + 1, ()⟩) ++ [⟨167, 168, ()⟩]) := by decide +kernel

theorem h_effDeg : (List.range' 117 51).map (fun v => effDeg (rev hG) hL2 v) = 2 :: List.replicate 49 1 ++ [0] := by decide +kernel

theorem mapM_all {α β : Type} (f : α → Option β) (g : α → β) (l : List α) (h : ∀ x ∈ l, f x = some (g x)) :
    l.mapM f = some (l.map g) := by
  induction l with
  | nil => rfl
  | cons a l ih =>
    rw [List.mapM_cons, h a List.mem_cons_self, ih fun x hx => h x (List.mem_cons_of_mem _ hx)]
    rfl

/-- The pairs of the path. -/
def hPairs : List KV := (List.range 51).flatMap fun j => (List.range (j + 1)).map fun i => (117 + j, 4 + i)

theorem hPairs_nodup : hPairs.Nodup := by
  unfold hPairs
  rw [List.nodup_flatMap]
  refine ⟨fun j _ => List.Nodup.map (fun a b h => ?_) List.nodup_range, List.Pairwise.imp (fun {a b} hab => ?_) List.nodup_range⟩
  · rw [Prod.mk.injEq] at h; omega
  · intro kv h1 h2
    obtain ⟨i, _, rfl⟩ := List.mem_map.1 h1
    obtain ⟨i', _, h⟩ := List.mem_map.1 h2
    rw [Prod.mk.injEq] at h
    omega

/-- C83 fails: a graph with 170 vertices and the default value of `beta`. After the searches from 169 and 0 and eight rounds without
centers there are 51 centers. `multi_search` starts with their labels in the table, `maybe_resize` makes a table of 1024 slots, and a worker
that processes the edges in order never returns from `edgeMap`, however many iterations are allowed. -/
theorem scc_hangs (hash : Nat → Nat) : hG.Ok ∧ ∃ s, Init hG (List.range 168 ++ [169]) s (List.range 168) ∧
    ReflTransGen (Round hG hash (3 / 2) (List.range 168)) s hS ∧ hS.cur < (List.range 168).length ∧
    centersOf (List.range 168) hS = List.range' 117 51 ∧ hS.round + 1 ≠ 1 ∧
    ∃ t0 res, Inserted (startSize 51) hash ((List.range' 117 51).zipIdx hS.off) (fun _ => none) t0 res ∧
      ∃ inc T1, planned (rev hG) hS.lab hash ⟨startSize 51, t0⟩ (List.range' 117 51) = some inc ∧
        Resize hash inc ⟨startSize 51, t0⟩ T1 ∧ T1.m = 1024 ∧
        ∀ f, exec (sparseRun (searchF hS.lab T1.m hash f) (activeEdges (rev hG) fun v => decide (v ∈ List.range' 117 51)) [])
          (mem2 T1.t fun v => if v ∈ List.range' 117 51 then none else hS.bits v) = none := by
  refine ⟨hG_ok, _, h_init, h_rounds hash, (by show 117 < (List.range 168).length; rw [List.length_range]; omega), h_centers, by decide, ?_⟩
  have hsz : startSize 51 = 256 := by decide +kernel
  rw [hsz]
  set kvs := (List.range' 117 51).zipIdx hS.off with hkvs
  have hlen : kvs.length = 51 := by decide +kernel
  have hnd : kvs.Nodup := by decide +kernel
  obtain ⟨t0, res, hins⟩ := insert_exists (m := 256) (hash := hash) (kvs := kvs) (by omega) (wf_new _ hash) (by
    have : entries 256 (fun _ => none) = [] := by simp [entries]
    rw [this, hlen]; decide)
  obtain ⟨hw, hmem, _⟩ := insert_set (by omega) (wf_new _ hash) hins
  have hmem : ∀ kv, Mem 256 t0 kv ↔ kv ∈ kvs := by
    intro kv
    rw [hmem]
    exact ⟨fun h => h.elim (fun ⟨s, _, hs⟩ => (by cases hs)) id, Or.inr⟩
  have hne : (entries 256 t0).length = 51 := by
    rw [← hlen]
    refine List.Perm.length_eq ((List.perm_ext_iff_of_nodup (entries_nodup hw) hnd).2 fun kv => ?_)
    rw [mem_entries, hmem]
  have hfree := exists_free hw (by rw [hne]; decide)
  have hkv : ∀ v x, (v, x) ∈ kvs ↔ 117 ≤ v ∧ v < 168 ∧ x = 4 + (v - 117) := by
    have hk : kvs = (List.range 51).map fun i => (117 + i, 4 + i) := by decide +kernel
    intro v x
    rw [hk, List.mem_map]
    constructor
    · rintro ⟨i, hi, he⟩
      rw [List.mem_range] at hi
      cases he
      omega
    · rintro ⟨h1, h2, h3⟩
      exact ⟨v - 117, List.mem_range.2 (by omega), by rw [Prod.mk.injEq]; omega⟩
  have hplan : planned (rev hG) hS.lab hash ⟨256, t0⟩ (List.range' 117 51) = some 51 := by
    unfold planned
    have : ∀ v ∈ List.range' 117 51, ((numApp 256 hash t0 v 256 0).map (effDeg (rev hG) hS.lab v * ·)) =
        some (effDeg (rev hG) hL2 v) := by
      intro v hv
      rw [List.mem_range'_1] at hv
      obtain ⟨l, _, hl1, hl2, hl3, _⟩ := iter_spec hw hfree v
      have hl : l = [4 + (v - 117)] := by
        refine List.perm_singleton.1 ((List.perm_ext_iff_of_nodup hl1 (List.nodup_singleton _)).2 fun x => ?_)
        rw [hl2, hmem, hkv, List.mem_singleton]
        omega
      rw [hl3, hl]
      simp only [Option.map_some, List.length_singleton, Nat.mul_one]
      rfl
    rw [mapM_all _ _ _ this, Option.map_some, h_effDeg]
    decide
  obtain ⟨T1, hres⟩ := resize_exists (hash := hash) (inc := 51) (T := ⟨256, t0⟩) (by show 0 < 256; omega) hw
  obtain ⟨w1, m1, _, _, _⟩ := resize_spec (by show 0 < 256; omega) hw hres
  have hm1 : T1.m = 1024 := by
    rw [hres.1]
    have : Tab.ne ⟨256, t0⟩ = 51 := hne
    rw [this]
    show grow 256 51 51 = 1024
    decide +kernel
  refine ⟨t0, res, hins, 51, T1, hplan, hres, hm1, fun f => ?_⟩
  rw [h_edges]
  by_contra hcon
  obtain ⟨⟨o, M'⟩, hrun⟩ := Option.ne_none_iff_exists'.1 hcon
  have hlab : ∀ i, i ≤ 50 → hS.lab (117 + i) = 0 := by
    intro i hi
    show hL2 (117 + i) = 0
    unfold hL2 hL1
    rw [if_neg (by omega), if_neg (by omega), if_neg (by omega)]
  obtain ⟨l1, M1, r1, g1, _⟩ := run_edge hrun
  obtain ⟨l2, M2, r2, g2, p2⟩ := run_path 50 117 l1 M1 hlab r1
  -- the labels of the centers are found at the start, ...
  have hstart : ∀ i, i ≤ 50 → Found T1.m hash M1 (117 + i, 4 + i) := by
    intro i hi
    refine Found.mono ?_ g1
    obtain ⟨s, hs, he⟩ := (m1 (117 + i, 4 + i)).2 ((hmem _).2 ((hkv _ _).2 (by omega)))
    obtain ⟨j, _, hjs, hp⟩ := w1.1 s hs (by rw [he]; simp [par])
    rw [he] at hjs hp
    rw [slot_par] at hjs
    refine ⟨j, ?_, fun j' hj' => (hp j' hj').1⟩
    show T1.t _ = _
    rw [show pos T1.m hash (117 + i) j = s from hjs, he]
  -- ... and all pairs at the end
  have hall : ∀ kv ∈ hPairs, kv ∈ entries T1.m fun i => M2 (.slot i) := by
    intro kv hkv
    obtain ⟨j, hj, hi⟩ := List.mem_flatMap.1 hkv
    obtain ⟨i, hir, rfl⟩ := List.mem_map.1 hi
    rw [List.mem_range] at hj hir
    obtain ⟨j', h1, _⟩ := p2 i j (4 + i) (by omega) (by omega) (hstart i (by omega))
    exact mem_entries.2 ⟨_, pos_lt (by omega) hash _ j', h1⟩
  have h1 : hPairs.length ≤ (entries T1.m fun i => M2 (.slot i)).length :=
    (hPairs_nodup.subperm hall).length_le
  have h2 : (entries T1.m fun i => M2 (.slot i)).length ≤ 1024 := by
    unfold entries
    refine (List.length_filterMap_le _ _).trans ?_
    rw [List.length_range, hm1]
  have h3 : hPairs.length = 1326 := by decide +kernel
  omega

/-! ### Runs that return -/

/-- A round of many searches from vertices whose edges all leave their subproblem. -/
theorem multi_exists {G : Gr W} (hG : G.Ok) (lab hash : Nat → Nat) (centers : List Nat) (off : Nat)
    (h : ∀ c ∈ centers, ∀ v, E G c v → done (lab v) = true ∨ lab c ≠ lab v) :
    ∃ T, MultiSearch G lab hash (fun _ => none) centers off T (fun _ => none) ∧ WF T.m hash T.t ∧ ∃ s, s < T.m ∧ T.t s = none := by
  have hpos : 0 < startSize centers.length := initSize_pos _
  have hroom : centers.length * 2 ≤ startSize centers.length := by
    have h1 := le_two_pow_log2Up (centers.length * 2)
    have h2 := le_two_pow_log2Up (11 * 2 ^ log2Up (centers.length * 2) / 10)
    unfold startSize initSize
    omega
  have hnone : entries (startSize centers.length) (fun _ => none) = [] := by simp [entries]
  have hzl : (centers.zipIdx off).length = centers.length := by simp
  obtain ⟨t0, res, hins⟩ := insert_exists (m := startSize centers.length) (hash := hash) (kvs := centers.zipIdx off) hpos (wf_new _ hash) (by
    rw [hnone, hzl, List.length_nil]; omega)
  obtain ⟨hw, hmem, _, _, _, hlen⟩ := insert_set hpos (wf_new _ hash) hins
  rcases hc0 : centers with _ | ⟨c0, cs0⟩
  · subst hc0
    refine ⟨_, ⟨t0, res, hins, .stop _ _⟩, hw, exists_free hw ?_⟩
    rw [hlen, hnone]; exact hpos
  · rw [← hc0]
    have hne0 : centers ≠ [] := by rw [hc0]; simp
    have hcl : 0 < centers.length := List.length_pos_of_ne_nil hne0
    have hne : (entries (startSize centers.length) t0).length ≤ centers.length := by
      rw [hlen, hnone, hzl, List.length_nil, Nat.zero_add]
      refine (List.length_filter_le _ _).trans ?_
      rw [List.length_range]
    have hfree := exists_free hw (by omega)
    obtain ⟨inc, hinc⟩ : ∃ inc, planned G lab hash ⟨startSize centers.length, t0⟩ centers = some inc := by
      unfold planned
      have : ∀ v ∈ centers, ((numApp (startSize centers.length) hash t0 v (startSize centers.length) 0).map (effDeg G lab v * ·)) =
          some (effDeg G lab v * ((numApp (startSize centers.length) hash t0 v (startSize centers.length) 0).getD 0)) := by
        intro v _
        obtain ⟨l, _, _, _, hl, _⟩ := iter_spec hw hfree v
        rw [hl]; rfl
      rw [mapM_all _ _ _ this]
      exact ⟨_, rfl⟩
    obtain ⟨T1, hres⟩ := resize_exists (hash := hash) (inc := inc) (T := ⟨startSize centers.length, t0⟩) hpos hw
    have hrun : ∀ (es : List (Edge W)) (M : Loc → Val), (∀ e ∈ es, done (lab e.d) = true ∨ lab e.s ≠ lab e.d) →
        exec (sparseRun (searchF lab T1.m hash 0) es []) M = some ([], M) := by
      intro es
      induction es with
      | nil => exact fun M _ => rfl
      | cons e es ih =>
        intro M he
        have hrest := ih M fun e' h => he e' (List.mem_cons_of_mem _ h)
        show exec (if !done (lab e.d) then ((if lab e.s = lab e.d then (iter T1.m hash 0 e.s e.d 0 0 false).bind fun ch =>
            if ch then cas (.bit e.d) none (some (0, 0)) fun b => ret (if b then some () else none) else ret none
          else ret none) : Prog Loc Val (Option Unit)).bind fun x => sparseRun (searchF lab T1.m hash 0) es (emit e.d x [])
          else sparseRun (searchF lab T1.m hash 0) es []) M = some ([], M)
        rcases he e List.mem_cons_self with h | h
        · rw [if_neg (by simp [h])]; exact hrest
        · rw [if_neg h]
          split
          · exact hrest
          · exact hrest
    obtain ⟨w1, _, _, a4, a5⟩ := resize_spec (T := ⟨startSize centers.length, t0⟩) hpos hw hres
    have hf1 : ∃ s, s < T1.m ∧ T1.t s = none := by
      refine exists_free w1 ?_
      show T1.ne < T1.m
      have : startSize centers.length ≤ T1.m := a5
      omega
    refine ⟨T1, ⟨t0, res, hins, .step 0 hne0 hinc hres (bits2 := fun _ => none) (t2 := T1.t) (o := []) ?_ (.stop _ _)⟩, w1, hf1⟩
    have hb : (fun v => if v ∈ centers then (none : Val) else none) = fun _ => none := by funext v; split <;> rfl
    rw [hb]
    refine edgeMap_seq _ (mem_activeEdges hG) (hrun _ _ fun e he => ?_)
    obtain ⟨h1, h2⟩ := (mem_activeEdges hG e).1 he
    exact h e.s (by simpa using h1) e.d ⟨_, h2⟩

theorem multi_round_exists {G : Gr W} (hG : G.Ok) (lab hash : Nat → Nat) (centers : List Nat) (off : Nat)
    (h : ∀ c ∈ centers, ∀ v, E G c v → done (lab v) = true ∨ lab c ≠ lab v)
    (h' : ∀ c ∈ centers, ∀ v, E G v c → done (lab v) = true ∨ lab c ≠ lab v) :
    ∃ lab', MultiRound G hash lab (fun _ => none) centers off lab' fun _ => none := by
  obtain ⟨Ti, hi, wi, fi⟩ := multi_exists (rev_ok hG) lab hash centers off fun c hc v hv => h' c hc v ((E_rev hG _ _).1 hv)
  obtain ⟨To, ho, wo, fo⟩ := multi_exists hG lab hash centers off h
  have key : ∀ S L : Tab, WF L.m hash L.t → (∃ s, s < L.m ∧ L.t s = none) → ∃ l, inter hash S L = some l := by
    intro S L wL fL
    refine ⟨_, mapM_all _ (fun kv => (kv.1, if (contains2 L.m hash L.t kv L.m 0).getD false then top + kv.2 else kv.2)) _ fun kv _ => ?_⟩
    obtain ⟨b, hb, _⟩ := contains2_spec wL fL kv
    rw [hb]; rfl
  obtain ⟨l, hl⟩ := key (if Ti.m ≤ To.m then Ti else To) (if Ti.m > To.m then Ti else To) (by split <;> assumption) (by split <;> assumption)
  exact ⟨_, Ti, To, _, l, hi, ho, hl, rfl⟩

/-- 0 → 1, 2 → 3, and the cycle 4, 5, 6. -/
def rG : Gr Unit := Gr.ofLists [[(1, ()), (2, ())], [(3, ())], [(3, ())], [], [(5, ())], [(6, ())], [(4, ())]]
  [[], [(0, ())], [(0, ())], [(1, ()), (2, ())], [(6, ())], [(4, ())], [(5, ())]]

theorem rG_ok : rG.Ok := Gr.ofLists_ok (by decide)

theorem r_E {u v : Nat} (h : E rG u v) : (u, v) ∈ [(0, 1), (0, 2), (1, 3), (2, 3), (4, 5), (5, 6), (6, 4)] := by
  obtain ⟨w, hw⟩ := h
  have hu : u < 7 := (rG_ok.bound _ _ _ hw).1
  have : ∀ u < 7, ∀ x ∈ rG.fwd u, (u, x.1) ∈ [(0, 1), (0, 2), (1, 3), (2, 3), (4, 5), (5, 6), (6, 4)] := by
    unfold rG; decide
  exact this u hu _ hw

theorem r_zero : zero rG = [0, 3] := by decide

theorem r_lab0 (v : Nat) : lab0 rG v = if v = 0 then top + 1 else if v = 3 then top + 2 else 0 := by
  unfold lab0
  rw [r_zero]
  by_cases h0 : v = 0
  · subst h0; decide +kernel
  · by_cases h3 : v = 3
    · subst h3; decide +kernel
    · rw [if_neg (by simp [h0, h3]), if_neg h0, if_neg h3]

/-- The labels after the search from 4. -/
def rL (v : Nat) : Nat := if v = 4 ∨ v = 5 ∨ v = 6 then top + 3 else lab0 rG v

theorem r_first : FirstRound rG (lab0 rG) 4 3 rL := by
  obtain ⟨vin, hin⟩ := first_search_exists (rev_ok rG_ok) (fun v => done (lab0 rG v)) 4
  obtain ⟨vout, hout⟩ := first_search_exists rG_ok (fun v => done (lab0 rG v)) 4
  have hnd : ∀ v, v = 4 ∨ v = 5 ∨ v = 6 → done (lab0 rG v) = false := by
    intro v hv
    rw [r_lab0, if_neg (by omega), if_neg (by omega)]
    decide +kernel
  have hvi : ∀ v, vin v ≠ 0 ↔ v = 4 ∨ v = 5 ∨ v = 6 := by
    intro v
    rw [first_search (rev_ok rG_ok) hin]
    constructor
    · intro h
      induction h with
      | refl => exact Or.inl rfl
      | tail _ h ih =>
        have := r_E ((E_rev rG_ok _ _).1 h.1)
        simp only [List.mem_cons, Prod.mk.injEq, List.not_mem_nil, or_false] at this
        omega
    · have h6 : ReflTransGen (Open (rev rG) fun v => done (lab0 rG v)) 4 6 :=
        ReflTransGen.single ⟨⟨(), by decide⟩, hnd 6 (by omega)⟩
      rintro (rfl | rfl | rfl)
      · exact .refl
      · exact h6.tail ⟨⟨(), by decide⟩, hnd 5 (by omega)⟩
      · exact h6
  have hvo : ∀ v, vout v ≠ 0 ↔ v = 4 ∨ v = 5 ∨ v = 6 := by
    intro v
    rw [first_search rG_ok hout]
    constructor
    · intro h
      induction h with
      | refl => exact Or.inl rfl
      | tail _ h ih =>
        have := r_E h.1
        simp only [List.mem_cons, Prod.mk.injEq, List.not_mem_nil, or_false] at this
        omega
    · have h5 : ReflTransGen (Open rG fun v => done (lab0 rG v)) 4 5 :=
        ReflTransGen.single ⟨⟨(), by decide⟩, hnd 5 (by omega)⟩
      rintro (rfl | rfl | rfl)
      · exact .refl
      · exact h5
      · exact h5.tail ⟨⟨(), by decide⟩, hnd 6 (by omega)⟩
  refine ⟨vin, vout, hin, hout, ?_⟩
  funext v
  unfold mark rL
  simp only [hvi, hvo]
  by_cases hv : v = 4 ∨ v = 5 ∨ v = 6
  · simp [hv]
  · simp [hv]

theorem r_init : Init rG [4, 1, 2, 5, 6] ⟨lab0 rG, fun _ => none, 1, 0, 0, 3⟩ [4, 1, 2, 5, 6] := by
  refine ⟨by decide, ⟨lab0 rG, 3, ?_, rfl⟩, by decide +kernel⟩
  have hst : start rG = 0 := by decide
  rw [hst, if_pos (by decide +kernel)]
  exact ⟨rfl, by rw [r_zero]; rfl⟩

theorem r_returns (hash : Nat → Nat) : ∃ res, SCC rG hash 2 res := by
  have ceil2 : ∀ k : Nat, ⌈(k : ℚ) * 2⌉₊ = k * 2 := by
    intro k
    have : ((k : ℚ) * 2) = ((k * 2 : ℕ) : ℚ) := by push_cast; rfl
    rw [this, Nat.ceil_natCast]
  have hc1 : centersOf [4, 1, 2, 5, 6] ⟨lab0 rG, fun _ => none, 1, 0, 0, 3⟩ = [4] := by decide +kernel
  have r1 := Round.first (G := rG) (hash := hash) (beta := 2) (Q := [4, 1, 2, 5, 6]) ⟨lab0 rG, fun _ => none, 1, 0, 0, 3⟩ 4 [] rL
    (by decide) hc1 rfl r_first
  have e1 : advance 2 [4, 1, 2, 5, 6] ⟨lab0 rG, fun _ => none, 1, 0, 0, 3⟩ rL (fun _ => none) = ⟨rL, fun _ => none, 2, 1, 1, 4⟩ := by
    unfold advance
    rw [hc1]
    simp only [ceil2]
    rfl
  have hc2 : centersOf [4, 1, 2, 5, 6] ⟨rL, fun _ => none, 2, 1, 1, 4⟩ = [1, 2] := by decide +kernel
  have d0 : done (rL 0) = true := by decide +kernel
  have d3 : done (rL 3) = true := by decide +kernel
  obtain ⟨lab', hm⟩ := multi_round_exists rG_ok rL hash [1, 2] 4 (fun c hc v hv => by
    have h := r_E hv
    simp only [List.mem_cons, Prod.mk.injEq, List.not_mem_nil, or_false] at h hc
    have : v = 3 := by omega
    subst this; exact Or.inl d3) (fun c hc v hv => by
    have h := r_E hv
    simp only [List.mem_cons, Prod.mk.injEq, List.not_mem_nil, or_false] at h hc
    have : v = 0 := by omega
    subst this; exact Or.inl d0)
  have r2 := Round.multi (G := rG) (hash := hash) (beta := 2) (Q := [4, 1, 2, 5, 6]) ⟨rL, fun _ => none, 2, 1, 1, 4⟩ lab' (fun _ => none)
    (by decide) (by rw [hc2]; simp) (by decide) (by rw [hc2]; exact hm)
  have e2 : advance 2 [4, 1, 2, 5, 6] ⟨rL, fun _ => none, 2, 1, 1, 4⟩ lab' (fun _ => none) = ⟨lab', fun _ => none, 4, 3, 2, 6⟩ := by
    unfold advance
    rw [hc2]
    simp only [ceil2]
    rfl
  -- done vertices stay done
  have hmax := (multi_max rG_ok (fun c hc => by
    simp only [List.mem_cons, List.not_mem_nil, or_false] at hc
    rcases hc with rfl | rfl <;> decide +kernel) (fun _ => rfl) hm).2
  have hd : ∀ v, v = 5 ∨ v = 6 → done (lab' v) = true := by
    intro v hv
    have h1 := (hmax v).1
    have h2 : rL v = top + 3 := by unfold rL; rw [if_pos (by omega)]
    rw [done_iff]; omega
  have hc3 : centersOf [4, 1, 2, 5, 6] ⟨lab', fun _ => none, 4, 3, 2, 6⟩ = [] := by
    show ([5, 6].filter fun v => !done (lab' v)) = []
    simp [hd]
  have r3 := Round.skip (G := rG) (hash := hash) (beta := 2) (Q := [4, 1, 2, 5, 6]) ⟨lab', fun _ => none, 4, 3, 2, 6⟩
    (show 3 < 5 by decide) hc3
  rw [e1] at r1
  rw [e2] at r2
  exact ⟨_, _, _, _, _, r_init, ((ReflTransGen.single r1).tail r2).tail r3, show ¬ 5 < 5 by decide, fun _ => rfl⟩

/-- A call that returns: the vertex of largest degree has no in-edges; 4, 5, 6 are found by the first search, 1 and 2 by many searches.
The theorems apply to it. -/
example (hash : Nat → Nat) : ∃ res, SCC rG hash 2 res ∧ res 4 = res 6 ∧ res 1 ≠ res 2 ∧ res 0 < 7 ∧ numScc 7 res = 5 := by
  obtain ⟨res, h⟩ := r_returns hash
  obtain ⟨h1, h2⟩ := scc_partial rG_ok (by decide) (by decide +kernel) h
  have s46 : Strong rG 4 6 := ⟨(ReflTransGen.single (b := 5) ⟨(), by decide⟩).tail ⟨(), by decide⟩, ReflTransGen.single ⟨(), by decide⟩⟩
  have s45 : Strong rG 4 5 := ⟨ReflTransGen.single ⟨(), by decide⟩, (ReflTransGen.single (b := 6) ⟨(), by decide⟩).tail ⟨(), by decide⟩⟩
  have hup : ∀ u v, ReflTransGen (E rG) u v → u < 4 → u ≤ v ∧ (v = u ∨ ¬ (u = 1 ∧ v = 2)) := by
    intro u v huv hu
    induction huv with
    | refl => exact ⟨Nat.le_refl _, Or.inl rfl⟩
    | tail _ h ih =>
      have := r_E h
      simp only [List.mem_cons, Prod.mk.injEq, List.not_mem_nil, or_false] at this
      omega
  have hcyc : ∀ u v, ReflTransGen (E rG) u v → 4 ≤ u → 4 ≤ v := by
    intro u v huv hu
    induction huv with
    | refl => exact hu
    | tail _ h ih =>
      have := r_E h
      simp only [List.mem_cons, Prod.mk.injEq, List.not_mem_nil, or_false] at this
      omega
  have hns : ∀ u v, u < v → u < 4 → ¬ Strong rG u v := by
    rintro u v huv hu ⟨ha, hb⟩
    by_cases hv : v < 4
    · have := (hup v u hb hv).1
      omega
    · have := hcyc v u hb (by omega)
      omega
  refine ⟨res, h, (h1 4 6 (by decide) (by decide)).2 s46, fun he => hns 1 2 (by omega) (by omega) ((h1 1 2 (by decide) (by decide)).1 he),
    h2 0 (by decide), ?_⟩
  refine ((scc_count_partial rG_ok (by decide) (by decide +kernel) h).2 [0, 1, 2, 3, 4] ⟨?_, ?_, ?_⟩).symm
  · decide
  · simp only [List.pairwise_cons, List.mem_cons, List.not_mem_nil, or_false, IsEmpty.forall_iff, implies_true, List.Pairwise.nil, and_true]
    refine ⟨fun v hv => hns _ _ (by omega) (by omega), fun v hv => hns _ _ (by omega) (by omega), fun v hv => hns _ _ (by omega) (by omega),
      fun v hv => hns _ _ (by omega) (by omega)⟩
  · intro v hv
    have hv : v < 7 := hv
    rcases (by omega : v < 4 ∨ v = 4 ∨ v = 5 ∨ v = 6) with h | rfl | rfl | rfl
    · exact ⟨v, by simp; omega, Strong.refl v⟩
    · exact ⟨4, by simp, Strong.refl 4⟩
    · exact ⟨4, by simp, s45⟩
    · exact ⟨4, by simp, s46⟩

end Gbbs.Scc
