/-
One `edgeMap` call with a client that only reads data that nobody writes during the call.
-/
import Verif.EdgeMap.Total

namespace Gbbs.Em

open Conc Conc.Prog
open Atomics (Steps)

variable {W L V : Type}

/-- A client without side effects: `cond` and `update` are functions. -/
def pureF (c : Nat → Bool) (u : Nat → Nat → W → Bool) : Func W L V Unit where
  cond d := ret (c d)
  upd s d w := ret (if u s d w then some () else none)
  updA s d w := ret (if u s d w then some () else none)

variable {c : Nat → Bool} {u : Nat → Nat → W → Bool}

theorem mem_emit {d v : Nat} {b : Bool} {l : List (Nat × Unit)} : (v, ()) ∈ emit d (if b then some () else none) l ↔ (b = true ∧ v = d) ∨ (v, ()) ∈ l := by
  cases b <;> simp [emit]

theorem sparseRun_pure (es : List (Edge W)) (l : List (Nat × Unit)) :
    ∃ o, sparseRun (pureF c u : Func W L V Unit) es l = ret o ∧ ∀ v, (v, ()) ∈ o ↔ (v, ()) ∈ l ∨ ∃ e ∈ es, e.d = v ∧ c v = true ∧ u e.s v e.w = true := by
  induction es generalizing l with
  | nil => exact ⟨l, rfl, fun v => by simp⟩
  | cons e es ih =>
    by_cases hc : c e.d = true
    · obtain ⟨o, h1, h2⟩ := ih (emit e.d (if u e.s e.d e.w then some () else none) l)
      refine ⟨o, ?_, fun v => ?_⟩
      · show (if c e.d = true then _ else _) = _
        rw [if_pos hc]; exact h1
      · rw [h2, mem_emit]
        constructor
        · rintro ((⟨h3, rfl⟩ | h) | ⟨e', h3, h4⟩)
          · exact .inr ⟨e, List.mem_cons_self, rfl, hc, h3⟩
          · exact .inl h
          · exact .inr ⟨e', List.mem_cons_of_mem _ h3, h4⟩
        · rintro (h | ⟨e', h3, h4⟩)
          · exact .inl (.inr h)
          · rcases List.mem_cons.1 h3 with rfl | h3
            · obtain ⟨rfl, -, h5⟩ := h4
              exact .inl (.inl ⟨h5, rfl⟩)
            · exact .inr ⟨e', h3, h4⟩
    · obtain ⟨o, h1, h2⟩ := ih l
      refine ⟨o, ?_, fun v => ?_⟩
      · show (if c e.d = true then _ else _) = _
        rw [if_neg hc]; exact h1
      · rw [h2]
        refine or_congr_right ⟨fun ⟨e', h3, h4⟩ => ⟨e', List.mem_cons_of_mem _ h3, h4⟩, fun ⟨e', h3, h4⟩ => ?_⟩
        rcases List.mem_cons.1 h3 with rfl | h3
        · exact absurd (h4.1 ▸ h4.2.1) hc
        · exact ⟨e', h3, h4⟩

theorem denseRun_pure {inF : Nat → Bool} {v : Nat} (us : List (Nat × W)) (l : List (Nat × Unit)) :
    ∃ o, denseRun (pureF c u : Func W L V Unit) (fun s d w => ret (if u s d w then some () else none)) inF v us l = ret o ∧
      ∀ x, (x, ()) ∈ o ↔ (x, ()) ∈ l ∨ x = v ∧ ∃ e ∈ us, inF e.1 = true ∧ c v = true ∧ u e.1 v e.2 = true := by
  induction us generalizing l with
  | nil => exact ⟨l, rfl, fun v => by simp⟩
  | cons e us ih =>
    by_cases hc : c v = true
    · by_cases hi : inF e.1 = true
      · obtain ⟨o, h1, h2⟩ := ih (emit v (if u e.1 v e.2 then some () else none) l)
        refine ⟨o, ?_, fun x => ?_⟩
        · show (if c v = true then _ else _) = _
          rw [if_pos hc]
          show (if inF e.1 = true then _ else _) = _
          rw [if_pos hi]; exact h1
        · rw [h2, mem_emit]
          constructor
          · rintro ((⟨h3, rfl⟩ | h) | ⟨rfl, e', h3, h4⟩)
            · exact .inr ⟨rfl, e, List.mem_cons_self, hi, hc, h3⟩
            · exact .inl h
            · exact .inr ⟨rfl, e', List.mem_cons_of_mem _ h3, h4⟩
          · rintro (h | ⟨rfl, e', h3, h4⟩)
            · exact .inl (.inr h)
            · rcases List.mem_cons.1 h3 with rfl | h3
              · exact .inl (.inl ⟨h4.2.2, rfl⟩)
              · exact .inr ⟨rfl, e', h3, h4⟩
      · obtain ⟨o, h1, h2⟩ := ih l
        refine ⟨o, ?_, fun x => ?_⟩
        · show (if c v = true then _ else _) = _
          rw [if_pos hc]
          show (if inF e.1 = true then _ else _) = _
          rw [if_neg hi]; exact h1
        · rw [h2]
          refine or_congr_right (and_congr_right fun _ => ⟨fun ⟨e', h3, h4⟩ => ⟨e', List.mem_cons_of_mem _ h3, h4⟩, fun ⟨e', h3, h4⟩ => ?_⟩)
          rcases List.mem_cons.1 h3 with rfl | h3
          · exact absurd h4.1 hi
          · exact ⟨e', h3, h4⟩
    · refine ⟨l, ?_, fun x => ⟨.inl, ?_⟩⟩
      · show (if c v = true then _ else _) = _
        rw [if_neg hc]
      · rintro (h | ⟨-, e', -, -, h, -⟩)
        · exact h
        · exact absurd h hc

theorem steps_ret [DecidableEq L] [DecidableEq V] {ι α : Type} [DecidableEq ι] {m m' : L → V} {th th' : ι → Prog L V α} {o : ι → α} (ho : ∀ i, th i = ret (o i))
    (h : Steps Step (⟨m, th⟩ : Conf ι L V α) ⟨m', th'⟩) : m' = m ∧ th' = th := by
  have aux : ∀ c : Conf ι L V α, Steps Step ⟨m, th⟩ c → c = ⟨m, th⟩ := by
    intro c hc
    induction hc with
    | refl => rfl
    | tail _ hs ih =>
      subst ih
      obtain ⟨i, m1, p1, h1, -⟩ := hs
      rw [show (⟨m, th⟩ : Conf ι L V α).th i = ret (o i) from ho i] at h1
      cases h1
  have := aux _ h
  injection this with h1 h2
  exact ⟨h1, h2⟩

theorem mem_block {α : Type} {l : List α} {x : α} : x ∈ l ↔ ∃ b, b < l.length / 2048 + 1 ∧ x ∈ (l.drop (b * 2048)).take (min ((b + 1) * 2048) l.length - b * 2048) := by
  constructor
  · intro h
    obtain ⟨k, hk, rfl⟩ := List.mem_iff_getElem.1 h
    refine ⟨k / 2048, by have := Nat.div_le_div_right (c := 2048) (Nat.le_of_lt hk); omega, ?_⟩
    refine List.mem_iff_getElem.2 ⟨k - k / 2048 * 2048, ?_, ?_⟩
    · rw [List.length_take, List.length_drop]
      have := Nat.div_add_mod k 2048
      have := Nat.mod_lt k (show 0 < 2048 by omega)
      omega
    · rw [List.getElem_take, List.getElem_drop]
      congr 1
      have := Nat.div_mul_le_self k 2048
      omega
  · rintro ⟨b, -, h⟩
    exact List.mem_of_mem_drop (List.mem_of_mem_take h)

/-- The next frontier are the vertices that satisfy `cond` and have an edge from the frontier that satisfies `update`, for every traversal. -/
theorem edgeMap_pure [DecidableEq L] [DecidableEq V] {G : Gr W} (hG : G.Ok) {inF : Nat → Bool} {m m' : L → V} {o : List (Nat × Unit)}
    (h : EdgeMap (pureF c u : Func W L V Unit) G inF m m' o) (v : Nat) :
    v ∈ o.map Prod.fst ↔ ∃ s w, inF s = true ∧ (v, w) ∈ G.fwd s ∧ c v = true ∧ u s v w = true := by
  obtain ⟨th, hth, out, hs, hc⟩ := h
  have hout : ∀ q : Nat × Nat → List (Nat × Unit), (∀ i, th i = ret (q i)) → out = q := by
    intro q hq
    obtain ⟨-, h2⟩ := steps_ret hq hs
    funext i
    have := congrFun h2 i
    rw [hq i] at this
    injection this
  have key : (∃ i, (v, ()) ∈ out i) ↔ ∃ s w, inF s = true ∧ (v, w) ∈ G.fwd s ∧ c v = true ∧ u s v w = true := by
    cases hth with
    | dense par =>
      have hq : ∀ i : Nat × Nat, ∃ q, denseProg (pureF c u : Func W L V Unit) G inF par i = ret q ∧ ∀ x, (x, ()) ∈ q ↔ i.1 < G.n ∧ x = i.1 ∧
          ∃ e ∈ (if !par || decide ((G.bwd i.1).length < 1000) then (if i.2 = 0 then G.bwd i.1 else []) else
            if i.2 < (G.bwd i.1).length / 2048 + 1 then ((G.bwd i.1).drop (i.2 * 2048)).take (min ((i.2 + 1) * 2048) (G.bwd i.1).length - i.2 * 2048) else []),
            inF e.1 = true ∧ c i.1 = true ∧ u e.1 i.1 e.2 = true := by
        rintro ⟨v, b⟩
        unfold denseProg
        dsimp only
        by_cases hv : v < G.n
        · rw [if_pos hv]
          by_cases hp : (!par || decide ((G.bwd v).length < 1000)) = true
          · rw [if_pos hp, if_pos hp]
            by_cases hb : b = 0
            · rw [if_pos hb, if_pos hb]
              obtain ⟨q, h1, h2⟩ := denseRun_pure (c := c) (u := u) (L := L) (V := V) (inF := inF) (v := v) (G.bwd v) []
              exact ⟨q, h1, fun x => by rw [h2]; simp [hv]⟩
            · rw [if_neg hb, if_neg hb]
              exact ⟨[], rfl, fun x => by simp⟩
          · rw [if_neg hp, if_neg hp]
            by_cases hb : b < (G.bwd v).length / 2048 + 1
            · rw [if_pos hb, if_pos hb]
              obtain ⟨q, h1, h2⟩ := denseRun_pure (c := c) (u := u) (L := L) (V := V) (inF := inF) (v := v)
                (((G.bwd v).drop (b * 2048)).take (min ((b + 1) * 2048) (G.bwd v).length - b * 2048)) []
              by_cases hcv : c v = true
              · refine ⟨q, ?_, fun x => by rw [h2]; simp [hv]⟩
                show (if c v = true then (if c v = true then _ else _) else _) = _
                rw [if_pos hcv, if_pos hcv]; exact h1
              · refine ⟨[], ?_, fun x => ⟨fun h => (by cases h), ?_⟩⟩
                · show (if c v = true then (if c v = true then _ else _) else _) = _
                  rw [if_neg hcv]
                · rintro ⟨-, -, e, -, -, h, -⟩
                  exact absurd h hcv
            · rw [if_neg hb, if_neg hb]
              exact ⟨[], rfl, fun x => by simp⟩
        · rw [if_neg hv]
          exact ⟨[], rfl, fun x => by simp [hv]⟩
      choose q hq1 hq2 using hq
      rw [hout q hq1]
      constructor
      · rintro ⟨i, hi⟩
        obtain ⟨-, rfl, e, he, h1, h2, h3⟩ := (hq2 i v).1 hi
        refine ⟨e.1, e.2, h1, (hG.same _ _ _).2 ?_, h2, h3⟩
        split at he
        · split at he
          · exact he
          · cases he
        · split at he
          · exact List.mem_of_mem_drop (List.mem_of_mem_take he)
          · cases he
      · rintro ⟨s, w, h1, h2, h3, h4⟩
        have hb := (hG.same _ _ _).1 h2
        by_cases hp : (!par || decide ((G.bwd v).length < 1000)) = true
        · exact ⟨(v, 0), (hq2 _ _).2 ⟨(hG.bound _ _ _ h2).2, rfl, (s, w), by rw [if_pos hp, if_pos rfl]; exact hb, h1, h3, h4⟩⟩
        · obtain ⟨b, h5, h6⟩ := mem_block.1 hb
          exact ⟨(v, b), (hq2 _ _).2 ⟨(hG.bound _ _ _ h2).2, rfl, (s, w), by rw [if_neg hp, if_pos h5]; exact h6, h1, h3, h4⟩⟩
    | forward =>
      have hq : ∀ i : Nat × Nat, ∃ q, forwardProg (pureF c u : Func W L V Unit) G inF i = ret q ∧ ∀ x, (x, ()) ∈ q ↔
          i.1 < G.n ∧ inF i.1 = true ∧ ∃ w, (G.fwd i.1)[i.2]? = some (x, w) ∧ c x = true ∧ u i.1 x w = true := by
        rintro ⟨s, j⟩
        unfold forwardProg
        dsimp only
        by_cases hs : s < G.n ∧ inF s = true
        · rw [if_pos hs]
          cases hd : (G.fwd s)[j]? with
          | none => exact ⟨[], rfl, fun x => by simp⟩
          | some d =>
            obtain ⟨q, h1, h2⟩ := sparseRun_pure (c := c) (u := u) (L := L) (V := V) [⟨s, d.1, d.2⟩] []
            refine ⟨q, h1, fun x => ?_⟩
            rw [h2]
            constructor
            · rintro (h | ⟨e, he, rfl, h3, h4⟩)
              · cases h
              · rw [List.mem_singleton] at he
                subst he
                exact ⟨hs.1, hs.2, d.2, rfl, h3, h4⟩
            · rintro ⟨-, -, w, he, h3, h4⟩
              injection he with he
              subst he
              exact .inr ⟨_, List.mem_singleton.2 rfl, rfl, h3, h4⟩
        · rw [if_neg hs]
          exact ⟨[], rfl, fun x => ⟨fun h => (by cases h), fun h => absurd ⟨h.1, h.2.1⟩ hs⟩⟩
      choose q hq1 hq2 using hq
      rw [hout q hq1]
      constructor
      · rintro ⟨i, hi⟩
        obtain ⟨-, h1, w, h2, h3, h4⟩ := (hq2 i v).1 hi
        exact ⟨i.1, w, h1, List.mem_of_getElem? h2, h3, h4⟩
      · rintro ⟨s, w, h1, h2, h3, h4⟩
        obtain ⟨j, hj⟩ := List.mem_iff_getElem?.1 h2
        exact ⟨(s, j), (hq2 _ _).2 ⟨(hG.bound _ _ _ h2).1, h1, w, hj, h3, h4⟩⟩
    | chunked work hw =>
      have hq : ∀ i, ∃ q, sparseRun (pureF c u : Func W L V Unit) (work i) [] = ret q ∧ ∀ x, (x, ()) ∈ q ↔ ∃ e ∈ work i, e.d = x ∧ c x = true ∧ u e.s x e.w = true := by
        intro i
        obtain ⟨q, h1, h2⟩ := sparseRun_pure (c := c) (u := u) (L := L) (V := V) (work i) []
        exact ⟨q, h1, fun x => by rw [h2]; simp⟩
      choose q hq1 hq2 using hq
      rw [hout q hq1]
      constructor
      · rintro ⟨i, hi⟩
        obtain ⟨e, he, rfl, h1, h2⟩ := (hq2 i v).1 hi
        have := (hw e).1 ⟨i, he⟩
        exact ⟨e.s, e.w, this.1, this.2, h1, h2⟩
      · rintro ⟨s, w, h1, h2, h3, h4⟩
        obtain ⟨i, hi⟩ := (hw ⟨s, v, w⟩).2 ⟨h1, h2⟩
        exact ⟨i, (hq2 i v).2 ⟨_, hi, rfl, h3, h4⟩⟩
  rw [← key, List.mem_map]
  constructor
  · rintro ⟨⟨x, y⟩, hx, rfl⟩
    exact hc.sub _ hx
  · rintro ⟨i, hi⟩
    obtain ⟨y, hy⟩ := hc.all i v () hi
    exact ⟨_, hy, rfl⟩

theorem pureF_exists [DecidableEq L] [DecidableEq V] {G : Gr W} (hG : G.Ok) (c : Nat → Bool) (u : Nat → Nat → W → Bool) (inF : Nat → Bool) (m : L → V) :
    ∃ m' o, EdgeMap (pureF c u : Func W L V Unit) G inF m m' o :=
  edgeMap_exists (fun _ => total_ret _) (fun _ _ _ => total_ret _) hG inF m

end Gbbs.Em
