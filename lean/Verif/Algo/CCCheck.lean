/-
C92: the checker `cc_check` of the `-check` options, `benchmarks/Connectivity/ConnectIt/mains/check.h:35-79` and
`benchmarks/SpanningForest/check.h:26-75`.
-/
import Verif.Conc.Par
import Mathlib.Tactic.ByContra

namespace Gbbs.CCCheck

open Conc

/-! ### Model -/

/-- The loop of `RelabelDet`, `check.h:40-51`, on the remaining ids with `component_map = m` (of size `n + 1`) and
`cur_comp = cur`; `none` for an access outside of `component_map`. `cur_comp` is at most `n` and does not overflow. -/
def go (n : Nat) : List Nat → (Nat → Nat) → Nat → Option (List Nat)
  | [], _, _ => some []
  | c :: l, m, cur =>
    if c ≤ n then
      if m c = 0 then (go n l (put m c cur) (cur + 1)).map fun r => cur :: r
      else (go n l m cur).map fun r => m c :: r
    else none

/-- `RelabelDet`, `check.h:36-52`. -/
def relabelDet (l : List Nat) : Option (List Nat) := go l.length l (fun _ => 0) 0

/-- `cc_check`, where `correct` has been relabelled by the caller or by `cc_check` itself: `some true` if it reports success,
`some false` if it aborts, `none` for undefined behaviour. -/
def ccCheck (correct check : List Nat) : Option Bool :=
  (relabelDet correct).bind fun a => (relabelDet check).map fun b => a == b

/-! ### Specification -/

/-- Two labellings, given as a list of pairs, describe the same partition. -/
def SamePartition (l : List (Nat × Nat)) : Prop := ∀ p ∈ l, ∀ q ∈ l, (p.1 = q.1 ↔ p.2 = q.2)

/-! ### Proofs -/

theorem go_map {n : Nat} {l : List Nat} {m : Nat → Nat} {cur : Nat} {r : List Nat} (h1 : 1 ≤ cur) (hlt : ∀ c, m c < cur)
    (hinj : ∀ c d, m c ≠ 0 → m c = m d → c = d) (h : go n l m cur = some r) :
    ∃ M : Nat → Nat, (∀ c, m c ≠ 0 → M c = m c) ∧ (∀ c d, M c ≠ 0 → M c = M d → c = d) ∧ (∀ c ∈ l, M c ≠ 0) ∧ r = l.map M := by
  induction l generalizing m cur r with
  | nil => cases h; exact ⟨m, fun _ _ => rfl, hinj, fun _ h => (by cases h), rfl⟩
  | cons c l ih =>
    rw [go] at h
    split at h
    · split at h
      · rename_i h0
        rw [Option.map_eq_some_iff] at h
        obtain ⟨r', h2, rfl⟩ := h
        obtain ⟨M, k1, k2, k3, rfl⟩ := ih (m := put m c cur) (by omega)
          (fun d => by
            by_cases hd : d = c
            · subst hd; rw [put_same]; omega
            · rw [put_ne _ _ hd]; have := hlt d; omega)
          (fun d e hd he => by
            by_cases hdc : d = c
            · subst hdc
              by_cases hec : e = d
              · exact hec.symm
              · rw [put_same, put_ne _ _ hec] at he
                have := hlt e; omega
            · rw [put_ne _ _ hdc] at hd he
              by_cases hec : e = c
              · subst hec
                rw [put_same] at he
                have := hlt d; omega
              · rw [put_ne _ _ hec] at he
                exact hinj d e hd he) h2
        have hc := k1 c (by rw [put_same]; omega)
        rw [put_same] at hc
        refine ⟨M, fun d hd => ?_, k2, fun d hd => ?_, by rw [List.map_cons, hc]⟩
        · have hne : d ≠ c := fun e => by subst e; exact hd h0
          rw [k1 d (by rw [put_ne _ _ hne]; exact hd), put_ne _ _ hne]
        · rcases List.mem_cons.1 hd with rfl | hd
          · rw [hc]; omega
          · exact k3 d hd
      · rename_i h0
        rw [Option.map_eq_some_iff] at h
        obtain ⟨r', h2, rfl⟩ := h
        obtain ⟨M, k1, k2, k3, rfl⟩ := ih h1 hlt hinj h2
        refine ⟨M, k1, k2, fun d hd => ?_, by rw [List.map_cons, k1 c h0]⟩
        rcases List.mem_cons.1 hd with rfl | hd
        · rw [k1 _ h0]; exact h0
        · exact k3 d hd
    · cases h

theorem go_eq {n : Nat} {l : List (Nat × Nat)} {m1 m2 : Nat → Nat} {cur : Nat} (hb : ∀ p ∈ l, p.1 ≤ n ∧ p.2 ≤ n)
    (hm : ∀ p ∈ l, m1 p.1 = m2 p.2) (hl : SamePartition l) :
    go n (l.map Prod.fst) m1 cur = go n (l.map Prod.snd) m2 cur := by
  induction l generalizing m1 m2 cur with
  | nil => rfl
  | cons p l ih =>
    have hb' := hb p List.mem_cons_self
    have hp := hm p List.mem_cons_self
    have hl' : SamePartition l := fun a ha b hb => hl a (List.mem_cons_of_mem _ ha) b (List.mem_cons_of_mem _ hb)
    have hb2 : ∀ p ∈ l, p.1 ≤ n ∧ p.2 ≤ n := fun a ha => hb a (List.mem_cons_of_mem _ ha)
    rw [List.map_cons, List.map_cons, go, go, if_pos hb'.1, if_pos hb'.2]
    by_cases h0 : m1 p.1 = 0
    · rw [if_pos h0, if_pos (hp ▸ h0), ih hb2 (fun q hq => ?_) hl']
      have hiff := hl q (List.mem_cons_of_mem _ hq) p List.mem_cons_self
      by_cases he : q.1 = p.1
      · rw [he, hiff.1 he, put_same, put_same]
      · rw [put_ne _ _ he, put_ne _ _ fun h => he (hiff.2 h)]
        exact hm q (List.mem_cons_of_mem _ hq)
    · rw [if_neg h0, if_neg (hp ▸ h0), hp, ih hb2 (fun q hq => hm q (List.mem_cons_of_mem _ hq)) hl']

theorem go_some {n : Nat} {l : List Nat} {m : Nat → Nat} {cur : Nat} (hb : ∀ c ∈ l, c ≤ n) : ∃ r, go n l m cur = some r := by
  induction l generalizing m cur with
  | nil => exact ⟨_, rfl⟩
  | cons c l ih =>
    rw [go, if_pos (hb c List.mem_cons_self)]
    have hb' : ∀ c ∈ l, c ≤ n := fun a ha => hb a (List.mem_cons_of_mem _ ha)
    split
    · obtain ⟨r, hr⟩ := ih (m := put m c cur) (cur := cur + 1) hb'
      rw [hr]; exact ⟨_, rfl⟩
    · obtain ⟨r, hr⟩ := ih (m := m) (cur := cur) hb'
      rw [hr]; exact ⟨_, rfl⟩

/-- Vertex 0 always gets the label 0, and its class is then unknown to the map. -/
theorem relabelDet_cons {c : Nat} {l : List Nat} (hc : c ≤ l.length + 1) :
    relabelDet (c :: l) = (go (l.length + 1) l (fun _ => 0) 1).map fun r => 0 :: r := by
  rw [relabelDet, List.length_cons, go, if_pos hc, if_pos rfl]
  congr 2
  funext x
  by_cases hx : x = c
  · subst hx; rw [put_same]
  · rw [put_ne _ _ hx]

/-- What `cc_check` decides: whether the two labellings (of at least one vertex) describe the same partition of the vertices
other than the first. -/
theorem ccCheck_iff {a b : Nat} {l : List (Nat × Nat)} (h0 : a ≤ l.length + 1 ∧ b ≤ l.length + 1)
    (hb : ∀ p ∈ l, p.1 ≤ l.length + 1 ∧ p.2 ≤ l.length + 1) :
    ∃ r, ccCheck (a :: l.map Prod.fst) (b :: l.map Prod.snd) = some r ∧ (r = true ↔ SamePartition l) := by
  obtain ⟨r1, h1⟩ := go_some (n := l.length + 1) (l := l.map Prod.fst) (m := fun _ => 0) (cur := 1) fun c hc => by
    obtain ⟨p, hp, rfl⟩ := List.mem_map.1 hc; exact (hb p hp).1
  obtain ⟨r2, h2⟩ := go_some (n := l.length + 1) (l := l.map Prod.snd) (m := fun _ => 0) (cur := 1) fun c hc => by
    obtain ⟨p, hp, rfl⟩ := List.mem_map.1 hc; exact (hb p hp).2
  refine ⟨r1 == r2, ?_, ?_⟩
  · rw [ccCheck, relabelDet_cons (by simpa using h0.1), relabelDet_cons (by simpa using h0.2)]
    simp only [List.length_map, h1, h2, Option.map_some, Option.bind_some]
    simp
  · obtain ⟨M1, -, i1, n1, rfl⟩ := go_map (by omega) (fun _ => by omega) (fun _ _ h => absurd rfl h) h1
    obtain ⟨M2, -, i2, n2, rfl⟩ := go_map (by omega) (fun _ => by omega) (fun _ _ h => absurd rfl h) h2
    rw [beq_iff_eq]
    constructor
    · intro he p hp q hq
      rw [List.map_map, List.map_map, List.map_inj_left] at he
      have e1 : M1 p.1 = M2 p.2 := he p hp
      have e2 : M1 q.1 = M2 q.2 := he q hq
      have k1 := n1 p.1 (List.mem_map.2 ⟨p, hp, rfl⟩)
      have k2 := n2 p.2 (List.mem_map.2 ⟨p, hp, rfl⟩)
      constructor
      · intro h
        exact i2 _ _ k2 (by rw [← e1, ← e2, h])
      · intro h
        exact i1 _ _ k1 (by rw [e1, e2, h])
    · intro hs
      have := go_eq (n := l.length + 1) (m1 := fun _ => 0) (m2 := fun _ => 0) (cur := 1) hb (fun _ _ => rfl) hs
      rw [h1, h2] at this
      exact Option.some.inj this

/-- C92, the half that holds: labellings of the same partition are accepted. That others are rejected is missing: it fails, see
`check_refuted`. -/
theorem check_accepts_partial {l : List (Nat × Nat)} (hb : ∀ p ∈ l, p.1 ≤ l.length ∧ p.2 ≤ l.length) (hs : SamePartition l) :
    ccCheck (l.map Prod.fst) (l.map Prod.snd) = some true := by
  cases l with
  | nil => rfl
  | cons p l =>
    obtain ⟨r, h1, h2⟩ := ccCheck_iff (a := p.1) (b := p.2) (l := l) (by simpa using hb p List.mem_cons_self)
      (fun q hq => by simpa using hb q (List.mem_cons_of_mem _ hq))
    rw [List.map_cons, List.map_cons, h1, h2.2 fun a ha b hb => hs a (List.mem_cons_of_mem _ ha) b (List.mem_cons_of_mem _ hb)]

/-- C92 fails: whatever the label of vertex 0 is, the labels are accepted. -/
theorem check_ignores {a b : Nat} {l : List Nat} (ha : a ≤ l.length + 1) (hb : b ≤ l.length + 1) (hl : ∀ c ∈ l, c ≤ l.length + 1) :
    ccCheck (a :: l) (b :: l) = some true := by
  have e1 : l = (l.map fun c => (c, c)).map Prod.fst := by rw [List.map_map]; exact (List.map_id l).symm
  have e2 : l = (l.map fun c => (c, c)).map Prod.snd := by rw [List.map_map]; exact (List.map_id l).symm
  obtain ⟨r, h1, h2⟩ := ccCheck_iff (a := a) (b := b) (l := l.map fun c => (c, c)) (by simpa using ⟨ha, hb⟩) (fun p hp => by
    obtain ⟨c, hc, rfl⟩ := List.mem_map.1 hp
    simpa using hl c hc)
  rw [← e1, ← e2] at h1
  rw [h1, h2.2 fun p hp q hq => by
    obtain ⟨c, hc, rfl⟩ := List.mem_map.1 hp
    obtain ⟨d, hd, rfl⟩ := List.mem_map.1 hq
    exact Iff.rfl]

/-- C92 fails on the graph with the edges `0 - 1` and `2 - 3`: the labels `0 0 2 2` are right, and `2 0 2 2` is accepted. -/
theorem check_refuted : ccCheck [0, 0, 2, 2] [2, 0, 2, 2] = some true ∧
    ¬ SamePartition [(0, 2), (0, 0), (2, 2), (2, 2)] :=
  ⟨rfl, fun h => absurd ((h (0, 2) (by decide) (2, 2) (by decide)).2 rfl) (by decide)⟩

/-- A label greater than the number of vertices is read and written outside of the array. `bfs_cc::CC` returns such labels (C68). -/
theorem check_overflow : ccCheck [0, 1] [0, 4294967295] = none := rfl

/-- Non-trivial cases: different labels of the same partition, and a difference that is found. -/
example : ccCheck [3, 1, 3, 1] [0, 2, 0, 2] = some true ∧ ccCheck [0, 1, 1, 3] [0, 1, 2, 2] = some false := ⟨rfl, rfl⟩

end Gbbs.CCCheck
