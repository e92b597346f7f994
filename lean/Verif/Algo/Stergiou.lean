/-
C159: `StergiouAlgorithm`, `benchmarks/Connectivity/LiuTarjan/Connectivity.h:404-461`.
-/
import Verif.Common
import Verif.Algo.UGraph
import Mathlib.Logic.Relation

namespace Gbbs.Stergiou

/-! ### Model -/

/-- `largest_comp`, `benchmarks/Connectivity/common.h:13`: the greatest `uintE`. -/
def largestComp : Nat := 4294967295

/-- One of the two conditional calls of `write_min`, `Connectivity.h:433-440`, on entry `a.1` with the value `a.2`, and the flag
`parents_changed` (`:441-443`).  The test before `write_min` and `write_min` (C10) are one step: the entries only decrease in this loop, so a
call that fails its test would not write later either. -/
def act (s : (Nat → Nat) × Bool) (a : Nat × Nat) : (Nat → Nat) × Bool :=
  if a.2 < s.1 a.1 then (upd s.1 a.1 a.2, true) else s

/-- All these calls of one round, `:428-454` without sampling, with `previous_parents`. -/
def acts (G : UG) (prev : Nat → Nat) : List (Nat × Nat) :=
  (List.range G.n).flatMap fun u => (G.nb u).flatMap fun v => [(v, prev u), (u, prev v)]

/-- `shortcut(u, P)`, `liu_tarjan_rules.h:109-114`. -/
def shortcut (P : Nat → Nat) (u : Nat) : Nat → Nat :=
  if P u ≠ largestComp ∧ P u ≠ P (P u) then upd P u (P (P u)) else P

/-- `previous_parents` in a round, `:424-426`. -/
def previous (rounds : Nat) (prev P : Nat → Nat) : Nat → Nat := if rounds > 0 then P else prev

/-- The rounds `:422-459`, from `rounds`, `previous_parents` and `parents` to the final `parents`.  The calls of a round run in any order, and
so do the shortcuts.  `rounds` is never changed. -/
inductive Run (G : UG) : Nat → (Nat → Nat) → (Nat → Nat) → (Nat → Nat) → Prop
  | last {rounds prev P P1} {as : List (Nat × Nat)} {o : List Nat} (ha : as.Perm (acts G (previous rounds prev P))) (h : as.foldl act (P, false) = (P1, false))
      (ho : Sched G.n o) : Run G rounds prev P (o.foldl shortcut P1)
  | more {rounds prev P P1 P'} {as : List (Nat × Nat)} {o : List Nat} (ha : as.Perm (acts G (previous rounds prev P))) (h : as.foldl act (P, false) = (P1, true))
      (ho : Sched G.n o) (hr : Run G rounds (previous rounds prev P) (o.foldl shortcut P1) P') : Run G rounds prev P P'

/-- `compute_components<no_sampling>`, `:412-460`, on parents that are all their own (`initialize` does nothing, `:410`): `rounds` is 0 and
`sequence<parent>(n)` is zero (`:418-421`). -/
def Components (G : UG) (P' : Nat → Nat) : Prop := Run G 0 (fun _ => 0) (fun v => v) P'

/-! ### Specification -/

/-- Connected by a path. -/
def Conn (G : UG) : Nat → Nat → Prop := Relation.ReflTransGen fun u v => v ∈ G.nb u

/-! ### Proof -/

variable {G : UG}

/-- The parents after some calls with value 0. -/
theorem fold_zero (as : List (Nat × Nat)) : ∀ (P : Nat → Nat) (b : Bool), (∀ a ∈ as, a.2 = 0) →
    ∃ b', as.foldl act (P, b) = ((fun x => if x ∈ as.map Prod.fst then 0 else P x), b') ∧
      (b' = true ↔ b = true ∨ ∃ x ∈ as.map Prod.fst, P x ≠ 0) := by
  induction as with
  | nil => intro P b _; exact ⟨b, by simp, by simp⟩
  | cons a as ih =>
    intro P b h
    have ha := h a List.mem_cons_self
    have h' : ∀ a ∈ as, a.2 = 0 := fun x hx => h x (List.mem_cons_of_mem _ hx)
    rw [List.foldl_cons]
    by_cases hp : P a.1 = 0
    · rw [show act (P, b) a = (P, b) by rw [act, if_neg (by simp only [ha]; omega)]]
      obtain ⟨b', h1, h2⟩ := ih P b h'
      refine ⟨b', ?_, ?_⟩
      · rw [h1]; congr 1; funext x
        by_cases hx : x = a.1
        · subst hx; simp [hp]
        · simp only [List.map_cons, List.mem_cons, hx, false_or]
      · rw [h2]
        simp only [List.map_cons, List.mem_cons]
        constructor
        · rintro (h | ⟨x, hx, h⟩)
          · exact Or.inl h
          · exact Or.inr ⟨x, Or.inr hx, h⟩
        · rintro (h | ⟨x, rfl | hx, h⟩)
          · exact Or.inl h
          · exact absurd hp h
          · exact Or.inr ⟨x, hx, h⟩
    · rw [show act (P, b) a = (upd P a.1 0, true) by rw [act, if_pos (by simp only [ha]; omega), ha]]
      obtain ⟨b', h1, h2⟩ := ih (upd P a.1 0) true h'
      refine ⟨b', ?_, ?_⟩
      · rw [h1]; congr 1; funext x
        by_cases hx : x = a.1
        · subst hx; simp
        · simp only [List.map_cons, List.mem_cons, hx, false_or, upd_of_ne _ _ hx]
      · rw [h2]
        exact ⟨fun _ => Or.inr ⟨a.1, by simp, hp⟩, fun _ => Or.inl rfl⟩

theorem mem_acts (hG : G.Sym) (as : List (Nat × Nat)) (ha : as.Perm (acts G fun _ => 0)) (x : Nat) :
    x ∈ as.map Prod.fst ↔ G.nb x ≠ [] := by
  rw [(ha.map Prod.fst).mem_iff]
  have hs : ∀ u v, v ∈ G.nb u → u ∈ G.nb v := fun u v h => by
    have := List.count_pos_iff.2 h
    rw [hG.sym] at this
    exact List.count_pos_iff.1 this
  simp only [acts, List.mem_map, List.mem_flatMap, List.mem_range]
  constructor
  · rintro ⟨a, ⟨u, hu, v, hv, h⟩, rfl⟩
    rcases List.mem_cons.1 h with rfl | h
    · exact List.ne_nil_of_mem (hs u v hv)
    · rw [List.mem_singleton] at h; subst h
      exact List.ne_nil_of_mem hv
  · intro h
    obtain ⟨v, hv⟩ := List.exists_mem_of_ne_nil _ h
    exact ⟨(x, 0), ⟨x, (hG.bound x v hv).1, v, hv, by simp⟩, rfl⟩

theorem acts_zero (as : List (Nat × Nat)) (ha : as.Perm (acts G fun _ => 0)) : ∀ a ∈ as, a.2 = 0 := by
  intro a h
  rw [ha.mem_iff] at h
  simp only [acts, List.mem_flatMap] at h
  obtain ⟨u, _, v, _, h⟩ := h
  rcases List.mem_cons.1 h with rfl | h
  · rfl
  · rw [List.mem_singleton] at h; subst h; rfl

theorem shortcut_id (P : Nat → Nat) (h : ∀ v, P (P v) = P v) (o : List Nat) : o.foldl shortcut P = P := by
  induction o with
  | nil => rfl
  | cons u o ih => rw [List.foldl_cons, shortcut, if_neg (fun hh => hh.2 (h u).symm), ih]

/-- The parents after the first round and ever after. -/
def result (G : UG) (v : Nat) : Nat := if G.nb v ≠ [] then 0 else v

theorem result_idem (v : Nat) : result G (result G v) = result G v := by
  by_cases h : G.nb v ≠ []
  · have e : result G v = 0 := if_pos h
    rw [e, result]; split <;> rfl
  · have e : result G v = v := if_neg h
    rw [e, e]

/-- One round. -/
theorem round_eq (hG : G.Sym) {P : Nat → Nat} (hP : (∀ v, P v = v) ∨ ∀ v, P v = result G v) {as : List (Nat × Nat)}
    (ha : as.Perm (acts G fun _ => 0)) : ∃ b, as.foldl act (P, false) = (result G, b) ∧
      ((∀ v, P v = result G v) → b = false) := by
  obtain ⟨b, h1, h2⟩ := fold_zero as P false (acts_zero as ha)
  refine ⟨b, ?_, fun h => ?_⟩
  · rw [h1]; congr 1; funext x
    by_cases hx : G.nb x ≠ []
    · rw [if_pos ((mem_acts hG as ha x).2 hx), result, if_pos hx]
    · rw [if_neg (fun h => hx ((mem_acts hG as ha x).1 h))]
      rcases hP with hP | hP
      · rw [hP, result, if_neg hx]
      · rw [hP]
  · by_contra hb
    rw [Bool.not_eq_false] at hb
    rcases h2.1 hb with h3 | ⟨x, hx, h3⟩
    · cases h3
    · rw [h x, result, if_pos ((mem_acts hG as ha x).1 hx)] at h3
      exact h3 rfl

theorem run_eq (hG : G.Sym) {rounds : Nat} {prev P P' : Nat → Nat} (h : Run G rounds prev P P') :
    rounds = 0 → (prev = fun _ => 0) → ((∀ v, P v = v) ∨ ∀ v, P v = result G v) → P' = result G := by
  induction h with
  | @last prev P P1 as o ha h ho =>
    intro hr0 hp0 hP
    subst hr0 hp0
    obtain ⟨b, h1, _⟩ := round_eq hG hP ha
    rw [h, Prod.mk.injEq] at h1
    rw [h1.1]
    exact shortcut_id _ result_idem o
  | @more prev P P1 P' as o ha h ho hr ih =>
    intro hr0 hp0 hP
    subst hr0 hp0
    obtain ⟨b, h1, _⟩ := round_eq hG hP ha
    rw [h, Prod.mk.injEq] at h1
    refine ih rfl rfl (Or.inr fun v => ?_)
    rw [h1.1, shortcut_id _ result_idem o]

theorem conn_symm (hG : G.Sym) {u v : Nat} (h : Conn G u v) : Conn G v u := by
  induction h with
  | refl => exact .refl
  | tail _ hs ih =>
    have := List.count_pos_iff.2 hs
    rw [hG.sym] at this
    exact .head (List.count_pos_iff.1 this) ih

/-! ### Theorems -/

/-- C159: every run gives the label 0 to all vertices with a neighbour, whatever the graph. -/
theorem C159_labels (hG : G.Sym) {P' : Nat → Nat} (h : Components G P') (v : Nat) :
    P' v = if G.nb v ≠ [] then 0 else v := by
  rw [run_eq hG h rfl rfl (Or.inl fun _ => rfl)]; rfl

/-- C159: whatever the order of the calls in the first two rounds, the second one changes nothing, so there is no third. -/
theorem C159_two_rounds (hG : G.Sym) {as as' : List (Nat × Nat)} {o : List Nat} {P1 : Nat → Nat} {b : Bool}
    (ha : as.Perm (acts G (previous 0 (fun _ => 0) fun v => v))) (h : as.foldl act ((fun v => v), false) = (P1, b))
    (ha' : as'.Perm (acts G (previous 0 (fun _ => 0) (o.foldl shortcut P1)))) :
    as'.foldl act (o.foldl shortcut P1, false) = (o.foldl shortcut P1, false) := by
  obtain ⟨b1, h1, _⟩ := round_eq hG (Or.inl fun _ => rfl) ha
  rw [h, Prod.mk.injEq] at h1
  have he : o.foldl shortcut P1 = result G := by rw [h1.1]; exact shortcut_id _ result_idem o
  rw [he]
  obtain ⟨b2, h2, h3⟩ := round_eq hG (P := result G) (Or.inr fun _ => rfl) ha'
  rw [h2, h3 fun _ => rfl]

/-- C159: there is a run. -/
theorem C159_terminates (hG : G.Sym) : ∃ P', Components G P' := by
  have ho : Sched G.n (List.range G.n) := ⟨List.nodup_range, fun i => List.mem_range⟩
  obtain ⟨b, h1, _⟩ := round_eq hG (Or.inl fun _ => rfl) (List.Perm.refl (acts G fun _ => 0))
  cases b with
  | false => exact ⟨_, .last (List.Perm.refl _) h1 ho⟩
  | true =>
    have he := shortcut_id _ (result_idem (G := G)) (List.range G.n)
    obtain ⟨b, h2, h3⟩ := round_eq hG (P := result G) (Or.inr fun _ => rfl) (List.Perm.refl (acts G fun _ => 0))
    rw [h3 fun _ => rfl] at h2
    refine ⟨_, .more (List.Perm.refl _) h1 ho (.last (List.Perm.refl _) (P1 := result G) ?_ ho)⟩
    rw [he]; exact h2

/-- C159: on parents that are never greater, the shortcuts in any order lower every entry to one of its ancestors, or leave it. -/
theorem C159_shortcut {P : Nat → Nat} (hP : ∀ v, P v ≤ v) (o : List Nat) (v : Nat) :
    o.foldl shortcut P v ≤ P v ∧ Relation.ReflTransGen (fun a b => b = P a) v (o.foldl shortcut P v) := by
  suffices h : ∀ (o : List Nat) (Q : Nat → Nat), (∀ v, Q v ≤ P v ∧ Relation.ReflTransGen (fun a b => b = P a) v (Q v)) →
      ∀ v, o.foldl shortcut Q v ≤ P v ∧ Relation.ReflTransGen (fun a b => b = P a) v (o.foldl shortcut Q v) from
    h o P (fun v => ⟨Nat.le_refl _, .single rfl⟩) v
  intro o
  induction o with
  | nil => intro Q h; exact h
  | cons u o ih =>
    intro Q h
    refine ih (shortcut Q u) fun v => ?_
    rw [shortcut]
    split
    · by_cases hv : v = u
      · subst hv
        simp only [upd_same]
        exact ⟨Nat.le_trans (h (Q v)).1 (Nat.le_trans (hP _) (h v).1), (h v).2.trans (h (Q v)).2⟩
      · rw [upd_of_ne _ _ hv]; exact h v
    · exact h v

example : [3, 2, 1, 0].foldl shortcut (fun v => v - 1) 3 = 1 := by decide

/-- C159, what does hold: the labels are those of the connected components exactly if every vertex with a neighbour is connected to
vertex 0. -/
theorem C159_components_partial (hG : G.Sym) {P' : Nat → Nat} (h : Components G P') (hn : 0 < G.n) :
    (∀ u v, u < G.n → v < G.n → (P' u = P' v ↔ Conn G u v)) ↔ ∀ v, v < G.n → G.nb v ≠ [] → Conn G 0 v := by
  have hl := C159_labels hG h
  constructor
  · intro hc v hv hne
    refine (hc 0 v hn hv).1 ?_
    rw [hl, hl, if_pos hne]; split <;> rfl
  · intro hc u v hu hv
    constructor
    · intro he
      rw [hl, hl] at he
      by_cases h1 : G.nb u ≠ [] <;> by_cases h2 : G.nb v ≠ []
      · exact (conn_symm hG (hc u hu h1)).trans (hc v hv h2)
      · rw [if_pos h1, if_neg h2] at he
        subst he; exact conn_symm hG (hc u hu h1)
      · rw [if_neg h1, if_pos h2] at he
        subst he; exact hc v hv h2
      · rw [if_neg h1, if_neg h2] at he
        subst he; exact .refl
    · intro he
      rcases Relation.ReflTransGen.cases_head he with rfl | ⟨w, hw, _⟩
      · rfl
      · rcases Relation.ReflTransGen.cases_head (conn_symm hG he) with rfl | ⟨x, hx, _⟩
        · rfl
        · rw [hl, hl, if_pos (List.ne_nil_of_mem hw), if_pos (List.ne_nil_of_mem hx)]

/-- Two edges without a common end. -/
def exG : UG := UG.ofLists [[1], [0], [3], [2]]

theorem exG_sym : exG.Sym := UG.ofLists_sym (by decide)

/-- C159, refuted: on two disjoint edges every run gives all four vertices the same label. -/
theorem C159_refuted : exG.Sym ∧ (∃ P', Components exG P') ∧ ¬ Conn exG 1 2 ∧ ∀ P', Components exG P' → P' 1 = P' 2 := by
  refine ⟨exG_sym, C159_terminates exG_sym, fun h => ?_, fun P' h => ?_⟩
  · have : ∀ v, Conn exG 1 v → v < 2 := by
      intro v hv
      induction hv with
      | refl => decide
      | tail _ hs ih => exact (by decide : ∀ u < 2, ∀ v ∈ exG.nb u, v < 2) _ ih _ hs
    exact absurd (this 2 h) (by decide)
  · rw [C159_labels exG_sym h, C159_labels exG_sym h, if_pos (by decide), if_pos (by decide)]

end Gbbs.Stergiou
