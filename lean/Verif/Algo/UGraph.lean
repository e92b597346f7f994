/-
Symmetric graphs as adjacency lists, and the specification of histograms.
-/
import Verif.Hash.Seq

namespace Gbbs

/-- The adjacency lists (`symmetric_graph`, `graph.h:51-237`) without weights. -/
structure UG where
  n : Nat
  nb : Nat → List Nat

/-- Every edge is stored in both directions (with the same multiplicity), ends are vertices. -/
structure UG.Sym (G : UG) : Prop where
  sym : ∀ u v, (G.nb u).count v = (G.nb v).count u
  bound : ∀ u v, v ∈ G.nb u → u < G.n ∧ v < G.n

/-- Adjacency lists from a literal. -/
def UG.ofLists (l : List (List Nat)) : UG := ⟨l.length, fun v => l.getD v []⟩

theorem UG.ofLists_sym {l : List (List Nat)}
    (h : ∀ u < l.length, (∀ v ∈ l.getD u [], v < l.length) ∧
      ∀ v < l.length, (l.getD u []).count v = (l.getD v []).count u) : (UG.ofLists l).Sym := by
  have hout : ∀ u, ¬ u < l.length → l.getD u [] = [] := fun u hu => by
    rw [List.getD_eq_getElem?_getD, List.getElem?_eq_none (by omega)]; rfl
  have hb : ∀ u v, v ∈ l.getD u [] → u < l.length ∧ v < l.length := by
    intro u v hv
    by_cases hu : u < l.length
    · exact ⟨hu, (h u hu).1 v hv⟩
    · rw [hout u hu] at hv; cases hv
  refine ⟨fun u v => ?_, hb⟩
  show (l.getD u []).count v = (l.getD v []).count u
  by_cases hu : u < l.length
  · by_cases hv : v < l.length
    · exact (h u hu).2 v hv
    · rw [hout v hv, List.count_nil, List.count_eq_zero]
      exact fun hc => hv (hb u v hc).2
  · rw [hout u hu, List.count_nil]
    symm
    rw [List.count_eq_zero]
    exact fun hc => hu (hb v u hc).2

/-- `h` lists every key of `keys` once, with its number of occurrences. -/
def IsHist (keys : List Nat) (h : List (Nat × Nat)) : Prop :=
  (h.map Prod.fst).Nodup ∧ ∀ v c, (v, c) ∈ h ↔ v ∈ keys ∧ c = keys.count v

/-- The sequential branch of `histogram` (`histogram.h:284-301`: `insertAdd` of every key in a table with more
than `n` slots, then `compactInto`) meets the specification (C21). -/
theorem hist_seq {P : Hash.Par Nat} (hm : 0 < P.m) (U : List Nat) (hU : U.length ≤ P.m) (ks : List Nat)
    (hks : ∀ k ∈ ks, k ≠ P.emp ∧ k ∈ U) (T : SeqHT.Tab Nat Nat) (hT : T.key = fun _ => P.emp)
    (hV : ∀ s, T.val s = 0) :
    ∃ T', SeqHT.insertAddKeys P ks T = some T' ∧ IsHist ks (SeqHT.compactInto P 0 some T').2 := by
  obtain ⟨T', h1, h2, h3⟩ := SeqHT.insertAddKeys_counts hm U hU ks hks T hT hV
  exact ⟨T', h1, h2, h3⟩

/-- Degrees within a set. -/
theorem countP_split {l : List Nat} {p q r : Nat → Bool} (h : ∀ u, p u = (q u || r u)) (hd : ∀ u, ¬ (q u ∧ r u)) :
    l.countP p = l.countP q + l.countP r := by
  induction l with
  | nil => rfl
  | cons a l ih =>
    simp only [List.countP_cons, ih, h a]
    have := hd a
    cases hq : q a <;> cases hr : r a <;> simp [hq, hr] at this ⊢ <;> omega

/-- The number of edges from the vertices `ids` to `v`. -/
theorem count_flatMap (G : UG) (hG : G.Sym) {ids : List Nat} (hnd : ids.Nodup) (v : Nat) :
    (ids.flatMap G.nb).count v = (G.nb v).countP (fun u => decide (u ∈ ids)) := by
  induction ids with
  | nil => simp
  | cons a l ih =>
    rw [List.nodup_cons] at hnd
    rw [List.flatMap_cons, List.count_append, ih hnd.2, hG.sym a v]
    rw [countP_split (p := fun u => decide (u ∈ a :: l)) (q := fun u => u == a) (r := fun u => decide (u ∈ l))]
    · rfl
    · intro u; by_cases h : u = a <;> simp [h]
    · rintro u ⟨h1, h2⟩
      simp only [beq_iff_eq] at h1
      subst h1
      exact hnd.1 (by simpa using h2)

end Gbbs
