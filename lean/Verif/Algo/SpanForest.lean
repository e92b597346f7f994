/-
Specification of spanning forests without weights, shared by the algorithms of `benchmarks/SpanningForest` (C85 onwards),
and the counting argument used for all of them.
-/
import Verif.Algo.Components
import Verif.Algo.Forest

namespace Gbbs.SF

open Relation Comp

/-! ### Specification -/

/-- Connected by the edges of a list. -/
def LConn (l : List (Nat × Nat)) : Nat → Nat → Prop := EqvGen fun a b => (a, b) ∈ l

/-- The edges of the list are edges of the graph, no edge connects vertices that the other edges of the list already
connect (in particular no edge occurs twice, in whatever direction, and there are no self-loops), and the list connects
what the graph connects. -/
structure IsSF (adj : Nat → Nat → Prop) (l : List (Nat × Nat)) : Prop where
  sub : ∀ e ∈ l, adj e.1 e.2
  forest : ∀ pre e post, l = pre ++ e :: post → ¬ LConn (pre ++ post) e.1 e.2
  spans : ∀ x y, Conn adj x y → LConn l x y

/-! ### Counting -/

theorem lconn_equiv (l : List (Nat × Nat)) : Equivalence (LConn l) := EqvGen.is_equivalence _

theorem lconn_mono {l l' : List (Nat × Nat)} (h : ∀ e ∈ l, e ∈ l') {x y : Nat} (hc : LConn l x y) : LConn l' x y :=
  conn_le (lconn_equiv l') (fun a b hab => .rel _ _ (h _ hab)) hc

/-- As edges of weight 0. -/
def toE (e : Nat × Nat) : Forest.E := (e.1, e.2, 0)

theorem lconn_iff (l : List (Nat × Nat)) (x y : Nat) : LConn l x y ↔ Forest.Conn (l.map toE) x y := by
  constructor
  · exact conn_le (Forest.conn_equiv _) fun a b hab => .rel _ _ ⟨0, List.mem_map.2 ⟨_, hab, rfl⟩⟩
  · refine Forest.conn_le (lconn_equiv l) fun e he => ?_
    obtain ⟨e', h1, rfl⟩ := List.mem_map.1 he
    exact .rel _ _ h1

/-- A list that connects every vertex with its root, where adjacent vertices have the same root, is a spanning forest if it
has no more edges than there are vertices other than roots. -/
theorem isSF_of_count {n : Nat} {adj : Nat → Nat → Prop} (hb : ∀ x y, adj x y → x < n ∧ y < n) {l : List (Nat × Nat)}
    (hsub : ∀ e ∈ l, adj e.1 e.2) (root : Nat → Nat) (hlt : ∀ x, x < n → root x < n ∧ root (root x) = root x)
    (hl : ∀ x, x < n → LConn l x (root x)) (hr : ∀ x y, adj x y → root x = root y)
    (hc : l.length + ((Finset.range n).filter fun x => root x = x).card ≤ n) : IsSF adj l := by
  have hB : Forest.Below n (l.map toE) := by
    intro e he
    obtain ⟨e', h1, rfl⟩ := List.mem_map.1 he
    exact hb _ _ (hsub _ h1)
  refine ⟨hsub, fun pre e post hpe => ?_, fun x y h => ?_⟩
  · have hf : Forest.IsForest (l.map toE) := by
      rw [Forest.forest_iff hB]
      have h1 := Forest.ncomp_ge hB
      have h2 : Forest.ncomp n (l.map toE) ≤ ((Finset.range n).filter fun x => root x = x).card := by
        rw [Forest.ncomp]
        refine Nat.le_trans (Finset.card_le_card (t := ((Finset.range n).filter fun x => root x = x).image
          (Forest.lab (l.map toE))) fun z hz => ?_) Finset.card_image_le
        obtain ⟨x, hx, rfl⟩ := Finset.mem_image.1 hz
        have hx := Finset.mem_range.1 hx
        refine Finset.mem_image.2 ⟨root x, Finset.mem_filter.2 ⟨Finset.mem_range.2 (hlt x hx).1, (hlt x hx).2⟩, ?_⟩
        exact (Forest.lab_iff _ _ _).2 ((lconn_iff l _ _).1 ((lconn_equiv l).symm (hl x hx)))
      rw [List.length_map] at h1 ⊢
      omega
    have := hf (pre.map toE) (toE e) (post.map toE) (by rw [hpe, List.map_append, List.map_cons])
    rwa [← List.map_append, show (toE e).1 = e.1 from rfl, show (toE e).2.1 = e.2 from rfl, ← lconn_iff] at this
  · refine conn_le (lconn_equiv l) (fun x y h => ?_) h
    have e := lconn_equiv l
    have hx := hl x (hb _ _ h).1
    have hy := hl y (hb _ _ h).2
    rw [← hr x y h] at hy
    exact e.trans hx (e.symm hy)

/-- At most one edge per vertex that is not a root. -/
theorem count_le {n : Nat} (ef : Nat → Option (Nat × Nat)) (root : Nat → Nat)
    (h : ∀ x, x < n → ef x ≠ none → root x ≠ x) :
    ((List.range n).filterMap ef).length + ((Finset.range n).filter fun x => root x = x).card ≤ n := by
  induction n with
  | zero => simp
  | succ n ih =>
    have ih := ih fun x hx => h x (by omega)
    rw [List.range_succ, List.filterMap_append, List.length_append, Finset.range_add_one, Finset.filter_insert]
    by_cases hr : root n = n
    · have : ef n = none := by
        by_contra hne
        exact h n (by omega) hne hr
      rw [if_pos hr, Finset.card_insert_of_notMem (by simp)]
      simp only [List.filterMap_cons, this, List.filterMap_nil, List.length_nil]
      omega
    · rw [if_neg hr]
      have : ([n].filterMap ef).length ≤ 1 := List.length_filterMap_le ef [n]
      omega

/-! ### A list that is none -/

/-- The two directions of one edge do not make a forest. -/
example : ¬ IsSF (fun a b => (a, b) = (0, 1) ∨ (a, b) = (1, 0)) [(0, 1), (1, 0)] :=
  fun h => h.forest [] (0, 1) [(1, 0)] rfl (.symm _ _ (.rel _ _ (by simp)))

end Gbbs.SF
