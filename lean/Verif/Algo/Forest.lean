/-
Spanning forests of a list of weighted edges: specification used by C44 and the counting argument behind it.
-/
import Mathlib.Logic.Relation
import Mathlib.Data.Finset.Card
import Mathlib.Data.Finset.Range
import Mathlib.Data.Finset.Image
import Mathlib.Data.List.Sort
import Mathlib.Algebra.BigOperators.Group.List.Basic

namespace Gbbs.Forest

open Relation

/-! ### Specification -/

/-- Endpoints and weight. -/
abbrev E := Nat × Nat × Int

/-- Connected by the edges of `l`. -/
def Conn (l : List E) : Nat → Nat → Prop := EqvGen fun a b => ∃ w, (a, b, w) ∈ l

/-- No edge connects vertices that the other edges already connect. -/
def IsForest (l : List E) : Prop := ∀ pre e post, l = pre ++ e :: post → ¬ Conn (pre ++ post) e.1 e.2.1

/-- A forest of edges of the graph that connects what the graph connects. -/
structure IsSF (es l : List E) : Prop where
  sub : ∀ e ∈ l, e ∈ es
  forest : IsForest l
  spans : ∀ x y, Conn es x y → Conn l x y

def weight (l : List E) : Int := (l.map fun e => e.2.2).sum

/-- A spanning forest of least total weight. -/
def IsMSF (es l : List E) : Prop := IsSF es l ∧ ∀ l', IsSF es l' → weight l ≤ weight l'

/-! ### Connectivity -/

theorem conn_equiv (l : List E) : Equivalence (Conn l) := EqvGen.is_equivalence _

theorem conn_of_mem {l : List E} {e : E} (h : e ∈ l) : Conn l e.1 e.2.1 := EqvGen.rel _ _ ⟨e.2.2, h⟩

theorem conn_le {l : List E} {s : Nat → Nat → Prop} (hs : Equivalence s) (h : ∀ e ∈ l, s e.1 e.2.1) {x y : Nat} (hc : Conn l x y) : s x y := by
  induction hc with
  | rel a b hab => obtain ⟨w, hw⟩ := hab; exact h _ hw
  | refl a => exact hs.refl a
  | symm a b _ ih => exact hs.symm ih
  | trans a b c _ _ ih1 ih2 => exact hs.trans ih1 ih2

theorem conn_span {l l' : List E} (h : ∀ e ∈ l, Conn l' e.1 e.2.1) {x y : Nat} (hc : Conn l x y) : Conn l' x y :=
  conn_le (conn_equiv l') h hc

theorem conn_mono {l l' : List E} (h : ∀ e ∈ l, e ∈ l') {x y : Nat} (hc : Conn l x y) : Conn l' x y :=
  conn_span (fun e he => conn_of_mem (h e he)) hc

/-! ### Number of components -/

/-- A labelling of the components. -/
def lab : List E → Nat → Nat
  | [], x => x
  | e :: l, x => if lab l x = lab l e.1 then lab l e.2.1 else lab l x

theorem lab_iff (l : List E) : ∀ x y, lab l x = lab l y ↔ Conn l x y := by
  induction l with
  | nil =>
    intro x y
    refine ⟨fun h => ?_, fun h => ?_⟩
    · rw [lab, lab] at h; rw [h]; exact EqvGen.refl _
    · exact conn_le (l := []) (s := fun x y => lab [] x = lab [] y) ⟨fun _ => rfl, fun h => h.symm, fun h h' => h.trans h'⟩ (fun e he => by cases he) h
  | cons e l ih =>
    intro x y
    constructor
    · have up : ∀ {a b}, Conn l a b → Conn (e :: l) a b := fun h => conn_mono (fun _ => List.mem_cons_of_mem _) h
      have he : Conn (e :: l) e.1 e.2.1 := conn_of_mem List.mem_cons_self
      have q := conn_equiv (e :: l)
      intro h
      rw [lab, lab] at h
      by_cases h1 : lab l x = lab l e.1 <;> by_cases h2 : lab l y = lab l e.1
      · exact up ((ih x y).1 (h1.trans h2.symm))
      · rw [if_pos h1, if_neg h2] at h
        exact q.trans (up ((ih _ _).1 h1)) (q.trans he (up ((ih _ _).1 h)))
      · rw [if_neg h1, if_pos h2] at h
        exact q.trans (up ((ih _ _).1 h)) (q.trans (q.symm he) (up ((ih _ _).1 h2.symm)))
      · rw [if_neg h1, if_neg h2] at h
        exact up ((ih _ _).1 h)
    · intro h
      refine conn_le (s := fun x y => lab (e :: l) x = lab (e :: l) y) ⟨fun _ => rfl, fun h => h.symm, fun h h' => h.trans h'⟩ (fun e' he' => ?_) h
      rw [lab, lab]
      rcases List.mem_cons.1 he' with rfl | hm
      · rw [if_pos rfl]; split <;> rfl
      · rw [(ih _ _).2 (conn_of_mem hm)]

/-- Number of components of the vertices below `n`. -/
def ncomp (n : Nat) (l : List E) : Nat := ((Finset.range n).image (lab l)).card

def Below (n : Nat) (l : List E) : Prop := ∀ e ∈ l, e.1 < n ∧ e.2.1 < n

theorem ncomp_nil (n : Nat) : ncomp n [] = n := by
  have : (Finset.range n).image (lab []) = Finset.range n := by
    ext x; simp [lab]
  rw [ncomp, this, Finset.card_range]

/-- A vertex below `n` with the given label. -/
def rep (n : Nat) (B : List E) (b : Nat) : Nat := ((List.range n).find? fun x => decide (lab B x = b)).getD 0

theorem rep_spec {n : Nat} {B : List E} {b : Nat} (h : b ∈ (Finset.range n).image (lab B)) : rep n B b < n ∧ lab B (rep n B b) = b := by
  obtain ⟨x, hx, rfl⟩ := Finset.mem_image.1 h
  rw [rep]
  cases hf : (List.range n).find? fun z => decide (lab B z = lab B x) with
  | none =>
    have := List.find?_eq_none.1 hf x (List.mem_range.2 (Finset.mem_range.1 hx))
    simp at this
  | some y =>
    have h1 := List.find?_some hf
    have h2 := List.mem_of_find?_eq_some hf
    exact ⟨List.mem_range.1 h2, by simpa using h1⟩

/-- Connecting more leaves fewer components. -/
theorem ncomp_anti (n : Nat) {A B : List E} (h : ∀ e ∈ A, Conn B e.1 e.2.1) : ncomp n B ≤ ncomp n A := by
  refine Finset.card_le_card_of_injOn (fun b => lab A (rep n B b)) ?_ ?_
  · intro b hb
    exact Finset.mem_coe.2 (Finset.mem_image_of_mem _ (Finset.mem_range.2 (rep_spec hb).1))
  · intro b hb b' hb' he
    have hc : Conn A (rep n B b) (rep n B b') := (lab_iff A _ _).1 he
    rw [← (rep_spec hb).2, ← (rep_spec hb').2]
    exact (lab_iff B _ _).2 (conn_span h hc)

theorem ncomp_congr (n : Nat) {A B : List E} (h : ∀ e ∈ A, Conn B e.1 e.2.1) (h' : ∀ e ∈ B, Conn A e.1 e.2.1) : ncomp n A = ncomp n B :=
  Nat.le_antisymm (ncomp_anti n h') (ncomp_anti n h)

theorem ncomp_cons_new {n : Nat} {e : E} {l : List E} (h1 : e.1 < n) (h2 : e.2.1 < n) (hc : ¬ Conn l e.1 e.2.1) :
    ncomp n (e :: l) + 1 = ncomp n l := by
  have hne : lab l e.1 ≠ lab l e.2.1 := fun h => hc ((lab_iff l _ _).1 h)
  have him : (Finset.range n).image (lab (e :: l)) = ((Finset.range n).image (lab l)).erase (lab l e.1) := by
    ext z
    rw [Finset.mem_erase, Finset.mem_image, Finset.mem_image]
    constructor
    · rintro ⟨x, hx, rfl⟩
      rw [lab]
      split
      · exact ⟨hne.symm, e.2.1, Finset.mem_range.2 h2, rfl⟩
      · exact ⟨by assumption, x, hx, rfl⟩
    · rintro ⟨hz, x, hx, rfl⟩
      exact ⟨x, hx, by rw [lab, if_neg hz]⟩
  rw [ncomp, him, Finset.card_erase_of_mem (Finset.mem_image_of_mem _ (Finset.mem_range.2 h1))]
  have : 0 < ncomp n l := Finset.card_pos.2 ⟨_, Finset.mem_image_of_mem _ (Finset.mem_range.2 h1)⟩
  rw [ncomp] at this ⊢
  omega

theorem ncomp_cons_old {n : Nat} {e : E} {l : List E} (hc : Conn l e.1 e.2.1) : ncomp n (e :: l) = ncomp n l := by
  refine ncomp_congr n (fun e' he' => ?_) fun e' he' => conn_of_mem (List.mem_cons_of_mem _ he')
  rcases List.mem_cons.1 he' with rfl | h
  · exact hc
  · exact conn_of_mem h

theorem ncomp_ge {n : Nat} {l : List E} (hb : Below n l) : n ≤ ncomp n l + l.length := by
  induction l with
  | nil => rw [ncomp_nil]; omega
  | cons e l ih =>
    have := ih fun e' he' => hb e' (List.mem_cons_of_mem _ he')
    obtain ⟨h1, h2⟩ := hb e List.mem_cons_self
    rw [List.length_cons]
    by_cases hc : Conn l e.1 e.2.1
    · rw [ncomp_cons_old hc]; omega
    · have := ncomp_cons_new h1 h2 hc; omega

theorem forest_tail {e : E} {l : List E} (h : IsForest (e :: l)) : IsForest l := by
  intro pre x post hl hc
  refine h (e :: pre) x post (by rw [hl]; rfl) (conn_mono (fun y hy => ?_) hc)
  exact List.mem_cons_of_mem _ hy

/-- Forests are the lists of edges each of which joins two components. -/
theorem forest_iff {n : Nat} {l : List E} (hb : Below n l) : IsForest l ↔ ncomp n l + l.length = n := by
  constructor
  · intro h
    induction l with
    | nil => rw [ncomp_nil]; rfl
    | cons e l ih =>
      have := ih (fun e' he' => hb e' (List.mem_cons_of_mem _ he')) (forest_tail h)
      obtain ⟨h1, h2⟩ := hb e List.mem_cons_self
      have := ncomp_cons_new (l := l) h1 h2 (h [] e l rfl)
      rw [List.length_cons]; omega
  · intro h pre e post hl hc
    subst hl
    have h1 : ncomp n (pre ++ e :: post) = ncomp n (pre ++ post) := by
      refine ncomp_congr n (fun x hx => ?_) fun x hx => conn_of_mem ?_
      · rcases List.mem_append.1 hx with hx | hx
        · exact conn_of_mem (List.mem_append_left _ hx)
        · rcases List.mem_cons.1 hx with rfl | hx
          · exact hc
          · exact conn_of_mem (List.mem_append_right _ hx)
      · rcases List.mem_append.1 hx with hx | hx
        · exact List.mem_append_left _ hx
        · exact List.mem_append_right _ (List.mem_cons_of_mem _ hx)
    have h2 : Below n (pre ++ post) := fun x hx => hb x (by
      rcases List.mem_append.1 hx with hx | hx
      · exact List.mem_append_left _ hx
      · exact List.mem_append_right _ (List.mem_cons_of_mem _ hx))
    have h3 := ncomp_ge h2
    rw [List.length_append] at h3
    rw [List.length_append, List.length_cons] at h
    omega

/-- A forest inside the span of `B` has at most as many edges as `B`. -/
theorem forest_le {n : Nat} {A B : List E} (hA : Below n A) (hB : Below n B) (hf : IsForest A) (h : ∀ e ∈ A, Conn B e.1 e.2.1) :
    A.length ≤ B.length := by
  have h1 := (forest_iff hA).1 hf
  have h2 := ncomp_ge hB
  have h3 := ncomp_anti n h
  omega

theorem forest_perm {n : Nat} {A B : List E} (hA : Below n A) (hp : A.Perm B) (hf : IsForest A) : IsForest B := by
  have hB : Below n B := fun e he => hA e (hp.mem_iff.2 he)
  rw [forest_iff hB, ← hp.length_eq, ← ncomp_congr n (A := A) (B := B) (fun e he => conn_of_mem (hp.mem_iff.1 he)) (fun e he => conn_of_mem (hp.mem_iff.2 he))]
  exact (forest_iff hA).1 hf

theorem forest_snoc {n : Nat} {l : List E} {e : E} (hb : Below n l) (h1 : e.1 < n) (h2 : e.2.1 < n) (hf : IsForest l)
    (hc : ¬ Conn l e.1 e.2.1) : IsForest (l ++ [e]) := by
  have hb' : Below n (e :: l) := fun x hx => by
    rcases List.mem_cons.1 hx with rfl | hx
    · exact ⟨h1, h2⟩
    · exact hb x hx
  refine forest_perm (A := e :: l) hb' ?_ ?_
  · exact (List.perm_append_comm (l₁ := [e]) (l₂ := l))
  · rw [forest_iff hb', List.length_cons]
    have := ncomp_cons_new h1 h2 hc
    have := (forest_iff hb).1 hf
    omega

theorem forest_sub {A B : List E} (hs : A.Sublist B) (hf : IsForest B) : IsForest A := by
  intro pre e post hl hc
  subst hl
  obtain ⟨l1, l2, rfl, h1, h2⟩ := List.append_sublist_iff.1 hs
  obtain ⟨r1, r2, rfl, he, h3⟩ := List.cons_sublist_iff.1 h2
  obtain ⟨s, t, rfl⟩ := List.append_of_mem he
  refine hf (l1 ++ s) e (t ++ r2) (by simp) (conn_mono (fun x hx => ?_) hc)
  rcases List.mem_append.1 hx with hx | hx
  · have := h1.subset hx; simp [this]
  · have := h3.subset hx; simp [this]

/-! ### Weights -/

theorem sum_le_of_counts : ∀ (xs ys : List Int), xs.Pairwise (· ≤ ·) → ys.Pairwise (· ≤ ·) → xs.length = ys.length →
    (∀ w, (ys.filter (fun y => decide (y ≤ w))).length ≤ (xs.filter (fun x => decide (x ≤ w))).length) → xs.sum ≤ ys.sum
  | [], [], _, _, _, _ => by simp
  | [], _ :: _, _, _, h, _ => by simp at h
  | _ :: _, [], _, _, h, _ => by simp at h
  | a :: xs, b :: ys, hx, hy, hl, hc => by
    have hab : a ≤ b := by
      have h := hc b
      rw [List.filter_cons_of_pos (by simp), List.length_cons] at h
      by_contra hlt
      have hnil : (a :: xs).filter (fun x => decide (x ≤ b)) = [] := by
        rw [List.filter_eq_nil_iff]
        intro x hm
        rcases List.mem_cons.1 hm with rfl | hm
        · simpa using hlt
        · have := (List.pairwise_cons.1 hx).1 x hm
          simp; omega
      rw [hnil] at h
      simp at h
    have ih := sum_le_of_counts xs ys (List.pairwise_cons.1 hx).2 (List.pairwise_cons.1 hy).2 (by simpa using hl) (fun w => by
      by_cases hw : b ≤ w
      · have h := hc w
        rw [List.filter_cons_of_pos (by simpa using hw), List.filter_cons_of_pos (by simp; omega), List.length_cons, List.length_cons] at h
        omega
      · have hnil : ys.filter (fun x => decide (x ≤ w)) = [] := by
          rw [List.filter_eq_nil_iff]
          intro x hm
          have := (List.pairwise_cons.1 hy).1 x hm
          simp; omega
        rw [hnil]; simp)
    rw [List.sum_cons, List.sum_cons]
    omega

theorem sum_le_of_counts' (xs ys : List Int) (hl : xs.length = ys.length)
    (hc : ∀ w, (ys.filter (fun y => decide (y ≤ w))).length ≤ (xs.filter (fun x => decide (x ≤ w))).length) : xs.sum ≤ ys.sum := by
  have px := List.perm_insertionSort (· ≤ ·) xs
  have py := List.perm_insertionSort (· ≤ ·) ys
  rw [← px.sum_eq, ← py.sum_eq]
  refine sum_le_of_counts _ _ (List.pairwise_insertionSort _ _) (List.pairwise_insertionSort _ _) ?_ fun w => ?_
  · rw [px.length_eq, py.length_eq, hl]
  · rw [(px.filter _).length_eq, (py.filter _).length_eq]
    exact hc w

/-- A forest whose edges of weight at most `w` connect the endpoints of every edge of weight `w` has least weight. -/
theorem isMSF_of_span {n : Nat} {es F : List E} (hb : Below n es) (hs : ∀ e ∈ F, e ∈ es) (hf : IsForest F)
    (hc : ∀ e ∈ es, Conn (F.filter fun f => decide (f.2.2 ≤ e.2.2)) e.1 e.2.1) : IsMSF es F := by
  have hspan : ∀ e ∈ es, Conn F e.1 e.2.1 := fun e he => conn_mono (fun f h => (List.mem_filter.1 h).1) (hc e he)
  have hbF : Below n F := fun e he => hb e (hs e he)
  refine ⟨⟨hs, hf, fun x y h => conn_span hspan h⟩, fun T hT => ?_⟩
  have hbT : Below n T := fun e he => hb e (hT.sub e he)
  rw [weight, weight]
  apply sum_le_of_counts'
  · rw [List.length_map, List.length_map]
    refine Nat.le_antisymm (forest_le hbF hbT hf fun e he => hT.spans _ _ (conn_of_mem (hs e he))) ?_
    exact forest_le hbT hbF hT.forest fun e he => hspan e (hT.sub e he)
  · intro w
    rw [List.filter_map, List.filter_map, List.length_map, List.length_map]
    refine forest_le (n := n) (fun e he => hbT e (List.mem_filter.1 he).1) (fun e he => hbF e (List.mem_filter.1 he).1)
      (forest_sub List.filter_sublist hT.forest) fun e he => ?_
    obtain ⟨he, hw⟩ := List.mem_filter.1 he
    refine conn_mono (fun f hf => ?_) (hc e (hT.sub e he))
    obtain ⟨hf, hw'⟩ := List.mem_filter.1 hf
    refine List.mem_filter.2 ⟨hf, ?_⟩
    simp only [Function.comp, decide_eq_true_eq] at hw hw' ⊢
    omega

/-- A forest on `n` vertices, one of which exists, has fewer than `n` edges. -/
theorem forest_lt {n : Nat} {l : List E} (hb : Below n l) (hf : IsForest l) (hn : 0 < n) : l.length < n := by
  have h := (forest_iff hb).1 hf
  have : 0 < ncomp n l := Finset.card_pos.2 ⟨_, Finset.mem_image_of_mem _ (Finset.mem_range.2 hn)⟩
  omega

end Gbbs.Forest
