/-
C105: the tree, its sizes and preorder numbers, `preorder_number` of `benchmarks/Biconnectivity/TarjanVishkin/Biconnectivity.h:94-262`.
-/
import Verif.Bicc.Leaf

namespace Gbbs.Bicc

open Em

set_option linter.unusedSectionVars false

/-! ### Model -/

/-- The children of `v` in the order of the sorted edges (`:99-135`): `Tree.get_vertex(v).out_neighbors()`. -/
def kids (n : Nat) (par : Nat → Nat) (v : Nat) : List Nat := (List.range n).filter fun c => decide (par c ≠ c ∧ par c = v)

/-- `Tree` as seen by `edgeMap` with `in_edges`: from the children to the parents. -/
def up (n : Nat) (par : Nat → Nat) : Gr Unit where
  n := n
  fwd s := if s < n ∧ par s ≠ s then [(par s, ())] else []
  bwd d := (kids n par d).map fun c => (c, ())

/-- `leafs`, `:167-174`. -/
def leafs (n : Nat) (par : Nat → Nat) : List Nat := (List.range n).filter fun i => decide (par i ≠ i ∧ (kids n par i).length = 0)

/-- The loops over `edgeMap`, `:179-187, 287-294`. -/
inductive Rounds (F : Func Unit Loc Int Unit) (G : Gr Unit) : Nat → (Loc → Int) → List Nat → (Loc → Int) → Prop
  | done (m) : Rounds F G 0 m [] m
  | round {k m Fr m1 o m'} (hF : Fr ≠ []) (h : EdgeMapX F G (fun v => decide (v ∈ Fr)) m m1 o)
      (hl : Rounds F G k m1 (o.map Prod.fst) m') : Rounds F G (k + 1) m Fr m'

/-- A loop of the leaffix with the counters set to the degrees (`:165-166, 281-282`). -/
def Leaffix (F : Func Unit Loc Int Unit) (n : Nat) (par : Nat → Nat) (m m' : Loc → Int) : Prop :=
  ∃ k, Rounds F (up n par) k (fun x => if x.1 = .ct then ((kids n par x.2).length : Int) else m x) (leafs n par) m'

/-! ### Leaffix -/

/-- A forest on the vertices below `n`. -/
structure Tr (n : Nat) (par dp : Nat → Nat) : Prop where
  lt : ∀ v < n, par v < n
  root : ∀ v < n, dp v = 0 → par v = v
  step : ∀ v < n, dp v ≠ 0 → dp (par v) + 1 = dp v

variable {n : Nat} {par dp : Nat → Nat}

theorem mem_kids {v c : Nat} : c ∈ kids n par v ↔ c < n ∧ par c ≠ c ∧ par c = v := by
  simp [kids]

theorem kids_nodup (v : Nat) : (kids n par v).Nodup := List.nodup_range.filter _

theorem Tr.kid (T : Tr n par dp) {v c : Nat} (h : c ∈ kids n par v) : dp v + 1 = dp c ∧ v < n ∧ v ≠ c := by
  obtain ⟨h1, h2, rfl⟩ := mem_kids.1 h
  have h0 : dp c ≠ 0 := fun hc => h2 (T.root c h1 hc)
  exact ⟨T.step c h1 h0, T.lt c h1, h2⟩

theorem up_ok (T : Tr n par dp) : (up n par).Ok := by
  refine ⟨fun s d w => ?_, fun s d w h => ?_⟩
  · show (d, w) ∈ (if s < n ∧ par s ≠ s then [(par s, ())] else []) ↔ (s, w) ∈ (kids n par d).map fun c => (c, ())
    rw [List.mem_map]
    by_cases h : s < n ∧ par s ≠ s
    · rw [if_pos h, List.mem_singleton]
      constructor
      · intro he; injection he with h1 h2; exact ⟨s, mem_kids.2 ⟨h.1, h.2, h1.symm⟩, rfl⟩
      · rintro ⟨c, hc, he⟩; injection he with h1 h2; subst h1; rw [(mem_kids.1 hc).2.2]
    · rw [if_neg h]
      refine ⟨fun h => (by cases h), ?_⟩
      rintro ⟨c, hc, he⟩; injection he with h1 h2; subst h1
      exact absurd ⟨(mem_kids.1 hc).1, (mem_kids.1 hc).2.1⟩ h
  · change (d, w) ∈ (if s < n ∧ par s ≠ s then [(par s, ())] else []) at h
    by_cases hs : s < n ∧ par s ≠ s
    · rw [if_pos hs, List.mem_singleton] at h
      injection h with h1 h2
      exact ⟨hs.1, h1 ▸ T.lt s hs.1⟩
    · rw [if_neg hs] at h; cases h

theorem up_once : (up n par).Once := by
  refine ⟨fun s => ?_, fun d => (kids_nodup d).map fun a b h => by injection h⟩
  show (if s < n ∧ par s ≠ s then [(par s, ())] else []).Nodup
  split <;> simp

theorem mem_act (T : Tr n par dp) {inF : Nat → Bool} {e : Ed} : e ∈ activeEdges (up n par) inF ↔ inF e.s = true ∧ e.s ∈ kids n par e.d := by
  rw [mem_activeEdges (up_ok T)]
  have : (e.d, e.w) ∈ (up n par).fwd e.s ↔ e.s ∈ kids n par e.d := by
    rw [(up_ok T).same]
    show (e.s, e.w) ∈ (kids n par e.d).map (fun c => (c, ())) ↔ _
    rw [List.mem_map]
    exact ⟨fun ⟨c, h, he⟩ => by injection he with h1; exact h1 ▸ h, fun h => ⟨_, h, rfl⟩⟩
  unfold Active
  rw [this]

section
open Classical

/-- The elements in `X`. -/
noncomputable def sel (X : Nat → Prop) (l : List Nat) : List Nat := l.filter fun c => @decide (X c) (propDecidable _)

theorem mem_sel {X : Nat → Prop} {l : List Nat} {c : Nat} : c ∈ sel X l ↔ c ∈ l ∧ X c := by
  simp [sel]

theorem sel_nodup {X : Nat → Prop} {l : List Nat} (h : l.Nodup) : (sel X l).Nodup := h.filter _

theorem sel_pos {X : Nat → Prop} {a : Nat} {l : List Nat} (h : X a) : sel X (a :: l) = a :: sel X l := List.filter_cons_of_pos (by simpa using h)

theorem sel_neg {X : Nat → Prop} {a : Nat} {l : List Nat} (h : ¬ X a) : sel X (a :: l) = sel X l := List.filter_cons_of_neg (by simpa using h)

theorem sel_congr {X Y : Nat → Prop} {l : List Nat} (h : ∀ c ∈ l, (X c ↔ Y c)) : sel X l = sel Y l := by
  induction l with
  | nil => rfl
  | cons a l ih =>
    have ih := ih fun c hc => h c (List.mem_cons_of_mem _ hc)
    by_cases ha : X a
    · rw [sel_pos ha, sel_pos ((h a List.mem_cons_self).1 ha), ih]
    · rw [sel_neg ha, sel_neg fun hc => ha ((h a List.mem_cons_self).2 hc), ih]

theorem sel_length_le (X : Nat → Prop) (l : List Nat) : (sel X l).length ≤ l.length := List.length_filter_le _ _

theorem sel_all {X : Nat → Prop} {l : List Nat} (h : ∀ c ∈ l, X c) : sel X l = l := List.filter_eq_self.2 fun c hc => by simpa using h c hc

theorem sel_full {X : Nat → Prop} {l : List Nat} : (sel X l).length = l.length ↔ ∀ c ∈ l, X c := by
  unfold sel; rw [List.length_filter_eq_length_iff]; simp

/-- What the children in `X` bring to `v`. -/
noncomputable def got (n : Nat) (par : Nat → Nat) (X : Nat → Prop) (k : Kd) (m : Loc → Int) (x : Int) (v : Nat) : Int :=
  (sel X (kids n par v)).foldl (fun x c => op k x (m (k, c))) x

theorem foldl_congr_mem {α β : Type} {f g : α → β → α} {l : List β} (h : ∀ x, ∀ b ∈ l, f x b = g x b) (x : α) : l.foldl f x = l.foldl g x := by
  induction l generalizing x with
  | nil => rfl
  | cons b l ih => rw [List.foldl_cons, List.foldl_cons, h x b List.mem_cons_self, ih fun x b hb => h x b (List.mem_cons_of_mem _ hb)]

theorem got_congr {X Y : Nat → Prop} {k : Kd} {m m' : Loc → Int} {x : Int} {v : Nat} (hXY : ∀ c ∈ kids n par v, (X c ↔ Y c))
    (hm : ∀ c ∈ kids n par v, Y c → m (k, c) = m' (k, c)) : got n par X k m x v = got n par Y k m' x v := by
  unfold got
  rw [sel_congr hXY]
  exact foldl_congr_mem (g := fun x c => op k x (m' (k, c))) (fun x c hc => congrArg (op k x) (hm c (mem_sel.1 hc).1 (mem_sel.1 hc).2)) x

/-- Folding the parts one after the other. -/
theorem fold_split (k : Kd) (val : Nat → Int) {X F : Nat → Prop} (l : List Nat) (hd : ∀ c ∈ l, X c → ¬ F c) (x : Int) :
    (sel F l).foldl (fun x c => op k x (val c)) ((sel X l).foldl (fun x c => op k x (val c)) x) =
      (sel (fun c => X c ∨ F c) l).foldl (fun x c => op k x (val c)) x := by
  have comm : ∀ (l : List Nat) (x a : Int), l.foldl (fun x c => op k x (val c)) (op k x a) = op k (l.foldl (fun x c => op k x (val c)) x) a := by
    intro l
    induction l with
    | nil => intro x a; rfl
    | cons b l ih => intro x a; rw [List.foldl_cons, List.foldl_cons, op_comm, ih]
  induction l generalizing x with
  | nil => rfl
  | cons a l ih =>
    have ih := ih fun c hc => hd c (List.mem_cons_of_mem _ hc)
    by_cases hX : X a
    · rw [sel_neg (hd a List.mem_cons_self hX), sel_pos hX, sel_pos (X := fun c => X c ∨ F c) (Or.inl hX), List.foldl_cons, List.foldl_cons, ih]
    · by_cases hF : F a
      · rw [sel_pos hF, sel_neg hX, sel_pos (X := fun c => X c ∨ F c) (Or.inr hF), List.foldl_cons, List.foldl_cons, ← ih, comm, comm, comm]
      · rw [sel_neg hF, sel_neg hX, sel_neg (X := fun c => X c ∨ F c) (fun h => h.elim hX hF), ih]

/-- The edges of a round to `d` are those from its children in the frontier. -/
theorem act_fold (T : Tr n par dp) (inF : Nat → Bool) (k : Kd) (m : Loc → Int) (x : Int) (d : Nat) :
    accTo (activeEdges (up n par) inF) k (v0 m k) (fun _ => True) x d = got n par (fun c => inF c = true) k m x d := by
  have hperm : (((activeEdges (up n par) inF).filter fun e => decide (e.d = d)).map fun e => e.s).Perm
      (sel (fun c => inF c = true) (kids n par d)) := by
    rw [List.perm_ext_iff_of_nodup]
    · intro c
      rw [List.mem_map, mem_sel]
      constructor
      · rintro ⟨e, he, rfl⟩
        obtain ⟨h1, h2⟩ := List.mem_filter.1 he
        have h3 : e.d = d := by simpa using h2
        obtain ⟨h4, h5⟩ := (mem_act T).1 h1
        exact ⟨h3 ▸ h5, h4⟩
      · rintro ⟨h1, h2⟩
        exact ⟨⟨c, d, ()⟩, List.mem_filter.2 ⟨(mem_act T).2 ⟨h2, h1⟩, by simp⟩, rfl⟩
    · refine List.Nodup.map_on ?_ ((activeEdges_nodup up_once inF).filter _)
      intro a ha b hb hab
      have h1 := (List.mem_filter.1 ha).2
      have h2 := (List.mem_filter.1 hb).2
      simp only [decide_eq_true_eq] at h1 h2
      obtain ⟨as, ad, aw⟩ := a
      obtain ⟨bs, bd, bw⟩ := b
      simp only at hab h1 h2
      subst hab; subst h1; subst h2; rfl
    · exact sel_nodup (kids_nodup d)
  rw [accTo_all]
  unfold got
  have h1 : ∀ l : List Ed, l.foldl (fun x e => op k x (v0 m k e)) x = (l.map fun e => e.s).foldl (fun x c => op k x (m (k, c))) x := by
    intro l; rw [List.foldl_map]; rfl
  rw [h1]
  exact hperm.foldl_eq' (f := fun x c => op k x (m (k, c))) (fun a _ b _ z => op_comm k z _ _) x

theorem bounded (f : Nat → Nat) (n : Nat) : ∃ D, ∀ v < n, f v ≤ D := by
  induction n with
  | zero => exact ⟨0, fun v hv => (by omega)⟩
  | succ n ih =>
    obtain ⟨D, hD⟩ := ih
    refine ⟨max D (f n), fun v hv => ?_⟩
    by_cases h : v = n
    · subst h; omega
    · have := hD v (by omega); omega

/-- Before a round: `X` is done, `Fr` is the frontier. -/
structure RInv (n : Nat) (par : Nat → Nat) (K : List Kd) (m0 : Loc → Int) (X : Nat → Prop) (Fr : List Nat) (m : Loc → Int) : Prop where
  val : ∀ k ∈ K, ∀ v, m (k, v) = got n par X k m (m0 (k, v)) v
  oth : ∀ k, k ∉ K → ∀ v, m (k, v) = m0 (k, v)
  rdy : ∀ v, X v ∨ v ∈ Fr ↔ v < n ∧ (∀ c ∈ kids n par v, X c) ∧ (par v ≠ v ∨ kids n par v ≠ [])
  disj : ∀ v, X v → v ∉ Fr

theorem got_ct (X : Nat → Prop) (m : Loc → Int) (x : Int) (v : Nat) :
    got n par X .ct m x v = x - ((sel X (kids n par v)).length : Nat) := by
  unfold got
  generalize sel X (kids n par v) = l
  induction l generalizing x with
  | nil => simp
  | cons e l ih => rw [List.foldl_cons, ih, List.length_cons]; simp only [op]; push_cast; omega

variable {K : List Kd} {m0 : Loc → Int}

theorem RInv.next (T : Tr n par dp) (hc : Kd.ct ∈ K) (hct : ∀ v, m0 (.ct, v) = ((kids n par v).length : Int)) {X : Nat → Prop} {Fr : List Nat} {m m' : Loc → Int}
    (h : RInv n par K m0 X Fr m) {F : Func Unit Loc Int Unit}
    (hF : ∀ acts : List Ed, acts.Nodup → Enough acts m → SepE acts → XSpec (lrg acts K m) F (· ∈ acts) (fun _ => True) LT (LDn K)) {o : List (Nat × Unit)}
    (hr : EdgeMapX F (up n par) (fun v => decide (v ∈ Fr)) m m' o) :
    RInv n par K m0 (fun v => X v ∨ v ∈ Fr) (o.map Prod.fst) m' := by
  have hact : ∀ {e : Ed}, e ∈ activeEdges (up n par) (fun v => decide (v ∈ Fr)) ↔ e.s ∈ Fr ∧ e.s ∈ kids n par e.d := by
    intro e; rw [mem_act T]; simp
  -- children of done or frontier vertices are done
  have hk : ∀ v, (X v ∨ v ∈ Fr) → ∀ c ∈ kids n par v, X c := fun v hv => ((h.rdy v).1 hv).2.1
  have hS : SepE (activeEdges (up n par) fun v => decide (v ∈ Fr)) := by
    intro e he e' he' heq
    obtain ⟨h1, -⟩ := hact.1 he
    obtain ⟨h2, h3⟩ := hact.1 he'
    exact h.disj _ (hk e.s (Or.inr h1) e'.s (heq ▸ h3)) h2
  have hcnt : ∀ d, (activeEdges (up n par) fun v => decide (v ∈ Fr)).countP (fun e => decide (e.d = d)) = (sel (fun c => c ∈ Fr) (kids n par d)).length := by
    intro d
    have h1 := act_fold T (fun v => decide (v ∈ Fr)) .ct m 0 d
    rw [accTo_all, got_ct, sel_congr (Y := fun c => c ∈ Fr) fun c _ => by simp] at h1
    have h2 : ∀ (l : List Ed) (x : Int), l.foldl (fun x e => op .ct x (v0 m .ct e)) x = x - (l.length : Nat) := by
      intro l
      induction l with
      | nil => intro x; simp
      | cons a l ih => intro x; rw [List.foldl_cons, ih, List.length_cons]; simp only [op]; push_cast; omega
    rw [h2, ← List.countP_eq_length_filter] at h1
    rw [Int.zero_sub, Int.zero_sub, Int.neg_inj] at h1
    exact Int.ofNat_inj.1 h1
  have hsplit : ∀ d, (sel X (kids n par d)).length + (sel (fun c => c ∈ Fr) (kids n par d)).length ≤ (kids n par d).length := by
    intro d
    have h1 := fold_split .ct (fun _ => 0) (X := X) (F := fun c => c ∈ Fr) (kids n par d) (fun c _ => h.disj c) 0
    have h2 : ∀ (l : List Nat) (x : Int), l.foldl (fun x c => op .ct x 0) x = x - (l.length : Nat) := by
      intro l
      induction l with
      | nil => intro x; simp
      | cons a l ih => intro x; rw [List.foldl_cons, ih, List.length_cons]; simp only [op]; push_cast; omega
    rw [h2, h2, h2] at h1
    have h3 := sel_length_le (fun c => X c ∨ c ∈ Fr) (kids n par d)
    omega
  have hE : Enough (activeEdges (up n par) fun v => decide (v ∈ Fr)) m := by
    intro e _
    rw [hcnt, h.val .ct hc, got_ct, hct]
    have := hsplit e.d
    omega
  obtain ⟨h1, h2, h3⟩ := leaf_round (up n par) (up_ok T) up_once _ hc (hF _ (activeEdges_nodup up_once _) hE hS) hr
  -- finished cells do not change
  have hkeep : ∀ k v, (X v ∨ v ∈ Fr) → m' (k, v) = m (k, v) := by
    intro k v hv
    rw [h1]
    by_cases hkK : k ∈ K
    · rw [if_pos hkK]
      refine accTo_none fun e he _ hd => ?_
      obtain ⟨h4, h5⟩ := hact.1 he
      exact h.disj _ (hk v hv e.s (hd ▸ h5)) h4
    · rw [if_neg hkK]
  have hval : ∀ k ∈ K, ∀ v, m' (k, v) = got n par (fun v => X v ∨ v ∈ Fr) k m' (m0 (k, v)) v := by
    intro k hkK v
    have h4 : got n par (fun v => X v ∨ v ∈ Fr) k m' (m0 (k, v)) v = got n par (fun v => X v ∨ v ∈ Fr) k m (m0 (k, v)) v :=
      got_congr (fun _ _ => Iff.rfl) fun c _ hc => hkeep k c hc
    rw [h4, h1, if_pos hkK, act_fold T, h.val k hkK v]
    have h5 := fold_split k (fun c => m (k, c)) (X := X) (F := fun c => c ∈ Fr) (kids n par v) (fun c _ => h.disj c) (m0 (k, v))
    have h6 : got n par (fun c => decide (c ∈ Fr) = true) k m (got n par X k m (m0 (k, v)) v) v = got n par (fun c => c ∈ Fr) k m (got n par X k m (m0 (k, v)) v) v :=
      got_congr (fun _ _ => by simp) fun _ _ _ => rfl
    exact h6.trans h5
  -- the counter is 0 exactly if all children are done
  have hzero : ∀ v, m' (.ct, v) = 0 ↔ ∀ c ∈ kids n par v, X c ∨ c ∈ Fr := by
    intro v
    rw [hval .ct hc v, got_ct, hct]
    have h4 := sel_length_le (fun c => X c ∨ c ∈ Fr) (kids n par v)
    have h5 := sel_full (X := fun c => X c ∨ c ∈ Fr) (l := kids n par v)
    rw [← h5]; omega
  refine ⟨hval, fun k hk' v => by rw [h1, if_neg hk', h.oth k hk'], fun v => ?_, fun v hv hin => ?_⟩
  · constructor
    · rintro (hv | hv)
      · obtain ⟨h4, h5, h6⟩ := (h.rdy v).1 hv
        exact ⟨h4, fun c hc => Or.inl (h5 c hc), h6⟩
      · obtain ⟨h4, e, he, rfl⟩ := (h3 v).1 hv
        obtain ⟨h5, h6⟩ := hact.1 he
        exact ⟨(T.kid h6).2.1, (hzero _).1 h4, Or.inr (List.ne_nil_of_mem h6)⟩
    · rintro ⟨h4, h5, h6⟩
      by_cases h7 : ∀ c ∈ kids n par v, X c
      · exact Or.inl ((h.rdy v).2 ⟨h4, h7, h6⟩)
      · push Not at h7
        obtain ⟨c, hc1, hc2⟩ := h7
        refine Or.inr ((h3 v).2 ⟨(hzero v).2 h5, ⟨c, v, ()⟩, hact.2 ⟨(h5 c hc1).resolve_left hc2, hc1⟩, rfl⟩)
  · obtain ⟨h4, e, he, rfl⟩ := (h3 v).1 hin
    obtain ⟨h5, h6⟩ := hact.1 he
    exact h.disj _ (hk e.d hv e.s h6) h5

theorem rounds_inv (T : Tr n par dp) (hc : Kd.ct ∈ K) (hct : ∀ v, m0 (.ct, v) = ((kids n par v).length : Int)) {F : Func Unit Loc Int Unit}
    (hF : ∀ m, ∀ acts : List Ed, acts.Nodup → Enough acts m → SepE acts → XSpec (lrg acts K m) F (· ∈ acts) (fun _ => True) LT (LDn K)) {k : Nat}
    {m m' : Loc → Int} {Fr : List Nat} (hl : Rounds F (up n par) k m Fr m') {X : Nat → Prop} (h : RInv n par K m0 X Fr m) : ∃ X, RInv n par K m0 X [] m' := by
  induction hl generalizing X with
  | done m => exact ⟨X, h⟩
  | round _ hr _ ih => exact ih (h.next T hc hct (hF _) hr)

theorem start_inv (m : Loc → Int) : RInv n par K (fun x => if x.1 = .ct then ((kids n par x.2).length : Int) else m x) (fun _ => False) (leafs n par)
    (fun x => if x.1 = .ct then ((kids n par x.2).length : Int) else m x) := by
  refine ⟨fun k _ v => ?_, fun _ _ _ => rfl, fun v => ?_, fun _ h => h.elim⟩
  · unfold got; rw [List.eq_nil_iff_forall_not_mem.2 fun c hc => (mem_sel.1 hc).2]; rfl
  · simp only [leafs, List.mem_filter, List.mem_range, decide_eq_true_eq, false_or, imp_false]
    rw [← List.eq_nil_iff_forall_not_mem, List.length_eq_zero_iff]
    constructor
    · rintro ⟨h1, h2, h3⟩; exact ⟨h1, h3, Or.inl h2⟩
    · rintro ⟨h1, h2, h3⟩; exact ⟨h1, h3.resolve_right (fun h => h h2), h2⟩

/-- The leaffix: every cell of the kinds `K` gets the final values of the children. -/
theorem leaffix_fix (T : Tr n par dp) (hc : Kd.ct ∈ K) {F : Func Unit Loc Int Unit}
    (hF : ∀ m, ∀ acts : List Ed, acts.Nodup → Enough acts m → SepE acts → XSpec (lrg acts K m) F (· ∈ acts) (fun _ => True) LT (LDn K))
    {m m' : Loc → Int} (h : Leaffix F n par m m') :
    (∀ k ∈ K, k ≠ .ct → ∀ v, m' (k, v) = (kids n par v).foldl (fun x c => op k x (m' (k, c))) (m (k, v))) ∧ ∀ k, k ∉ K → ∀ v, m' (k, v) = m (k, v) := by
  obtain ⟨j, hj⟩ := h
  obtain ⟨X, hX⟩ := rounds_inv T hc (fun v => by simp) hF hj (start_inv m)
  -- everything with a parent is done
  have hall : ∀ v < n, par v ≠ v → X v := by
    obtain ⟨D, hD⟩ : ∃ D, ∀ v < n, dp v ≤ D := bounded dp n
    intro v hv
    generalize hd : D - dp v = d
    induction d using Nat.strongRecOn generalizing v with
    | _ d ih =>
      intro hp
      refine ((hX.rdy v).2 ⟨hv, fun c hc => ?_, Or.inl hp⟩).resolve_right (by simp)
      obtain ⟨h1, h2, h3⟩ := mem_kids.1 hc
      have h4 := (T.kid hc).1
      have h5 := hD c h1
      exact ih (D - dp c) (by omega) c h1 rfl h2
  refine ⟨fun k hk hkc v => ?_, fun k hk v => ?_⟩
  · have h1 := hX.val k hk v
    rw [if_neg hkc] at h1
    rw [h1]
    unfold got
    rw [sel_all fun c hc => hall c (mem_kids.1 hc).1 (mem_kids.1 hc).2.1]
  · have h1 := hX.oth k hk v
    rw [h1, if_neg (fun h : k = .ct => hk (h ▸ hc))]

end

end Gbbs.Bicc
