/-
C105: the least and greatest preorder numbers next to the subtrees, `preorder_number` of
`benchmarks/Biconnectivity/TarjanVishkin/Biconnectivity.h:253-294`.
-/
import Verif.Bicc.Preorder

namespace Gbbs.Bicc

open Conc Conc.Prog Em Relation
open Atomics (Steps)
open Relax (writeMin)

/-! ### Model -/

/-- The part of `map_f` for one end of the edge, `:269-273, 274-278`. -/
def touch (f : Nat) (v : Nat) (p : Int) : Prog Loc Int Unit :=
  read (.lo, v) fun x => if p < x then (writeMin f (.lo, v) p).bind fun _ => ret ()
    else read (.hi, v) fun y => if p > y then (writeMax f (.hi, v) p).bind fun _ => ret () else ret ()

/-- `map_f`, `:262-280`. -/
def mapF (f : Nat) (par : Nat → Nat) (PN : Nat → Int) (u v : Nat) : Prog Loc Int Unit :=
  if u < v then if u = par v ∨ v = par u then ret () else (touch f v (PN u)).bind fun _ => touch f u (PN v) else ret ()

/-- The map over all edges in parallel, `:281-282`: one thread for every arc. -/
def MapEdges {ι : Type} [DecidableEq ι] (arc : ι → Nat × Nat) (par : Nat → Nat) (PN : Nat → Int) (m m' : Loc → Int) : Prop :=
  ∃ (f : ι → Nat) (c : Conf ι Loc Int Unit), Steps Step ⟨m, fun i => mapF (f i) par PN (arc i).1 (arc i).2⟩ c ∧ (∀ i, c.th i = ret ()) ∧ c.mem = m'

/-! ### Verification -/

section
variable {ι : Type} [DecidableEq ι] {Nt : Nat → Nat → Prop} {PN : Nat → Int} {m0 : Loc → Int}

/-- The values in memory are the initial ones or numbers of neighbours. -/
structure MInv (Nt : Nat → Nat → Prop) (PN : Nat → Int) (m0 : Loc → Int) (m : Loc → Int) : Prop where
  lo : ∀ v, m (.lo, v) ≤ m0 (.lo, v) ∧ (m (.lo, v) = m0 (.lo, v) ∨ ∃ u, Nt u v ∧ m (.lo, v) = PN u)
  hi : ∀ v, m0 (.hi, v) ≤ m (.hi, v) ∧ (m (.hi, v) = m0 (.hi, v) ∨ ∃ u, Nt u v ∧ m (.hi, v) = PN u)
  sz : ∀ v, m (.sz, v) = m0 (.sz, v)

def Wider (m m' : Loc → Int) : Prop := ∀ v, m' (.lo, v) ≤ m (.lo, v) ∧ m (.hi, v) ≤ m' (.hi, v)

theorem Wider.refl (m : Loc → Int) : Wider m m := fun _ => ⟨Int.le_refl _, Int.le_refl _⟩

theorem Wider.trans {a b c : Loc → Int} (h1 : Wider a b) (h2 : Wider b c) : Wider a c :=
  fun v => ⟨Int.le_trans (h2 v).1 (h1 v).1, Int.le_trans (h1 v).2 (h2 v).2⟩

def mrg (ι : Type) (Nt : Nat → Nat → Prop) (PN : Nat → Int) (m0 : Loc → Int) : RG ι (Loc → Int) Loc Int where
  Inv g m := m = g ∧ MInv Nt PN m0 m
  R _ := Wider
  Gu _ := Wider
  refl _ := Wider.refl
  trans _ _ _ _ := Wider.trans
  compat _ _ _ _ _ h := h

/-- `p` is between the bounds of `v`. -/
def Bd (v : Nat) (p : Int) (g : Loc → Int) : Prop := g (.lo, v) ≤ p ∧ p ≤ g (.hi, v)

theorem Bd.wider {v : Nat} {p : Int} {g g' : Loc → Int} (h : Wider g g') (hb : Bd v p g) : Bd v p g' :=
  ⟨Int.le_trans (h v).1 hb.1, Int.le_trans hb.2 (h v).2⟩

theorem bd_keeps (i : ι) (v : Nat) (p : Int) : Keeps (mrg ι Nt PN m0) i (Bd v p) := ⟨fun _ _ h hb => hb.wider h, fun _ _ h hb => hb.wider h⟩

variable (hm : ∀ v, m0 (.lo, v) ≤ m0 (.hi, v))
include hm

theorem MInv.lower {m : Loc → Int} (h : MInv Nt PN m0 m) {u v : Nat} (hN : Nt u v) (hlt : PN u < m (.lo, v)) :
    MInv Nt PN m0 (put m (.lo, v) (PN u)) ∧ Wider m (put m (.lo, v) (PN u)) ∧ Bd v (PN u) (put m (.lo, v) (PN u)) := by
  have e1 : ∀ w, w ≠ v → put m (.lo, v) (PN u) (.lo, w) = m (.lo, w) := fun w hw => put_ne _ _ fun h => hw (by injection h)
  have e2 : ∀ w, put m (.lo, v) (PN u) (.hi, w) = m (.hi, w) := fun w => put_ne _ _ fun h => (by injection h with h _; cases h)
  have e3 : ∀ w, put m (.lo, v) (PN u) (.sz, w) = m (.sz, w) := fun w => put_ne _ _ fun h => (by injection h with h _; cases h)
  refine ⟨⟨fun w => ?_, fun w => by rw [e2]; exact h.hi w, fun w => by rw [e3]; exact h.sz w⟩, fun w => ?_, ?_⟩
  · by_cases hw : w = v
    · subst hw; rw [put_same]; exact ⟨by have := (h.lo w).1; omega, Or.inr ⟨u, hN, rfl⟩⟩
    · rw [e1 w hw]; exact h.lo w
  · rw [e2]
    by_cases hw : w = v
    · subst hw; rw [put_same]; exact ⟨by omega, Int.le_refl _⟩
    · rw [e1 w hw]; exact ⟨Int.le_refl _, Int.le_refl _⟩
  · refine ⟨by rw [put_same]; exact Int.le_refl _, ?_⟩
    rw [e2]
    have := (h.lo v).1; have := (h.hi v).1; have := hm v; omega

theorem MInv.raise {m : Loc → Int} (h : MInv Nt PN m0 m) {u v : Nat} (hN : Nt u v) (hlt : m (.hi, v) < PN u) :
    MInv Nt PN m0 (put m (.hi, v) (PN u)) ∧ Wider m (put m (.hi, v) (PN u)) ∧ Bd v (PN u) (put m (.hi, v) (PN u)) := by
  have e1 : ∀ w, w ≠ v → put m (.hi, v) (PN u) (.hi, w) = m (.hi, w) := fun w hw => put_ne _ _ fun h => hw (by injection h)
  have e2 : ∀ w, put m (.hi, v) (PN u) (.lo, w) = m (.lo, w) := fun w => put_ne _ _ fun h => (by injection h with h _; cases h)
  have e3 : ∀ w, put m (.hi, v) (PN u) (.sz, w) = m (.sz, w) := fun w => put_ne _ _ fun h => (by injection h with h _; cases h)
  refine ⟨⟨fun w => by rw [e2]; exact h.lo w, fun w => ?_, fun w => by rw [e3]; exact h.sz w⟩, fun w => ?_, ?_⟩
  · by_cases hw : w = v
    · subst hw; rw [put_same]; exact ⟨by have := (h.hi w).1; omega, Or.inr ⟨u, hN, rfl⟩⟩
    · rw [e1 w hw]; exact h.hi w
  · rw [e2]
    by_cases hw : w = v
    · subst hw; rw [put_same]; exact ⟨Int.le_refl _, by omega⟩
    · rw [e1 w hw]; exact ⟨Int.le_refl _, Int.le_refl _⟩
  · refine ⟨?_, by rw [put_same]; exact Int.le_refl _⟩
    rw [e2]
    have := (h.lo v).1; have := (h.hi v).1; have := hm v; omega

theorem wmin_safe (i : ι) {u v : Nat} (hN : Nt u v) (f : Nat) : ∀ g : Loc → Int, PN u ≤ m0 (.hi, v) →
    Safe (mrg ι Nt PN m0) i (fun g _ => Bd v (PN u) g) (writeMin f (.lo, v) (PN u)) g := by
  induction f with
  | zero => intro g _; trivial
  | succ f ih =>
    intro g hp g1 m1 hr1 hi1
    refine ⟨g1, Wider.refl _, hi1, ?_⟩
    beta_reduce
    by_cases hlt : PN u < m1 (.lo, v)
    · rw [if_pos hlt]
      intro g2 m2 hr2 hi2
      refine ⟨fun hx => ?_, fun hx => ⟨g2, Wider.refl _, hi2, ih g2 hp⟩⟩
      obtain ⟨h1, h2, h3⟩ := hi2.2.lower hm hN (by rw [hx]; exact hlt)
      exact ⟨_, hi2.1 ▸ h2, ⟨rfl, h1⟩, fun g3 hr3 => h3.wider hr3⟩
    · rw [if_neg hlt]
      intro g2 hr2
      refine Bd.wider hr2 ⟨by rw [← hi1.1]; omega, ?_⟩
      rw [← hi1.1]
      have := (hi1.2.hi v).1; omega

theorem wmax_safe (i : ι) {u v : Nat} (hN : Nt u v) (f : Nat) : ∀ g : Loc → Int, g (.lo, v) ≤ PN u →
    Safe (mrg ι Nt PN m0) i (fun g _ => Bd v (PN u) g) (writeMax f (.hi, v) (PN u)) g := by
  induction f with
  | zero => intro g _; trivial
  | succ f ih =>
    intro g hp g1 m1 hr1 hi1
    refine ⟨g1, Wider.refl _, hi1, ?_⟩
    have hp1 := Int.le_trans (hr1 v).1 hp
    beta_reduce
    by_cases hlt : m1 (.hi, v) < PN u
    · rw [if_pos hlt]
      intro g2 m2 hr2 hi2
      refine ⟨fun hx => ?_, fun hx => ⟨g2, Wider.refl _, hi2, ih g2 (Int.le_trans (hr2 v).1 hp1)⟩⟩
      obtain ⟨h1, h2, h3⟩ := hi2.2.raise hm hN (by rw [hx]; exact hlt)
      exact ⟨_, hi2.1 ▸ h2, ⟨rfl, h1⟩, fun g3 hr3 => h3.wider hr3⟩
    · rw [if_neg hlt]
      intro g2 hr2
      exact Bd.wider hr2 ⟨hp1, by rw [← hi1.1]; omega⟩

theorem touch_safe (i : ι) {u v : Nat} (hN : Nt u v) (f : Nat) (g : Loc → Int) :
    Safe (mrg ι Nt PN m0) i (fun g _ => Bd v (PN u) g) (touch f v (PN u)) g := by
  intro g1 m1 hr1 hi1
  refine ⟨g1, Wider.refl _, hi1, ?_⟩
  beta_reduce
  by_cases hlt : PN u < m1 (.lo, v)
  · rw [if_pos hlt]
    exact (wmin_safe hm i hN f g1 (by have := (hi1.2.lo v).1; have := hm v; omega)).bind fun _ g2 h2 g3 hr3 => Bd.wider hr3 h2
  · rw [if_neg hlt]
    intro g2 m2 hr2 hi2
    refine ⟨g2, Wider.refl _, hi2, ?_⟩
    have hlo : g2 (.lo, v) ≤ PN u := by
      have := (hr2 v).1; rw [← hi1.1] at this; omega
    beta_reduce
    by_cases hgt : PN u > m2 (.hi, v)
    · rw [if_pos hgt]
      exact (wmax_safe hm i hN f g2 hlo).bind fun _ g2 h2 g3 hr3 => Bd.wider hr3 h2
    · rw [if_neg hgt]
      intro g3 hr3
      exact Bd.wider hr3 ⟨hlo, by rw [← hi2.1]; omega⟩

/-- After the map: every number of a neighbour by an edge outside the tree is between the bounds, and the bounds come from somewhere. -/
theorem mapEdges_spec {arc : ι → Nat × Nat} {par : Nat → Nat} (hNt : ∀ i, (arc i).1 ≠ par (arc i).2 → (arc i).2 ≠ par (arc i).1 → (arc i).1 < (arc i).2 →
    Nt (arc i).1 (arc i).2 ∧ Nt (arc i).2 (arc i).1) {m' : Loc → Int} (h : MapEdges arc par PN m0 m') :
    MInv Nt PN m0 m' ∧ ∀ i, (arc i).1 ≠ par (arc i).2 → (arc i).2 ≠ par (arc i).1 → (arc i).1 < (arc i).2 →
      Bd (arc i).2 (PN (arc i).1) m' ∧ Bd (arc i).1 (PN (arc i).2) m' := by
  obtain ⟨f, c, hst, hd, rfl⟩ := h
  obtain ⟨g, hi, -, hp⟩ := safe_reach (mrg ι Nt PN m0)
    (fun i g _ => (arc i).1 ≠ par (arc i).2 → (arc i).2 ≠ par (arc i).1 → (arc i).1 < (arc i).2 →
      Bd (arc i).2 (PN (arc i).1) g ∧ Bd (arc i).1 (PN (arc i).2) g) hst m0
    ⟨rfl, fun v => ⟨Int.le_refl _, Or.inl rfl⟩, fun v => ⟨Int.le_refl _, Or.inl rfl⟩, fun _ => rfl⟩ (fun i => by
      show Safe _ i _ (mapF (f i) par PN (arc i).1 (arc i).2) m0
      unfold mapF
      by_cases hlt : (arc i).1 < (arc i).2
      · rw [if_pos hlt]
        by_cases ht : (arc i).1 = par (arc i).2 ∨ (arc i).2 = par (arc i).1
        · rw [if_pos ht]
          exact fun _ _ h1 h2 _ => (ht.elim h1 h2).elim
        · rw [if_neg ht]
          push Not at ht
          obtain ⟨h1, h2⟩ := hNt i ht.1 ht.2 hlt
          refine (touch_safe hm i h1 (f i) m0).bind fun _ g1 hg1 => ?_
          refine (safe_frame (bd_keeps i _ _) (touch_safe hm i h2 (f i) g1) hg1).weaken fun _ g2 h2 _ _ _ => ⟨h2.2, h2.1⟩
      · rw [if_neg hlt]
        exact fun _ _ _ _ h => absurd h hlt)
  refine ⟨hi.2, fun i => ?_⟩
  rw [hi.1]
  exact hp i () (hd i)

end

/-! ### The bounds of the subtrees -/

section
variable {n : Nat} {par dp : Nat → Nat} {sz PN : Nat → Int} {E : Nat → Nat → Prop}

/-- The leaffix takes the least and the greatest over the subtree. -/
theorem fold_min (l : List Nat) (g : Nat → Int) (x : Int) :
    let r := l.foldl (fun x c => op .lo x (g c)) x
    r ≤ x ∧ (∀ c ∈ l, r ≤ g c) ∧ (r = x ∨ ∃ c ∈ l, r = g c) := by
  induction l generalizing x with
  | nil => exact ⟨Int.le_refl _, fun c hc => (by cases hc), Or.inl rfl⟩
  | cons a l ih =>
    intro r
    obtain ⟨h1, h2, h3⟩ := ih (op .lo x (g a))
    have h0 : op .lo x (g a) ≤ x ∧ op .lo x (g a) ≤ g a ∧ (op .lo x (g a) = x ∨ op .lo x (g a) = g a) := by
      simp only [op]; omega
    refine ⟨Int.le_trans h1 h0.1, fun c hc => ?_, ?_⟩
    · rcases List.mem_cons.1 hc with rfl | hc
      · exact Int.le_trans h1 h0.2.1
      · exact h2 c hc
    · rcases h3 with h3 | ⟨c, hc, h3⟩
      · rcases h0.2.2 with h4 | h4
        · exact Or.inl (h3.trans h4)
        · exact Or.inr ⟨a, List.mem_cons_self, h3.trans h4⟩
      · exact Or.inr ⟨c, List.mem_cons_of_mem _ hc, h3⟩

theorem fold_max (l : List Nat) (g : Nat → Int) (x : Int) :
    let r := l.foldl (fun x c => op .hi x (g c)) x
    x ≤ r ∧ (∀ c ∈ l, g c ≤ r) ∧ (r = x ∨ ∃ c ∈ l, r = g c) := by
  induction l generalizing x with
  | nil => exact ⟨Int.le_refl _, fun c hc => (by cases hc), Or.inl rfl⟩
  | cons a l ih =>
    intro r
    obtain ⟨h1, h2, h3⟩ := ih (op .hi x (g a))
    have h0 : x ≤ op .hi x (g a) ∧ g a ≤ op .hi x (g a) ∧ (op .hi x (g a) = x ∨ op .hi x (g a) = g a) := by
      simp only [op]; omega
    refine ⟨Int.le_trans h0.1 h1, fun c hc => ?_, ?_⟩
    · rcases List.mem_cons.1 hc with rfl | hc
      · exact Int.le_trans h0.2.1 h1
      · exact h2 c hc
    · rcases h3 with h3 | ⟨c, hc, h3⟩
      · rcases h0.2.2 with h4 | h4
        · exact Or.inl (h3.trans h4)
        · exact Or.inr ⟨a, List.mem_cons_self, h3.trans h4⟩
      · exact Or.inr ⟨c, List.mem_cons_of_mem _ hc, h3⟩

theorem below_kid {v c x : Nat} (h : c ∈ kids n par v) (hx : Anc par c x) : Anc par v x :=
  (mem_kids.1 h).2.2 ▸ Anc.trans (Anc.one c) hx

/-- Values that agree with the fold over the children are the extreme values over the subtree. -/
theorem sub_min (T : Tr n par dp) {L l : Nat → Int} (h : ∀ v, L v = (kids n par v).foldl (fun x c => op .lo x (L c)) (l v)) {v : Nat} (hv : v < n) :
    (∀ x < n, Anc par v x → L v ≤ l x) ∧ ∃ x < n, Anc par v x ∧ L v = l x := by
  obtain ⟨D, hD⟩ := bounded dp n
  generalize hd : D - dp v = d
  induction d using Nat.strongRecOn generalizing v with
  | _ d ih =>
    have ihk : ∀ c ∈ kids n par v, (∀ x < n, Anc par c x → L c ≤ l x) ∧ ∃ x < n, Anc par c x ∧ L c = l x := fun c hc => by
      have h1 := (mem_kids.1 hc).1
      have h2 := (T.kid hc).1
      have h3 := hD c h1
      exact ih (D - dp c) (by omega) h1 rfl
    obtain ⟨h1, h2, h3⟩ := fold_min (kids n par v) L (l v)
    rw [← h v] at h1 h2 h3
    refine ⟨fun x hx ha => ?_, ?_⟩
    · by_cases hne : v = x
      · subst hne; exact h1
      · obtain ⟨c, hc, hcx⟩ := anc_kid T.lt hx ha hne
        exact Int.le_trans (h2 c hc) ((ihk c hc).1 x hx hcx)
    · rcases h3 with h3 | ⟨c, hc, h3⟩
      · exact ⟨v, hv, Anc.refl _, h3⟩
      · obtain ⟨x, hx, hcx, he⟩ := (ihk c hc).2
        exact ⟨x, hx, below_kid hc hcx, h3.trans he⟩

theorem sub_max (T : Tr n par dp) {L l : Nat → Int} (h : ∀ v, L v = (kids n par v).foldl (fun x c => op .hi x (L c)) (l v)) {v : Nat} (hv : v < n) :
    (∀ x < n, Anc par v x → l x ≤ L v) ∧ ∃ x < n, Anc par v x ∧ L v = l x := by
  obtain ⟨D, hD⟩ := bounded dp n
  generalize hd : D - dp v = d
  induction d using Nat.strongRecOn generalizing v with
  | _ d ih =>
    have ihk : ∀ c ∈ kids n par v, (∀ x < n, Anc par c x → l x ≤ L c) ∧ ∃ x < n, Anc par c x ∧ L c = l x := fun c hc => by
      have h1 := (mem_kids.1 hc).1
      have h2 := (T.kid hc).1
      have h3 := hD c h1
      exact ih (D - dp c) (by omega) h1 rfl
    obtain ⟨h1, h2, h3⟩ := fold_max (kids n par v) L (l v)
    rw [← h v] at h1 h2 h3
    refine ⟨fun x hx ha => ?_, ?_⟩
    · by_cases hne : v = x
      · subst hne; exact h1
      · obtain ⟨c, hc, hcx⟩ := anc_kid T.lt hx ha hne
        exact Int.le_trans ((ihk c hc).1 x hx hcx) (h2 c hc)
    · rcases h3 with h3 | ⟨c, hc, h3⟩
      · exact ⟨v, hv, Anc.refl _, h3⟩
      · obtain ⟨x, hx, hcx, he⟩ := (ihk c hc).2
        exact ⟨x, hx, below_kid hc hcx, h3.trans he⟩

/-- The bounds of the vertices. -/
structure Bounds (n : Nat) (E : Nat → Nat → Prop) (par : Nat → Nat) (PN sz : Nat → Int) (lo hi : Nat → Int) : Prop where
  all : ∀ x y, E x y → par x ≠ y → par y ≠ x → x ≠ y → lo x ≤ PN y ∧ PN y ≤ hi x
  lo : ∀ x, lo x = PN x ∨ ∃ y, E x y ∧ par x ≠ y ∧ par y ≠ x ∧ lo x = PN y
  hi : ∀ x, hi x = PN x + sz x - 1 ∨ ∃ y, E x y ∧ par x ≠ y ∧ par y ≠ x ∧ hi x = PN y

/-- The test of `critical_connectivity`. -/
theorem crit_iff (B : BfsTree E par dp) (T : Tr n par dp) (hE : ∀ u v, E u v → u < n ∧ v < n) (hz : IsSize n par sz) (hp : IsPN n par dp sz PN)
    {lo hi L U : Nat → Int} (hb : Bounds n E par PN sz lo hi) (hL : ∀ v, L v = (kids n par v).foldl (fun x c => op .lo x (L c)) (lo v))
    (hU : ∀ v, U v = (kids n par v).foldl (fun x c => op .hi x (U c)) (hi v)) {i : Nat} (hi' : i < n) :
    (PN (par i) ≤ L i ∧ U i < PN (par i) + sz (par i)) ↔ Crit E par i := by
  obtain ⟨l1, x1, hx1, ha1, e1⟩ := sub_min T hL hi'
  obtain ⟨u1, x2, hx2, ha2, e2⟩ := sub_max T hU hi'
  have hpi := T.lt i hi'
  have up : ∀ {x}, Anc par i x → Anc par (par i) x := fun h => Anc.trans (Anc.one i) h
  have conn : ∀ {a x}, Anc par a x → EqvGen E a x := fun h => (B.conn h).symm
  constructor
  · rintro ⟨h1, h2⟩ x y hix hxy hn1 hn2
    by_cases hne : x = y
    · exact hne ▸ up hix
    obtain ⟨hx, hy⟩ := hE x y hxy
    have hbd := hb.all x y hxy hn1 hn2 hne
    have h3 := l1 x hx hix
    have h4 := u1 x hx hix
    exact (pn_interval B T hz hp hpi hy ((conn (up hix)).trans _ _ _ (.rel _ _ hxy))).2 ⟨by omega, by omega⟩
  · intro hc
    have inI : ∀ {y}, y < n → Anc par (par i) y → PN (par i) ≤ PN y ∧ PN y < PN (par i) + sz (par i) := fun hy ha =>
      (pn_interval B T hz hp hpi hy (conn ha)).1 ha
    constructor
    · rw [e1]
      rcases hb.lo x1 with h | ⟨y, hxy, hn1, hn2, h⟩
      · rw [h]; exact (inI hx1 (up ha1)).1
      · rw [h]; exact (inI (hE _ _ hxy).2 (hc x1 y ha1 hxy hn1 hn2)).1
    · rw [e2]
      rcases hb.hi x2 with h | ⟨y, hxy, hn1, hn2, h⟩
      · rw [h]
        -- the whole interval of `x2` is in that of the parent
        obtain ⟨k, hk⟩ := up ha2
        have nest : ∀ k a, a = par^[k] x2 → PN x2 + sz x2 ≤ PN a + sz a := by
          intro k
          induction k with
          | zero => rintro a rfl; exact Int.le_refl _
          | succ k ih =>
            rintro a rfl
            rw [Function.iterate_succ_apply']
            have h1 := ih _ rfl
            by_cases hr : par (par^[k] x2) = par^[k] x2
            · rw [hr]; exact h1
            · have := pn_kid (size_pos T hz) hz hp (mem_kids.2 ⟨anc_lt T.lt hx2 ⟨k, rfl⟩, hr, rfl⟩)
              omega
        have := nest k _ hk.symm
        omega
      · rw [h]; exact (inI (hE _ _ hxy).2 (hc x2 y ha2 hxy hn1 hn2)).2

end

end Gbbs.Bicc
