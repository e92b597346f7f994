/-
C106: the rounds of `Boruvka`.
-/
import Verif.Boruvka.Model
import Verif.Boruvka.Cut
import Mathlib.Data.Finset.Card
import Mathlib.Data.List.Nodup

namespace Gbbs.Boruvka

open Forest Relation
open Conc (Par compress Ranked IsRoot compress_par)
open Conc.Prog (ret)

/-! ### Pointer jumping -/

theorem Ranked.le_root {mu m rt : Nat → Nat} (h : Ranked mu m) (hr : IsRoot m rt) (x : Nat) : rt x = x ∨ mu (rt x) < mu x := by
  obtain ⟨k, hk⟩ := hr.path x
  rw [hk]
  clear hk
  induction k with
  | zero => exact Or.inl rfl
  | succ k ih =>
    rw [Function.iterate_succ_apply']
    rcases h (m^[k] x) with h1 | h1
    · rw [h1]; exact ih
    · rcases ih with h2 | h2
      · rw [h2] at h1 ⊢; exact Or.inr h1
      · exact Or.inr (by omega)

theorem IsRoot.const {m rt : Nat → Nat} {g : Nat → Nat} (hr : IsRoot m rt) (h : ∀ x, g (m x) = g x) (x : Nat) : g (rt x) = g x := by
  obtain ⟨k, hk⟩ := hr.path x
  rw [hk]
  clear hk
  induction k with
  | zero => rfl
  | succ k ih => rw [Function.iterate_succ_apply', h, ih]

/-- After pointer jumping the forest is shallower, with the same roots. -/
theorem Jump.spec {mu p rt p' : Nat → Nat} {act : Nat → Bool} (h : Jump act p p') (hk : Ranked mu p) (hr : IsRoot p rt) :
    (∀ u, act u = true → p' u = rt u) ∧ (∀ u, act u = false → p' u = p u) ∧ Ranked mu p' ∧ IsRoot p' rt := by
  obtain ⟨f, out, hp, ho⟩ := h
  obtain ⟨h1, -, h3⟩ := compress_par hk hr f act hp
  have h1 : ∀ u, act u = true → p' u = rt u := fun u hu => by
    cases hc : out u with
    | none => exact absurd hc (ho u hu)
    | some r => exact (h1 u hu r hc).1
  have hrk : Ranked mu p' := fun x => by
    by_cases hx : act x = true
    · rw [h1 x hx]; exact Ranked.le_root hk hr x
    · rw [h3 x (by simpa using hx)]; exact hk x
  have hid : ∀ x, rt (rt x) = rt x := fun x => hr.of_root (hr.root x)
  have hst : ∀ x, rt (p' x) = rt x := fun x => by
    by_cases hx : act x = true
    · rw [h1 x hx]; exact hid x
    · rw [h3 x (by simpa using hx)]; exact hr.step x
  have hfix : ∀ x, p' x = x → rt x = x := fun x hx => by
    by_cases ha : act x = true
    · rw [← h1 x ha]; exact hx
    · rw [h3 x (by simpa using ha)] at hx; exact hr.of_root hx
  refine ⟨h1, h3, hrk, fun x => ?_, hst, fun x => ?_⟩
  · by_cases hx : act (rt x) = true
    · rw [h1 _ hx]; exact hid x
    · rw [h3 _ (by simpa using hx)]; exact hr.root x
  · obtain ⟨rt2, hr2⟩ := hrk.isRoot
    obtain ⟨k, hk2⟩ := hr2.path x
    refine ⟨k, ?_⟩
    rw [← hk2, ← hfix (rt2 x) (hr2.root x)]
    exact (IsRoot.const hr2 hst x).symm

/-! ### The least edges -/

theorem less_iff (a b : Nat × Int) : less a b = true ↔ a.2 < b.2 ∨ (a.2 = b.2 ∧ a.1 < b.1) := by
  simp [less]

theorem wmin_fold (l : List (Nat × (Nat × Int))) (a : Nat → Nat × Int) (v : Nat) :
    ((l.foldl wmin a) v = a v ∨ (v, (l.foldl wmin a) v) ∈ l) ∧ less (a v) ((l.foldl wmin a) v) = false ∧
      ∀ x, (v, x) ∈ l → less x ((l.foldl wmin a) v) = false := by
  induction l generalizing a with
  | nil => exact ⟨Or.inl rfl, by simp [less], fun x hx => (by cases hx)⟩
  | cons e l ih =>
    obtain ⟨h1, h2, h3⟩ := ih (wmin a e)
    rw [List.foldl_cons]
    generalize (l.foldl wmin (wmin a e)) v = r at *
    have hle : (wmin a e v = a v ∨ (e.1 = v ∧ wmin a e v = e.2)) ∧ less (a v) (wmin a e v) = false ∧ (e.1 = v → less e.2 (wmin a e v) = false) := by
      unfold wmin
      by_cases hc : less e.2 (a e.1) = true
      · rw [if_pos hc]
        by_cases hv : v = e.1
        · subst hv
          refine ⟨Or.inr ⟨rfl, by simp [upd]⟩, ?_, fun _ => by simp [upd, less]⟩
          simp only [upd, if_true]
          rw [less_iff] at hc
          rw [Bool.eq_false_iff, Ne, less_iff]; omega
        · refine ⟨Or.inl (by simp [upd, hv]), by simp [upd, hv, less], fun h => absurd h.symm hv⟩
      · rw [if_neg hc]
        exact ⟨Or.inl rfl, by simp [less], fun h => by subst h; simpa using hc⟩
    obtain ⟨g1, g2, g3⟩ := hle
    have tr : ∀ x, less x (wmin a e v) = false → less x r = false := by
      intro x hx
      rw [Bool.eq_false_iff, Ne, less_iff] at hx h2 ⊢; omega
    refine ⟨?_, tr _ g2, fun x hx => ?_⟩
    · rcases h1 with h1 | h1
      · rcases g1 with g1 | ⟨rfl, g1⟩
        · exact Or.inl (h1.trans g1)
        · right; rw [h1, g1]; exact List.mem_cons_self
      · exact Or.inr (List.mem_cons_of_mem _ h1)
    · rcases List.mem_cons.1 hx with rfl | hx
      · exact tr _ (g3 rfl)
      · exact h3 x hx

/-! ### Invariant -/

/-- The invariant of the loop of `Boruvka`: `e0` are the edges of the batch with their original ends, `F0` the forest
before, `rt` the roots. -/
structure Inv (n m : Nat) (e0 : Nat → E) (F0 : List E) (rt : Nat → Nat) (s : St) : Prop where
  rk : ∃ mu, Ranked mu s.p
  root : IsRoot s.p rt
  hi : ∀ x, n ≤ x → s.p x = x
  act : ∀ x, x < n → rt x ∈ s.vt ∨ s.ex (rt x) = true
  vr : ∀ v ∈ s.vt, s.p v = v ∧ v < n ∧ s.ex v = false
  er : ∀ v, s.ex v = true → s.p v = v ∧ v < n
  vn : s.vt.Nodup
  idn : s.ids.Nodup
  idm : ∀ i ∈ s.ids, i < m
  ed : ∀ i ∈ s.ids, s.ed i = (rt (e0 i).1, rt (e0 i).2.1, (e0 i).2.2)
  ne : ∀ i ∈ s.ids, rt (e0 i).1 ≠ rt (e0 i).2.1
  out : ∀ i, i < m → i ∉ s.ids → rt (e0 i).1 = rt (e0 i).2.1
  exn : ∀ v, s.ex v = true → ∀ i ∈ s.ids, rt (e0 i).1 ≠ v ∧ rt (e0 i).2.1 ≠ v
  conn : ∀ x y, rt x = rt y ↔ Conn (F0 ++ s.T.map e0) x y
  cut : CutRule e0 m F0 s.T
  tn : s.T.Nodup

/-- The edge ends in the component `v`. -/
def Inc (e0 : Nat → E) (rt : Nat → Nat) (i v : Nat) : Prop := rt (e0 i).1 = v ∨ rt (e0 i).2.1 = v

/-- Input of a batch. -/
structure Batch (n m : Nat) (e0 : Nat → E) : Prop where
  small : m ≤ 2 ^ 31
  lt : ∀ i < m, (e0 i).1 < n ∧ (e0 i).2.1 < n
  wle : ∀ i < m, (e0 i).2.2 ≤ infW

variable {n m : Nat} {e0 : Nat → E} {F0 : List E} {rt : Nat → Nat} {s : St}

theorem Inv.end_mem (h : Inv n m e0 F0 rt s) (hb : Batch n m e0) {i : Nat} (hi : i ∈ s.ids) :
    rt (e0 i).1 ∈ s.vt ∧ rt (e0 i).2.1 ∈ s.vt := by
  have hm := h.idm i hi
  refine ⟨(h.act _ (hb.lt i hm).1).resolve_right fun hx => (h.exn _ hx i hi).1 rfl,
    (h.act _ (hb.lt i hm).2).resolve_right fun hx => (h.exn _ hx i hi).2 rfl⟩

theorem mem_events (h : Inv n m e0 F0 rt s) {v : Nat} {x : Nat × Int} :
    (v, x) ∈ events s ↔ ∃ i ∈ s.ids, Inc e0 rt i v ∧ x = (i, (e0 i).2.2) := by
  simp only [events, List.mem_flatMap, List.mem_cons, List.not_mem_nil, or_false, Prod.mk.injEq, Inc]
  constructor
  · rintro ⟨i, hi, h1⟩
    rw [h.ed i hi] at h1
    refine ⟨i, hi, ?_⟩
    rcases h1 with ⟨h1, h2⟩ | ⟨h1, h2⟩
    · exact ⟨Or.inl h1.symm, h2⟩
    · exact ⟨Or.inr h1.symm, h2⟩
  · rintro ⟨i, hi, h1, h2⟩
    refine ⟨i, hi, ?_⟩
    rw [h.ed i hi]
    rcases h1 with h1 | h1
    · exact Or.inl ⟨h1.symm, h2⟩
    · exact Or.inr ⟨h1.symm, h2⟩

/-- What `min_edges` holds for an active vertex. -/
theorem minEdges_spec (h : Inv n m e0 F0 rt s) (hb : Batch n m e0) {old : Nat → Nat × Int} {evs : List (Nat × (Nat × Int))}
    (hp : evs.Perm (events s)) {v : Nat} (hv : v ∈ s.vt) :
    ((minEdges s old evs v).1 = noE ∧ ∀ i ∈ s.ids, ¬ Inc e0 rt i v) ∨
    ((minEdges s old evs v).1 ≠ noE ∧ (minEdges s old evs v).1 ∈ s.ids ∧ Inc e0 rt (minEdges s old evs v).1 v ∧
      ∀ j ∈ s.ids, Inc e0 rt j v → j = (minEdges s old evs v).1 ∨ kl e0 (minEdges s old evs v).1 j) := by
  obtain ⟨h1, -, h3⟩ := wmin_fold evs (fun v => if v ∈ s.vt then (noE, infW) else old v) v
  rw [← minEdges] at h1 h3
  generalize minEdges s old evs v = r at *
  rw [if_pos hv] at h1
  have hlt : ∀ i ∈ s.ids, i < noE := fun i hi => by
    have := h.idm i hi
    have := hb.small
    unfold noE; omega
  rw [hp.mem_iff, mem_events h] at h1
  have h3' : ∀ j ∈ s.ids, Inc e0 rt j v → less (j, (e0 j).2.2) r = false := fun j hj hv =>
    h3 _ (hp.mem_iff.2 ((mem_events h).2 ⟨j, hj, hv, rfl⟩))
  rcases h1 with rfl | ⟨i, hi, hiv, rfl⟩
  · left
    refine ⟨rfl, fun i hi hiv => ?_⟩
    have := h3' i hi hiv
    rw [Bool.eq_false_iff, Ne, less_iff] at this
    have h4 := hlt i hi
    have h5 := hb.wle i (h.idm i hi)
    dsimp only at this
    omega
  · right
    refine ⟨Nat.ne_of_lt (hlt i hi), hi, hiv, fun j hj hjv => ?_⟩
    have := h3' j hj hjv
    rw [Bool.eq_false_iff, Ne, less_iff] at this
    dsimp only at this ⊢
    unfold kl
    omega

/-- What an active vertex does. -/
theorem mark_spec (h : Inv n m e0 F0 rt s) (hb : Batch n m e0) {old : Nat → Nat × Int} {evs : List (Nat × (Nat × Int))}
    (hp : evs.Perm (events s)) {me : Nat → Nat × Int} (hme : me = minEdges s old evs) {v : Nat} (hv : v ∈ s.vt) :
    (mark s.ed me v = .gone ∧ ∀ i ∈ s.ids, ¬ Inc e0 rt i v) ∨
    ∃ i ∈ s.ids, ∃ u ∈ s.vt, u ≠ v ∧ ((rt (e0 i).1 = v ∧ rt (e0 i).2.1 = u) ∨ (rt (e0 i).1 = u ∧ rt (e0 i).2.1 = v)) ∧
      (∀ j ∈ s.ids, Inc e0 rt j v → j = i ∨ kl e0 i j) ∧
      ((mark s.ed me v = .root ∧ mark s.ed me u = .hook v i) ∨
       (mark s.ed me v = .hook u i ∧ (mark s.ed me u = .root ∨ ∃ u' i', mark s.ed me u = .hook u' i' ∧ kl e0 i' i))) := by
  have oth : ∀ {x}, x ∈ s.vt → (me x).1 ∈ s.ids → Inc e0 rt (me x).1 x →
      ∃ u ∈ s.vt, u ≠ x ∧ ((rt (e0 (me x).1).1 = x ∧ rt (e0 (me x).1).2.1 = u) ∨ (rt (e0 (me x).1).1 = u ∧ rt (e0 (me x).1).2.1 = x)) ∧
        (s.ed (me x).1).1 ^^^ (s.ed (me x).1).2.1 ^^^ x = u := by
    intro x _ hx hi
    have hm := h.end_mem hb hx
    have hne := h.ne _ hx
    rw [h.ed _ hx]
    rcases hi with hi | hi
    · exact ⟨_, hm.2, fun he => hne (hi.trans he.symm), Or.inl ⟨hi, rfl⟩, by dsimp only; rw [hi, Nat.xor_comm x, Nat.xor_assoc, Nat.xor_self, Nat.xor_zero]⟩
    · exact ⟨_, hm.1, fun he => hne (he.trans hi.symm), Or.inr ⟨rfl, hi⟩, by dsimp only; rw [hi, Nat.xor_assoc, Nat.xor_self, Nat.xor_zero]⟩
  rcases minEdges_spec (old := old) h hb hp hv with ⟨h1, h2⟩ | ⟨h1, h2, h3, h4⟩
  · left; rw [← hme] at h1; exact ⟨by rw [mark, if_pos h1], h2⟩
  · right
    rw [← hme] at h1 h2 h3 h4
    obtain ⟨u, hu, hne, hends, hx⟩ := oth hv h2 h3
    refine ⟨(me v).1, h2, u, hu, hne, hends, h4, ?_⟩
    have hiu : Inc e0 rt (me v).1 u := by
      rcases hends with ⟨_, hh⟩ | ⟨hh, _⟩
      · exact Or.inr hh
      · exact Or.inl hh
    rcases minEdges_spec (old := old) h hb hp hu with ⟨g1, g2⟩ | ⟨g1, g2, g3, g4⟩
    · exact absurd hiu (g2 _ h2)
    · rw [← hme] at g1 g2 g3 g4
      obtain ⟨w, hw, hwne, hwends, hwx⟩ := oth hu g2 g3
      have mv : mark s.ed me v = if v < u ∧ (me v).1 = (me u).1 then .root else .hook u (me v).1 := by
        rw [mark, if_neg h1]; dsimp only; rw [hx]
      have mu : mark s.ed me u = if u < w ∧ (me u).1 = (me w).1 then .root else .hook w (me u).1 := by
        rw [mark, if_neg g1]; dsimp only; rw [hwx]
      have hwv : (me v).1 = (me u).1 → w = v := by
        intro he
        rw [he] at hends
        rcases hends with ⟨a, b⟩ | ⟨a, b⟩ <;> rcases hwends with ⟨c, d⟩ | ⟨c, d⟩
        · exact absurd (c.symm.trans a) hne
        · exact c.symm.trans a
        · exact d.symm.trans b
        · exact absurd (d.symm.trans b) hne
      by_cases hc : v < u ∧ (me v).1 = (me u).1
      · left
        rw [mv, if_pos hc]
        refine ⟨rfl, ?_⟩
        have := hwv hc.2
        subst this
        rw [mu, if_neg (by omega), hc.2]
      · right
        rw [mv, if_neg hc]
        refine ⟨rfl, ?_⟩
        rw [mu]
        split
        · exact Or.inl rfl
        · rename_i hc2
          refine Or.inr ⟨_, _, rfl, ?_⟩
          rcases g4 _ h2 hiu with he | hk
          · have := hwv he
            subst this
            omega
          · exact hk

end Gbbs.Boruvka
