/-
C106: a round of `Boruvka` keeps the invariant and leaves fewer active vertices.
-/
import Verif.Boruvka.Inner
import Mathlib.Data.Nat.Bitwise

namespace Gbbs.Boruvka

open Forest Relation
open Conc (Par compress Ranked IsRoot compress_par)
open Conc.Prog (ret)

variable {n m : Nat} {e0 : Nat → E} {F0 : List E} {rt : Nat → Nat} {s : St}

/-- Number of smaller edges. -/
noncomputable def rankE (m : Nat) (e0 : Nat → E) (i : Nat) : Nat :=
  open Classical in ((Finset.range m).filter fun j => kl e0 j i).card

theorem rankE_lt {i j : Nat} (hi : i < m) (h : kl e0 i j) : rankE m e0 i < rankE m e0 j := by
  classical
  refine Finset.card_lt_card ((Finset.ssubset_iff_of_subset fun x hx => ?_).2 ⟨i, ?_, ?_⟩)
  · rw [Finset.mem_filter] at hx ⊢
    exact ⟨hx.1, kl_trans hx.2 h⟩
  · rw [Finset.mem_filter, Finset.mem_range]; exact ⟨hi, h⟩
  · rw [Finset.mem_filter]; exact fun hx => kl_asymm hx.2 hx.2

theorem rankE_le (i : Nat) : rankE m e0 i ≤ m := by
  classical
  refine (Finset.card_filter_le _ _).trans ?_
  rw [Finset.card_range]

/-- The measure after hooking. -/
noncomputable def mu1 (m : Nat) (e0 : Nat → E) (s : St) (me : Nat → Nat × Int) (mu : Nat → Nat) (x : Nat) : Nat :=
  if x ∈ s.vt then
    match mark s.ed me x with
    | .hook _ i => 1 + rankE m e0 i
    | _ => 0
  else m + 2 + mu x

variable {old : Nat → Nat × Int} {evs : List (Nat × (Nat × Int))} {me : Nat → Nat × Int}

theorem hooked_of_not_mem {v : Nat} (hv : v ∉ s.vt) : hooked s me v = s.p v := by rw [hooked, if_neg hv]

theorem Inv.hooked_ranked (h : Inv n m e0 F0 rt s) (hb : Batch n m e0) (hp : evs.Perm (events s))
    (hme : me = minEdges s old evs) {mu : Nat → Nat} (hmu : Ranked mu s.p) : Ranked (mu1 m e0 s me mu) (hooked s me) := by
  have small : ∀ x ∈ s.vt, mu1 m e0 s me mu x < m + 2 := by
    intro x hx
    rw [mu1, if_pos hx]
    split
    · have := rankE_le (m := m) (e0 := e0) ‹Nat›; omega
    · omega
  intro x
  by_cases hx : x ∈ s.vt
  · rcases mark_spec h hb hp hme hx with ⟨h1, -⟩ | ⟨i, hi, u, hu, hne, -, -, h1⟩
    · left; rw [hooked, if_pos hx, h1]; exact (h.vr x hx).1
    · rcases h1 with ⟨h1, -⟩ | ⟨h1, h2⟩
      · left; rw [hooked, if_pos hx, h1]
      · right
        have hk : hooked s me x = u := by rw [hooked, if_pos hx, h1]
        rw [hk, mu1, mu1, if_pos hx, if_pos hu, h1]
        rcases h2 with h2 | ⟨u', i', h2, h3⟩
        · rw [h2]; dsimp only; omega
        · rw [h2]
          dsimp only
          rcases mark_spec h hb hp hme hu with ⟨h4, -⟩ | ⟨j, hj, w, -, -, -, -, ⟨h4, -⟩ | ⟨h4, -⟩⟩
          · rw [h4] at h2; cases h2
          · rw [h4] at h2; cases h2
          · rw [h4] at h2
            cases h2
            have := rankE_lt (h.idm _ hj) h3
            omega
  · rw [hooked_of_not_mem hx]
    rcases hmu x with h1 | h1
    · exact Or.inl h1
    · right
      by_cases hpx : s.p x ∈ s.vt
      · have h2 := small _ hpx
        have h3 : mu1 m e0 s me mu x = m + 2 + mu x := by rw [mu1, if_neg hx]
        omega
      · rw [mu1, mu1, if_neg hx, if_neg hpx]; omega

theorem topBit_spec {i : Nat} (h : i < 2 ^ 31) : i &&& topBit = 0 ∧ (i ||| topBit) &&& topBit ≠ 0 := by
  have h0 : i &&& topBit = 0 := by rw [topBit, Nat.and_two_pow, Nat.testBit_lt_two_pow h]; rfl
  exact ⟨h0, by rw [Nat.and_or_distrib_right, h0]; decide⟩

theorem pack_ids (l : List Nat) (c : Nat → Prop) [DecidablePred c] (h : ∀ i ∈ l, i < 2 ^ 31) :
    ((l.map fun i => if c i then i ||| topBit else i).filter fun i => decide (i &&& topBit = 0)) = l.filter fun i => decide (¬ c i) := by
  induction l with
  | nil => rfl
  | cons a l ih =>
    have ha := topBit_spec (h a List.mem_cons_self)
    rw [List.map_cons, List.filter_cons, List.filter_cons, ih fun i hi => h i (List.mem_cons_of_mem _ hi)]
    by_cases hc : c a
    · simp [hc, ha.2]
    · simp [hc, ha.1]

/-- A round keeps the invariant. -/
theorem Inv.round (h : Inv n m e0 F0 rt s) (hb : Batch n m e0) {s' : St} (hr : Round s s') : ∃ rt', Inv n m e0 F0 rt' s' := by
  obtain ⟨old, evs, p2, hp, hj, rfl⟩ := hr
  obtain ⟨me, hme⟩ : ∃ me, me = minEdges s old evs := ⟨_, rfl⟩
  rw [← hme] at hj ⊢
  obtain ⟨mu, hmu⟩ := h.rk
  have hmu1 := h.hooked_ranked hb hp hme hmu
  obtain ⟨r1, hr1⟩ := hmu1.isRoot
  obtain ⟨j1, j2, j3, j4⟩ := hj.spec hmu1 hr1
  replace j1 : ∀ u ∈ s.vt, p2 u = r1 u := fun u hu => j1 u (by simpa using hu)
  replace j2 : ∀ u, u ∉ s.vt → p2 u = s.p u := fun u hu => (j2 u (by simpa using hu)).trans (hooked_of_not_mem hu)
  have spec : ∀ {v}, v ∈ s.vt → _ := fun {v} hv => mark_spec h hb hp hme hv
  -- the new roots from the old ones
  have hrr : ∀ x, r1 (rt x) = r1 x := IsRoot.const h.root fun x => by
    by_cases hx : x ∈ s.vt
    · rw [(h.vr x hx).1]
    · rw [← hooked_of_not_mem (me := me) hx]; exact hr1.step x
  have hidr : ∀ x, rt (rt x) = rt x := fun x => h.root.of_root (h.root.root x)
  have hvr : ∀ v ∈ s.vt, rt v = v := fun v hv => h.root.of_root (h.vr v hv).1
  -- hooking stays inside
  have hkm : ∀ v ∈ s.vt, hooked s me v ∈ s.vt := by
    intro v hv
    rcases spec hv with ⟨h1, -⟩ | ⟨i, hi, u, hu, hne, -, -, ⟨h1, -⟩ | ⟨h1, -⟩⟩
    · rw [hooked, if_pos hv, h1]; dsimp only; rw [(h.vr v hv).1]; exact hv
    · rw [hooked, if_pos hv, h1]; exact hv
    · rw [hooked, if_pos hv, h1]; exact hu
  have hit : ∀ v ∈ s.vt, ∀ k, (hooked s me)^[k] v ∈ s.vt := by
    intro v hv k
    induction k with
    | zero => exact hv
    | succ k ih => rw [Function.iterate_succ_apply']; exact hkm _ ih
  have hrm : ∀ v ∈ s.vt, r1 v ∈ s.vt := by
    intro v hv
    obtain ⟨k, hk⟩ := hr1.path v
    rw [hk]; exact hit v hv k
  -- nobody hooks onto a vertex without edges
  have hgone : ∀ v ∈ s.vt, mark s.ed me (r1 v) = .gone → mark s.ed me v = .gone := by
    intro v hv
    obtain ⟨k, hk⟩ := hr1.path v
    rw [hk]
    clear hk
    induction k with
    | zero => exact id
    | succ k ih =>
      intro hg
      rw [Function.iterate_succ_apply'] at hg
      refine ih ?_
      have hw := hit v hv k
      generalize (hooked s me)^[k] v = w at hg hw
      rcases spec hw with ⟨h1, -⟩ | ⟨i, hi, u, hu, hne, hends, -, ⟨h1, -⟩ | ⟨h1, h2⟩⟩
      · exact h1
      · rw [hooked, if_pos hw, h1] at hg
        exact hg
      · rw [hooked, if_pos hw, h1] at hg
        dsimp only at hg
        rcases h2 with h2 | ⟨_, _, h2, -⟩
        · rw [hg] at h2; cases h2
        · rw [hg] at h2; cases h2
  -- new edges
  have hnew : ∀ {i}, i ∈ s.vt.filterMap (newEdge s me) → ∃ v ∈ s.vt, ∃ u, mark s.ed me v = .hook u i := by
    intro i hi
    obtain ⟨v, hv, hvi⟩ := List.mem_filterMap.1 hi
    rw [newEdge] at hvi
    split at hvi
    · rename_i u i' he
      cases hvi
      exact ⟨v, hv, u, he⟩
    · cases hvi
  have hnewS : ∀ {v u i}, v ∈ s.vt → mark s.ed me v = .hook u i →
      i ∈ s.ids ∧ u ∈ s.vt ∧ u ≠ v ∧ ((rt (e0 i).1 = v ∧ rt (e0 i).2.1 = u) ∨ (rt (e0 i).1 = u ∧ rt (e0 i).2.1 = v)) ∧
      (∀ j ∈ s.ids, Inc e0 rt j v → j = i ∨ kl e0 i j) ∧
      (mark s.ed me u = .root ∨ ∃ u' i', mark s.ed me u = .hook u' i' ∧ kl e0 i' i) := by
    intro v u i hv hm
    rcases spec hv with ⟨h1, -⟩ | ⟨i', hi, u', hu, hne, hends, hmin, ⟨h1, -⟩ | ⟨h1, h2⟩⟩
    · rw [h1] at hm; cases hm
    · rw [h1] at hm; cases hm
    · rw [h1] at hm
      cases hm
      exact ⟨hi, hu, hne, hends, hmin, h2⟩
  have hTl : ∀ t ∈ s.T, rt (e0 t).1 = rt (e0 t).2.1 := fun t ht =>
    (h.conn _ _).2 (conn_of_mem (List.mem_append_right _ (List.mem_map.2 ⟨t, ht, rfl⟩)))
  -- ends of live edges
  have hp2e : ∀ i ∈ s.ids, p2 (s.ed i).1 = r1 (e0 i).1 ∧ p2 (s.ed i).2.1 = r1 (e0 i).2.1 := by
    intro i hi
    have hm := h.end_mem hb hi
    rw [h.ed i hi]
    exact ⟨(j1 _ hm.1).trans (hrr _), (j1 _ hm.2).trans (hrr _)⟩
  have hids : (finish s me p2).ids = s.ids.filter fun i => decide (¬ p2 (s.ed i).1 = p2 (s.ed i).2.1) :=
    pack_ids s.ids (fun i => p2 (s.ed i).1 = p2 (s.ed i).2.1) fun i hi => Nat.lt_of_lt_of_le (h.idm i hi) hb.small
  have hmids : ∀ i, i ∈ (finish s me p2).ids ↔ i ∈ s.ids ∧ r1 (e0 i).1 ≠ r1 (e0 i).2.1 := by
    intro i
    rw [hids, List.mem_filter]
    refine and_congr_right fun hi => ?_
    rw [(hp2e i hi).1, (hp2e i hi).2]; simp
  have hcold : ∀ {x y}, Conn (F0 ++ s.T.map e0) x y → Conn (F0 ++ (finish s me p2).T.map e0) x y := by
    intro x y hc
    refine conn_mono (fun e he => ?_) hc
    simp only [finish, List.map_append, List.mem_append] at he ⊢
    tauto
  refine ⟨r1, ⟨_, j3⟩, j4, ?_, ?_, ?_, ?_, ?_, ?_, ?_, ?_, ?_, ?_, ?_, ?_, ?_, ?_⟩
  · -- hi
    intro x hx
    have : x ∉ s.vt := fun hc => by have := (h.vr x hc).2.1; omega
    show p2 x = x
    rw [j2 x this]; exact h.hi x hx
  · -- act
    intro x hx
    rw [← hrr x]
    rcases h.act x hx with ha | ha
    · have hm := hrm _ ha
      have hroot := hr1.root (rt x)
      rcases spec hm with ⟨h1, -⟩ | ⟨i, hi, u, hu, hne, -, -, ⟨h1, -⟩ | ⟨h1, -⟩⟩
      · right; simp [finish, hm, h1]
      · left; exact List.mem_filter.2 ⟨hm, by simp [h1]⟩
      · rw [hooked, if_pos hm, h1] at hroot
        exact absurd hroot hne
    · right
      have hnv : rt x ∉ s.vt := fun hc => by rw [(h.vr _ hc).2.2] at ha; cases ha
      have hself : hooked s me (rt x) = rt x := by rw [hooked_of_not_mem hnv]; exact h.root.root x
      rw [hr1.of_root hself]
      simp [finish, ha]
  · -- vr
    intro v hv
    obtain ⟨hv, hm⟩ := List.mem_filter.1 hv
    have hm : mark s.ed me v = .root := by simpa using hm
    refine ⟨?_, (h.vr v hv).2.1, ?_⟩
    · show p2 v = v
      rw [j1 v hv]
      exact hr1.of_root (by rw [hooked, if_pos hv, hm])
    · simp [finish, (h.vr v hv).2.2, hm]
  · -- er
    intro v hv
    simp only [finish, Bool.or_eq_true, Bool.and_eq_true, decide_eq_true_eq] at hv
    rcases hv with hv | ⟨hv, hm⟩
    · have hnv : v ∉ s.vt := fun hc => by rw [(h.vr _ hc).2.2] at hv; cases hv
      refine ⟨?_, (h.er v hv).2⟩
      show p2 v = v
      rw [j2 v hnv]; exact (h.er v hv).1
    · refine ⟨?_, (h.vr v hv).2.1⟩
      show p2 v = v
      rw [j1 v hv]
      exact hr1.of_root (by rw [hooked, if_pos hv, hm]; exact (h.vr v hv).1)
  · exact h.vn.filter _
  · rw [hids]; exact h.idn.filter _
  · exact fun i hi => h.idm i ((hmids i).1 hi).1
  · -- ed
    intro i hi
    have hi := ((hmids i).1 hi).1
    show (if i ∈ s.ids then _ else _) = _
    rw [if_pos hi, (hp2e i hi).1, (hp2e i hi).2, h.ed i hi]
  · exact fun i hi => ((hmids i).1 hi).2
  · -- out
    intro i hi hni
    by_cases hc : i ∈ s.ids
    · by_contra hne
      exact hni ((hmids i).2 ⟨hc, hne⟩)
    · rw [← hrr, h.out i hi hc, hrr]
  · -- exn
    intro v hv i hi
    obtain ⟨hi, -⟩ := (hmids i).1 hi
    have hm := h.end_mem hb hi
    have key : ∀ y, rt y ∈ s.vt → Inc e0 rt i (rt y) → r1 y ≠ v := by
      intro y hy hinc he
      rw [← hrr y] at he
      simp only [finish, Bool.or_eq_true, Bool.and_eq_true, decide_eq_true_eq] at hv
      rcases hv with hv | ⟨-, hg⟩
      · have hc := hrm _ hy
        rw [he] at hc
        rw [(h.vr _ hc).2.2] at hv; cases hv
      · rw [← he] at hg
        have := hgone _ hy hg
        rcases spec hy with ⟨-, h1⟩ | ⟨i, hi, u, hu, hne, -, -, ⟨h1, -⟩ | ⟨h1, -⟩⟩
        · exact h1 i hi hinc
        · rw [h1] at this; cases this
        · rw [h1] at this; cases this
    exact ⟨key _ hm.1 (Or.inl rfl), key _ hm.2 (Or.inr rfl)⟩
  · -- conn
    intro x y
    have R := conn_equiv (F0 ++ (finish s me p2).T.map e0)
    constructor
    · have hst : ∀ x, Conn (F0 ++ (finish s me p2).T.map e0) x (hooked s me x) := by
        intro x
        by_cases hx : x ∈ s.vt
        · rcases spec hx with ⟨h1, -⟩ | ⟨i, hi, u, hu, hne, hends, -, ⟨h1, -⟩ | ⟨h1, -⟩⟩
          · rw [hooked, if_pos hx, h1]; dsimp only; rw [(h.vr x hx).1]; exact R.refl _
          · rw [hooked, if_pos hx, h1]; exact R.refl _
          · have hk : hooked s me x = u := by rw [hooked, if_pos hx, h1]
            rw [hk]
            have hin : i ∈ (finish s me p2).T :=
              List.mem_append_right _ (List.mem_filterMap.2 ⟨x, hx, by rw [newEdge, h1]⟩)
            have hce : Conn (F0 ++ (finish s me p2).T.map e0) (e0 i).1 (e0 i).2.1 :=
              conn_of_mem (List.mem_append_right _ (List.mem_map.2 ⟨i, hin, rfl⟩))
            have ha : ∀ y, Conn (F0 ++ (finish s me p2).T.map e0) y (rt y) := fun y => hcold ((h.conn _ _).1 (hidr y).symm)
            have h2 := R.trans (R.symm (ha (e0 i).1)) (R.trans hce (ha (e0 i).2.1))
            rcases hends with ⟨a, b⟩ | ⟨a, b⟩
            · rw [a, b] at h2; exact h2
            · rw [a, b] at h2; exact R.symm h2
        · rw [hooked_of_not_mem hx]
          exact hcold ((h.conn _ _).1 (h.root.step x).symm)
      have hall : ∀ x, Conn (F0 ++ (finish s me p2).T.map e0) x (r1 x) := by
        intro x
        obtain ⟨k, hk⟩ := hr1.path x
        rw [hk]
        clear hk
        induction k with
        | zero => exact R.refl _
        | succ k ih => rw [Function.iterate_succ_apply']; exact R.trans ih (hst _)
      intro he
      exact R.trans (hall x) (he ▸ R.symm (hall y))
    · intro hc
      refine conn_le (s := fun a b => r1 a = r1 b) ⟨fun _ => rfl, fun h => h.symm, fun h h' => h.trans h'⟩ (fun e he => ?_) hc
      simp only [finish, List.map_append] at he
      rw [← List.append_assoc] at he
      rcases List.mem_append.1 he with he | he
      · rw [← hrr e.1, (h.conn _ _).2 (conn_of_mem he), hrr]
      · obtain ⟨i, hi, rfl⟩ := List.mem_map.1 he
        obtain ⟨v, hv, u, hm⟩ := hnew hi
        obtain ⟨-, hu, -, hends, -, -⟩ := hnewS hv hm
        have hk : hooked s me v = u := by rw [hooked, if_pos hv, hm]
        have h2 : r1 u = r1 v := by rw [← hk]; exact hr1.step v
        rw [← hrr (e0 i).1, ← hrr (e0 i).2.1]
        rcases hends with ⟨a, b⟩ | ⟨a, b⟩
        · rw [a, b, h2]
        · rw [a, b, h2]
  · -- cut
    intro f hf
    rcases List.mem_append.1 hf with hf | hf
    · exact h.cut f hf
    · obtain ⟨v, hv, u, hm⟩ := hnew hf
      obtain ⟨hi, hu, hne, hends, hmin, -⟩ := hnewS hv hm
      refine ⟨h.idm _ hi, fun x => rt x = v, fun b hb => ?_, ?_, fun g hg hcr => ?_⟩
      · have : rt b.1 = rt b.2.1 := (h.conn _ _).2 (conn_of_mem (List.mem_append_left _ hb))
        simp [Cross, this]
      · rcases hends with ⟨a, b⟩ | ⟨a, b⟩
        · simp [Cross, a, b, hne]
        · simp [Cross, a, b, hne]
      · have hgi : g ∈ s.ids := by
          by_contra hc
          exact hcr (by dsimp only; rw [h.out g hg hc])
        refine hmin g hgi ?_
        unfold Inc
        unfold Cross at hcr
        tauto
  · -- tn
    refine List.nodup_append.2 ⟨h.tn, ?_, ?_⟩
    · refine List.Pairwise.filterMap (R := fun v v' => v ≠ v' ∧ v ∈ s.vt ∧ v' ∈ s.vt) _ ?_ ?_
      · rintro v v' ⟨hne, hv, hv'⟩ i hvi i' hvi' rfl
        have hm : ∃ u, mark s.ed me v = .hook u i := by
          rw [newEdge] at hvi; split at hvi
          · cases hvi; exact ⟨_, ‹_›⟩
          · cases hvi
        have hm' : ∃ u, mark s.ed me v' = .hook u i := by
          rw [newEdge] at hvi'; split at hvi'
          · cases hvi'; exact ⟨_, ‹_›⟩
          · cases hvi'
        obtain ⟨u, hm⟩ := hm
        obtain ⟨u', hm'⟩ := hm'
        obtain ⟨-, -, a1, a2, -, a3⟩ := hnewS hv hm
        obtain ⟨-, -, -, b2, -, -⟩ := hnewS hv' hm'
        have huv : u = v' := by
          rcases a2 with ⟨x, y⟩ | ⟨x, y⟩ <;> rcases b2 with ⟨z, w⟩ | ⟨z, w⟩
          · exact absurd (x.symm.trans z) hne
          · exact y.symm.trans w
          · exact x.symm.trans z
          · exact absurd (y.symm.trans w) hne
        subst huv
        rcases a3 with a3 | ⟨_, i', a3, a4⟩
        · rw [a3] at hm'; cases hm'
        · rw [a3] at hm'; cases hm'
          exact kl_asymm a4 a4
      · exact h.vn.imp_of_mem fun ha hb hne => ⟨hne, ha, hb⟩
    · rintro t ht i hi rfl
      obtain ⟨v, hv, u, hm⟩ := hnew hi
      exact h.ne t (hnewS hv hm).1 (hTl t ht)

/-- If edges are left, fewer vertices remain active. -/
theorem Inv.fewer (h : Inv n m e0 F0 rt s) (hb : Batch n m e0) {s' : St} (hr : Round s s') (hi : 0 < s.ids.length) :
    s'.vt.length < s.vt.length := by
  obtain ⟨old, evs, p2, hp, hj, rfl⟩ := hr
  show (s.vt.filter _).length < _
  rw [← List.countP_eq_length_filter]
  refine Nat.lt_of_le_of_ne List.countP_le_length fun he => ?_
  have hall := List.countP_eq_length.1 he
  obtain ⟨i, hi⟩ := List.exists_mem_of_length_pos hi
  have hm := (h.end_mem hb hi).1
  rcases mark_spec h hb hp rfl hm with ⟨h1, -⟩ | ⟨i, hi, u, hu, hne, -, -, ⟨h1, h2⟩ | ⟨h1, h2⟩⟩
  · have := hall _ hm; rw [h1] at this; simp at this
  · have := hall _ hu; rw [h2] at this; simp at this
  · have := hall _ hm; rw [h1] at this; simp at this

/-- When the loop ends no edge is left. -/
theorem Inv.ends (h : Inv n m e0 F0 rt s) (hb : Batch n m e0) (hd : ¬ (1 < s.vt.length ∧ 0 < s.ids.length)) : s.ids = [] := by
  by_contra hne
  have hpos : 0 < s.ids.length := List.length_pos_iff.2 hne
  obtain ⟨i, hi⟩ := List.exists_mem_of_length_pos hpos
  have hm := h.end_mem hb hi
  have hd2 : s.vt.length ≤ 1 := by
    by_contra hc; exact hd ⟨by omega, hpos⟩
  have hneq := h.ne i hi
  match hv : s.vt, hd2 with
  | [], _ => rw [hv] at hm; cases hm.1
  | [v], _ =>
    rw [hv] at hm
    exact hneq ((List.mem_singleton.1 hm.1).trans (List.mem_singleton.1 hm.2).symm)
  | _ :: _ :: _, h => simp at h

theorem Inv.loop {s1 s2 : St} (hl : Loop s1 s2) (hb : Batch n m e0) (h : ∃ rt, Inv n m e0 F0 rt s1) :
    ∃ rt, Inv n m e0 F0 rt s2 ∧ s2.ids = [] := by
  induction hl with
  | done hd => obtain ⟨rt, h⟩ := h; exact ⟨rt, h, h.ends hb hd⟩
  | step _ hr _ ih => obtain ⟨rt, h⟩ := h; exact ih (h.round hb hr)

/-! ### The loop ends -/

theorem compress_exec (f u : Nat) (m : Nat → Nat) : ∃ r, Em.exec (compress f u) m = some r := by
  induction f generalizing m with
  | zero => exact ⟨_, rfl⟩
  | succ f ih =>
    simp only [compress, Em.exec]
    split
    · simp only [Em.exec]; exact ih _
    · exact ⟨_, rfl⟩

theorem jump_exists {mu p rt : Nat → Nat} (l : List Nat) (hl : l.Nodup) (hk : Ranked mu p) (hr : IsRoot p rt) :
    ∃ p', Jump (fun u => decide (u ∈ l)) p p' := by
  obtain ⟨f, hf⟩ : ∃ f, ∀ u ∈ l, mu (p u) < f := by
    clear hl
    induction l with
    | nil => exact ⟨0, fun u hu => (by cases hu)⟩
    | cons a l ih =>
      obtain ⟨f, hf⟩ := ih
      refine ⟨f + mu (p a) + 1, fun u hu => ?_⟩
      rcases List.mem_cons.1 hu with rfl | hu
      · omega
      · have := hf u hu; omega
  have hrun : ∀ l' : List Nat, (∀ u ∈ l', u ∈ l) → ∀ m, ∃ r, Conc.runSeq (fun u => if decide (u ∈ l) then compress f u else ret none) (fun _ => none) l' m = some r := by
    intro l'
    induction l' with
    | nil => exact fun _ m => ⟨_, rfl⟩
    | cons a l' ih =>
      intro hs m
      obtain ⟨⟨b, m1⟩, h1⟩ := compress_exec f a m
      obtain ⟨⟨m2, o⟩, h2⟩ := ih (fun u hu => hs u (List.mem_cons_of_mem _ hu)) m1
      have ha : decide (a ∈ l) = true := by simpa using hs a List.mem_cons_self
      rw [Conc.runSeq, if_pos ha, h1]
      dsimp only
      rw [h2]
      exact ⟨_, rfl⟩
  obtain ⟨⟨p', out⟩, h1⟩ := hrun l (fun _ h => h) p
  have hpar := Conc.runSeq_par _ _ l hl (fun j hj => by simp [hj]) h1
  exact ⟨p', f, out, hpar, fun u hu => (compress_par hk hr f _ hpar).2.1 u hu (hf u (by simpa using hu))⟩

theorem Inv.round_exists (h : Inv n m e0 F0 rt s) (hb : Batch n m e0) : ∃ s', Round s s' := by
  obtain ⟨mu, hmu⟩ := h.rk
  have hmu1 := h.hooked_ranked (old := fun _ => (0, 0)) hb (List.Perm.refl _) rfl hmu
  obtain ⟨r1, hr1⟩ := hmu1.isRoot
  obtain ⟨p', hp'⟩ := jump_exists s.vt h.vn hmu1 hr1
  exact ⟨_, _, _, p', List.Perm.refl _, hp', rfl⟩

theorem Inv.loop_exists (h : Inv n m e0 F0 rt s) (hb : Batch n m e0) : ∃ s', Loop s s' := by
  generalize hn : s.vt.length = k
  induction k using Nat.strongRecOn generalizing s rt with
  | _ k ih =>
    by_cases hd : 1 < s.vt.length ∧ 0 < s.ids.length
    · obtain ⟨s1, hr⟩ := h.round_exists hb
      obtain ⟨rt1, h1⟩ := h.round hb hr
      obtain ⟨s2, hl⟩ := ih _ (hn ▸ h.fewer hb hr hd.2) h1 rfl
      exact ⟨s2, .step hd hr hl⟩
    · exact ⟨s, .done hd⟩

end Gbbs.Boruvka
