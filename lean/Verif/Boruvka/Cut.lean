/-
C106: forests of edges that are least in a cut.
-/
import Verif.Algo.Forest
import Mathlib.Tactic.ByContra
import Mathlib.Tactic.Push

namespace Gbbs.Boruvka

open Forest Relation

/-- The edge has its ends on different sides. -/
def Cross (C : Nat → Prop) (e : E) : Prop := ¬ (C e.1 ↔ C e.2.1)

/-- The order of the edges: by weight, ties by number. -/
def kl (ed : Nat → E) (i j : Nat) : Prop := (ed i).2.2 < (ed j).2.2 ∨ (ed i).2.2 = (ed j).2.2 ∧ i < j

variable {ed : Nat → E}

theorem kl_tri (i j : Nat) : kl ed i j ∨ i = j ∨ kl ed j i := by unfold kl; omega

theorem kl_asymm {i j : Nat} (h : kl ed i j) : ¬ kl ed j i := by unfold kl at *; omega

theorem kl_trans {i j k : Nat} (h : kl ed i j) (h' : kl ed j k) : kl ed i k := by unfold kl at *; omega

theorem kl_max {l : List Nat} (h : l ≠ []) : ∃ f ∈ l, ∀ g ∈ l, g = f ∨ kl ed g f := by
  induction l with
  | nil => exact absurd rfl h
  | cons a l ih =>
    by_cases hl : l = []
    · subst hl; exact ⟨a, List.mem_cons_self, fun g hg => Or.inl (List.mem_singleton.1 hg)⟩
    · obtain ⟨f, hf, hmax⟩ := ih hl
      rcases kl_tri (ed := ed) a f with h1 | rfl | h1
      · refine ⟨f, List.mem_cons_of_mem _ hf, fun g hg => ?_⟩
        rcases List.mem_cons.1 hg with rfl | hg
        · exact Or.inr h1
        · exact hmax g hg
      · refine ⟨a, List.mem_cons_self, fun g hg => ?_⟩
        rcases List.mem_cons.1 hg with rfl | hg
        · exact Or.inl rfl
        · exact hmax g hg
      · refine ⟨a, List.mem_cons_self, fun g hg => ?_⟩
        rcases List.mem_cons.1 hg with rfl | hg
        · exact Or.inl rfl
        · rcases hmax g hg with rfl | h2
          · exact Or.inr h1
          · exact Or.inr (kl_trans h2 h1)

theorem conn_side {C : Nat → Prop} {l : List E} (h : ∀ e ∈ l, ¬ Cross C e) {x y : Nat} (hc : Conn l x y) : C x ↔ C y :=
  conn_le (s := fun a b => (C a ↔ C b)) ⟨fun _ => Iff.rfl, fun h => h.symm, fun h1 h2 => h1.trans h2⟩ (fun e he => not_not.1 (h e he)) hc

theorem conn_cons {e : E} {l : List E} {x y : Nat} (h : Conn (e :: l) x y) :
    Conn l x y ∨ (Conn l x e.1 ∧ Conn l e.2.1 y) ∨ (Conn l x e.2.1 ∧ Conn l e.1 y) := by
  have R := conn_equiv l
  induction h with
  | rel a b hab =>
    obtain ⟨w, hw⟩ := hab
    rcases List.mem_cons.1 hw with rfl | hw
    · exact Or.inr (Or.inl ⟨R.refl _, R.refl _⟩)
    · exact Or.inl (conn_of_mem hw)
  | refl a => exact Or.inl (R.refl a)
  | symm a b _ ih =>
    rcases ih with h | ⟨h1, h2⟩ | ⟨h1, h2⟩
    · exact Or.inl (R.symm h)
    · exact Or.inr (Or.inr ⟨R.symm h2, R.symm h1⟩)
    · exact Or.inr (Or.inl ⟨R.symm h2, R.symm h1⟩)
  | trans a b c _ _ ih1 ih2 =>
    rcases ih1 with h | ⟨h1, h2⟩ | ⟨h1, h2⟩ <;> rcases ih2 with h' | ⟨h3, h4⟩ | ⟨h3, h4⟩
    · exact Or.inl (R.trans h h')
    · exact Or.inr (Or.inl ⟨R.trans h h3, h4⟩)
    · exact Or.inr (Or.inr ⟨R.trans h h3, h4⟩)
    · exact Or.inr (Or.inl ⟨h1, R.trans h2 h'⟩)
    · exact Or.inr (Or.inl ⟨h1, h4⟩)
    · exact Or.inl (R.trans h1 h4)
    · exact Or.inr (Or.inr ⟨h1, R.trans h2 h'⟩)
    · exact Or.inl (R.trans h1 h4)
    · exact Or.inr (Or.inr ⟨h1, h4⟩)

/-- Edges that are least in a cut which nothing else crosses are not needed. -/
theorem prune {B : List E} {x y : Nat} {T : List Nat}
    (h : ∀ f ∈ T, ∃ C : Nat → Prop, (∀ b ∈ B, ¬ Cross C b) ∧ (C x ↔ C y) ∧ Cross C (ed f) ∧ ∀ g ∈ T, Cross C (ed g) → g = f ∨ kl ed f g)
    (hc : Conn (B ++ T.map ed) x y) : Conn B x y := by
  generalize hn : T.length = n
  induction n using Nat.strongRecOn generalizing T with
  | _ n ih =>
    by_cases hT : T = []
    · subst hT; simpa using hc
    · obtain ⟨f, hf, hmax⟩ := kl_max (ed := ed) hT
      obtain ⟨C, hB, hxy, hcr, hmin⟩ := h f hf
      have hlen : (T.filter fun g => decide (g ≠ f)).length < T.length := by
        rw [← List.countP_eq_length_filter]
        refine Nat.lt_of_le_of_ne List.countP_le_length fun he => ?_
        have := (List.countP_eq_length.1 he) f hf
        simp at this
      refine ih _ (hn ▸ hlen) (T := T.filter fun g => decide (g ≠ f)) (fun g hg => ?_) ?_ rfl
      · obtain ⟨C, h1, h2, h3, h4⟩ := h g (List.mem_filter.1 hg).1
        exact ⟨C, h1, h2, h3, fun g' hg' => h4 g' (List.mem_filter.1 hg').1⟩
      · have hc' : Conn (ed f :: (B ++ (T.filter fun g => decide (g ≠ f)).map ed)) x y := by
          refine conn_mono (fun e he => ?_) hc
          rcases List.mem_append.1 he with he | he
          · exact List.mem_cons_of_mem _ (List.mem_append_left _ he)
          · obtain ⟨g, hg, rfl⟩ := List.mem_map.1 he
            by_cases hgf : g = f
            · subst hgf; exact List.mem_cons_self
            · exact List.mem_cons_of_mem _ (List.mem_append_right _ (List.mem_map.2 ⟨g, List.mem_filter.2 ⟨hg, by simpa using hgf⟩, rfl⟩))
        have hno : ∀ e ∈ B ++ (T.filter fun g => decide (g ≠ f)).map ed, ¬ Cross C e := by
          intro e he
          rcases List.mem_append.1 he with he | he
          · exact hB e he
          · obtain ⟨g, hg, rfl⟩ := List.mem_map.1 he
            obtain ⟨hg, hne⟩ := List.mem_filter.1 hg
            have hne : g ≠ f := by simpa using hne
            intro hx
            exact kl_asymm ((hmin g hg hx).resolve_left hne) ((hmax g hg).resolve_left hne)
        rcases conn_cons hc' with h1 | ⟨h1, h2⟩ | ⟨h1, h2⟩
        · exact h1
        · exact absurd (((conn_side hno h1).symm.trans hxy).trans (conn_side hno h2).symm) hcr
        · exact absurd (((conn_side hno h2).trans hxy.symm).trans (conn_side hno h1)) hcr

/-- Every chosen edge is the least one of the edges `0, ..., m - 1` across a cut that respects `F`. -/
def CutRule (ed : Nat → E) (m : Nat) (F : List E) (T : List Nat) : Prop :=
  ∀ f ∈ T, f < m ∧ ∃ C : Nat → Prop, (∀ b ∈ F, ¬ Cross C b) ∧ Cross C (ed f) ∧ ∀ g < m, Cross C (ed g) → g = f ∨ kl ed f g

variable {m : Nat} {F : List E} {T : List Nat}

/-- Edges up to `e` suffice for the ends of `e`. -/
theorem CutRule.below (h : CutRule ed m F T) {e : Nat} (he : e < m) (hc : Conn (F ++ T.map ed) (ed e).1 (ed e).2.1) :
    Conn (F ++ (T.filter fun g => decide (g = e ∨ (ed g).2.2 ≤ (ed e).2.2)).map ed) (ed e).1 (ed e).2.1 := by
  classical
  have h1 : Conn (F ++ (T.filter fun g => decide (g = e ∨ kl ed g e)).map ed) (ed e).1 (ed e).2.1 := by
    refine prune (T := T.filter fun g => decide (kl ed e g)) (ed := ed) (fun f hf => ?_) (conn_mono (fun x hx => ?_) hc)
    · obtain ⟨hfT, hef⟩ := List.mem_filter.1 hf
      have hef : kl ed e f := by simpa using hef
      obtain ⟨hfm, C, hF, hcr, hmin⟩ := h f hfT
      refine ⟨C, fun b hb => ?_, ?_, hcr, fun g hg => hmin g (h g (List.mem_filter.1 hg).1).1⟩
      · rcases List.mem_append.1 hb with hb | hb
        · exact hF b hb
        · obtain ⟨g, hg, rfl⟩ := List.mem_map.1 hb
          obtain ⟨hgT, hge⟩ := List.mem_filter.1 hg
          have hge : g = e ∨ kl ed g e := by simpa using hge
          intro hx
          have hgf : kl ed g f := by
            rcases hge with rfl | h2
            · exact hef
            · exact kl_trans h2 hef
          rcases hmin g (h g hgT).1 hx with rfl | h3
          · exact kl_asymm hgf hgf
          · exact kl_asymm hgf h3
      · by_contra hx
        rcases hmin e he hx with rfl | h3
        · exact kl_asymm hef hef
        · exact kl_asymm hef h3
    · rcases List.mem_append.1 hx with hx | hx
      · exact List.mem_append_left _ (List.mem_append_left _ hx)
      · obtain ⟨g, hg, rfl⟩ := List.mem_map.1 hx
        rcases kl_tri (ed := ed) g e with h1 | h1 | h1
        · exact List.mem_append_left _ (List.mem_append_right _ (List.mem_map.2 ⟨g, List.mem_filter.2 ⟨hg, by simp [h1]⟩, rfl⟩))
        · exact List.mem_append_left _ (List.mem_append_right _ (List.mem_map.2 ⟨g, List.mem_filter.2 ⟨hg, by simp [h1]⟩, rfl⟩))
        · exact List.mem_append_right _ (List.mem_map.2 ⟨g, List.mem_filter.2 ⟨hg, by simp [h1]⟩, rfl⟩)
  refine conn_mono (fun x hx => ?_) h1
  rcases List.mem_append.1 hx with hx | hx
  · exact List.mem_append_left _ hx
  · obtain ⟨g, hg, rfl⟩ := List.mem_map.1 hx
    obtain ⟨hgT, hge⟩ := List.mem_filter.1 hg
    have hge : g = e ∨ kl ed g e := by simpa using hge
    refine List.mem_append_right _ (List.mem_map.2 ⟨g, List.mem_filter.2 ⟨hgT, ?_⟩, rfl⟩)
    simp only [decide_eq_true_eq]
    unfold kl at hge
    omega

/-- The chosen edges extend a forest to a forest. -/
theorem CutRule.forest (h : CutRule ed m F T) (hn : T.Nodup) (hF : IsForest F) : IsForest (F ++ T.map ed) := by
  classical
  intro pre e post hl hc
  have hsplit : (∃ as, pre = F ++ as ∧ T.map ed = as ++ e :: post) ∨ ∃ bs, F = pre ++ e :: bs ∧ post = bs ++ T.map ed := by
    rcases List.append_eq_append_iff.1 hl with ⟨as, h1, h2⟩ | ⟨bs, h1, h2⟩
    · exact Or.inl ⟨as, h1, h2⟩
    · cases bs with
      | nil => exact Or.inl ⟨[], by simpa using h1.symm, by simpa using h2.symm⟩
      | cons b bs =>
        obtain ⟨rfl, h3⟩ := List.cons.inj h2
        exact Or.inr ⟨bs, h1, h3⟩
  rcases hsplit with ⟨as, h1, h2⟩ | ⟨bs, h1, h2⟩
  · -- an edge of `T`
    obtain ⟨T1, T2, rfl, rfl, h3⟩ := List.map_eq_append_iff.1 h2
    obtain ⟨f, T2, rfl, rfl, rfl⟩ := List.map_eq_cons_iff.1 h3
    subst h1
    have hmem : ∀ g, g ∈ T1 ++ T2 → g ∈ T1 ++ f :: T2 ∧ g ≠ f := by
      intro g hg
      have hn' := (List.nodup_middle.1 hn)
      rw [List.nodup_cons] at hn'
      refine ⟨?_, fun h => hn'.1 (h ▸ hg)⟩
      rcases List.mem_append.1 hg with h | h
      · exact List.mem_append_left _ h
      · exact List.mem_append_right _ (List.mem_cons_of_mem _ h)
    have hfT : f ∈ T1 ++ f :: T2 := List.mem_append_right _ List.mem_cons_self
    obtain ⟨hfm, C, hCF, hcr, hmin⟩ := h f hfT
    have h4 : Conn (F ++ ((T1 ++ T2).filter fun g => decide (kl ed g f)).map ed) (ed f).1 (ed f).2.1 := by
      refine prune (T := (T1 ++ T2).filter fun g => decide (kl ed f g)) (ed := ed) (fun g hg => ?_) (conn_mono (fun x hx => ?_) hc)
      · obtain ⟨hgT, hfg⟩ := List.mem_filter.1 hg
        have hfg : kl ed f g := by simpa using hfg
        obtain ⟨hgT', hgne⟩ := hmem g hgT
        obtain ⟨hgm, C, hF, hcr, hmin⟩ := h g hgT'
        refine ⟨C, fun b hb => ?_, ?_, hcr, fun g' hg' => hmin g' (h g' (hmem _ (List.mem_filter.1 hg').1).1).1⟩
        · rcases List.mem_append.1 hb with hb | hb
          · exact hF b hb
          · obtain ⟨g', hg', rfl⟩ := List.mem_map.1 hb
            obtain ⟨hg'T, hg'f⟩ := List.mem_filter.1 hg'
            have hg'f : kl ed g' f := by simpa using hg'f
            intro hx
            have h5 := kl_trans hg'f hfg
            rcases hmin g' (h g' (hmem _ hg'T).1).1 hx with rfl | h6
            · exact kl_asymm h5 h5
            · exact kl_asymm h5 h6
        · by_contra hx
          rcases hmin f hfm hx with rfl | h6
          · exact hgne rfl
          · exact kl_asymm hfg h6
      · have hx : x ∈ F ∨ x ∈ (T1 ++ T2).map ed := by
          simp only [List.mem_append, List.map_append] at hx ⊢; tauto
        rcases hx with hx | hx
        · exact List.mem_append_left _ (List.mem_append_left _ hx)
        · obtain ⟨g, hg, rfl⟩ := List.mem_map.1 hx
          rcases kl_tri (ed := ed) g f with h1 | h1 | h1
          · exact List.mem_append_left _ (List.mem_append_right _ (List.mem_map.2 ⟨g, List.mem_filter.2 ⟨hg, by simp [h1]⟩, rfl⟩))
          · exact absurd h1 (hmem g hg).2
          · exact List.mem_append_right _ (List.mem_map.2 ⟨g, List.mem_filter.2 ⟨hg, by simp [h1]⟩, rfl⟩)
    refine hcr (conn_side (fun b hb => ?_) h4)
    rcases List.mem_append.1 hb with hb | hb
    · exact hCF b hb
    · obtain ⟨g, hg, rfl⟩ := List.mem_map.1 hb
      obtain ⟨hgT, hgf⟩ := List.mem_filter.1 hg
      have hgf : kl ed g f := by simpa using hgf
      intro hx
      rcases hmin g (h g (hmem _ hgT).1).1 hx with h5 | h6
      · exact (hmem g hgT).2 h5
      · exact kl_asymm hgf h6
  · -- an edge of `F`
    subst h2
    refine hF pre e bs h1 (prune (T := T) (ed := ed) (fun f hf => ?_) (by simpa [List.append_assoc] using hc))
    obtain ⟨_, C, hCF, hcr, hmin⟩ := h f hf
    refine ⟨C, fun b hb => hCF b ?_, not_not.1 (hCF e (by simp [h1])), hcr, fun g hg => hmin g (h g hg).1⟩
    rw [h1]
    simp only [List.mem_append, List.mem_cons] at hb ⊢; tauto

end Gbbs.Boruvka
