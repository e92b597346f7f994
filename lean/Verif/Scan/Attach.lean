/-
C107: attaching the vertices that are not cores.
-/
import Verif.Scan.Cores

namespace Gbbs.Scan

open UF Conc Conc.Prog Relation
open Atomics (Steps)

set_option linter.unusedSectionVars false

variable {S : Type} [LinearOrder S]

/-- The core `u` offers its cluster to `x` at similarity `s`. -/
def Offers (nbr : Nat → List (Es S)) (eps : S) (cores : List Nat) (u x : Nat) (s : S) : Prop :=
  u ∈ cores ∧ ∃ e ∈ (nbr u).take (simCount nbr eps u), e.ngh = x ∧ e.sim = s

/-! ### Any core -/

section
variable {ι : Type} {nbr : Nat → List (Es S)} {eps : S} {cores : List Nat} {lab : Nat → Nat}

/-- The clusters found so far. -/
def Good (nbr : Nat → List (Es S)) (eps : S) (cores : List Nat) (lab v : Nat → Nat) : Prop :=
  ∀ x, v x = lab x ∨ lab x = uMax ∧ ∃ u s, Offers nbr eps cores u x s ∧ v x = lab u

def rgA (ι : Type) (nbr : Nat → List (Es S)) (eps : S) (cores : List Nat) (lab : Nat → Nat) : RG ι (Nat → Nat) Nat Nat where
  Inv v m := (∀ x, m x = v x) ∧ Good nbr eps cores lab v
  R _ v v' := ∀ x, v x ≠ uMax → v' x = v x
  Gu _ v v' := ∀ x, v x ≠ uMax → v' x = v x
  refl _ _ _ _ := rfl
  trans _ _ _ _ h1 h2 x hx := (h2 x (by rw [h1 x hx]; exact hx)).trans (h1 x hx)
  compat _ _ _ _ _ h := h

theorem attachLoop_spec {i : ι} {core : Nat} (hk : lab core ≠ uMax) (l : List (Es S)) (hl : ∀ e ∈ l, Offers nbr eps cores core e.ngh e.sim)
    (D : List (Es S)) (g : Nat → Nat) (hD : ∀ e ∈ D, g e.ngh ≠ uMax) :
    Safe (rgA ι nbr eps cores lab) i (fun v _ => ∀ e, e ∈ D ∨ e ∈ l → v e.ngh ≠ uMax) (attachLoop (lab core) l) g := by
  induction l generalizing D g with
  | nil =>
    intro v hr e he
    have := hD e (he.resolve_right (by simp))
    rw [hr _ this]; exact this
  | cons e l ih =>
    have hD' : ∀ v : Nat → Nat, (∀ x, g x ≠ uMax → v x = g x) → ∀ d ∈ D, v d.ngh ≠ uMax := fun v hr d hd => by
      rw [hr _ (hD d hd)]; exact hD d hd
    have next : ∀ v : Nat → Nat, (∀ x, g x ≠ uMax → v x = g x) → v e.ngh ≠ uMax →
        Safe (rgA ι nbr eps cores lab) i (fun v _ => ∀ d, d ∈ D ∨ d ∈ e :: l → v d.ngh ≠ uMax) (attachLoop (lab core) l) v := by
      intro v hr he
      refine (ih (fun d hd => hl d (List.mem_cons_of_mem _ hd)) (e :: D) v (fun d hd => ?_)).weaken fun _ v' h d hd => h d ?_
      · rcases List.mem_cons.1 hd with rfl | hd
        · exact he
        · exact hD' v hr d hd
      · rcases hd with hd | hd
        · exact .inl (List.mem_cons_of_mem _ hd)
        · rcases List.mem_cons.1 hd with rfl | hd
          · exact .inl List.mem_cons_self
          · exact .inr hd
    intro v m hr hi
    refine ⟨v, fun _ _ => rfl, hi, ?_⟩
    show Safe _ i _ (if m e.ngh = uMax then cas e.ngh uMax (lab core) fun _ => attachLoop (lab core) l else attachLoop (lab core) l) v
    split
    · intro v2 m2 hr2 hi2
      have hr2' : ∀ x, g x ≠ uMax → v2 x = g x := fun x hx => (hr2 x (by rw [hr x hx]; exact hx)).trans (hr x hx)
      refine ⟨fun he => ?_, fun he => ?_⟩
      · refine ⟨fun x => if x = e.ngh then lab core else v2 x, fun x hx => ?_, ⟨fun x => ?_, fun x => ?_⟩, next _ (fun x hx => ?_) (by simp [hk])⟩
        · dsimp only
          rw [if_neg (fun h => hx (by rw [h, ← hi2.1]; exact he))]
        · by_cases hx : x = e.ngh
          · simp [put, hx]
          · simp [put, hx, hi2.1]
        · by_cases hx : x = e.ngh
          · subst hx
            simp only [if_true]
            rcases hi2.2 e.ngh with h | h
            · exact .inr ⟨by rw [← h, ← hi2.1]; exact he, core, e.sim, hl e List.mem_cons_self, rfl⟩
            · exact .inr ⟨h.1, core, e.sim, hl e List.mem_cons_self, rfl⟩
          · simp only [hx, if_false]
            exact hi2.2 x
        · rw [if_neg (fun h => by
            have := hr2' x hx
            rw [h, ← hi2.1, he, ← h] at this
            exact hx this.symm)]
          exact hr2' x hx
      · exact ⟨v2, fun _ _ => rfl, hi2, next v2 hr2' (by rw [← hi2.1]; exact he)⟩
    · rename_i he
      exact next v hr (by rw [← hi.1]; exact he)

theorem attach_spec (hlab : ∀ u ∈ cores, lab u ≠ uMax) {cl' : Nat → Nat} (h : Attach nbr eps cores lab cl') :
    (∀ x, lab x ≠ uMax → cl' x = lab x) ∧
    (∀ x, lab x = uMax → (∃ u s, Offers nbr eps cores u x s) → ∃ u s, Offers nbr eps cores u x s ∧ cl' x = lab u) ∧
    (∀ x, lab x = uMax → (¬ ∃ u s, Offers nbr eps cores u x s) → cl' x = uMax) := by
  obtain ⟨c, h1, h2, rfl⟩ := h
  obtain ⟨v, hi, -, hp⟩ := safe_reach (rgA (Fin cores.length) nbr eps cores lab)
    (fun i v _ => ∀ e ∈ (nbr cores[i]).take (simCount nbr eps cores[i]), v e.ngh ≠ uMax) h1 lab ⟨fun _ => rfl, fun _ => .inl rfl⟩ (fun i => by
    intro v m hr hi
    refine ⟨v, fun _ _ => rfl, hi, ?_⟩
    have hk := hlab cores[i] (List.getElem_mem _)
    have hv : m cores[i] = lab cores[i] := (hi.1 _).trans (hr _ hk)
    rw [hv]
    exact (attachLoop_spec hk _ (fun e he => ⟨List.getElem_mem _, e, he, rfl, rfl⟩) [] v (fun _ h => (by cases h))).weaken
      fun _ v h e he => h e (.inr he))
  have hall : ∀ u x s, Offers nbr eps cores u x s → v x ≠ uMax := by
    rintro u x s ⟨hu, e, he, rfl, rfl⟩
    obtain ⟨i, hi', rfl⟩ := List.mem_iff_getElem.1 hu
    exact hp ⟨i, hi'⟩ () (h2 _) e he
  refine ⟨fun x hx => ?_, fun x hx hu => ?_, fun x hx hu => ?_⟩
  · rw [hi.1]
    exact (hi.2 x).resolve_right fun h => hx h.1
  · rw [hi.1]
    obtain ⟨u, s, hu⟩ := hu
    rcases hi.2 x with h | h
    · exact absurd (h.trans hx) (hall u x s hu)
    · exact h.2
  · rw [hi.1]
    rcases hi.2 x with h | ⟨-, u, s, h, -⟩
    · exact h.trans hx
    · exact absurd ⟨u, s, h⟩ hu

/-! ### The most similar core -/

/-- `a` is at least as good as `b`. -/
def AtLeast (a b : S × Nat) : Prop := b.1 < a.1 ∨ a.1 = b.1 ∧ a.2 ≤ b.2

theorem AtLeast.refl (a : S × Nat) : AtLeast a a := .inr ⟨rfl, Nat.le_refl _⟩

theorem AtLeast.trans {a b c : S × Nat} (h1 : AtLeast a b) (h2 : AtLeast b c) : AtLeast a c := by
  rcases h1 with h1 | ⟨h1, h1'⟩ <;> rcases h2 with h2 | ⟨h2, h2'⟩
  · exact .inl (lt_trans h2 h1)
  · exact .inl (h2 ▸ h1)
  · exact .inl (h1 ▸ h2)
  · exact .inr ⟨h1.trans h2, Nat.le_trans h1' h2'⟩

/-- The attachments found so far. -/
def GoodD (nbr : Nat → List (Es S)) (eps : S) (cores : List Nat) (cl : Nat → Nat) (m1 : S) (v : Nat → S × Nat) : Prop :=
  ∀ x, v x = (m1, uMax) ∨ cl x = uMax ∧ Offers nbr eps cores (v x).2 x (v x).1

def rgD (ι : Type) (nbr : Nat → List (Es S)) (eps : S) (cores : List Nat) (cl : Nat → Nat) (m1 : S) : RG ι (Nat → S × Nat) Nat (S × Nat) where
  Inv v m := (∀ x, m x = v x) ∧ GoodD nbr eps cores cl m1 v
  R _ v v' := ∀ x, AtLeast (v' x) (v x)
  Gu _ v v' := ∀ x, AtLeast (v' x) (v x)
  refl _ _ _ := .refl _
  trans _ _ _ _ h1 h2 x := (h2 x).trans (h1 x)
  compat _ _ _ _ _ h := h

variable {cl : Nat → Nat} {m1 : S}

theorem offer_spec {i : ι} {core x : Nat} {s : S} (ho : Offers nbr eps cores core x s) (hx : cl x = uMax) {Post : (Nat → S × Nat) → Unit → Prop}
    {k : Prog Nat (S × Nat) Unit} {g : Nat → S × Nat}
    (hk : ∀ v, (∀ y, AtLeast (v y) (g y)) → AtLeast (v x) (s, core) → Safe (rgD ι nbr eps cores cl m1) i Post k v) (f : Nat) :
    ∀ g', (∀ y, AtLeast (g' y) (g y)) → Safe (rgD ι nbr eps cores cl m1) i Post (offer x s core f k) g' := by
  induction f with
  | zero => intro _ _; trivial
  | succ f ih =>
    intro g' hg' v m hr hi
    refine ⟨v, fun _ => .refl _, hi, ?_⟩
    rw [hi.1]
    show Safe _ i _ (if (v x).1 < s ∨ s = (v x).1 ∧ core < (v x).2 then cas x (v x) (s, core) fun b => if b then k else offer x s core f k else k) v
    split
    · rename_i hb
      intro v2 m2 hr2 hi2
      have hv2 : ∀ y, AtLeast (v2 y) (g y) := fun y => (hr2 y).trans ((hr y).trans (hg' y))
      refine ⟨fun he => ?_, fun he => ?_⟩
      · have hbet : AtLeast (s, core) (v2 x) := by
          rw [← hi2.1, he]
          rcases hb with hb | ⟨hb, hb'⟩
          · exact .inl hb
          · exact .inr ⟨hb, Nat.le_of_lt hb'⟩
        have hgu : ∀ y, AtLeast ((fun y => if y = x then (s, core) else v2 y) y) (v2 y) := by
          intro y
          by_cases hy : y = x
          · subst hy; simpa using hbet
          · simp only [hy, if_false]; exact .refl _
        refine ⟨fun y => if y = x then (s, core) else v2 y, hgu, ⟨fun y => ?_, fun y => ?_⟩, hk _ (fun y => (hgu y).trans (hv2 y)) (by simp; exact .refl _)⟩
        · by_cases hy : y = x
          · simp [put, hy]
          · simp [put, hy, hi2.1]
        · by_cases hy : y = x
          · subst hy; simp only [if_true]; exact .inr ⟨hx, ho⟩
          · simp only [hy, if_false]; exact hi2.2 y
      · exact ⟨v2, fun _ => .refl _, hi2, ih v2 hv2⟩
    · rename_i hb
      refine hk v (fun y => (hr y).trans (hg' y)) ?_
      rw [not_or, not_lt, not_and, Nat.not_lt] at hb
      rcases lt_or_eq_of_le hb.1 with h | h
      · exact .inl h
      · exact .inr ⟨h.symm, hb.2 h⟩

theorem offerLoop_spec {i : ι} {core f : Nat} (l : List (Es S)) (hl : ∀ e ∈ l, Offers nbr eps cores core e.ngh e.sim)
    (D : List (Es S)) (g : Nat → S × Nat) (hD : ∀ e ∈ D, cl e.ngh = uMax → AtLeast (g e.ngh) (e.sim, core)) :
    Safe (rgD ι nbr eps cores cl m1) i (fun v _ => ∀ e, e ∈ D ∨ e ∈ l → cl e.ngh = uMax → AtLeast (v e.ngh) (e.sim, core)) (offerLoop cl core f l) g := by
  induction l generalizing D g with
  | nil =>
    intro v hr e he hc
    exact (hr _).trans (hD e (he.resolve_right (by simp)) hc)
  | cons e l ih =>
    have next : ∀ v : Nat → S × Nat, (∀ y, AtLeast (v y) (g y)) → (cl e.ngh = uMax → AtLeast (v e.ngh) (e.sim, core)) →
        Safe (rgD ι nbr eps cores cl m1) i (fun v _ => ∀ d, d ∈ D ∨ d ∈ e :: l → cl d.ngh = uMax → AtLeast (v d.ngh) (d.sim, core)) (offerLoop cl core f l) v := by
      intro v hr he
      refine (ih (fun d hd => hl d (List.mem_cons_of_mem _ hd)) (e :: D) v (fun d hd hc => ?_)).weaken fun _ v' h d hd => h d ?_
      · rcases List.mem_cons.1 hd with rfl | hd
        · exact he hc
        · exact (hr _).trans (hD d hd hc)
      · rcases hd with hd | hd
        · exact .inl (List.mem_cons_of_mem _ hd)
        · rcases List.mem_cons.1 hd with rfl | hd
          · exact .inl List.mem_cons_self
          · exact .inr hd
    rw [offerLoop]
    split
    · rename_i hc
      exact offer_spec (hl e List.mem_cons_self) hc (fun v hr h => next v hr fun _ => h) f g fun _ => .refl _
    · rename_i hc
      exact next g (fun _ => .refl _) fun h => absurd h hc

/-- `_det`: the attachment of a vertex is the best offer; it counts only if its similarity is above `z`. -/
theorem attachDet_spec {z : S} (hz : m1 ≤ z) {n : Nat} {cl' : Nat → Nat} (h : AttachDet m1 z n nbr eps cores cl cl') :
    (∀ x, cl x ≠ uMax → cl' x = cl x) ∧
    (∀ x, x < n → cl x = uMax → (∃ u s, Offers nbr eps cores u x s ∧ z < s) →
      ∃ u s, Offers nbr eps cores u x s ∧ (∀ w t, Offers nbr eps cores w x t → AtLeast (s, u) (t, w)) ∧ cl' x = cl u) ∧
    (∀ x, cl x = uMax → (¬ ∃ u s, Offers nbr eps cores u x s ∧ z < s) → cl' x = uMax) := by
  obtain ⟨f, c, h1, h2, rfl⟩ := h
  obtain ⟨v, hi, -, hp⟩ := safe_reach (rgD (Fin cores.length) nbr eps cores cl m1)
    (fun i v _ => ∀ e ∈ (nbr cores[i]).take (simCount nbr eps cores[i]), cl e.ngh = uMax → AtLeast (v e.ngh) (e.sim, cores[i])) h1 (fun _ => (m1, uMax))
    ⟨fun _ => rfl, fun _ => .inl rfl⟩ (fun i =>
      (offerLoop_spec _ (fun e he => ⟨List.getElem_mem _, e, he, rfl, rfl⟩) [] _ (fun _ h => (by cases h))).weaken fun _ v h e he => h e (.inr he))
  have hall : ∀ u x s, Offers nbr eps cores u x s → cl x = uMax → AtLeast (v x) (s, u) := by
    rintro u x s ⟨hu, e, he, rfl, rfl⟩ hc
    obtain ⟨i, hi', rfl⟩ := List.mem_iff_getElem.1 hu
    exact hp ⟨i, hi'⟩ () (h2 _) e he hc
  have hm : ∀ x, c.mem x = v x := hi.1
  refine ⟨fun x hx => ?_, fun x hxn hx hu => ?_, fun x hx hu => ?_⟩
  · dsimp only
    rw [if_neg]
    rintro ⟨-, h⟩
    rw [hm] at h
    rcases hi.2 x with h' | h'
    · rw [h'] at h; exact absurd hz (not_le_of_gt h)
    · exact hx h'.1
  · obtain ⟨u, s, hu, hs⟩ := hu
    have h3 : z < (v x).1 := by
      rcases hall u x s hu hx with h | ⟨h, -⟩
      · exact lt_trans hs h
      · rw [h]; exact hs
    have h4 : Offers nbr eps cores (v x).2 x (v x).1 := by
      rcases hi.2 x with h' | h'
      · rw [h'] at h3; exact absurd hz (not_le_of_gt h3)
      · exact h'.2
    refine ⟨_, _, h4, fun w t hw => hall w x t hw hx, ?_⟩
    dsimp only
    rw [hm, if_pos ⟨hxn, h3⟩]
  · dsimp only
    rw [if_neg]
    · exact hx
    rintro ⟨-, h⟩
    rw [hm] at h
    rcases hi.2 x with h' | h'
    · rw [h'] at h; exact absurd hz (not_le_of_gt h)
    · exact hu ⟨_, _, h'.2, h⟩

end

end Gbbs.Scan
