import Verif.Encoding.ByteList

/-! # Intersection of `byte` lists -/

namespace Gbbs.Byte

open Gbbs EncSpec

variable {W : Type} {c : WCodec W} {ok : W → Prop}

/-- The iterator stands on the head of the remaining entries. -/
def At (L : Lawful c ok) (m : Mem) (it : Iter W) : List (Nat × W) → Prop
  | [] => True
  | (n, w) :: R => it.last = (n, w) ∧ m.Has it.finger (encRest L n R) ∧ Chain ok n R

theorem at_next (L : Lawful c ok) {m : Mem} {it it' : Iter W} {n : Nat} {w : W}
    {R : List (Nat × W)} (h : At L m it ((n, w) :: R)) (hn : it.next c m = some it') :
    At L m it' R := by
  cases R with
  | nil => trivial
  | cons e R =>
    obtain ⟨n', w'⟩ := e
    obtain ⟨h1, h2, h3⟩ := h
    obtain ⟨e1, e2, e3, e4⟩ := eat_step L h3 h2
    simp only [Iter.next, e1, h1, e2, e3, Option.some.injEq] at hn
    subst hn
    exact ⟨rfl, e4, h3.2.2.2⟩

theorem chain_gt {prev : Nat} {R : List (Nat × W)} (h : Chain ok prev R) :
    ∀ e ∈ R, prev < e.1 := by
  induction R generalizing prev with
  | nil => intro e he; simp at he
  | cons a R ih =>
    obtain ⟨n, w⟩ := a
    obtain ⟨h1, _, _, h4⟩ := h
    intro e he
    rcases List.mem_cons.1 he with rfl | he
    · exact h1
    · exact Nat.lt_trans h1 (ih h4 e he)

theorem common_nil_right (R1 : List (Nat × W)) : common R1 ([] : List (Nat × W)) = [] := by
  simp [common]

theorem common_cons_lt {n1 : Nat} {w1 : W} {R1 R2 : List (Nat × W)}
    (h : ∀ e ∈ R2, n1 < e.1) : common ((n1, w1) :: R1) R2 = common R1 R2 := by
  simp only [common, List.map_cons, List.filter_cons]
  rw [if_neg]
  simp only [decide_eq_true_eq, List.mem_map, not_exists, not_and]
  intro e he heq
  have := h e he
  omega

theorem common_skip_right {n2 : Nat} {w2 : W} {R1 R2 : List (Nat × W)}
    (h : ∀ e ∈ R1, n2 < e.1) : common R1 ((n2, w2) :: R2) = common R1 R2 := by
  simp only [common, List.map_cons]
  apply List.filter_congr
  intro x hx
  obtain ⟨e, he, rfl⟩ := List.mem_map.1 hx
  have := h e he
  simp only [List.mem_cons, decide_eq_decide]
  constructor
  · rintro (h | h)
    · omega
    · exact h
  · exact Or.inr

theorem intersectLoop_eq (L : Lawful c ok) (m : Mem) (n1 n2 : Nat) (k : Nat) :
    ∀ (R1 R2 : List (Nat × W)) (i j : Nat) (it1 it2 : Iter W) (acc r : List Nat),
      R1.length + R2.length ≤ k → n1 = i + R1.length → n2 = j + R2.length →
      At L m it1 R1 → At L m it2 R2 →
      intersectLoop c m n1 n2 i j it1 it2 acc = some r → r = acc ++ common R1 R2 := by
  induction k with
  | zero =>
    intro R1 R2 i j it1 it2 acc r hk h1 h2 _ _ hr
    have : R1 = [] := List.length_eq_zero_iff.1 (by omega)
    subst this
    rw [intersectLoop, dif_neg (by simp at h1; omega)] at hr
    simpa [common] using hr.symm
  | succ k ih =>
    intro R1 R2 i j it1 it2 acc r hk h1 h2 a1 a2 hr
    rw [intersectLoop] at hr
    cases R1 with
    | nil =>
      rw [dif_neg (by simp at h1; omega)] at hr
      simpa [common] using hr.symm
    | cons e1 R1 =>
    cases R2 with
    | nil =>
      rw [dif_neg (by simp at h2; omega)] at hr
      rw [common_nil_right]
      simpa using hr.symm
    | cons e2 R2 =>
      obtain ⟨x1, w1⟩ := e1
      obtain ⟨x2, w2⟩ := e2
      simp only [List.length_cons] at h1 h2 hk
      rw [dif_pos (by omega)] at hr
      simp only [a1.1, a2.1] at hr
      have g1 := chain_gt a1.2.2
      have g2 := chain_gt a2.2.2
      split at hr
      · rename_i heq
        subst heq
        split at hr
        · rename_i hn1 hn2
          have := ih R1 R2 _ _ _ _ _ _ (by omega) (by omega) (by omega) (at_next L a1 hn1)
            (at_next L a2 hn2) hr
          rw [this, List.append_assoc]
          congr 1
          have : common ((x1, w1) :: R1) ((x1, w2) :: R2) =
              x1 :: common R1 ((x1, w2) :: R2) := by
            simp [common]
          rw [this, common_skip_right g1]
          rfl
        · simp at hr
      · split at hr
        · rename_i _ hlt
          split at hr
          · rename_i hn1
            have := ih R1 ((x2, w2) :: R2) _ _ _ _ _ _ (by simp only [List.length_cons]; omega)
              (by omega) (by simp only [List.length_cons]; omega) (at_next L a1 hn1) a2 hr
            rw [this, common_cons_lt]
            intro e he
            rcases List.mem_cons.1 he with rfl | he
            · exact hlt
            · exact Nat.lt_trans hlt (g2 e he)
          · simp at hr
        · rename_i hne hlt
          split at hr
          · rename_i hn2
            have := ih ((x1, w1) :: R1) R2 _ _ _ _ _ _ (by simp only [List.length_cons]; omega)
              (by simp only [List.length_cons]; omega) (by omega) a1 (at_next L a2 hn2) hr
            rw [this, common_skip_right]
            intro e he
            rcases List.mem_cons.1 he with rfl | he
            · simp only; omega
            · have := g1 e he
              omega
          · simp at hr

theorem at_init (L : Lawful c ok) {m : Mem} {pos src : Nat} {e : Nat × W} {R : List (Nat × W)}
    {it : Iter W} (hsrc : src < uintEMod) (h : ValidList (e :: R))
    (hok : ∀ x ∈ e :: R, ok x.2) (hm : m.Has pos (encList L src (e :: R)))
    (hi : Iter.init c m pos src = some it) : At L m it (e :: R) := by
  obtain ⟨n, w⟩ := e
  have hn : n < uintEMod := h.bounded _ (List.mem_cons_self ..)
  have hc : Chain ok n R := chain_of_valid h (fun e he => hok e (List.mem_cons_of_mem _ he))
  obtain ⟨e1, e2, e3⟩ := eat_first L hsrc hn (hok (n, w) (by simp)) hm
  simp only [Iter.init, e1, e2, Option.some.injEq] at hi
  subst hi
  exact ⟨rfl, e3, hc⟩

theorem intersectF_eq (L : Lawful c ok) (m : Mem) (p1 p2 s1 s2 : Nat) (l1 l2 : List (Nat × W))
    (r : List Nat) (hs1 : s1 < uintEMod) (hs2 : s2 < uintEMod)
    (h1 : ValidList l1) (h2 : ValidList l2) (hok1 : ∀ x ∈ l1, ok x.2) (hok2 : ∀ x ∈ l2, ok x.2)
    (hm1 : m.Has p1 (encList L s1 l1)) (hm2 : m.Has p2 (encList L s2 l2))
    (hr : intersectF c m p1 p2 l1.length l2.length s1 s2 = some r) : r = common l1 l2 := by
  cases l1 with
  | nil => simp [intersectF] at hr; simp [common, hr]
  | cons e1 R1 =>
  cases l2 with
  | nil => simp [intersectF] at hr; simp [common, hr]
  | cons e2 R2 =>
    simp only [intersectF, List.length_cons] at hr
    rw [if_neg (by omega)] at hr
    split at hr
    · rename_i hi1 hi2
      have := intersectLoop_eq L m (R1.length + 1) (R2.length + 1) _ (e1 :: R1) (e2 :: R2) 0 0 _ _
        [] r (Nat.le_refl _) (by simp) (by simp) (at_init L hs1 h1 hok1 hm1 hi1)
        (at_init L hs2 h2 hok2 hm2 hi2) hr
      simpa using this
    · simp at hr

end Gbbs.Byte
