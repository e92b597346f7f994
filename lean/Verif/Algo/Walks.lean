/-
Weighted walks: the specification vocabulary of the shortest path properties, and removal of cycles.
-/
import Verif.EdgeMap.Rounds
import Mathlib.Combinatorics.Pigeonhole
import Mathlib.Data.Finset.Card

namespace Gbbs.Walks

open Em

/-- `v` can be reached from `s` along `k` edges of total weight `x`. -/
inductive WWalk (G : Gr Int) (s : Nat) : Nat → Nat → Int → Prop
  | nil : WWalk G s s 0 0
  | cons {u v k x} (w : Int) (h : WWalk G s u k x) (e : (v, w) ∈ G.fwd u) : WWalk G s v (k + 1) (x + w)

/-- A closed walk of negative weight can be reached from `s`. -/
def NegCycle (G : Gr Int) (s : Nat) : Prop :=
  ∃ v j y k x, WWalk G s v j y ∧ WWalk G v v k x ∧ x < 0

/-- `x` is the least weight of a walk from `s` to `v`. -/
def MinWeight (G : Gr Int) (s v : Nat) (x : Int) : Prop :=
  (∃ k, WWalk G s v k x) ∧ ∀ k y, WWalk G s v k y → x ≤ y

theorem MinWeight.unique {G : Gr Int} {s v : Nat} {x y : Int} (h : MinWeight G s v x) (h' : MinWeight G s v y) :
    x = y := by
  obtain ⟨⟨k, hk⟩, h1⟩ := h
  obtain ⟨⟨l, hl⟩, h2⟩ := h'
  have := h1 _ _ hl
  have := h2 _ _ hk
  omega

theorem WWalk.trans {G : Gr Int} {s u v : Nat} {k l : Nat} {x y : Int} (h : WWalk G s u k x)
    (h' : WWalk G u v l y) : WWalk G s v (k + l) (x + y) := by
  induction h' with
  | nil => simpa using h
  | @cons a b k' x' w _ e ih =>
    have := WWalk.cons w ih e
    rwa [Int.add_assoc] at this

theorem WWalk.lt {G : Gr Int} (hG : G.Ok) {s v k : Nat} {x : Int} (hs : s < G.n) (h : WWalk G s v k x) : v < G.n := by
  cases h with
  | nil => exact hs
  | cons w _ e => exact (hG.bound _ _ _ e).2

/-- Vertices and partial weights along a walk. -/
theorem WWalk.path {G : Gr Int} {s v k : Nat} {x : Int} (h : WWalk G s v k x) :
    ∃ (f : Nat → Nat) (p : Nat → Int), f 0 = s ∧ p 0 = 0 ∧ f k = v ∧ p k = x ∧
      ∀ i, i < k → (f (i + 1), p (i + 1) - p i) ∈ G.fwd (f i) := by
  induction h with
  | nil => exact ⟨fun _ => s, fun _ => 0, rfl, rfl, rfl, rfl, fun i hi => by omega⟩
  | @cons u v k x w _ e ih =>
    obtain ⟨f, p, h1, h2, h3, h4, h5⟩ := ih
    refine ⟨fun i => if i ≤ k then f i else v, fun i => if i ≤ k then p i else x + w, by simpa using h1,
      by simpa using h2, by simp, by simp, fun i hi => ?_⟩
    beta_reduce
    by_cases hik : i < k
    · rw [if_pos (show i + 1 ≤ k by omega), if_pos (show i + 1 ≤ k by omega), if_pos (show i ≤ k by omega),
        if_pos (show i ≤ k by omega)]
      exact h5 i hik
    · have : i = k := by omega
      subst this
      rw [if_neg (show ¬ i + 1 ≤ i by omega), if_neg (show ¬ i + 1 ≤ i by omega), if_pos (Nat.le_refl _), if_pos (Nat.le_refl _), h3, h4]
      rwa [show x + w - x = w from by omega]

theorem walk_of_path {G : Gr Int} {f : Nat → Nat} {p : Nat → Int} (i k : Nat)
    (h : ∀ j, i ≤ j → j < i + k → (f (j + 1), p (j + 1) - p j) ∈ G.fwd (f j)) :
    WWalk G (f i) (f (i + k)) k (p (i + k) - p i) := by
  induction k with
  | zero => simpa using WWalk.nil
  | succ k ih =>
    have h1 := ih (fun j h1 h2 => h j h1 (by omega))
    have := WWalk.cons _ h1 (h (i + k) (by omega) (by omega))
    rw [show p (i + k) - p i + (p (i + k + 1) - p (i + k)) = p (i + k + 1) - p i from by omega] at this
    exact this

/-- A walk with at least `n` edges can be shortened, unless a negative cycle is reachable. -/
theorem shorten {G : Gr Int} (hG : G.Ok) {s : Nat} (hs : s < G.n) (hno : ¬ NegCycle G s) {v k : Nat} {x : Int}
    (h : WWalk G s v k x) (hk : G.n ≤ k) : ∃ k' x', k' < k ∧ x' ≤ x ∧ WWalk G s v k' x' := by
  obtain ⟨f, p, h1, h2, h3, h4, h5⟩ := h.path
  have hpre : ∀ i, i ≤ k → WWalk G s (f i) i (p i) := by
    intro i hi
    have := walk_of_path (G := G) (f := f) (p := p) 0 i (fun j _ h => h5 j (by omega))
    simpa [h1, h2] using this
  obtain ⟨i, hi, j, hj, hne, hij⟩ := Finset.exists_ne_map_eq_of_card_lt_of_maps_to
    (s := Finset.range (k + 1)) (t := Finset.range G.n) (f := f) (by simp; omega)
    (fun i hi => by
      have := Finset.mem_range.1 (Finset.mem_coe.1 hi)
      exact Finset.mem_coe.2 (Finset.mem_range.2 ((hpre i (by omega)).lt hG hs)))
  rw [Finset.mem_range] at hi hj
  have main : ∀ i j, i < j → j ≤ k → f i = f j → ∃ k' x', k' < k ∧ x' ≤ p k ∧ WWalk G s (f k) k' x' := by
    intro i j hlt hj hij
    have hc := walk_of_path (G := G) (f := f) (p := p) i (j - i) (fun l _ h => h5 l (by omega))
    rw [show i + (j - i) = j from by omega, ← hij] at hc
    have hge : ¬ p j - p i < 0 := fun hneg => hno ⟨_, _, _, _, _, hpre i (by omega), hc, hneg⟩
    have ht := walk_of_path (G := G) (f := f) (p := p) j (k - j) (fun l _ h => h5 l (by omega))
    rw [show j + (k - j) = k from by omega, ← hij] at ht
    exact ⟨_, _, by omega, by omega, (hpre i (by omega)).trans ht⟩
  have hfk : f k = v ∧ p k = x := ⟨h3, h4⟩
  rcases Nat.lt_or_gt_of_ne hne with hlt | hlt
  · simpa [hfk.1, hfk.2] using main i j hlt (by omega) hij
  · simpa [hfk.1, hfk.2] using main j i hlt (by omega) hij.symm

/-- Without reachable negative cycle every walk is matched by one with fewer than `n` edges. -/
theorem short_walk {G : Gr Int} (hG : G.Ok) {s : Nat} (hs : s < G.n) (hno : ¬ NegCycle G s) {v k : Nat} {x : Int}
    (h : WWalk G s v k x) : ∃ k' x', k' < G.n ∧ x' ≤ x ∧ WWalk G s v k' x' := by
  induction k using Nat.strongRecOn generalizing x with
  | _ k ih =>
    by_cases hk : k < G.n
    · exact ⟨k, x, hk, Int.le_refl _, h⟩
    · obtain ⟨k', x', h1, h2, h3⟩ := shorten hG hs hno h (by omega)
      obtain ⟨k2, x2, h4, h5, h6⟩ := ih k' h1 h3
      exact ⟨k2, x2, h4, by omega, h6⟩

/-- Every reachable vertex is reached by fewer than `n` edges. -/
theorem short_reach {G : Gr Int} (hG : G.Ok) {s : Nat} (hs : s < G.n) {v k : Nat} {x : Int}
    (h : WWalk G s v k x) : ∃ k' x', k' < G.n ∧ WWalk G s v k' x' := by
  induction k using Nat.strongRecOn generalizing x with
  | _ k ih =>
    by_cases hk : k < G.n
    · exact ⟨k, x, hk, h⟩
    · obtain ⟨f, p, h1, h2, h3, h4, h5⟩ := h.path
      have hpre : ∀ i, i ≤ k → WWalk G s (f i) i (p i) := by
        intro i hi
        have := walk_of_path (G := G) (f := f) (p := p) 0 i (fun j _ h => h5 j (by omega))
        simpa [h1, h2] using this
      obtain ⟨i, hi, j, hj, hne, hij⟩ := Finset.exists_ne_map_eq_of_card_lt_of_maps_to
        (s := Finset.range (k + 1)) (t := Finset.range G.n) (f := f) (by simp; omega)
        (fun i hi => by
          have := Finset.mem_range.1 (Finset.mem_coe.1 hi)
          exact Finset.mem_coe.2 (Finset.mem_range.2 ((hpre i (by omega)).lt hG hs)))
      rw [Finset.mem_range] at hi hj
      have main : ∀ i j, i < j → j ≤ k → f i = f j → ∃ k' x', k' < k ∧ WWalk G s v k' x' := by
        intro i j hlt hj hij
        have ht := walk_of_path (G := G) (f := f) (p := p) j (k - j) (fun l _ h => h5 l (by omega))
        rw [show j + (k - j) = k from by omega, ← hij, h3] at ht
        exact ⟨_, _, by omega, (hpre i (by omega)).trans ht⟩
      have : ∃ k' x', k' < k ∧ WWalk G s v k' x' := by
        rcases Nat.lt_or_gt_of_ne hne with hlt | hlt
        · exact main i j hlt (by omega) hij
        · exact main j i hlt (by omega) hij.symm
      obtain ⟨k', x', h1, h2⟩ := this
      exact ih k' h1 h2

end Gbbs.Walks
