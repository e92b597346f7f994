/-
C105: `cc_sources` and `multi_bfs`, `benchmarks/Biconnectivity/TarjanVishkin/Biconnectivity.h:330-345, 409-421`.
-/
import Verif.Bicc.Tree
import Verif.Algo.BFSSF
import Verif.Conc.SimpleUnion

namespace Gbbs.Bicc

open Relation Em
open Conc (put put_same put_ne)
open BFSSF (none32 Adj Loop Search Layer)

variable {W : Type}

/-! ### Model -/

/-- `cc_sources`, `:409-421`: `write_min` of the vertices, in the order `s` in which they take effect, then `filter`. -/
def flags (lab : Nat → Nat) (s : List Nat) : Nat → Nat := s.foldl (fun fl i => upd fl (lab i) (min (fl (lab i)) i)) fun _ => none32

/-- The sources: the entries of the `n + 1` flags that were set. -/
def sources (n : Nat) (lab : Nat → Nat) (s : List Nat) : List Nat := ((List.range (n + 1)).map (flags lab s)).filter fun v => decide (v ≠ none32)

/-- The start of `multi_bfs`, `:330-339`. -/
def start (S : List Nat) (v : Nat) : Nat := if v ∈ S then v else none32

/-- `multi_bfs`, `:330-345`; `BC_BFS_F` (`:315-328`) is the struct of the spanning forest (C85), and so is the loop. -/
def MultiBfs (G : Gr W) (S : List Nat) (p : Nat → Nat) : Prop := ∃ k, Loop G k (start S) S p

/-! ### Sources -/

theorem flags_spec (lab : Nat → Nat) (s : List Nat) (fl : Nat → Nat) (l : Nat) :
    let r := s.foldl (fun fl i => upd fl (lab i) (min (fl (lab i)) i)) fl l
    (r = fl l ∨ r ∈ s ∧ lab r = l) ∧ r ≤ fl l ∧ ∀ i ∈ s, lab i = l → r ≤ i := by
  induction s generalizing fl with
  | nil => exact ⟨Or.inl rfl, Nat.le_refl _, fun i hi => (by cases hi)⟩
  | cons a s ih =>
    intro r
    obtain ⟨h1, h2, h3⟩ := ih (upd fl (lab a) (min (fl (lab a)) a))
    by_cases hl : l = lab a
    · subst hl
      rw [upd_same] at h1 h2
      refine ⟨?_, Nat.le_trans h2 (Nat.min_le_left _ _), fun i hi hla => ?_⟩
      · rcases h1 with h1 | h1
        · rcases Nat.le_total (fl (lab a)) a with hle | hle
          · exact Or.inl (h1.trans (Nat.min_eq_left hle))
          · have := h1.trans (Nat.min_eq_right hle)
            exact Or.inr ⟨this ▸ List.mem_cons_self, congrArg lab this⟩
        · exact Or.inr ⟨List.mem_cons_of_mem _ h1.1, h1.2⟩
      · rcases List.mem_cons.1 hi with rfl | hi
        · exact Nat.le_trans h2 (Nat.min_le_right _ _)
        · exact h3 i hi hla
    · rw [upd_of_ne _ _ hl] at h1 h2
      refine ⟨h1.imp_right fun h => ⟨List.mem_cons_of_mem _ h.1, h.2⟩, h2, fun i hi hla => ?_⟩
      rcases List.mem_cons.1 hi with rfl | hi
      · exact absurd hla.symm hl
      · exact h3 i hi hla

/-- The sources of a labelling: vertices, one in every component. -/
structure OnePer (E : Nat → Nat → Prop) (n : Nat) (S : List Nat) : Prop where
  lt : ∀ v ∈ S, v < n
  hit : ∀ v < n, ∃ s ∈ S, EqvGen E v s
  one : ∀ s ∈ S, ∀ t ∈ S, EqvGen E s t → s = t

theorem sources_one {E : Nat → Nat → Prop} {n : Nat} {lab : Nat → Nat} (hn : n ≤ none32) (h : UF.IsLabelling E n lab) (hlt : ∀ v < n, lab v < n) {s : List Nat} (hs : Sched n s) :
    OnePer E n (sources n lab s) := by
  have hmem : ∀ v, v ∈ sources n lab s ↔ v ≠ none32 ∧ ∃ l < n + 1, flags lab s l = v := by
    intro v
    simp only [sources, List.mem_filter, List.mem_map, List.mem_range, decide_eq_true_eq]
    tauto
  have hval : ∀ l, flags lab s l ≠ none32 → flags lab s l < n ∧ lab (flags lab s l) = l := by
    intro l hne
    have h1 := (flags_spec lab s (fun _ => none32) l).1
    rcases h1 with h1 | h1
    · exact absurd h1 hne
    · exact ⟨(hs.2 _).1 h1.1, h1.2⟩
  refine ⟨fun v hv => ?_, fun v hv => ?_, fun a ha b hb hab => ?_⟩
  · obtain ⟨h1, l, -, rfl⟩ := (hmem v).1 hv
    exact (hval l h1).1
  · have h3 := (flags_spec lab s (fun _ => none32) (lab v)).2.2 v ((hs.2 v).2 hv) rfl
    have hne : flags lab s (lab v) ≠ none32 := by
      have : flags lab s (lab v) ≤ v := h3
      omega
    have h4 := hval _ hne
    exact ⟨_, (hmem _).2 ⟨hne, lab v, by have := hlt v hv; omega, rfl⟩, (h.eq_iff hv h4.1).1 h4.2.symm⟩
  · obtain ⟨h1, l, -, rfl⟩ := (hmem _).1 ha
    obtain ⟨h1', l', -, rfl⟩ := (hmem _).1 hb
    have h2 := hval l h1
    have h2' := hval l' h1'
    have := (h.eq_iff h2.1 h2'.1).2 hab
    rw [h2.2, h2'.2] at this
    rw [this]

/-! ### The searches -/

/-- Before round `t`: depths of the vertices that are set. -/
structure FInv (G : Gr W) (S : List Nat) (t : Nat) (p : Nat → Nat) (F : List Nat) (dp : Nat → Nat) : Prop where
  lt : ∀ v, p v ≠ none32 → v < G.n ∧ dp v ≤ t
  front : ∀ v, v ∈ F ↔ p v ≠ none32 ∧ dp v = t
  src : ∀ v, p v ≠ none32 → (dp v = 0 ↔ v ∈ S)
  srcs : ∀ v ∈ S, p v = v
  step : ∀ v, p v ≠ none32 → dp v ≠ 0 → Adj G (p v) v ∧ p (p v) ≠ none32 ∧ dp (p v) + 1 = dp v
  near : ∀ u v, p u ≠ none32 → dp u < t → Adj G u v → p v ≠ none32 ∧ dp v ≤ dp u + 1

theorem FInv.next {G : Gr W} (hG : G.Ok) (hn : G.n ≤ none32) {S : List Nat} {t : Nat} {p p' : Nat → Nat} {F F' : List Nat} {dp : Nat → Nat}
    (h : FInv G S t p F dp) (hl : Layer G p F p' F') : ∃ dp', FInv G S (t + 1) p' F' dp' := by
  classical
  have hset : ∀ v, p v ≠ none32 → v ∉ F' := fun v hv hin => hv ((hl.mem v).1 hin).1
  have hold : ∀ v, p v ≠ none32 → p' v = p v := fun v hv => hl.old v (hset v hv)
  have hnew : ∀ v ∈ F', p' v ≠ none32 ∧ v < G.n := fun v hv => by
    have h1 := BFSSF.adj_lt hG (hl.val v hv).2
    exact ⟨by omega, h1.2⟩
  have hiff : ∀ v, p' v ≠ none32 ↔ p v ≠ none32 ∨ v ∈ F' := by
    intro v
    by_cases hv : v ∈ F'
    · exact ⟨fun _ => Or.inr hv, fun _ => (hnew v hv).1⟩
    · rw [hl.old v hv]; exact ⟨Or.inl, fun h => h.resolve_right hv⟩
  have hd1 : ∀ v, v ∈ F' → (if v ∈ F' then t + 1 else dp v) = t + 1 := fun v hv => if_pos hv
  have hd2 : ∀ v, p v ≠ none32 → (if v ∈ F' then t + 1 else dp v) = dp v := fun v hv => if_neg (hset v hv)
  refine ⟨fun v => if v ∈ F' then t + 1 else dp v, fun v hv => ?_, fun v => ?_, fun v hv => ?_, fun v hv => ?_, fun v hv h0 => ?_, fun u v hu hd he => ?_⟩
  · rcases (hiff v).1 hv with h1 | h1
    · rw [hd2 v h1]; have := h.lt v h1; exact ⟨this.1, by omega⟩
    · rw [hd1 v h1]; exact ⟨(hnew v h1).2, Nat.le_refl _⟩
  · refine ⟨fun hv => ⟨(hnew v hv).1, hd1 v hv⟩, fun ⟨hv, hd⟩ => ?_⟩
    rcases (hiff v).1 hv with h1 | h1
    · rw [hd2 v h1] at hd; have := (h.lt v h1).2; omega
    · exact h1
  · rcases (hiff v).1 hv with h1 | h1
    · rw [hd2 v h1]; exact h.src v h1
    · rw [hd1 v h1]
      refine ⟨fun h => (by omega), fun hS => ?_⟩
      have h2 := h.srcs v hS
      have h3 := (hnew v h1).2
      exact absurd h1 (hset v (by omega))
  · have h2 := h.srcs v hv
    by_cases h3 : p v = none32
    · by_cases h4 : v ∈ F'
      · have := (hnew v h4).2; omega
      · rw [hl.old v h4]; exact h2
    · rw [hold v h3]; exact h2
  · rcases (hiff v).1 hv with h1 | h1
    · rw [hd2 v h1] at h0 ⊢
      rw [hold v h1]
      obtain ⟨h2, h3, h4⟩ := h.step v h1 h0
      rw [hold _ h3, hd2 _ h3]
      exact ⟨h2, h3, h4⟩
    · rw [hd1 v h1]
      obtain ⟨h2, h3⟩ := hl.val v h1
      obtain ⟨h4, h5⟩ := (h.front _).1 h2
      rw [hold _ h4, hd2 _ h4, h5]
      exact ⟨h3, h4, rfl⟩
  · rcases (hiff u).1 hu with h1 | h1
    · rw [hd2 u h1] at hd ⊢
      by_cases ht : dp u < t
      · obtain ⟨h2, h3⟩ := h.near u v h1 ht he
        exact ⟨(hiff v).2 (Or.inl h2), by rw [hd2 v h2]; exact h3⟩
      · have h2 : u ∈ F := (h.front u).2 ⟨h1, by omega⟩
        by_cases h3 : p v = none32
        · have h4 : v ∈ F' := (hl.mem v).2 ⟨h3, u, h2, he⟩
          exact ⟨(hiff v).2 (Or.inr h4), by rw [hd1 v h4]; omega⟩
        · exact ⟨(hiff v).2 (Or.inl h3), by rw [hd2 v h3]; have := (h.lt v h3).2; omega⟩
    · rw [hd1 u h1] at hd; omega

theorem search_forest {G : Gr W} (hG : G.Ok) (hn : G.n ≤ none32) {S : List Nat} {k t : Nat} {p p' : Nat → Nat} {F : List Nat} {dp : Nat → Nat}
    (hl : Search G k p F p') (h : FInv G S t p F dp) : ∃ t dp', FInv G S t p' [] dp' := by
  induction hl generalizing t dp with
  | done p => exact ⟨t, dp, h⟩
  | round _ hr _ ih => obtain ⟨dp', h'⟩ := h.next hG hn hr; exact ih h'

/-- `multi_bfs` from one source in every component returns a breadth-first forest with the sources as roots. -/
theorem multiBfs_forest {G : Gr W} (hG : G.Ok) (hn : G.n ≤ none32) (hsym : ∀ u v, Adj G u v → Adj G v u) {S : List Nat} (hS : OnePer (Adj G) G.n S)
    {p : Nat → Nat} (h : MultiBfs G S p) :
    ∃ dp, BfsTree (Adj G) (fun v => if v < G.n then p v else v) dp ∧ (∀ v < G.n, p v < G.n) ∧ (∀ v, G.n ≤ v → dp v = 0) ∧
      ∀ v < G.n, (dp v = 0 ↔ v ∈ S) := by
  obtain ⟨k, hk⟩ := h
  have hS0 : ∀ v, start S v ≠ none32 ↔ v ∈ S := by
    intro v
    unfold start
    by_cases hv : v ∈ S
    · rw [if_pos hv]; have := hS.lt v hv; exact ⟨fun _ => hv, fun _ => by omega⟩
    · rw [if_neg hv]; exact ⟨fun h => absurd rfl h, fun h => absurd h hv⟩
  have h0 : FInv G S 0 (start S) S fun _ => 0 :=
    ⟨fun v hv => ⟨hS.lt v ((hS0 v).1 hv), Nat.le_refl _⟩, fun v => by rw [hS0]; simp, fun v hv => ⟨fun _ => (hS0 v).1 hv, fun _ => rfl⟩,
      fun v hv => if_pos hv, fun _ _ h => absurd rfl h, fun _ _ _ h => absurd h (Nat.not_lt_zero _)⟩
  obtain ⟨t, dp, hf⟩ := search_forest hG hn (BFSSF.loop_search hG hn hk) h0
  have hlt : ∀ v, p v ≠ none32 → dp v < t := by
    intro v hv
    have h1 := (hf.lt v hv).2
    have h2 : dp v ≠ t := fun hc => by cases (hf.front v).2 ⟨hv, hc⟩
    omega
  have hnear : ∀ u v, p u ≠ none32 → Adj G u v → p v ≠ none32 ∧ dp v ≤ dp u + 1 := fun u v hu he => hf.near u v hu (hlt u hu) he
  have hcon : ∀ a b, EqvGen (Adj G) a b → (p a ≠ none32 ↔ p b ≠ none32) := by
    intro a b he
    induction he with
    | rel a b hab => exact ⟨fun h => (hnear _ _ h hab).1, fun h => (hnear _ _ h (hsym _ _ hab)).1⟩
    | refl => exact Iff.rfl
    | symm a b _ ih => exact ih.symm
    | trans a b c _ _ ih1 ih2 => exact ih1.trans ih2
  have hall : ∀ v < G.n, p v ≠ none32 := by
    intro v hv
    obtain ⟨s, hs, he⟩ := hS.hit v hv
    refine (hcon v s he).2 ?_
    rw [hf.srcs s hs]; have := hS.lt s hs; omega
  have hp : ∀ v < G.n, p v < G.n := by
    intro v hv
    by_cases h0 : dp v = 0
    · rw [hf.srcs v ((hf.src v (hall v hv)).1 h0)]; exact hv
    · exact (hf.lt _ (hf.step v (hall v hv) h0).2.1).1
  refine ⟨fun v => if v < G.n then dp v else 0, ⟨hsym, fun v h0 => ?_, fun v h0 => ?_, fun u v he => ?_, fun u v hu hv he => ?_⟩, hp, fun v hv => if_neg (by omega),
    fun v hv => by beta_reduce; rw [if_pos hv]; exact hf.src v (hall v hv)⟩
  · beta_reduce at h0 ⊢
    by_cases hv : v < G.n
    · rw [if_pos hv] at h0 ⊢; exact hf.srcs v ((hf.src v (hall v hv)).1 h0)
    · rw [if_neg hv]
  · beta_reduce at h0 ⊢
    by_cases hv : v < G.n
    · rw [if_pos hv] at h0 ⊢
      obtain ⟨h1, h2, h3⟩ := hf.step v (hall v hv) h0
      rw [if_pos hv, if_pos (hp v hv)]
      exact ⟨h1, h3⟩
    · rw [if_neg hv] at h0; exact absurd rfl h0
  · have hb := BFSSF.adj_lt hG he
    beta_reduce
    rw [if_pos hb.1, if_pos hb.2]
    exact (hnear u v (hall u hb.1) he).2
  · beta_reduce at hu hv
    by_cases hun : u < G.n
    · have hvn : v < G.n := (hf.lt v ((hcon u v he).1 (hall u hun))).1
      rw [if_pos hun] at hu
      rw [if_pos hvn] at hv
      exact hS.one u ((hf.src u (hall u hun)).1 hu) v ((hf.src v (hall v hvn)).1 hv) he
    · -- a vertex outside of the graph is alone
      have alone : ∀ a b, EqvGen (Adj G) a b → a = b ∨ (a < G.n ∧ b < G.n) := by
        intro a b he
        induction he with
        | rel a b hab => exact Or.inr (BFSSF.adj_lt hG hab)
        | refl => exact Or.inl rfl
        | symm a b _ ih => exact ih.imp Eq.symm And.symm
        | trans a b c _ _ ih1 ih2 =>
          rcases ih1 with rfl | ih1
          · exact ih2
          · rcases ih2 with rfl | ih2
            · exact Or.inr ih1
            · exact Or.inr ⟨ih1.1, ih2.2⟩
      exact (alone u v he).resolve_right fun h => hun h.1

end Gbbs.Bicc
