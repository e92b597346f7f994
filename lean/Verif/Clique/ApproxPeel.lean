/-
C123: `ApproxPeel`, `benchmarks/CliqueCounting/peel.h:505-631`.
-/
import Verif.Clique.Peel
import Mathlib.Algebra.Order.Field.Rat
import Mathlib.Data.Rat.Cast.Order
import Mathlib.Tactic.Ring
import Mathlib.Tactic.Linarith
import Mathlib.Tactic.FieldSimp
import Mathlib.Algebra.BigOperators.Ring.Finset
import Mathlib.Algebra.Order.BigOperators.Group.Finset

namespace Gbbs.Clique.Peel

open Finset

/-! ### Specification -/

/-- The number of sets of `K + 1` pairwise adjacent vertices of `S`. -/
def cnt (G : UG) (K : Nat) (S : Finset Nat) : Nat := ((cliques G (K + 1)).filter fun T => T ⊆ S).card

/-! ### Model -/

/-- `target_density`, `peel.h:536-537,586-587`, with `density_multiplier = (k + 1) (1 + eps)` (`:520`); `double` as exact. -/
def target (K : Nat) (ε : ℚ) (e k : Nat) : ℚ := (K + 1) * (1 + ε) * e / k

/-- The first block of the output of `split_two`, `peel.h:541-547,591-598`. -/
def gone (D : Nat → Nat) (t : ℚ) (rem : List Nat) : List Nat := rem.filter fun v => decide ((D v : ℚ) ≤ t)

/-- The second block. -/
def kept (D : Nat → Nat) (t : ℚ) (rem : List Nat) : List Nat := rem.filter fun v => !decide ((D v : ℚ) ≤ t)

/-- `if (current_density > max_density)`, `peel.h:539,589`. -/
def bump (x : ℚ) (e k : Nat) : ℚ := if x < (e : ℚ) / k then (e : ℚ) / k else x

/-- `update_clique` for all workers and changed vertices (`peel.h:528-531`), then `D[this_arr[j]] = 0` (`:561,615`). -/
def subRows (D : Nat → Nat) (ids ch : List Nat) (R : List (Nat → Nat)) (v : Nat) : Nat :=
  if v ∈ ids then 0 else if v ∈ ch then (R.map (· v)).foldl sub64 (D v) else D v

/-- The rows afterwards. -/
def clearRows (ch : List Nat) (R : List (Nat → Nat)) : List (Nat → Nat) := R.map fun r v => if v ∈ ch then 0 else r v

/-- The loop, `peel.h:570-622`, from the remaining vertices, `D`, `still_active`, `per_processor_counts` and `max_density`; `edges_remaining` is the sum of `D`.
The outcome `none` is an access out of bounds. -/
inductive ALoop (ε : ℚ) (G : UG) (K : Nat) (label : Bool) (rank : Nat → Nat) :
    List Nat → (Nat → Nat) → (Nat → Nat) → List (Nat → Nat) → ℚ → Option ℚ → Prop
  | done {D sa pc x} : ALoop ε G K label rank [] D sa pc x (some x)
  | last {rem D sa pc x} (hne : rem ≠ []) (hk : kept D (target K ε (rem.map D).sum rem.length) rem = []) :
      ALoop ε G K label rank rem D sa pc x (some (bump x (rem.map D).sum rem.length))
  | next {rem D sa pc x ch R o} (hne : rem ≠ []) (hk : kept D (target K ε (rem.map D).sum rem.length) rem ≠ [])
      (hc : Rows G K label rank sa pc (gone D (target K ε (rem.map D).sum rem.length) rem) (some (ch, R)))
      (hr : ALoop ε G K label rank (kept D (target K ε (rem.map D).sum rem.length) rem) (subRows D (gone D (target K ε (rem.map D).sum rem.length) rem) ch R)
        (mark sa (gone D (target K ε (rem.map D).sum rem.length) rem) 2) (clearRows ch R) (bump x (rem.map D).sum rem.length) o) :
      ALoop ε G K label rank rem D sa pc x o
  | oob {rem D sa pc x} (hne : rem ≠ []) (hk : kept D (target K ε (rem.map D).sum rem.length) rem ≠ [])
      (hc : Rows G K label rank sa pc (gone D (target K ε (rem.map D).sum rem.length) rem) none) : ALoop ε G K label rank rem D sa pc x none

/-- `ApproxPeel(G, DG, K, cliques, num_cliques, label, rank, eps)` with `p` workers, `peel.h:505-631`; the first round (`:535-567`) takes
`num_cliques`, and updates the counts in any case. Without vertices the quotients are NaN and all comparisons false. -/
inductive Approx (ε : ℚ) (G : UG) (K : Nat) (label : Bool) (rank cl : Nat → Nat) (num p : Nat) : Option ℚ → Prop
  | zero (hn : G.n = 0) : Approx ε G K label rank cl num p (some 0)
  | run {ch R o} (hn : 0 < G.n)
      (hc : Rows G K label rank (fun _ => 0) (List.replicate p fun _ => 0) (gone cl (target K ε num G.n) (List.range G.n)) (some (ch, R)))
      (hr : ALoop ε G K label rank (kept cl (target K ε num G.n) (List.range G.n)) (subRows cl (gone cl (target K ε num G.n) (List.range G.n)) ch R)
        (mark (fun _ => 0) (gone cl (target K ε num G.n) (List.range G.n)) 2) (clearRows ch R) (bump 0 num G.n) o) :
      Approx ε G K label rank cl num p o
  | oob (hn : 0 < G.n)
      (hc : Rows G K label rank (fun _ => 0) (List.replicate p fun _ => 0) (gone cl (target K ε num G.n) (List.range G.n)) none) :
      Approx ε G K label rank cl num p none

/-! ### Proof -/

theorem mem_gone {D : Nat → Nat} {t : ℚ} {rem : List Nat} {v : Nat} : v ∈ gone D t rem ↔ v ∈ rem ∧ (D v : ℚ) ≤ t := by
  rw [gone, List.mem_filter]; simp

theorem mem_kept {D : Nat → Nat} {t : ℚ} {rem : List Nat} {v : Nat} : v ∈ kept D t rem ↔ v ∈ rem ∧ ¬ (D v : ℚ) ≤ t := by
  rw [kept, List.mem_filter]; simp

theorem foldl_sub64 : ∀ (l : List Nat) (a : Nat), l.sum ≤ a → l.foldl sub64 a = a - l.sum := by
  intro l
  induction l with
  | nil => intro a _; rfl
  | cons b l ih =>
    intro a h
    rw [List.sum_cons] at h
    rw [List.foldl_cons, sub64, if_pos (by omega), ih _ (by omega), List.sum_cons]
    omega

/-- What holds between rounds. -/
structure St (G : UG) (K p : Nat) (rem : List Nat) (D sa : Nat → Nat) (pc : List (Nat → Nat)) : Prop where
  nodup : rem.Nodup
  bound : ∀ v ∈ rem, v < G.n
  count : ∀ v ∈ rem, D v = inside G K (fun u => u ∈ rem) v
  sa : ∀ v < G.n, (v ∈ rem → sa v = 0) ∧ (v ∉ rem → sa v = 2)
  pc : pc = List.replicate p fun _ => 0

variable {G : UG} {K p : Nat} {label : Bool} {rank : Nat → Nat} {ε : ℚ}

theorem St.step (ho : Ok G K rank) {rem : List Nat} {D sa : Nat → Nat} {pc : List (Nat → Nat)} (h : St G K p rem D sa pc) {t : ℚ} {ch : List Nat}
    {R : List (Nat → Nat)} (hc : Rows G K label rank sa pc (gone D t rem) (some (ch, R))) :
    St G K p (kept D t rem) (subRows D (gone D t rem) ch R) (mark sa (gone D t rem) 2) (clearRows ch R) := by
  have hg : ∀ v ∈ gone D t rem, v < G.n := fun v hv => h.bound v (mem_gone.1 hv).1
  have hnd : (gone D t rem).Nodup := h.nodup.filter _
  rw [h.pc] at hc
  obtain ⟨r1, r2, r3, r4, r5, r6⟩ := rows_spec ho hg hc
  have hP1 : ∀ v, v ∈ rem ↔ v ∈ kept D t rem ∨ v ∈ gone D t rem := fun v => by rw [mem_kept, mem_gone]; tauto
  have hP2 : ∀ v, v ∈ kept D t rem → v ∉ gone D t rem := fun v => by rw [mem_kept, mem_gone]; tauto
  refine ⟨h.nodup.filter _, fun v hv => h.bound v (mem_kept.1 hv).1, fun v hv => ?_, fun v hv => ?_, ?_⟩
  · have hsp := inside_split (K := K) (rank := rank) (sa := sa) (P := fun u => u ∈ rem) (P' := fun u => u ∈ kept D t rem) ho hnd hP1 hP2 h.bound h.sa (hP2 v hv)
    have hcv := h.count v (mem_kept.1 hv).1
    rw [subRows, if_neg (hP2 v hv)]
    split
    · rw [foldl_sub64 _ _ (by rw [r2]; omega), r2]
      omega
    · rename_i hx
      rw [r3 v hx] at hsp
      omega
  · rw [mark]
    refine ⟨fun hk => by rw [if_neg (hP2 v hk)]; exact (h.sa v hv).1 (mem_kept.1 hk).1, fun hk => ?_⟩
    split
    · rfl
    · rename_i hx
      refine (h.sa v hv).2 fun hin => ?_
      rcases (hP1 v).1 hin with h1 | h1
      · exact hk h1
      · exact hx h1
  · rw [clearRows]
    refine List.eq_replicate_iff.2 ⟨by rw [List.length_map, r1], fun r hr => ?_⟩
    obtain ⟨r', hr', rfl⟩ := List.mem_map.1 hr
    funext v
    split
    · rfl
    · rename_i hx; exact r4 v hx r' hr'

theorem inside_eq (G : UG) (K : Nat) (rem : List Nat) (v : Nat) :
    inside G K (fun u => u ∈ rem) v = ((cliques G (K + 1)).filter fun T => v ∈ T ∧ T ⊆ rem.toFinset).card := by
  classical
  rw [inside]
  congr 1
  ext T
  simp only [Finset.mem_filter, Finset.subset_iff, List.mem_toFinset]

/-- Every set is counted by each of its vertices. -/
theorem sum_inside (G : UG) (K : Nat) (rem : List Nat) :
    ∑ v ∈ rem.toFinset, inside G K (fun u => u ∈ rem) v = (K + 1) * cnt G K rem.toFinset := by
  classical
  have h1 : ∀ v ∈ rem.toFinset, inside G K (fun u => u ∈ rem) v =
      ∑ T ∈ (cliques G (K + 1)).filter (fun T => T ⊆ rem.toFinset), if v ∈ T then 1 else 0 := by
    intro v _
    rw [inside_eq, Finset.sum_boole, Finset.filter_filter]
    simp only [Nat.cast_id]
    congr 1
    ext T
    simp only [Finset.mem_filter]
    tauto
  rw [Finset.sum_congr rfl h1, Finset.sum_comm]
  have h2 : ∀ T ∈ (cliques G (K + 1)).filter (fun T => T ⊆ rem.toFinset), (∑ v ∈ rem.toFinset, if v ∈ T then 1 else 0) = K + 1 := by
    intro T hT
    obtain ⟨h3, h4⟩ := Finset.mem_filter.1 hT
    rw [Finset.sum_boole, Nat.cast_id, Finset.filter_mem_eq_inter, Finset.inter_eq_right.2 h4]
    exact (Finset.mem_powersetCard.1 (Finset.mem_filter.1 h3).1).2
  rw [Finset.sum_congr rfl h2, Finset.sum_const, nsmul_eq_mul, Nat.cast_id, cnt, Nat.mul_comm]

theorem sum_D {rem : List Nat} {D sa : Nat → Nat} {pc : List (Nat → Nat)} (h : St G K p rem D sa pc) :
    (rem.map D).sum = (K + 1) * cnt G K rem.toFinset := by
  rw [← sum_inside, ← List.sum_toFinset _ h.nodup]
  exact Finset.sum_congr rfl fun v hv => h.count v (List.mem_toFinset.1 hv)

/-- A vertex of a set is in the sets that its removal destroys. -/
theorem cnt_erase (G : UG) (K : Nat) {S : Finset Nat} {rem : List Nat} (hS : S ⊆ rem.toFinset) (v : Nat) :
    cnt G K S ≤ cnt G K (S.erase v) + inside G K (fun u => u ∈ rem) v := by
  classical
  rw [cnt, cnt, inside_eq]
  refine le_trans (Finset.card_le_card (t := (cliques G (K + 1)).filter (fun T => T ⊆ S.erase v) ∪ (cliques G (K + 1)).filter fun T => v ∈ T ∧ T ⊆ rem.toFinset) ?_)
    (Finset.card_union_le _ _)
  intro T hT
  obtain ⟨h1, h2⟩ := Finset.mem_filter.1 hT
  rw [Finset.mem_union, Finset.mem_filter, Finset.mem_filter]
  by_cases hv : v ∈ T
  · exact Or.inr ⟨h1, hv, h2.trans hS⟩
  · exact Or.inl ⟨h1, Finset.subset_erase.2 ⟨h2, hv⟩⟩

/-- A densest set. -/
theorem exists_densest (G : UG) (K : Nat) (hn : 0 < G.n) : ∃ S ⊆ range G.n, S.Nonempty ∧
    ∀ T ⊆ range G.n, T.Nonempty → cnt G K T * S.card ≤ cnt G K S * T.card := by
  classical
  obtain ⟨S, hS, hmax⟩ := Finset.exists_max_image ((range G.n).powerset.filter fun T => T.Nonempty) (fun T => (cnt G K T : ℚ) / T.card)
    ⟨{0}, Finset.mem_filter.2 ⟨Finset.mem_powerset.2 (by simpa using hn), Finset.singleton_nonempty 0⟩⟩
  obtain ⟨h1, h2⟩ := Finset.mem_filter.1 hS
  refine ⟨S, Finset.mem_powerset.1 h1, h2, fun T hT hT' => ?_⟩
  have h3 := hmax T (Finset.mem_filter.2 ⟨Finset.mem_powerset.2 hT, hT'⟩)
  have hS0 : (0 : ℚ) < S.card := by exact_mod_cast h2.card_pos
  have hT0 : (0 : ℚ) < T.card := by exact_mod_cast hT'.card_pos
  rw [div_le_div_iff₀ hT0 hS0] at h3
  exact_mod_cast h3

theorem le_bump (x : ℚ) (e k : Nat) : x ≤ bump x e k ∧ (e : ℚ) / k ≤ bump x e k := by
  rw [bump]
  split
  · rename_i h; exact ⟨h.le, le_refl _⟩
  · rename_i h; exact ⟨le_refl _, not_lt.1 h⟩

theorem bump_or (x : ℚ) (e k : Nat) : bump x e k = x ∨ bump x e k = (e : ℚ) / k := by
  rw [bump]; split
  · exact Or.inr rfl
  · exact Or.inl rfl

/-- Each vertex of a densest set `S` of the remaining vertices is in at least `cnt S / |S|` sets. -/
theorem densest_deg {S : Finset Nat} (hS : S ⊆ range G.n) (hmax : ∀ T ⊆ range G.n, T.Nonempty → cnt G K T * S.card ≤ cnt G K S * T.card)
    {rem : List Nat} (hin : S ⊆ rem.toFinset) {v : Nat} (hv : v ∈ S) : cnt G K S ≤ inside G K (fun u => u ∈ rem) v * S.card := by
  have h1 := cnt_erase G K hin v
  by_cases he : (S.erase v).Nonempty
  · have h2 := hmax (S.erase v) ((Finset.erase_subset _ _).trans hS) he
    have h3 : (S.erase v).card + 1 = S.card := Finset.card_erase_add_one hv
    generalize cnt G K S = a at *
    generalize cnt G K (S.erase v) = b at *
    generalize inside G K (fun u => u ∈ rem) v = d at *
    rw [← h3] at h2 ⊢
    generalize (S.erase v).card = m at *
    nlinarith
  · rw [Finset.not_nonempty_iff_eq_empty] at he
    have h2 : cnt G K (S.erase v) = 0 := by
      rw [he, cnt, Finset.card_eq_zero, Finset.filter_eq_empty_iff]
      intro T hT hsub
      have h3 := (Finset.mem_powersetCard.1 (Finset.mem_filter.1 hT).1).2
      rw [Finset.subset_empty.1 hsub, Finset.card_empty] at h3
      omega
    have h3 : 0 < S.card := Finset.card_pos.2 ⟨v, hv⟩
    calc cnt G K S ≤ inside G K (fun u => u ∈ rem) v := by omega
      _ ≤ inside G K (fun u => u ∈ rem) v * S.card := Nat.le_mul_of_pos_right _ h3

/-- A round that removes a vertex of `S` has bumped the maximum. -/
theorem round_bound (hε : 0 ≤ ε) {S : Finset Nat} (hS : S ⊆ range G.n) (hne : S.Nonempty)
    (hmax : ∀ T ⊆ range G.n, T.Nonempty → cnt G K T * S.card ≤ cnt G K S * T.card) {rem : List Nat} (hin : S ⊆ rem.toFinset) {D : Nat → Nat}
    (hD : ∀ v ∈ rem, D v = inside G K (fun u => u ∈ rem) v) {e : Nat} {x y : ℚ} (hy : bump x e rem.length ≤ y)
    (hlost : ¬ S ⊆ (kept D (target K ε e rem.length) rem).toFinset) : (cnt G K S : ℚ) / S.card ≤ (K + 1) * (1 + ε) * y := by
  obtain ⟨v, hv, hv'⟩ := Finset.not_subset.1 hlost
  have hvr := List.mem_toFinset.1 (hin hv)
  rw [List.mem_toFinset, mem_kept] at hv'
  have hle : (D v : ℚ) ≤ target K ε e rem.length := by
    by_contra hc; exact hv' ⟨hvr, hc⟩
  have hd := densest_deg hS hmax hin hv
  rw [← hD v hvr] at hd
  have hS0 : (0 : ℚ) < S.card := by exact_mod_cast hne.card_pos
  have hd' : (cnt G K S : ℚ) / S.card ≤ D v := by
    rw [div_le_iff₀ hS0]; exact_mod_cast hd
  refine hd'.trans (hle.trans ?_)
  have hb := ((le_bump x e rem.length).2).trans hy
  have hm : (0 : ℚ) ≤ (K + 1) * (1 + ε) := by positivity
  calc target K ε e rem.length = (K + 1) * (1 + ε) * ((e : ℚ) / rem.length) := by rw [target]; ring
    _ ≤ _ := mul_le_mul_of_nonneg_left hb hm

/-- A round removes a vertex. -/
theorem kept_lt (hε : 0 ≤ ε) {rem : List Nat} (hne : rem ≠ []) {D : Nat → Nat} {e : Nat} (he : (rem.map D).sum ≤ (K + 1) * e) :
    (kept D (target K ε e rem.length) rem).length < rem.length := by
  rw [kept]
  refine List.length_filter_lt_length_iff_exists.2 ?_
  by_contra hc
  have hall : ∀ v ∈ rem, target K ε e rem.length < D v := by
    intro v hv
    by_contra hlt
    exact hc ⟨v, hv, by simpa using hlt⟩
  have hl : (0 : ℚ) < rem.length := by exact_mod_cast List.length_pos_of_ne_nil hne
  have hsum : ∀ l : List Nat, l ≠ [] → (∀ v ∈ l, target K ε e rem.length < D v) → target K ε e rem.length * l.length < ((l.map D).sum : Nat) := by
    intro l
    induction l with
    | nil => intro h; exact absurd rfl h
    | cons a l ih =>
      intro _ h
      have h1 := h a List.mem_cons_self
      by_cases hl : l = []
      · subst hl; simpa using h1
      · have h2 := ih hl fun v hv => h v (List.mem_cons_of_mem _ hv)
        rw [List.map_cons, List.sum_cons, List.length_cons]
        push_cast
        push_cast at h2
        linarith
  have h1 := hsum rem hne hall
  have h2 : target K ε e rem.length * rem.length = (K + 1) * (1 + ε) * e := by
    rw [target]; field_simp
  rw [h2] at h1
  have h3 : (((rem.map D).sum : Nat) : ℚ) ≤ (K + 1) * e := by exact_mod_cast he
  have h4 : (0 : ℚ) ≤ (K + 1) * ε * e := by positivity
  nlinarith

theorem loop_bound (ho : Ok G K rank) (hε : 0 ≤ ε) {rem : List Nat} {D sa : Nat → Nat} {pc : List (Nat → Nat)} {x : ℚ} {o : Option ℚ}
    (h : ALoop ε G K label rank rem D sa pc x o) (hs : St G K p rem D sa pc) :
    ∃ y, o = some y ∧ x ≤ y ∧ (y = x ∨ ∃ S ⊆ range G.n, S.Nonempty ∧ y * S.card ≤ (K + 1) * cnt G K S) ∧
      ∀ S ⊆ range G.n, S.Nonempty → (∀ T ⊆ range G.n, T.Nonempty → cnt G K T * S.card ≤ cnt G K S * T.card) → S ⊆ rem.toFinset →
        (cnt G K S : ℚ) / S.card ≤ (K + 1) * (1 + ε) * y := by
  have hup : ∀ {rem : List Nat} {D sa : Nat → Nat} {pc : List (Nat → Nat)} (x : ℚ), rem ≠ [] → St G K p rem D sa pc →
      bump x (rem.map D).sum rem.length = x ∨ ∃ S ⊆ range G.n, S.Nonempty ∧ bump x (rem.map D).sum rem.length * S.card ≤ (K + 1) * cnt G K S := by
    intro rem D sa pc x hne hs
    rcases bump_or x (rem.map D).sum rem.length with hb | hb
    · exact Or.inl hb
    · refine Or.inr ⟨rem.toFinset, fun v hv => Finset.mem_range.2 (hs.bound v (List.mem_toFinset.1 hv)), ?_, ?_⟩
      · obtain ⟨v, hv⟩ := List.exists_mem_of_ne_nil rem hne
        exact ⟨v, List.mem_toFinset.2 hv⟩
      · have hl : (0 : ℚ) < rem.length := by exact_mod_cast List.length_pos_of_ne_nil hne
        rw [hb, List.toFinset_card_of_nodup hs.nodup, div_mul_cancel₀ _ hl.ne', sum_D hs]
        push_cast
        exact le_refl _
  induction h with
  | @done D sa pc x =>
    exact ⟨x, rfl, le_refl _, Or.inl rfl, fun S _ hne _ hin => by
      obtain ⟨v, hv⟩ := hne
      exact absurd (hin hv) (by simp)⟩
  | @last rem D sa pc x hne hk =>
    refine ⟨_, rfl, (le_bump _ _ _).1, hup x hne hs, fun S hS hSne hmax hin => ?_⟩
    refine round_bound hε hS hSne hmax hin hs.count (le_refl _) ?_
    rw [hk]
    obtain ⟨v, hv⟩ := hSne
    exact fun hc => absurd (hc hv) (by simp)
  | @next rem D sa pc x ch R o hne hk hc hr ih =>
    obtain ⟨y, h1, h2, h3, h4⟩ := ih (hs.step ho hc)
    refine ⟨y, h1, (le_bump _ _ _).1.trans h2, ?_, fun S hS hSne hmax hin => ?_⟩
    · rcases h3 with h3 | h3
      · rw [h3]; exact hup x hne hs
      · exact Or.inr h3
    · by_cases hsub : S ⊆ (kept D (target K ε (rem.map D).sum rem.length) rem).toFinset
      · exact h4 S hS hSne hmax hsub
      · exact round_bound hε hS hSne hmax hin hs.count h2 hsub
  | @oob rem D sa pc x hne hk hc =>
    exact absurd hc (rows_some ho fun v hv => hs.bound v (mem_gone.1 hv).1)

theorem loop_ends (ho : Ok G K rank) (hε : 0 ≤ ε) (hp0 : 0 < p) (label : Bool) : ∀ (m : Nat) (rem : List Nat) (D sa : Nat → Nat) (pc : List (Nat → Nat)) (x : ℚ),
    rem.length ≤ m → St G K p rem D sa pc → ∃ o, ALoop ε G K label rank rem D sa pc x o := by
  intro m
  induction m with
  | zero =>
    intro rem D sa pc x h _
    obtain rfl := List.eq_nil_of_length_eq_zero (by omega : rem.length = 0)
    exact ⟨_, .done⟩
  | succ m ih =>
    intro rem D sa pc x h hs
    by_cases hne : rem = []
    · subst hne; exact ⟨_, .done⟩
    by_cases hk : kept D (target K ε (rem.map D).sum rem.length) rem = []
    · exact ⟨_, .last hne hk⟩
    obtain ⟨q, hq⟩ := rows_exists (p := p) G K label rank sa (gone D (target K ε (rem.map D).sum rem.length) rem) hp0
    rw [← hs.pc] at hq
    obtain _ | ⟨ch, R⟩ := q
    · exact ⟨_, .oob hne hk hq⟩
    · have hlt := kept_lt (K := K) hε hne (D := D) (e := (rem.map D).sum) (Nat.le_mul_of_pos_left _ (by omega))
      obtain ⟨o, h1⟩ := ih _ _ _ _ (bump x (rem.map D).sum rem.length) (by omega) (hs.step ho hq)
      exact ⟨o, .next hne hk hq h1⟩

theorem st_init (p : Nat) {cl : Nat → Nat} (hcl : ∀ v < G.n, cl v = inside G K (fun v => v < G.n) v) :
    St G K p (List.range G.n) cl (fun _ => 0) (List.replicate p fun _ => 0) := by
  refine ⟨List.nodup_range, fun v hv => List.mem_range.1 hv, fun v hv => ?_, fun v hv => ⟨fun _ => rfl, fun h => absurd (List.mem_range.2 hv) h⟩, rfl⟩
  rw [hcl v (List.mem_range.1 hv)]
  congr 1
  funext u
  rw [List.mem_range]

/-- **C123: the density.** `G` is undirected with sorted lists, `rank` any order of the vertices, `2 ≤ K ≤ 128`, `cl` and `num` are the counts of the sets of `K + 1` pairwise
adjacent vertices, `ε ≥ 0`; `double` as exact. `ApproxPeel` makes no access out of bounds, for any number of workers and any way in which the work is
distributed. No set of vertices is more than `(K + 1) (1 + ε)` times as dense as the value it returns, and the value is at most `K + 1` times the density of
some set. What is missing: the value need not be the density of a set (`approx_refuted`). -/
theorem approx_partial (ho : Ok G K rank) (hε : 0 ≤ ε) {cl : Nat → Nat} (hcl : ∀ v < G.n, cl v = inside G K (fun v => v < G.n) v) {num : Nat}
    (hnum : num = (cliques G (K + 1)).card) {o : Option ℚ} (h : Approx ε G K label rank cl num p o) :
    ∃ y, o = some y ∧ (∀ S ⊆ range G.n, S.Nonempty → (cnt G K S : ℚ) / S.card ≤ (K + 1) * (1 + ε) * y) ∧
      (0 < G.n → ∃ S ⊆ range G.n, S.Nonempty ∧ y ≤ (K + 1) * ((cnt G K S : ℚ) / S.card)) := by
  have hst := st_init (K := K) p hcl
  have hall : num = cnt G K (range G.n) := by
    rw [hnum, cnt, Finset.filter_true_of_mem]
    intro T hT
    exact (Finset.mem_powersetCard.1 (Finset.mem_filter.1 hT).1).1
  cases h with
  | zero hn =>
    refine ⟨0, rfl, fun S hS hne => ?_, fun h0 => by omega⟩
    rw [hn, Finset.range_zero, Finset.subset_empty] at hS
    rw [hS] at hne
    exact absurd hne Finset.not_nonempty_empty
  | oob hn hc => exact absurd hc (rows_some ho fun v hv => List.mem_range.1 (mem_gone.1 hv).1)
  | @run ch R o hn hc hr =>
    have hlen : (List.range G.n).length = G.n := List.length_range
    obtain ⟨y, h1, h2, h3, h4⟩ := loop_bound ho hε hr (hst.step ho hc)
    have hn0 : (0 : ℚ) < G.n := by exact_mod_cast hn
    have hfull : (range G.n).Nonempty := Finset.nonempty_range_iff.2 (by omega)
    refine ⟨y, h1, fun S hS hne => ?_, fun _ => ?_⟩
    · obtain ⟨B, hB, hBne, hmax⟩ := exists_densest G K hn
      have hB0 : (0 : ℚ) < B.card := by exact_mod_cast hBne.card_pos
      have hS0 : (0 : ℚ) < S.card := by exact_mod_cast hne.card_pos
      have hSB : (cnt G K S : ℚ) / S.card ≤ (cnt G K B : ℚ) / B.card := by
        rw [div_le_div_iff₀ hS0 hB0]; exact_mod_cast hmax S hS hne
      refine hSB.trans ?_
      by_cases hsub : B ⊆ (kept cl (target K ε num G.n) (List.range G.n)).toFinset
      · exact h4 B hB hBne hmax hsub
      · refine round_bound (rem := List.range G.n) (D := cl) (e := num) (x := 0) hε hB hBne hmax (fun v hv => List.mem_toFinset.2 (List.mem_range.2 (Finset.mem_range.1 (hB hv)))) hst.count ?_ ?_
        · rw [hlen]; exact h2
        · rw [hlen]; exact hsub
    · have hone : (1 : ℚ) ≤ K + 1 := by
        have : (0 : ℚ) ≤ K := Nat.cast_nonneg _
        linarith
      rcases h3 with h3 | ⟨S, hS, hne, hle⟩
      · rcases bump_or 0 num G.n with hb | hb
        · rw [hb] at h3
          refine ⟨range G.n, Finset.Subset.refl _, hfull, ?_⟩
          rw [h3]
          exact mul_nonneg (zero_le_one.trans hone) (div_nonneg (Nat.cast_nonneg _) (Nat.cast_nonneg _))
        · refine ⟨range G.n, Finset.Subset.refl _, hfull, ?_⟩
          rw [h3, hb, hall, Finset.card_range]
          have : (0 : ℚ) ≤ (cnt G K (range G.n) : ℚ) / G.n := div_nonneg (Nat.cast_nonneg _) (Nat.cast_nonneg _)
          nlinarith
      · refine ⟨S, hS, hne, ?_⟩
        have hS0 : (0 : ℚ) < S.card := by exact_mod_cast hne.card_pos
        rw [← mul_div_assoc, le_div_iff₀ hS0]
        exact hle

/-- **C123: `ApproxPeel` returns.** -/
theorem approx_ends (ho : Ok G K rank) (hε : 0 ≤ ε) (hp0 : 0 < p) (label : Bool) {cl : Nat → Nat} (hcl : ∀ v < G.n, cl v = inside G K (fun v => v < G.n) v) (num : Nat) :
    ∃ o, Approx ε G K label rank cl num p o := by
  by_cases hn : G.n = 0
  · exact ⟨_, .zero hn⟩
  have hst := st_init (K := K) p hcl
  obtain ⟨q, hq⟩ := rows_exists (p := p) G K label rank (fun _ => 0) (gone cl (target K ε num G.n) (List.range G.n)) hp0
  obtain _ | ⟨ch, R⟩ := q
  · exact ⟨_, .oob (by omega) hq⟩
  · obtain ⟨o, h1⟩ := loop_ends ho hε hp0 label _ _ _ _ _ (bump 0 num G.n) (le_refl _) (hst.step ho hq)
    exact ⟨o, .run (by omega) hq h1⟩

/-! ### Example -/

/-- Four pairwise adjacent vertices and ten isolated ones. -/
def isoG : UG := .ofLists [[1, 2, 3], [0, 2, 3], [0, 1, 3], [0, 1, 2], [], [], [], [], [], [], [], [], [], []]

def isoCl (v : Nat) : Nat := [3, 3, 3, 3].getD v 0

theorem iso_ok : Ok isoG 2 id := ⟨UG.ofLists_sym (by decide +kernel), ofLists_sorted (by decide), fun _ _ _ _ h => h, by decide, by decide⟩

theorem iso_cl : ∀ v < isoG.n, isoCl v = inside isoG 2 (fun v => v < isoG.n) v := fun v hv => by
  rw [inside_all]; revert v hv; decide +kernel

theorem iso_num : 4 = (cliques isoG 3).card := by decide +kernel

theorem iso_run : Approx 0 isoG 2 true id isoCl 4 1 (some 3) := by
  have hg : gone isoCl (target 2 0 4 isoG.n) (List.range isoG.n) = [4, 5, 6, 7, 8, 9, 10, 11, 12, 13] := by decide +kernel
  have hk : kept isoCl (target 2 0 4 isoG.n) (List.range isoG.n) = [0, 1, 2, 3] := by decide +kernel
  have hr := rows1_sound (G := isoG) (K := 2) (label := true) (rank := id) (sa := fun _ => 0) (pc := [fun _ => 0]) (ids := [4, 5, 6, 7, 8, 9, 10, 11, 12, 13]) rfl
  have hx : (rows1 isoG 2 true id (fun _ => 0) [fun _ => 0] [4, 5, 6, 7, 8, 9, 10, 11, 12, 13]).map
      (fun q => [0, 1, 2, 3].map (subRows isoCl [4, 5, 6, 7, 8, 9, 10, 11, 12, 13] q.1 q.2)) = some [3, 3, 3, 3] := by decide +kernel
  obtain ⟨⟨ch, R⟩, h1, h2⟩ := Option.map_eq_some_iff.1 hx
  rw [h1] at hr
  refine Approx.run (ch := ch) (R := R) (by decide) (by rw [hg]; exact hr) ?_
  rw [hg, hk]
  generalize hD : subRows isoCl [4, 5, 6, 7, 8, 9, 10, 11, 12, 13] ch R = D at *
  have hs : ([0, 1, 2, 3].map D).sum = 12 := by rw [h2]; rfl
  have hD4 : ∀ v ∈ [0, 1, 2, 3], D v = 3 := by
    intro v hv
    have := List.mem_map_of_mem (f := D) hv
    rw [h2] at this
    simpa using this
  have hb : bump (bump 0 4 isoG.n) ([0, 1, 2, 3].map D).sum [0, 1, 2, 3].length = 3 := by rw [hs]; decide +kernel
  have := ALoop.last (ε := 0) (G := isoG) (K := 2) (label := true) (rank := id) (rem := [0, 1, 2, 3]) (D := D)
    (sa := mark (fun _ => 0) [4, 5, 6, 7, 8, 9, 10, 11, 12, 13] 2) (pc := clearRows ch R) (x := bump 0 4 isoG.n) (by decide) (by
      rw [hs, kept, List.filter_eq_nil_iff]
      intro v hv
      rw [hD4 v hv]
      decide +kernel)
  rwa [hb] at this

/-- **C123, refuted: the value is a density.** With triangles, `ApproxPeel` returns 3 for a graph in which no set of `k` vertices contains more than `k` triangles: after
the first round, `edges_remaining` is the sum of the counts of the vertices and not divided by `k + 1`. -/
theorem approx_refuted : Approx 0 isoG 2 true id isoCl 4 1 (some 3) ∧ ∀ S ⊆ range isoG.n, cnt isoG 2 S ≤ S.card := by
  refine ⟨iso_run, fun S hS => ?_⟩
  have h1 : cnt isoG 2 S = cnt isoG 2 (S ∩ range 4) := by
    rw [cnt, cnt]
    congr 1
    refine Finset.filter_congr fun T hT => ?_
    have hT4 : T ⊆ range 4 := by revert T; decide +kernel
    exact ⟨fun h => Finset.subset_inter h hT4, fun h => h.trans Finset.inter_subset_left⟩
  have h2 : ∀ T ∈ (range 4).powerset, cnt isoG 2 T ≤ T.card := by decide +kernel
  rw [h1]
  exact (h2 _ (Finset.mem_powerset.2 Finset.inter_subset_right)).trans (Finset.card_le_card Finset.inter_subset_left)

example : ∃ y, (some 3 : Option ℚ) = some y ∧ (∀ S ⊆ range isoG.n, S.Nonempty → (cnt isoG 2 S : ℚ) / S.card ≤ (2 + 1) * (1 + 0) * y) ∧
    (0 < isoG.n → ∃ S ⊆ range isoG.n, S.Nonempty ∧ y ≤ (2 + 1) * ((cnt isoG 2 S : ℚ) / S.card)) :=
  approx_partial iso_ok (le_refl _) iso_cl iso_num iso_run

end Gbbs.Clique.Peel
