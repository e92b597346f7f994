import Verif.Common
import Mathlib.Data.Finset.Card
import Mathlib.Data.Finset.Image

/-!
# C155: `CompactClustering`

`benchmarks/SCAN/IndexBased/utils.cc:33-49`.

Simplifications: the iterations of the first loop run one after the other, in any order; those that
run at the same time for one cluster all write 1.
-/

namespace Gbbs.Compact

/-- `kUnclustered`, `benchmarks/SCAN/IndexBased/utils.h:23`. -/
def kUnclustered : Nat := 4294967295

/-- An iteration of the first loop, `utils.cc:36-41`; `none`: an access beyond the `n` entries of
`cluster_relabel_map`. -/
def mark (n : Nat) (cl : Nat → Nat) (m : Nat → Nat) (i : Nat) : Option (Nat → Nat) :=
  if cl i ≠ kUnclustered then
    if cl i < n then some (if m (cl i) = 0 then upd m (cl i) 1 else m) else none
  else some m

/-- The first loop in the given order, from the array of zeros (`utils.cc:35-41`). -/
def markAll (n : Nat) (cl : Nat → Nat) : List Nat → (Nat → Nat) → Option (Nat → Nat)
  | [], m => some m
  | i :: is, m => (mark n cl m i).bind (markAll n cl is)

/-- An iteration of the second loop, `utils.cc:43-48`, which changes the clustering in place; `m` is
`cluster_relabel_map` after the scan. -/
def relabel (m : Nat → Nat) (cl : Nat → Nat) (i : Nat) : Nat → Nat :=
  if cl i ≠ kUnclustered then upd cl i (m (cl i)) else cl

/-- `CompactClustering`, `utils.cc:33-50`: the new clustering and the result. The scan
(`utils.cc:42`) adds in `uintE`. -/
def compact (n : Nat) (order order' : List Nat) (cl : Nat → Nat) :
    Option ((Nat → Nat) × Nat) :=
  (markAll n cl order fun _ => 0).map fun m =>
    (order'.foldl (relabel fun c => exScan m c % 4294967296) cl, exScan m n % 4294967296)

/-! ## Specification -/

/-- The clusters in use. -/
def clusters (n : Nat) (cl : Nat → Nat) : Finset Nat :=
  ((Finset.range n).image cl).erase kUnclustered

/-! ## Proof -/

theorem mem_clusters {n : Nat} {cl : Nat → Nat} {c : Nat} :
    c ∈ clusters n cl ↔ c ≠ kUnclustered ∧ ∃ i, i < n ∧ cl i = c := by
  simp [clusters]

theorem markAll_spec (n : Nat) (cl : Nat → Nat) : ∀ (order : List Nat) (m : Nat → Nat),
    (∀ i ∈ order, cl i ≠ kUnclustered → cl i < n) → (∀ c, m c = 0 ∨ m c = 1) →
    ∃ m', markAll n cl order m = some m' ∧
      ∀ c, m' c = if m c = 1 ∨ (c ≠ kUnclustered ∧ ∃ i ∈ order, cl i = c) then 1 else 0 := by
  intro order
  induction order with
  | nil =>
    intro m _ hm
    refine ⟨m, rfl, fun c => ?_⟩
    rcases hm c with h | h <;> simp [h]
  | cons i is ih =>
    intro m hb hm
    have hb' : ∀ j ∈ is, cl j ≠ kUnclustered → cl j < n :=
      fun j hj => hb j (List.mem_cons_of_mem _ hj)
    by_cases hu : cl i = kUnclustered
    · obtain ⟨m', h1, h2⟩ := ih m hb' hm
      refine ⟨m', by simp [markAll, mark, hu, h1], fun c => ?_⟩
      rw [h2 c]
      congr 1
      apply propext
      constructor
      · rintro (h | ⟨h, j, hj, hc⟩)
        · exact Or.inl h
        · exact Or.inr ⟨h, j, List.mem_cons_of_mem _ hj, hc⟩
      · rintro (h | ⟨h, j, hj, hc⟩)
        · exact Or.inl h
        · rcases List.mem_cons.1 hj with rfl | hj
          · exact absurd (hc.symm.trans hu) h
          · exact Or.inr ⟨h, j, hj, hc⟩
    · have hlt := hb i List.mem_cons_self hu
      have hm1 : (if m (cl i) = 0 then upd m (cl i) 1 else m) = upd m (cl i) 1 := by
        rcases hm (cl i) with h | h
        · simp [h]
        · rw [if_neg (by omega)]
          funext c
          by_cases hc : c = cl i
          · subst hc; simp [h]
          · rw [upd_of_ne _ _ hc]
      obtain ⟨m', h1, h2⟩ := ih (upd m (cl i) 1) hb' (fun c => by
        by_cases hc : c = cl i
        · subst hc; simp
        · rw [upd_of_ne _ _ hc]; exact hm c)
      refine ⟨m', ?_, fun c => ?_⟩
      · rw [markAll, mark, if_pos hu, if_pos hlt, hm1]; exact h1
      · rw [h2 c]
        congr 1
        apply propext
        constructor
        · rintro (h | ⟨h, j, hj, hc⟩)
          · by_cases hc : c = cl i
            · subst hc; exact Or.inr ⟨hu, i, List.mem_cons_self, rfl⟩
            · rw [upd_of_ne _ _ hc] at h; exact Or.inl h
          · exact Or.inr ⟨h, j, List.mem_cons_of_mem _ hj, hc⟩
        · rintro (h | ⟨h, j, hj, hc⟩)
          · by_cases hc : c = cl i
            · subst hc; exact Or.inl (upd_same ..)
            · exact Or.inl (by rw [upd_of_ne _ _ hc]; exact h)
          · rcases List.mem_cons.1 hj with rfl | hj
            · subst hc; exact Or.inl (upd_same ..)
            · exact Or.inr ⟨h, j, hj, hc⟩

theorem relabel_spec (m : Nat → Nat) : ∀ (order : List Nat) (cl : Nat → Nat), order.Nodup → ∀ i,
    order.foldl (relabel m) cl i =
      if i ∈ order ∧ cl i ≠ kUnclustered then m (cl i) else cl i := by
  intro order
  induction order with
  | nil => intro cl _ i; simp
  | cons j js ih =>
    intro cl hnd i
    rw [List.foldl_cons, ih _ (List.nodup_cons.1 hnd).2]
    by_cases hij : i = j
    · subst hij
      have hn := (List.nodup_cons.1 hnd).1
      rw [if_neg (fun h => hn h.1), relabel]
      by_cases hu : cl i = kUnclustered
      · simp [hu]
      · simp [hu]
    · have he : relabel m cl j i = cl i := by
        rw [relabel]; split
        · rw [upd_of_ne _ _ hij]
        · rfl
      rw [he]
      simp [hij]

theorem exScan_card (S : Finset Nat) (f : Nat → Nat) (hf : ∀ c, f c = if c ∈ S then 1 else 0) :
    ∀ k, exScan f k = (S.filter (· < k)).card := by
  intro k
  induction k with
  | zero => simp [exScan]
  | succ k ih =>
    rw [exScan, ih, hf]
    by_cases hk : k ∈ S
    · rw [if_pos hk]
      have : S.filter (· < k + 1) = insert k (S.filter (· < k)) := by
        ext x
        simp only [Finset.mem_filter, Finset.mem_insert]
        constructor
        · rintro ⟨h1, h2⟩
          by_cases hx : x = k
          · exact Or.inl hx
          · exact Or.inr ⟨h1, by omega⟩
        · rintro (rfl | ⟨h1, h2⟩)
          · exact ⟨hk, by omega⟩
          · exact ⟨h1, by omega⟩
      rw [this, Finset.card_insert_of_notMem (by simp)]
    · rw [if_neg hk, Nat.add_zero]
      congr 1
      ext x
      simp only [Finset.mem_filter]
      constructor
      · rintro ⟨h1, h2⟩; exact ⟨h1, by omega⟩
      · rintro ⟨h1, h2⟩
        refine ⟨h1, ?_⟩
        by_cases hx : x = k
        · subst hx; exact absurd h1 hk
        · omega

/-- The new number of a cluster: how many clusters have smaller numbers. -/
theorem compact_eq (n : Nat) (hn : n ≤ 4294967295) (cl : Nat → Nat) (order order' : List Nat)
    (ho : Sched n order) (ho' : Sched n order') (hb : ∀ i, i < n → cl i ≠ kUnclustered → cl i < n) :
    ∃ cl', compact n order order' cl = some (cl', (clusters n cl).card) ∧
      (∀ i, i < n → cl' i = if cl i = kUnclustered then kUnclustered
        else ((clusters n cl).filter (· < cl i)).card) ∧
      ∀ i, n ≤ i → cl' i = cl i := by
  obtain ⟨m, h1, h2⟩ := markAll_spec n cl order (fun _ => 0)
    (fun i hi => hb i ((ho.2 i).1 hi)) (fun _ => Or.inl rfl)
  have hm : ∀ c, m c = if c ∈ clusters n cl then 1 else 0 := by
    intro c
    rw [h2 c]
    congr 1
    apply propext
    rw [mem_clusters]
    constructor
    · rintro (h | ⟨h, i, hi, hc⟩)
      · simp at h
      · exact ⟨h, i, (ho.2 i).1 hi, hc⟩
    · rintro ⟨h, i, hi, hc⟩
      exact Or.inr ⟨h, i, (ho.2 i).2 hi, hc⟩
  have hsub : clusters n cl ⊆ Finset.range n := by
    intro c hc
    obtain ⟨h, i, hi, rfl⟩ := mem_clusters.1 hc
    exact Finset.mem_range.2 (hb i hi h)
  have hcard : (clusters n cl).card ≤ n := by
    have := Finset.card_le_card hsub
    rwa [Finset.card_range] at this
  have hs := exScan_card _ m hm
  refine ⟨order'.foldl (relabel fun c => exScan m c % 4294967296) cl, ?_, ?_, ?_⟩
  · rw [compact, h1, Option.map_some, hs n, Finset.filter_true_of_mem
      (fun c hc => Finset.mem_range.1 (hsub hc)), Nat.mod_eq_of_lt (by omega)]
  · intro i hi
    rw [relabel_spec _ _ _ ho'.1]
    by_cases hu : cl i = kUnclustered
    · simp [hu]
    · rw [if_pos ⟨(ho'.2 i).2 hi, hu⟩, if_neg hu, hs, Nat.mod_eq_of_lt]
      exact Nat.lt_of_le_of_lt (Finset.card_filter_le _ _) (by omega)
  · intro i hi
    rw [relabel_spec _ _ _ ho'.1, if_neg (fun h => by have := (ho'.2 i).1 h.1; omega)]

theorem rank_lt {S : Finset Nat} {a b : Nat} (ha : a ∈ S) (hab : a < b) :
    (S.filter (· < a)).card < (S.filter (· < b)).card := by
  refine Finset.card_lt_card ⟨fun x hx => ?_, fun h => ?_⟩
  · simp only [Finset.mem_filter] at hx ⊢; exact ⟨hx.1, by omega⟩
  · have := h (Finset.mem_filter.2 ⟨ha, hab⟩)
    simp at this

theorem rank_le {S : Finset Nat} {a b : Nat} (hab : a ≤ b) :
    (S.filter (· < a)).card ≤ (S.filter (· < b)).card :=
  Finset.card_le_card fun x hx => by
    simp only [Finset.mem_filter] at hx ⊢; exact ⟨hx.1, by omega⟩

theorem rank_surj (S : Finset Nat) : ∀ k, k < S.card → ∃ a ∈ S, (S.filter (· < a)).card = k := by
  intro k hk
  by_contra hc
  have hsub : S.image (fun a => (S.filter (· < a)).card) ⊆ (Finset.range S.card).erase k := by
    intro x hx
    obtain ⟨a, ha, rfl⟩ := Finset.mem_image.1 hx
    refine Finset.mem_erase.2 ⟨fun h => hc ⟨a, ha, h⟩, Finset.mem_range.2 ?_⟩
    refine Finset.card_lt_card ⟨Finset.filter_subset _ _, fun h => ?_⟩
    have := h ha
    simp at this
  have h1 := Finset.card_le_card hsub
  rw [Finset.card_erase_of_mem (Finset.mem_range.2 hk), Finset.card_range,
    Finset.card_image_of_injOn] at h1
  · omega
  · intro a ha b hb hab
    rcases Nat.lt_trichotomy a b with h | h | h
    · exact absurd hab (Nat.ne_of_lt (rank_lt ha h))
    · exact h
    · exact absurd hab.symm (Nat.ne_of_lt (rank_lt hb h))

/-! ## C155 -/

/-- C155: if the numbers of the clusters are below `n`, then in every order of the loops the result
is the number of clusters in use, the new numbers are exactly those below it, two vertices are in the
same cluster after the call if and only if they were before, the order of the clusters is kept, and
the same vertices are without a cluster. -/
theorem C155_compact (n : Nat) (hn : n ≤ 4294967295) (cl : Nat → Nat) (order order' : List Nat)
    (ho : Sched n order) (ho' : Sched n order') (hb : ∀ i, i < n → cl i ≠ kUnclustered → cl i < n) :
    ∃ cl' k, compact n order order' cl = some (cl', k) ∧ k = (clusters n cl).card ∧
      (∀ i, i < n → (cl' i = kUnclustered ↔ cl i = kUnclustered)) ∧
      (∀ i, i < n → cl i ≠ kUnclustered → cl' i < k) ∧
      (∀ c, c < k → ∃ i, i < n ∧ cl i ≠ kUnclustered ∧ cl' i = c) ∧
      (∀ i j, i < n → j < n → cl i ≠ kUnclustered → cl j ≠ kUnclustered →
        (cl' i = cl' j ↔ cl i = cl j) ∧ (cl' i < cl' j ↔ cl i < cl j)) := by
  obtain ⟨cl', h1, h2, _⟩ := compact_eq n hn cl order order' ho ho' hb
  have hmem : ∀ i, i < n → cl i ≠ kUnclustered → cl i ∈ clusters n cl :=
    fun i hi hu => mem_clusters.2 ⟨hu, i, hi, rfl⟩
  have hlt : ∀ i, i < n → cl i ≠ kUnclustered → cl' i < (clusters n cl).card := by
    intro i hi hu
    rw [h2 i hi, if_neg hu]
    refine Finset.card_lt_card ⟨Finset.filter_subset _ _, fun h => ?_⟩
    have := h (hmem i hi hu)
    simp at this
  have hcard : (clusters n cl).card ≤ n := by
    have : clusters n cl ⊆ Finset.range n := by
      intro c hc
      obtain ⟨h, i, hi, rfl⟩ := mem_clusters.1 hc
      exact Finset.mem_range.2 (hb i hi h)
    have := Finset.card_le_card this
    rwa [Finset.card_range] at this
  have hord : ∀ i j, i < n → j < n → cl i ≠ kUnclustered → cl j ≠ kUnclustered →
      (cl' i < cl' j ↔ cl i < cl j) := by
    intro i j hi hj hui huj
    rw [h2 i hi, h2 j hj, if_neg hui, if_neg huj]
    constructor
    · intro h
      by_contra hc
      exact absurd (rank_le (S := clusters n cl) (Nat.le_of_not_lt hc)) (by omega)
    · exact rank_lt (hmem i hi hui)
  refine ⟨cl', _, h1, rfl, fun i hi => ?_, hlt, fun c hc => ?_, fun i j hi hj hui huj => ⟨?_, ?_⟩⟩
  · constructor
    · intro h
      by_contra hu
      have := hlt i hi hu
      rw [h, kUnclustered] at this
      omega
    · intro h; rw [h2 i hi, if_pos h]
  · obtain ⟨a, ha, hk⟩ := rank_surj _ c hc
    obtain ⟨hu, i, hi, rfl⟩ := mem_clusters.1 ha
    exact ⟨i, hi, hu, by rw [h2 i hi, if_neg hu, hk]⟩
  · constructor
    · intro h
      have a1 := hord i j hi hj hui huj
      have a2 := hord j i hj hi huj hui
      omega
    · intro h
      rw [h2 i hi, h2 j hj, h]
  · exact hord i j hi hj hui huj

/-- Calling it again changes nothing. -/
theorem C155_idem (n : Nat) (hn : n ≤ 4294967295) (cl cl' : Nat → Nat) (k : Nat)
    (o1 o2 o3 o4 : List Nat) (h1 : Sched n o1) (h2 : Sched n o2) (h3 : Sched n o3) (h4 : Sched n o4)
    (hb : ∀ i, i < n → cl i ≠ kUnclustered → cl i < n)
    (h : compact n o1 o2 cl = some (cl', k)) :
    ∃ cl'', compact n o3 o4 cl' = some (cl'', k) ∧ ∀ i, i < n → cl'' i = cl' i := by
  obtain ⟨x, y, e, hy, a1, a2, a3, a4⟩ := C155_compact n hn cl o1 o2 h1 h2 hb
  rw [h] at e
  obtain ⟨rfl, rfl⟩ : cl' = x ∧ k = y := by simpa using e
  have hkn : k ≤ n := by
    have : clusters n cl ⊆ Finset.range n := by
      intro c hc
      obtain ⟨h, i, hi, rfl⟩ := mem_clusters.1 hc
      exact Finset.mem_range.2 (hb i hi h)
    have := Finset.card_le_card this
    rw [Finset.card_range] at this
    omega
  have hb' : ∀ i, i < n → cl' i ≠ kUnclustered → cl' i < n := fun i hi hu => by
    have := a2 i hi (fun h => hu ((a1 i hi).2 h)); omega
  have hcl : clusters n cl' = Finset.range k := by
    ext c
    rw [mem_clusters, Finset.mem_range]
    constructor
    · rintro ⟨hu, i, hi, rfl⟩
      exact a2 i hi (fun h => hu ((a1 i hi).2 h))
    · intro hc
      obtain ⟨i, hi, hu, rfl⟩ := a3 c hc
      exact ⟨fun h => hu ((a1 i hi).1 h), i, hi, rfl⟩
  obtain ⟨cl'', e1, e2, _⟩ := compact_eq n hn cl' o3 o4 h3 h4 hb'
  refine ⟨cl'', by rw [e1, hcl, Finset.card_range], fun i hi => ?_⟩
  rw [e2 i hi]
  split
  · rename_i h; exact h.symm
  · rename_i hu
    have hlt := a2 i hi (fun h => hu ((a1 i hi).2 h))
    rw [hcl]
    have : (Finset.range k).filter (· < cl' i) = Finset.range (cl' i) := by
      ext x; simp only [Finset.mem_filter, Finset.mem_range]; omega
    rw [this, Finset.card_range]

/-- A cluster with a number of `n` or more is an access out of bounds, in every order. -/
theorem C155_bound (n : Nat) (cl : Nat → Nat) (order order' : List Nat) (ho : Sched n order) (i : Nat)
    (hi : i < n) (hu : cl i ≠ kUnclustered) (hc : n ≤ cl i) :
    compact n order order' cl = none := by
  have key : ∀ (l : List Nat) (m : Nat → Nat), i ∈ l → markAll n cl l m = none := by
    intro l
    induction l with
    | nil => intro m h; simp at h
    | cons j js ih =>
      intro m h
      rw [markAll]
      rcases List.mem_cons.1 h with rfl | h
      · rw [mark, if_pos hu, if_neg (by omega)]; rfl
      · cases mark n cl m j with
        | none => rfl
        | some m' => exact ih m' h
  rw [compact, key _ _ ((ho.2 i).2 hi)]
  rfl

/-- Five vertices, clusters 1 and 4, one vertex without a cluster, and other orders than the natural
one. -/
example : ∃ cl : Nat → Nat, Sched 5 [3, 0, 4, 2, 1] ∧ Sched 5 [4, 3, 2, 1, 0] ∧
    (∀ i, i < 5 → cl i ≠ kUnclustered → cl i < 5) ∧
    (compact 5 [3, 0, 4, 2, 1] [4, 3, 2, 1, 0] cl).map
      (fun r => (r.1 0, r.1 1, r.1 2, r.1 3, r.1 4, r.2)) =
        some (1, 0, kUnclustered, 1, 0, 2) := by
  refine ⟨fun i => if i = 0 ∨ i = 3 then 4 else if i = 2 then kUnclustered else 1,
    ⟨by decide, fun i => ?_⟩, ⟨by decide, fun i => ?_⟩, by decide, by decide +kernel⟩
  · simp only [List.mem_cons, List.not_mem_nil, or_false]; omega
  · simp only [List.mem_cons, List.not_mem_nil, or_false]; omega

example : ∃ cl : Nat → Nat, Sched 2 [0, 1] ∧ cl 1 ≠ kUnclustered ∧ 2 ≤ cl 1 :=
  ⟨fun _ => 7, sched_range 2, by decide, by decide⟩

end Gbbs.Compact
