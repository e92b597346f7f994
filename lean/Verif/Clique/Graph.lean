/-
C104: `Clique` and `Clique_enum`, `benchmarks/CliqueCounting/Clique.h:90-295`, `relabel.h:140-206`.
-/
import Verif.Clique.Count
import Verif.Algo.Triangle

namespace Gbbs.Clique

/-! ### Model -/

/-- `filterGraph(GA, pack_predicate)`, `Clique.h:172-178` (C28: the lists are filtered in order). -/
def filterN (G : UG) (k : Nat) (rank : Nat → Nat) (u : Nat) : List Nat :=
  (G.nb u).filter fun v => decide (rank u < rank v ∧ k - 1 ≤ (G.nb u).length ∧ k - 1 ≤ (G.nb v).length)

/-- `relabel_graph(GA, rank, pack_predicate)`, `relabel.h:140-206`: vertex `rank[i]` gets the filtered list of `i`, renamed and sorted
(`stable_sort_inplace` is trusted). -/
def relabelN (G : UG) (k : Nat) (rank : Nat → Nat) (x : Nat) : List Nat :=
  match (List.range G.n).find? fun i => decide (rank i = x) with
  | some i => ((filterN G k rank i).map rank).mergeSort fun a b => decide (a ≤ b)
  | none => []

/-- `DG`, `Clique.h:177-178`. -/
def directed (G : UG) (k : Nat) (rank : Nat → Nat) (filter : Bool) : Nat → List Nat := if filter then filterN G k rank else relabelN G k rank

/-- The name of vertex `u` in `DG`: `inverse_per_vert[i] = per_vert[rank[i]]`, `Clique.h:215-223`. -/
def name (rank : Nat → Nat) (filter : Bool) (u : Nat) : Nat := if filter then u else rank u

/-! ### Directing -/

theorem sortedN {G : UG} {k : Nat} {rank : Nat → Nat} {filter : Bool} (hnd : ∀ u, (G.nb u).Nodup) (hinj : ∀ u < G.n, ∀ v < G.n, rank u = rank v → u = v)
    (hb : ∀ u v, v ∈ G.nb u → u < G.n ∧ v < G.n) (hs : filter = true → ∀ u, (G.nb u).Pairwise (· < ·)) :
    ∀ x, (directed G k rank filter x).Pairwise (· < ·) := by
  intro x
  cases filter with
  | true => exact (hs rfl x).filter _
  | false =>
    show (relabelN G k rank x).Pairwise (· < ·)
    rw [relabelN]
    split
    · rename_i i _
      have h1 : (((filterN G k rank i).map rank).mergeSort fun a b => decide (a ≤ b)).Pairwise (· ≤ ·) := by
        have := List.pairwise_mergeSort (le := fun a b : Nat => decide (a ≤ b)) (fun a b c h1 h2 => by
          rw [decide_eq_true_eq] at *; omega) (fun a b => by
          rw [Bool.or_eq_true, decide_eq_true_eq, decide_eq_true_eq]; omega) ((filterN G k rank i).map rank)
        exact this.imp fun h => by simpa using h
      have h2 : (((filterN G k rank i).map rank).mergeSort fun a b => decide (a ≤ b)).Nodup := by
        refine (List.mergeSort_perm _ _).nodup_iff.2 ((List.nodup_map_iff_inj_on ((hnd i).filter _)).2 fun a ha b hb' he => ?_)
        exact hinj a (hb i a (List.mem_filter.1 ha).1).2 b (hb i b (List.mem_filter.1 hb').1).2 he
      exact (h1.and h2).imp fun ⟨h3, h4⟩ => Nat.lt_of_le_of_ne h3 h4
    · exact List.Pairwise.nil

theorem dir_directed {G : UG} (hb : ∀ u v, v ∈ G.nb u → u < G.n ∧ v < G.n) (hnd : ∀ u, (G.nb u).Nodup) {k : Nat} {rank : Nat → Nat} {filter : Bool}
    (hr : ((List.range G.n).map rank).Perm (List.range G.n)) :
    Dir G k rank (name rank filter) (if filter then rank else id) (directed G k rank filter) := by
  have hinj : ∀ u < G.n, ∀ v < G.n, rank u = rank v → u = v := fun u hu v hv he =>
    List.inj_on_of_nodup_map (hr.nodup_iff.2 List.nodup_range) (List.mem_range.2 hu) (List.mem_range.2 hv) he
  cases filter with
  | true =>
    refine ⟨?_, fun u hu v hv => ?_, fun x w hw => ?_, fun x => (hnd x).filter _, fun u hu => rfl⟩
    · have : (List.range G.n).map (name rank true) = List.range G.n := by
        conv_rhs => rw [← List.map_id (List.range G.n)]
        rfl
      rw [this]
    · show v ∈ filterN G k rank u ↔ _
      rw [filterN, List.mem_filter, decide_eq_true_eq]
    · exact hb x w (List.mem_filter.1 hw).1
  | false =>
    have hfind : ∀ u < G.n, (List.range G.n).find? (fun i => decide (rank i = rank u)) = some u := by
      intro u hu
      cases hc : (List.range G.n).find? (fun i => decide (rank i = rank u)) with
      | none =>
        have := List.find?_eq_none.1 hc u (List.mem_range.2 hu)
        exact absurd (decide_eq_true rfl) this
      | some i =>
        have h1 : rank i = rank u := by have := List.find?_some hc; simpa using this
        have h2 := List.mem_range.1 (List.mem_of_find?_eq_some hc)
        rw [hinj i h2 u hu h1]
    refine ⟨hr, fun u hu v hv => ?_, fun x w hw => ?_, fun x => ?_, fun u hu => rfl⟩
    · show rank v ∈ relabelN G k rank (rank u) ↔ _
      rw [relabelN, hfind u hu]
      simp only [List.mem_mergeSort, List.mem_map]
      constructor
      · rintro ⟨a, ha, he⟩
        obtain ⟨h1, h2⟩ := List.mem_filter.1 ha
        have := hinj a (hb u a h1).2 v hv he
        subst this
        exact ⟨h1, of_decide_eq_true h2⟩
      · rintro ⟨h1, h2⟩
        exact ⟨v, List.mem_filter.2 ⟨h1, decide_eq_true h2⟩, rfl⟩
    · have hw : w ∈ relabelN G k rank x := hw
      rw [relabelN] at hw
      split at hw
      · rename_i i hi
        have h1 : rank i = x := by have := List.find?_some hi; simpa using this
        have h2 := List.mem_range.1 (List.mem_of_find?_eq_some hi)
        rw [List.mem_mergeSort, List.mem_map] at hw
        obtain ⟨a, ha, rfl⟩ := hw
        have h3 := fun u (hu : u < G.n) => List.mem_range.1 (hr.mem_iff.1 (List.mem_map_of_mem (f := rank) (List.mem_range.2 hu)))
        exact ⟨h1 ▸ h3 i h2, h3 a (hb i a (List.mem_filter.1 ha).1).2⟩
      · cases hw
    · exact (sortedN (filter := false) hnd hinj hb (fun h => by cases h) x).imp fun h => Nat.ne_of_lt h

/-- Reading the counts: sequences that contain a vertex. -/
theorem occ_eq_countP {L : List (List Nat)} (h : ∀ s ∈ L, s.Nodup) (x : Nat) : occ id L x = L.countP fun s => decide (x ∈ s) := by
  induction L with
  | nil => rfl
  | cons s L ih =>
    rw [List.countP_cons, ← ih fun t ht => h t (List.mem_cons_of_mem _ ht), occ, List.map_cons, List.sum_cons, List.map_id, Nat.add_comm]
    congr 1
    by_cases hx : x ∈ s
    · rw [List.count_eq_one_of_mem (h s List.mem_cons_self) hx, if_pos (decide_eq_true hx)]
    · rw [List.count_eq_zero_of_not_mem hx, if_neg (by simpa using hx)]

/-- The sequences of `DG` against the cliques of `G`: their number, and the number of those that contain a vertex. -/
theorem seqs_counts {G : UG} (hsym : ∀ u v, v ∈ G.nb u → u ∈ G.nb v) {k : Nat} {rank ρ rk : Nat → Nat} {N : Nat → List Nat}
    (hinj : ∀ u < G.n, ∀ v < G.n, rank u = rank v → u = v) (h : Dir G k rank ρ rk N) :
    (seqs N k (List.range G.n)).length = (cliques G k).card ∧
    ∀ u < G.n, occ id (seqs N k (List.range G.n)) (ρ u) = ((cliques G k).filter fun S => u ∈ S).card := by
  classical
  have hτ : ∀ x, ∃ u, x < G.n → u < G.n ∧ ρ u = x := fun x => by
    by_cases hx : x < G.n
    · obtain ⟨u, hu, he⟩ := h.surj hx; exact ⟨u, fun _ => ⟨hu, he⟩⟩
    · exact ⟨0, fun hc => absurd hc hx⟩
  choose τ hτ using hτ
  have hτρ : ∀ u < G.n, τ (ρ u) = u := fun u hu => h.inj (hτ _ (h.lt hu)).1 hu (hτ _ (h.lt hu)).2
  obtain ⟨h1, h2⟩ := seqs_cliques hsym hinj h τ hτρ
  have hmem : ∀ s ∈ seqs N k (List.range G.n), (∀ x ∈ s, x < G.n) ∧ s.Nodup := fun s hs => by
    obtain ⟨_, h2, h3⟩ := mem_seqs.1 hs
    exact ⟨fun x hx => List.mem_range.1 (h2 x hx), seq_nodup h.up h3⟩
  refine ⟨by rw [← h2, List.toFinset_card_of_nodup h1, List.length_map], fun u hu => ?_⟩
  have hfl : ∀ l : List (Finset Nat), l.toFinset.filter (fun S => u ∈ S) = (l.filter fun S => decide (u ∈ S)).toFinset := fun l => by
    ext S; simp
  rw [occ_eq_countP fun s hs => (hmem s hs).2, ← h2, hfl, List.toFinset_card_of_nodup (h1.filter _), ← List.countP_eq_length_filter,
    List.countP_map]
  refine List.countP_congr fun s hs => ?_
  simp only [Function.comp, decide_eq_true_eq, List.mem_toFinset, List.mem_map]
  constructor
  · exact fun hx => ⟨ρ u, hx, hτρ u hu⟩
  · rintro ⟨x, hx, rfl⟩
    have := (hτ x ((hmem s hs).1 x hx)).2
    rw [this]; exact hx

/-! ### The functions -/

section thms
variable {G : UG} {k : Nat} {rank : Nat → Nat} {filter label : Bool}

/-- **C104: counting.** For every symmetric graph without parallel edges, order of the vertices, way of directing, intersection method and recursion
level other than 1, and every distribution of the vertices to workers whose arrays are large enough: `Clique` counts the sets of `k` pairwise
adjacent vertices (`4 ≤ k ≤ 129`) and, with `use_base`, for every vertex those that contain it. -/
theorem clique_count (hG : G.Sym) (hnd : ∀ u, (G.nb u).Nodup) (hr : ((List.range G.n).map rank).Perm (List.range G.n))
    (hs : label = false → filter = true → ∀ u, (G.nb u).Pairwise (· < ·)) (hk : 4 ≤ k) (hk2 : k ≤ 129) {lev d : Nat}
    (hd : ∀ x, (directed G k rank filter x).length ≤ d) {c2 : Nat → Nat → Caps} (h2 : lev = 0 ∨ ∀ i v, Fits (c2 i v) d (k - 1))
    {ws : List (Caps × List Nat)} (hc : ∀ w ∈ ws, FitsAll w.1 d (k - 1) G.n) (hp : (ws.flatMap Prod.snd).Perm (List.range G.n)) :
    ∃ l, countV (directed G k rank filter) (k - 1) lev label c2 ws = some ((cliques G k).card, l) ∧
      ∀ u < G.n, incTot l (name rank filter u) = ((cliques G k).filter fun S => u ∈ S).card := by
  have hsym : ∀ u v, v ∈ G.nb u → u ∈ G.nb v := fun u v h => by
    rw [← List.count_pos_iff] at h ⊢; rw [hG.sym]; exact h
  have hinj : ∀ u < G.n, ∀ v < G.n, rank u = rank v → u = v := fun u hu v hv he =>
    List.inj_on_of_nodup_map (hr.nodup_iff.2 List.nodup_range) (List.mem_range.2 hu) (List.mem_range.2 hv) he
  have hD := dir_directed (k := k) (filter := filter) hG.bound hnd hr
  obtain ⟨l, h3, h4⟩ := countV_spec hD.up hD.nodup hD.bound (K := k - 1) (lev := lev) (label := label)
    (fun hl => sortedN hnd hinj hG.bound (hs hl)) (by omega) (by omega) hd h2 hc hp
  obtain ⟨h5, h6⟩ := seqs_counts hsym hinj hD
  rw [show k - 1 + 1 = k by omega] at h3 h4
  exact ⟨l, by rw [h3, h5], fun u hu => by rw [h4, h6 u hu]⟩

/-- **C104: counting with `recursive_level = 1`** and labels. -/
theorem clique_count_edges (hG : G.Sym) (hnd : ∀ u, (G.nb u).Nodup) (hr : ((List.range G.n).map rank).Perm (List.range G.n))
    (hk : 4 ≤ k) (hk2 : k ≤ 129) (hn : G.n < uintEMax) {fuel d : Nat} (hd : ∀ x, (directed G k rank filter x).length ≤ d)
    {ws : List (Caps × List (Nat × Nat))} (hc : ∀ w ∈ ws, FitsAll w.1 d (k - 1) G.n)
    (hp : (ws.flatMap Prod.snd).Perm (arcs (directed G k rank filter) G.n)) :
    ∃ l, countE (directed G k rank filter) (k - 1) true fuel ws = some ((cliques G k).card, l) ∧
      ∀ u < G.n, incTot l (name rank filter u) = ((cliques G k).filter fun S => u ∈ S).card := by
  have hsym : ∀ u v, v ∈ G.nb u → u ∈ G.nb v := fun u v h => by
    rw [← List.count_pos_iff] at h ⊢; rw [hG.sym]; exact h
  have hinj : ∀ u < G.n, ∀ v < G.n, rank u = rank v → u = v := fun u hu v hv he =>
    List.inj_on_of_nodup_map (hr.nodup_iff.2 List.nodup_range) (List.mem_range.2 hu) (List.mem_range.2 hv) he
  have hD := dir_directed (k := k) (filter := filter) hG.bound hnd hr
  obtain ⟨l, h3, h4⟩ := countE_spec hD.up hD.nodup hD.bound (K := k - 1) (fuel := fuel) (by omega) (by omega) hn hd hc hp
  obtain ⟨h5, h6⟩ := seqs_counts hsym hinj hD
  rw [show k - 1 + 1 = k by omega] at h3 h4
  exact ⟨l, by rw [h3, h5], fun u hu => by rw [h4, h6 u hu]⟩

/-- **C104: enumeration.** `Clique_enum` calls `base_f` once for every clique, with its vertices (under their names in `DG`). -/
theorem clique_enum (hG : G.Sym) (hnd : ∀ u, (G.nb u).Nodup) (hr : ((List.range G.n).map rank).Perm (List.range G.n))
    (hs : label = false → filter = true → ∀ u, (G.nb u).Pairwise (· < ·)) (hk : 4 ≤ k) (hk2 : k ≤ 129) {d : Nat}
    (hd : ∀ x, (directed G k rank filter x).length ≤ d) {ws : List (Caps × List Nat)} (hc : ∀ w ∈ ws, FitsAll w.1 d (k - 1) G.n)
    (hp : (ws.flatMap Prod.snd).Perm (List.range G.n)) {τ : Nat → Nat} (hτ : ∀ u < G.n, τ (name rank filter u) = u) :
    ∃ L, enumV (directed G k rank filter) (k - 1) label ws = some ((cliques G k).card, L) ∧ (L.map fun s => (s.map τ).toFinset).Nodup ∧
      (L.map fun s => (s.map τ).toFinset).toFinset = cliques G k ∧ ∀ s ∈ L, s.length = k ∧ s.Nodup := by
  have hsym : ∀ u v, v ∈ G.nb u → u ∈ G.nb v := fun u v h => by
    rw [← List.count_pos_iff] at h ⊢; rw [hG.sym]; exact h
  have hinj : ∀ u < G.n, ∀ v < G.n, rank u = rank v → u = v := fun u hu v hv he =>
    List.inj_on_of_nodup_map (hr.nodup_iff.2 List.nodup_range) (List.mem_range.2 hu) (List.mem_range.2 hv) he
  have hD := dir_directed (k := k) (filter := filter) hG.bound hnd hr
  obtain ⟨L, h3, h4⟩ := enumV_spec hD.up hD.nodup hD.bound (K := k - 1) (label := label)
    (fun hl => sortedN hnd hinj hG.bound (hs hl)) (by omega) (by omega) hd hc hp
  obtain ⟨h5, _⟩ := seqs_counts hsym hinj hD
  obtain ⟨h7, h8⟩ := seqs_cliques hsym hinj hD τ hτ
  rw [show k - 1 + 1 = k by omega] at h3 h4
  refine ⟨L, by rw [h3, h5], (h4.map _).nodup_iff.2 h7, ?_, fun s hs => ?_⟩
  · rw [← h8]; exact List.toFinset_eq_of_perm _ _ (h4.map _)
  · obtain ⟨h1, _, h3⟩ := mem_seqs.1 (h4.mem_iff.1 hs)
    exact ⟨h1, seq_nodup hD.up h3⟩

end thms

/-- The calls of `base_f(a, b, ngh)` of `TriClique_count` (`Clique.h:64-87`) per vertex. -/
def triTot (t : List (Nat × Nat × Nat)) (x : Nat) : Nat := (t.map fun p => [p.1, p.2.1, p.2.2].count x).sum

/-- **C104: `k = 3`** (`Clique.h:64-87`, `CountDirectedBalanced`, C45). -/
theorem clique_three {G : UG} (hG : G.Sym) (hnd : ∀ u, (G.nb u).Nodup) {rank : Nat → Nat} (hr : ((List.range G.n).map rank).Perm (List.range G.n))
    {filter : Bool} (hs : filter = true → ∀ u, (G.nb u).Pairwise (· < ·)) {order : List Nat}
    (ho : Sched (Tri.nBlocks (exScan (Tri.work (directed G 3 rank filter)) G.n)) order) :
    (Tri.countBalanced G.n (directed G 3 rank filter) order).1 = (cliques G 3).card ∧
    ∀ u < G.n, triTot (Tri.countBalanced G.n (directed G 3 rank filter) order).2 (name rank filter u) = ((cliques G 3).filter fun S => u ∈ S).card := by
  have hsym : ∀ u v, v ∈ G.nb u → u ∈ G.nb v := fun u v h => by
    rw [← List.count_pos_iff] at h ⊢; rw [hG.sym]; exact h
  have hinj : ∀ u < G.n, ∀ v < G.n, rank u = rank v → u = v := fun u hu v hv he =>
    List.inj_on_of_nodup_map (hr.nodup_iff.2 List.nodup_range) (List.mem_range.2 hu) (List.mem_range.2 hv) he
  have hD := dir_directed (k := 3) (filter := filter) hG.bound hnd hr
  obtain ⟨h1, h2, h3⟩ := Tri.countBalanced_spec (n := G.n) (sortedN (k := 3) (filter := filter) hnd hinj hG.bound hs) (fun u v h => (hD.bound u v h).1) ho
  obtain ⟨h5, h6⟩ := seqs_counts hsym hinj hD
  have hperm : ((Tri.countBalanced G.n (directed G 3 rank filter) order).2.map fun t => [t.1, t.2.1, t.2.2]).Perm
      (seqs (directed G 3 rank filter) 3 (List.range G.n)) := by
    refine (List.perm_ext_iff_of_nodup ((List.nodup_map_iff_inj_on h2).2 fun a _ b _ he => ?_) (nodup_seqs hD.nodup List.nodup_range)).2 fun s => ?_
    · simp only [List.cons.injEq, and_true] at he
      exact Prod.ext he.1 (Prod.ext he.2.1 he.2.2)
    · rw [List.mem_map, mem_seqs]
      constructor
      · rintro ⟨t, ht, rfl⟩
        obtain ⟨k1, k2, k3⟩ := (h3 t).1 ht
        refine ⟨rfl, fun v hv => ?_, ?_⟩
        · simp only [List.mem_cons, List.not_mem_nil, or_false] at hv
          rcases hv with rfl | rfl | rfl
          · exact List.mem_range.2 (hD.bound _ _ k1).1
          · exact List.mem_range.2 (hD.bound _ _ k1).2
          · exact List.mem_range.2 (hD.bound _ _ k2).2
        · simp [k1, k2, k3]
      · rintro ⟨k1, k2, k3⟩
        match s, k1 with
        | [a, b, c], _ =>
          simp at k3
          exact ⟨(a, b, c), (h3 _).2 ⟨k3.1.1, k3.1.2, k3.2⟩, rfl⟩
  refine ⟨by rw [h1, ← h5, ← hperm.length_eq, List.length_map], fun u hu => ?_⟩
  rw [← h6 u hu, triTot, occ, ← sum_perm hperm, List.map_map]
  rfl

end Gbbs.Clique
