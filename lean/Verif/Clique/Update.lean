/-
C121: the updates of the clique counts when vertices are peeled, `benchmarks/CliqueCounting/peel.h:18-359`, `intersect.h:91-238`.
-/
import Verif.Clique.Graph
import Mathlib.Data.Finset.Max

namespace Gbbs.Clique

/-! ### Model -/

/-- `ignore_f`, `peel.h:74-80,133-139,236-242,309-315`: `still_active` is 0 for a remaining vertex, 1 for one that is being removed, 2 for one
that has been removed. -/
def ignoreF (sa rank : Nat → Nat) (u v : Nat) : Bool :=
  if sa u = 2 ∨ sa v = 2 then false else if sa v = 0 then true else decide (rank u < rank v)

/-- The loop of `vtx_intersect`, `peel.h:31-52`: the first list is that of `vdg` in `DG`, the second that of `vg` in `G`. The calls `f(nbhr, 1)`. -/
def vtxMerge (ig : Nat → Nat → Bool) (vg vdg : Nat) : List Nat → List Nat → List Nat
  | [], _ => []
  | _ :: _, [] => []
  | a :: I, b :: V =>
    if a = b then if ig vg a && ig vdg a then a :: vtxMerge ig vg vdg I V else vtxMerge ig vg vdg I V
    else if a < b then vtxMerge ig vg vdg I (b :: V)
    else vtxMerge ig vg vdg (a :: I) V
  termination_by I V => I.length + V.length

/-- `vtx_intersect(G, DG, f, ignore_f, vg, vdg)`, `peel.h:18-54`: the calls of `f`; the last one also for `j = 0`. -/
def vtxIntersect (N D : Nat → List Nat) (ig : Nat → Nat → Bool) (vg vdg : Nat) : Incs :=
  (vtxMerge ig vg vdg (D vdg) (N vg)).map (fun w => (w, 1)) ++ [(vdg, (vtxMerge ig vg vdg (D vdg) (N vg)).length)]

/-- The calls of `update_d` for the active vertex `u`, `peel.h:92-99,151-159`. -/
def triCalls (N D : Nat → List Nat) (ig : Nat → Nat → Bool) (u : Nat) : Incs :=
  (N u).flatMap fun v => if ig u v then vtxIntersect N D ig u v else []

/-- `map_label_f` of `setup_labels` with an `f`, `intersect.h:182-196`. -/
def markIdxF (f : Nat → Bool) : List Nat → Nat → (Nat → Nat) → (Nat → Nat)
  | [], _, ol => ol
  | v :: vs, o, ol => markIdxF f vs (o + 1) (if f v then upd ol v (o + 1) else ol)

/-- Row `j` of `induced_edges` in `setup_labels` with an `f`, `intersect.h:199-226`. -/
def rowLF (D : Nat → List Nat) (ig : Nat → Nat → Bool) (u : Nat) (R : List Nat) (ol : Nat → Nat) (j : Nat) : List Nat :=
  if j < R.length ∧ ig u (R.getD j 0) = true then
    (D (R.getD j 0)).filterMap fun w => if ig (R.getD j 0) w then if 0 < ol w then some (ol w - 1) else none else none
  else []

/-- The loop over two sorted lists in `setup_intersect` with an `f`, `intersect.h:134-158`: `o` is `i_iter_idx`. -/
def isectF (ig : Nat → Nat → Bool) (u v : Nat) : Nat → List Nat → List Nat → List Nat
  | _, [], _ => []
  | _, _ :: _, [] => []
  | o, a :: R, b :: V =>
    if a = b then if ig u a && ig v a then o :: isectF ig u v (o + 1) R V else isectF ig u v (o + 1) R V
    else if a < b then isectF ig u v (o + 1) R (b :: V)
    else isectF ig u v o (a :: R) V
  termination_by _ R V => R.length + V.length

/-- Row `j` in `setup_intersect` with an `f`, `intersect.h:117-161`. -/
def rowIF (D : Nat → List Nat) (ig : Nat → Nat → Bool) (u : Nat) (R : List Nat) (j : Nat) : List Nat :=
  if j < R.length ∧ ig u (R.getD j 0) = true then isectF ig u (R.getD j 0) 0 R (D (R.getD j 0)) else []

/-- `setup(G, DG, k, u, f)`, `intersect.h:84-90`: the rows, and `old_labels` afterwards. -/
def setupF (N D : Nat → List Nat) (ig : Nat → Nat → Bool) (label : Bool) (ol : Nat → Nat) (u : Nat) : (Nat → List Nat) × (Nat → Nat) :=
  if label then (rowLF D ig u (N u) (markIdxF (ig u) (N u) 0 ol), setAll (markIdxF (ig u) (N u) 0 ol) (N u) 0) else (rowIF D ig u (N u), ol)

/-- An iteration of `cliqueUpdate` or `cliqueUpdate_serial` for the active vertex `u`, `peel.h:252-262,330-337`, with `k = K`. `go` lists calls with
count 0, which the code does not make (`induced_hybrid.h:46-47,71-72`); they are left out. `Bad` counts the reads of `old_labels` for all
neighbours of `u`, also those that `f` refuses. -/
def iterF (N D : Nat → List Nat) (ig : Nat → Nat → Bool) (K : Nat) (label : Bool) (c : Caps) (u : Nat) (st : (Nat → Nat) × (Nat → Nat)) :
    Option (Nat × Incs × ((Nat → Nat) × (Nat → Nat))) :=
  if N u = [] then some (0, [], st)
  else if Bad c D label (N u) (N u) (setupF N D ig label st.2 u).1 then none
  else (go (setupF N D ig label st.2 u).1 (N u).length (fun j => (N u).getD j 0) (fun _ => c) (K - 2) 1 0 c (List.range (N u).length) st.1).map fun r =>
    (r.1, r.2.1.filter (fun p => decide (0 < p.2)), (r.2.2, (setupF N D ig label st.2 u).2))

/-- The calls of `update_d` that one worker makes for its active vertices `w.2`, with its space `w.1`: `triUpdate` if `k = 2`, else `cliqueUpdate`
(`peel.h:420-430`). -/
def workerCalls (N D : Nat → List Nat) (ig : Nat → Nat → Bool) (K : Nat) (label : Bool) (w : Caps × List Nat) : Option Incs :=
  if K = 2 then some (w.2.flatMap (triCalls N D ig))
  else (loop (iterF N D ig K label w.1) w.2 (fun _ => 0, fun _ => 0)).map fun r => r.2.1

/-- `update_d` in parallel, `peel.h:142-147`: the counts of the worker, and the keys it inserts in `edge_table`. -/
def record : Incs → (Nat → Nat) → List Nat → (Nat → Nat) × List Nat
  | [], pc, keys => (pc, keys)
  | (v, c) :: l, pc, keys => record l (upd pc v (pc v + c)) (if pc v = 0 then keys ++ [v] else keys)

/-- `update_d` of the serial functions, `peel.h:83-90,318-325`: `update_idxs` has `cap` places. `none` is a write out of bounds. -/
def recordS (cap : Nat) : Incs → (Nat → Nat) → List Nat → Option ((Nat → Nat) × List Nat)
  | [], pc, idx => some (pc, idx)
  | (v, c) :: l, pc, idx =>
    if pc v = 0 then if cap ≤ idx.length then none else recordS cap l (upd pc v (pc v + c)) (idx ++ [v])
    else recordS cap l (upd pc v (pc v + c)) idx

/-! ### Specification -/

/-- The sets of `K + 1` pairwise adjacent vertices with `x`, in which all satisfy `P`. -/
noncomputable def inside (G : UG) (K : Nat) (P : Nat → Prop) (x : Nat) : Nat := by
  classical exact ((cliques G (K + 1)).filter fun S => x ∈ S ∧ ∀ y ∈ S, P y).card

/-! ### The calls -/

/-- The local graph of the active vertex `u`. -/
def locN (D : Nat → List Nat) (ig : Nat → Nat → Bool) (u v : Nat) : List Nat :=
  if ig u v then (D v).filter fun w => ig u w && ig v w else []

theorem vtxMerge_eq {ig : Nat → Nat → Bool} {vg vdg : Nat} : ∀ (I V : List Nat), I.Pairwise (· < ·) → V.Pairwise (· < ·) →
    vtxMerge ig vg vdg I V = (I.filter fun w => ig vg w && ig vdg w).filter fun w => decide (w ∈ V) := by
  intro I V
  induction I, V using vtxMerge.induct ig vg vdg with
  | case1 V => intro _ _; rw [vtxMerge]; rfl
  | case2 a I => intro _ _; rw [vtxMerge]; simp
  | case3 a I V hig ih =>
    intro hI hV
    have h1 := List.pairwise_cons.1 hI
    have h2 := List.pairwise_cons.1 hV
    rw [vtxMerge, if_pos rfl, if_pos hig, ih h1.2 h2.2, List.filter_cons, if_pos hig, List.filter_cons, if_pos (by simp)]
    congr 1
    refine List.filter_congr fun w hw => ?_
    have := h1.1 w (List.mem_filter.1 hw).1
    simp only [List.mem_cons, decide_eq_decide]
    constructor
    · exact Or.inr
    · rintro (h | h)
      · omega
      · exact h
  | case4 a I V hig ih =>
    intro hI hV
    have h1 := List.pairwise_cons.1 hI
    have h2 := List.pairwise_cons.1 hV
    rw [vtxMerge, if_pos rfl, if_neg hig, ih h1.2 h2.2, List.filter_cons, if_neg hig]
    refine List.filter_congr fun w hw => ?_
    have := h1.1 w (List.mem_filter.1 hw).1
    simp only [List.mem_cons, decide_eq_decide]
    constructor
    · exact Or.inr
    · rintro (h | h)
      · omega
      · exact h
  | case5 a I b V hne hlt ih =>
    intro hI hV
    have h1 := List.pairwise_cons.1 hI
    have h2 := List.pairwise_cons.1 hV
    have ha : a ∉ b :: V := by
      intro h
      rcases List.mem_cons.1 h with h | h
      · exact hne h
      · have := h2.1 a h; omega
    rw [vtxMerge, if_neg hne, if_pos hlt, ih h1.2 hV, List.filter_cons (x := a)]
    split
    · rw [List.filter_cons, if_neg (by simpa using ha)]
    · rfl
  | case6 a I b V hne hlt ih =>
    intro hI hV
    have h1 := List.pairwise_cons.1 hI
    have h2 := List.pairwise_cons.1 hV
    rw [vtxMerge, if_neg hne, if_neg hlt, ih hI h2.2]
    refine List.filter_congr fun w hw => ?_
    have hw' : a ≤ w := by
      rcases List.mem_cons.1 (List.mem_filter.1 hw).1 with h | h
      · omega
      · have := h1.1 w h; omega
    simp only [List.mem_cons, decide_eq_decide]
    constructor
    · exact Or.inr
    · rintro (h | h)
      · omega
      · exact h

theorem incTot_flatMap {α : Type} (l : List α) (f : α → Incs) (x : Nat) : incTot (l.flatMap f) x = (l.map fun v => incTot (f v) x).sum := by
  rw [incTot, List.map_flatMap, List.flatMap_def, List.sum_flatten, List.map_map]
  rfl

theorem incTot_ones (l : List Nat) (x : Nat) : incTot (l.map fun w => (w, 1)) x = l.count x := by
  induction l with
  | nil => rfl
  | cons a l ih =>
    have : incTot ((a :: l).map fun w => (w, 1)) x = (if a = x then 1 else 0) + incTot (l.map fun w => (w, 1)) x := by
      simp [incTot]
    rw [this, ih, List.count_cons]
    simp only [beq_iff_eq]
    omega

theorem incTot_filter (l : Incs) (x : Nat) : incTot (l.filter fun p => decide (0 < p.2)) x = incTot l x := by
  induction l with
  | nil => rfl
  | cons p l ih =>
    rw [List.filter_cons]
    have hc : ∀ m, incTot (p :: m) x = (if p.1 = x then p.2 else 0) + incTot m x := fun m => by simp [incTot]
    split
    · rw [hc, hc, ih]
    · rename_i h
      have : p.2 = 0 := by simpa using h
      rw [hc, ih, this]; simp

theorem occ_ones (l : List Nat) (x : Nat) : occ id (l.map fun w => [w]) x = l.count x := by
  rw [occ, List.map_map]
  induction l with
  | nil => rfl
  | cons a l ih =>
    rw [List.map_cons, List.sum_cons, ih, List.count_cons]
    simp only [Function.comp, List.map_cons, List.map_nil, id_eq, List.count_singleton, beq_iff_eq]
    omega

theorem triCalls_tot {N D : Nat → List Nat} (hN : ∀ v, (N v).Pairwise (· < ·)) (hD : ∀ v, (D v).Pairwise (· < ·)) (ig : Nat → Nat → Bool) (u x : Nat) :
    incTot (triCalls N D ig u) x = occ id (seqs (locN D ig u) 2 (N u)) x := by
  rw [triCalls, incTot_flatMap, seqs, occ_flatMap]
  congr 1
  refine List.map_congr_left fun v _ => ?_
  rw [seqs_one, occ_cons, occ_ones, List.length_map, locN]
  by_cases h : ig u v = true
  · rw [if_pos h, if_pos h, vtxIntersect, incTot_append, incTot_ones, incTot_single, vtxMerge_eq _ _ (hD v) (hN u)]
    rfl
  · rw [if_neg h, if_neg h]; simp [incTot]

/-- A clique is found from one of its active vertices: the sequences of `K` vertices in the local graphs of the active vertices `ids` are the sets of
`K + 1` pairwise adjacent vertices, none of which has been removed, with at least one active vertex. -/
theorem loc_exact {G : UG} (hG : G.Sym) (hs : ∀ u, (G.nb u).Pairwise (· < ·)) {K : Nat} (hK : 2 ≤ K) {rank : Nat → Nat}
    (hinj : ∀ u < G.n, ∀ v < G.n, rank u = rank v → u = v) {sa : Nat → Nat} {ids : List Nat} (hnd : ids.Nodup) (hlt : ∀ u ∈ ids, u < G.n)
    (h1 : ∀ u < G.n, sa u = 1 ↔ u ∈ ids) (h3 : ∀ u < G.n, sa u = 0 ∨ sa u = 1 ∨ sa u = 2) {x : Nat} (hx : x ∉ ids) :
    (ids.map fun u => occ id (seqs (locN (filterN G (K + 1) rank) (ignoreF sa rank) u) K (G.nb u)) x).sum =
      ((cliques G (K + 1)).filter fun S => x ∈ S ∧ (∀ y ∈ S, sa y ≠ 2) ∧ ∃ y ∈ S, y ∈ ids).card := by
  have hsym : ∀ u v, v ∈ G.nb u → u ∈ G.nb v := fun u v h => by
    rw [← List.count_pos_iff, ← hG.sym, List.count_pos_iff]; exact h
  have hig : ∀ u v, ignoreF sa rank u v = true ↔ sa u ≠ 2 ∧ sa v ≠ 2 ∧ (sa v = 0 ∨ rank u < rank v) := by
    intro u v
    unfold ignoreF
    split
    · rename_i h; constructor
      · intro h'; cases h'
      · rintro ⟨h1, h2, _⟩; rcases h with h | h
        · exact absurd h h1
        · exact absurd h h2
    · rename_i h
      have h' : sa u ≠ 2 ∧ sa v ≠ 2 := ⟨fun hc => h (Or.inl hc), fun hc => h (Or.inr hc)⟩
      split
      · rename_i h0; exact ⟨fun _ => ⟨h'.1, h'.2, Or.inl h0⟩, fun _ => rfl⟩
      · rename_i h0
        rw [decide_eq_true_eq]
        exact ⟨fun hr => ⟨h'.1, h'.2, Or.inr hr⟩, fun h => h.2.2.resolve_left h0⟩
  have hloc : ∀ u v w, w ∈ locN (filterN G (K + 1) rank) (ignoreF sa rank) u v ↔ ignoreF sa rank u v = true ∧ ignoreF sa rank u w = true ∧
      ignoreF sa rank v w = true ∧ w ∈ G.nb v ∧ rank v < rank w ∧ K ≤ (G.nb v).length ∧ K ≤ (G.nb w).length := by
    intro u v w
    unfold locN
    split
    · rename_i h
      rw [List.mem_filter, filterN, List.mem_filter, decide_eq_true_eq, Bool.and_eq_true]
      constructor
      · rintro ⟨⟨a, b, c, d⟩, e, f⟩; exact ⟨h, e, f, a, b, c, d⟩
      · rintro ⟨_, e, f, a, b, c, d⟩; exact ⟨⟨a, b, c, d⟩, e, f⟩
    · rename_i h
      constructor
      · intro hc; cases hc
      · rintro ⟨hc, _⟩; exact absurd hc h
  have hnbd : ∀ u, (G.nb u).Nodup := fun u => (hs u).imp fun h => Nat.ne_of_lt h
  -- what a sequence says
  have key : ∀ u ∈ ids, ∀ s ∈ seqs (locN (filterN G (K + 1) rank) (ignoreF sa rank) u) K (G.nb u),
      s.length = K ∧ s.Pairwise (fun v w => rank v < rank w) ∧ (∀ v ∈ s, v ∈ G.nb u ∧ v < G.n ∧ sa v ≠ 2 ∧ (v ∈ ids → rank u < rank v) ∧ v ≠ u) ∧
      (∀ v ∈ s, ∀ w ∈ s, v ≠ w → w ∈ G.nb v) ∧ sa u ≠ 2 := by
    intro u hu s hs'
    obtain ⟨k1, k2, k3⟩ := mem_seqs.1 hs'
    have hpair : ∀ v ∈ s, ignoreF sa rank u v = true := by
      intro v hv
      have : ∃ w ∈ s, w ≠ v := by
        by_contra hc
        have hall : ∀ w ∈ s, w = v := fun w hw => by by_contra h; exact hc ⟨w, hw, h⟩
        have hsn : s.Nodup := k3.imp fun {a b} hab he => by
          have := ((hloc u a b).1 hab).2.2.2.2.1
          rw [he] at this; exact Nat.lt_irrefl _ this
        have : s.length ≤ 1 := by
          have := (List.subperm_of_subset (l₂ := [v]) hsn fun w hw => by simp [hall w hw]).length_le
          simpa using this
        omega
      obtain ⟨w, hw, hne⟩ := this
      rcases pairwise_any k3 hv hw (Ne.symm hne) with h | h
      · exact ((hloc u v w).1 h).1
      · exact ((hloc u w v).1 h).2.1
    have husa : sa u = 1 := (h1 u (hlt u hu)).2 hu
    refine ⟨k1, k3.imp fun {a b} hab => ((hloc u a b).1 hab).2.2.2.2.1, fun v hv => ?_, fun v hv w hw hne => ?_, by omega⟩
    · have hb := hG.bound u v (k2 v hv)
      obtain ⟨i1, i2, i3⟩ := (hig u v).1 (hpair v hv)
      have hr : v ∈ ids → rank u < rank v := fun hvi => by
        have := (h1 v hb.2).2 hvi
        rcases i3 with i3 | i3
        · omega
        · exact i3
      exact ⟨k2 v hv, hb.2, i2, hr, fun hc => by subst hc; exact Nat.lt_irrefl _ (hr hu)⟩
    · rcases pairwise_any k3 hv hw hne with h | h
      · exact ((hloc u v w).1 h).2.2.2.1
      · exact hsym _ _ ((hloc u w v).1 h).2.2.2.1
  have keyn : ∀ u ∈ ids, ∀ s ∈ seqs (locN (filterN G (K + 1) rank) (ignoreF sa rank) u) K (G.nb u), s.Nodup := by
    intro u hu s hs'
    exact (key u hu s hs').2.1.imp fun {a b} hab hc => by rw [hc] at hab; exact Nat.lt_irrefl _ hab
  let L : List (Nat × List Nat) := ids.flatMap fun u => (seqs (locN (filterN G (K + 1) rank) (ignoreF sa rank) u) K (G.nb u)).map fun s => (u, s)
  have hL : ∀ p, p ∈ L ↔ p.1 ∈ ids ∧ p.2 ∈ seqs (locN (filterN G (K + 1) rank) (ignoreF sa rank) p.1) K (G.nb p.1) := by
    rintro ⟨u, s⟩
    show (u, s) ∈ ids.flatMap _ ↔ _
    rw [List.mem_flatMap]
    constructor
    · rintro ⟨u', hu', h⟩
      obtain ⟨s', hs', he⟩ := List.mem_map.1 h
      cases he; exact ⟨hu', hs'⟩
    · rintro ⟨hu, hs'⟩; exact ⟨u, hu, List.mem_map.2 ⟨s, hs', rfl⟩⟩
  have hLn : L.Nodup := by
    refine List.nodup_flatMap.2 ⟨fun u hu => ?_, hnd.imp fun {a b} hab => ?_⟩
    · refine (List.nodup_map_iff_inj_on ?_).2 fun a _ b _ he => (Prod.mk.inj he).2
      refine nodup_seqs (fun v => ?_) (hnbd u)
      unfold locN
      split
      · exact ((hnbd v).filter _).filter _
      · exact List.nodup_nil
    · rw [Function.onFun, List.disjoint_left]
      intro p hp hp'
      obtain ⟨s, _, rfl⟩ := List.mem_map.1 hp
      obtain ⟨t, _, he⟩ := List.mem_map.1 hp'
      exact hab (Prod.mk.inj he).1.symm
  let F : Nat × List Nat → Finset Nat := fun p => insert p.1 p.2.toFinset
  have hFinj : ∀ p ∈ L, ∀ q ∈ L, F p = F q → p = q := by
    rintro ⟨u, s⟩ hp ⟨v, t⟩ hq he
    obtain ⟨hu, hs'⟩ := (hL _).1 hp
    obtain ⟨hv, ht'⟩ := (hL _).1 hq
    obtain ⟨_, a2, a3, _, _⟩ := key u hu s hs'
    obtain ⟨_, b2, b3, _, _⟩ := key v hv t ht'
    have hmem : ∀ y, (y = u ∨ y ∈ s) ↔ (y = v ∨ y ∈ t) := fun y => by
      have := Finset.ext_iff.1 he y
      simpa [F] using this
    have huv : u = v := by
      by_contra hne
      have c1 : v ∈ s := by rcases (hmem v).2 (Or.inl rfl) with h | h
                            · exact absurd h.symm hne
                            · exact h
      have c2 : u ∈ t := by rcases (hmem u).1 (Or.inl rfl) with h | h
                            · exact absurd h hne
                            · exact h
      have d1 := (a3 v c1).2.2.2.1 hv
      have d2 := (b3 u c2).2.2.2.1 hu
      omega
    subst huv
    have hm : ∀ y, y ∈ s ↔ y ∈ t := fun y => by
      constructor
      · intro hy
        rcases (hmem y).1 (Or.inr hy) with h | h
        · exact absurd h (a3 y hy).2.2.2.2
        · exact h
      · intro hy
        rcases (hmem y).2 (Or.inr hy) with h | h
        · exact absurd h (b3 y hy).2.2.2.2
        · exact h
    have hperm := (List.perm_ext_iff_of_nodup (keyn u hu s hs') (keyn u hv t ht')).2 hm
    rw [hperm.eq_of_pairwise (fun a b _ _ h1 h2 => absurd h1 (Nat.lt_asymm h2)) a2 b2]
  -- the sum as a count over the list
  have hsum : (ids.map fun u => occ id (seqs (locN (filterN G (K + 1) rank) (ignoreF sa rank) u) K (G.nb u)) x).sum = L.countP fun p => decide (x ∈ F p) := by
    show _ = (ids.flatMap fun u => _).countP _
    rw [List.countP_flatMap]
    congr 1
    refine List.map_congr_left fun u hu => ?_
    rw [occ_eq_countP (keyn u hu), Function.comp, List.countP_map]
    refine List.countP_congr fun s _ => ?_
    have : x ≠ u := fun hc => hx (hc ▸ hu)
    simp [F, this]
  rw [hsum, List.countP_eq_length_filter, ← List.length_map (f := F), ← List.toFinset_card_of_nodup
    ((List.nodup_map_iff_inj_on (hLn.filter _)).2 fun p hp q hq he => hFinj p (List.mem_filter.1 hp).1 q (List.mem_filter.1 hq).1 he)]
  congr 1
  ext S
  rw [List.mem_toFinset, List.mem_map, Finset.mem_filter, cliques, Finset.mem_filter, Finset.mem_powersetCard]
  constructor
  · rintro ⟨⟨u, s⟩, hp, rfl⟩
    obtain ⟨hpL, hxF⟩ := List.mem_filter.1 hp
    obtain ⟨hu, hs'⟩ := (hL _).1 hpL
    obtain ⟨a1, a2, a3, a4, a5⟩ := key u hu s hs'
    have hus : u ∉ s.toFinset := fun hc => (a3 u (List.mem_toFinset.1 hc)).2.2.2.2 rfl
    refine ⟨⟨⟨fun y hy => ?_, ?_⟩, fun y hy z hz hyz => ?_⟩, of_decide_eq_true hxF, fun y hy => ?_, u, Finset.mem_insert_self _ _, hu⟩
    · rcases Finset.mem_insert.1 hy with rfl | hy
      · exact Finset.mem_range.2 (hlt _ hu)
      · exact Finset.mem_range.2 (a3 y (List.mem_toFinset.1 hy)).2.1
    · show (insert u s.toFinset).card = K + 1
      rw [Finset.card_insert_of_notMem hus, List.toFinset_card_of_nodup (keyn u hu s hs'), a1]
    · rcases Finset.mem_insert.1 hy with rfl | hy <;> rcases Finset.mem_insert.1 hz with rfl | hz
      · exact absurd rfl hyz
      · exact (a3 z (List.mem_toFinset.1 hz)).1
      · exact hsym _ _ (a3 y (List.mem_toFinset.1 hy)).1
      · exact a4 y (List.mem_toFinset.1 hy) z (List.mem_toFinset.1 hz) hyz
    · rcases Finset.mem_insert.1 hy with rfl | hy
      · exact a5
      · exact (a3 y (List.mem_toFinset.1 hy)).2.2.1
  · rintro ⟨⟨⟨hsub, hcard⟩, hcl⟩, hxS, hdel, hact⟩
    have hltS : ∀ y ∈ S, y < G.n := fun y hy => Finset.mem_range.1 (hsub hy)
    have hdeg : ∀ y ∈ S, K ≤ (G.nb y).length := by
      intro y hy
      have : S.erase y ⊆ (G.nb y).toFinset := fun v hv => by
        obtain ⟨h1, h2⟩ := Finset.mem_erase.1 hv
        exact List.mem_toFinset.2 (hcl y hy v h2 (fun hc => h1 hc.symm))
      have := Finset.card_le_card this
      rw [Finset.card_erase_of_mem hy, hcard] at this
      exact Nat.le_trans this (List.toFinset_card_le _)
    obtain ⟨u, hu, humin⟩ := Finset.exists_min_image (S.filter fun y => y ∈ ids) rank (by
      obtain ⟨y, hy, hyi⟩ := hact
      exact ⟨y, Finset.mem_filter.2 ⟨hy, hyi⟩⟩)
    obtain ⟨huS, hui⟩ := Finset.mem_filter.1 hu
    let l := (S.erase u).toList.mergeSort fun a b => decide (rank a ≤ rank b)
    have hlp : l.Perm (S.erase u).toList := List.mergeSort_perm _ _
    have hlm : ∀ y, y ∈ l ↔ y ∈ S.erase u := fun y => by rw [hlp.mem_iff, Finset.mem_toList]
    have hls : l.Pairwise fun a b => rank a ≤ rank b := by
      have := List.pairwise_mergeSort (le := fun a b => decide (rank a ≤ rank b)) (fun a b c h1 h2 => by
        rw [decide_eq_true_eq] at *; omega) (fun a b => by
        rw [Bool.or_eq_true, decide_eq_true_eq, decide_eq_true_eq]; omega) (S.erase u).toList
      exact this.imp fun h => by simpa using h
    have hln : l.Nodup := hlp.nodup_iff.2 (Finset.nodup_toList _)
    have hul : ∀ y ∈ S, y ≠ u → ignoreF sa rank u y = true := fun y hy hyu => by
      refine (hig u y).2 ⟨hdel u huS, hdel y hy, ?_⟩
      rcases h3 y (hltS y hy) with h | h | h
      · exact Or.inl h
      · have := humin y (Finset.mem_filter.2 ⟨hy, (h1 y (hltS y hy)).1 h⟩)
        exact Or.inr (Nat.lt_of_le_of_ne this fun hc => hyu (hinj _ (hltS y hy) _ (hltS u huS) hc.symm))
      · exact absurd h (hdel y hy)
    have hFS : F (u, l) = S := by
      ext y
      show y ∈ insert u l.toFinset ↔ _
      rw [Finset.mem_insert, List.mem_toFinset, hlm, Finset.mem_erase]
      constructor
      · rintro (rfl | h)
        · exact huS
        · exact h.2
      · intro hy
        by_cases h : y = u
        · exact Or.inl h
        · exact Or.inr ⟨h, hy⟩
    refine ⟨(u, l), List.mem_filter.2 ⟨(hL _).2 ⟨hui, mem_seqs.2 ⟨?_, fun y hy => ?_, ?_⟩⟩, ?_⟩, hFS⟩
    · show l.length = K
      rw [hlp.length_eq, Finset.length_toList, Finset.card_erase_of_mem huS, hcard]; omega
    · have := Finset.mem_erase.1 ((hlm y).1 hy)
      exact hcl u huS y this.2 (Ne.symm this.1)
    · refine (hls.and hln).imp_of_mem fun {a b} ha hb ⟨k1, k2⟩ => ?_
      have ha' := Finset.mem_erase.1 ((hlm a).1 ha)
      have hb' := Finset.mem_erase.1 ((hlm b).1 hb)
      have hr : rank a < rank b := Nat.lt_of_le_of_ne k1 fun hc => k2 (hinj a (hltS a ha'.2) b (hltS b hb'.2) hc)
      exact (hloc u a b).2 ⟨hul a ha'.2 ha'.1, hul b hb'.2 hb'.1, (hig a b).2 ⟨hdel a ha'.2, hdel b hb'.2, Or.inr hr⟩, hcl a ha'.2 b hb'.2 k2, hr,
        hdeg a ha'.2, hdeg b hb'.2⟩
    · rw [hFS]; exact decide_eq_true hxS

/-! ### The spaces -/

theorem markIdxF_notin {f : Nat → Bool} {l : List Nat} : ∀ {o : Nat} {ol : Nat → Nat} {w : Nat}, ¬ (w ∈ l ∧ f w = true) → markIdxF f l o ol w = ol w := by
  induction l with
  | nil => intro o ol w _; rfl
  | cons v l ih =>
    intro o ol w hw
    rw [markIdxF, ih fun h => hw ⟨List.mem_cons_of_mem _ h.1, h.2⟩]
    split
    · rename_i hv
      rw [upd, if_neg fun h => hw (by rw [h]; exact ⟨List.mem_cons_self, hv⟩)]
    · rfl

theorem markIdxF_in {f : Nat → Bool} {l : List Nat} : ∀ {o : Nat} {ol : Nat → Nat}, l.Nodup → ∀ w ∈ l, f w = true →
    ∃ p < l.length, l.getD p 0 = w ∧ markIdxF f l o ol w = o + p + 1 := by
  induction l with
  | nil => intro o ol _ w hw; cases hw
  | cons v l ih =>
    intro o ol hn w hw hf
    obtain ⟨h1, h2⟩ := List.nodup_cons.1 hn
    rcases List.mem_cons.1 hw with rfl | hw
    · exact ⟨0, by simp, rfl, by rw [markIdxF, markIdxF_notin fun h => h1 h.1, if_pos hf, upd_same]⟩
    · obtain ⟨p, hp, h3, h4⟩ := ih (o := o + 1) (ol := if f v then upd ol v (o + 1) else ol) h2 w hw hf
      exact ⟨p + 1, by simpa using hp, by simpa using h3, by rw [markIdxF, h4]; omega⟩

theorem isectF_spec {ig : Nat → Nat → Bool} {u v : Nat} {full : List Nat} : ∀ (o : Nat) (R V : List Nat), R = full.drop o → R.Pairwise (· < ·) → V.Pairwise (· < ·) →
    (∀ p ∈ isectF ig u v o R V, p < full.length) ∧
    (isectF ig u v o R V).map (fun p => full.getD p 0) = (V.filter fun w => ig u w && ig v w).filter fun w => decide (w ∈ R) := by
  intro o R V
  induction o, R, V using isectF.induct ig u v with
  | case1 o V => intro _ _ _; rw [isectF]; exact ⟨fun p hp => (by cases hp), by simp⟩
  | case2 o a R => intro _ _ _; rw [isectF]; exact ⟨fun p hp => (by cases hp), rfl⟩
  | case3 o R a V hig ih =>
    intro hd hR hV
    have h1 := List.pairwise_cons.1 hR
    have h2 := List.pairwise_cons.1 hV
    have hol : o < full.length := by
      by_contra hc
      rw [List.drop_eq_nil_of_le (by omega)] at hd; cases hd
    rw [List.drop_eq_getElem_cons hol] at hd
    obtain ⟨ha, hd'⟩ := List.cons.inj hd
    obtain ⟨k1, k2⟩ := ih hd' h1.2 h2.2
    rw [isectF, if_pos rfl, if_pos hig]
    refine ⟨fun p hp => ?_, ?_⟩
    · rcases List.mem_cons.1 hp with rfl | hp
      · exact hol
      · exact k1 p hp
    · rw [List.map_cons, k2, List.filter_cons (x := a), if_pos hig, List.filter_cons, if_pos (by simp),
        show full.getD o 0 = a by rw [List.getD_eq_getElem?_getD, List.getElem?_eq_getElem hol, Option.getD_some, ha]]
      congr 1
      refine List.filter_congr fun w hw => ?_
      have := h2.1 w (List.mem_filter.1 hw).1
      simp only [List.mem_cons, decide_eq_decide]
      exact ⟨Or.inr, fun h => h.resolve_left (by omega)⟩
  | case4 o R a V hig ih =>
    intro hd hR hV
    have h1 := List.pairwise_cons.1 hR
    have h2 := List.pairwise_cons.1 hV
    have hd' : R = full.drop (o + 1) := by
      rw [← List.tail_drop, ← hd]; rfl
    obtain ⟨k1, k2⟩ := ih hd' h1.2 h2.2
    rw [isectF, if_pos rfl, if_neg hig]
    refine ⟨k1, ?_⟩
    rw [k2, List.filter_cons (x := a), if_neg hig]
    refine List.filter_congr fun w hw => ?_
    have := h2.1 w (List.mem_filter.1 hw).1
    simp only [List.mem_cons, decide_eq_decide]
    exact ⟨Or.inr, fun h => h.resolve_left (by omega)⟩
  | case5 o a R b V hne hlt ih =>
    intro hd hR hV
    have h1 := List.pairwise_cons.1 hR
    have h2 := List.pairwise_cons.1 hV
    have hd' : R = full.drop (o + 1) := by
      rw [← List.tail_drop, ← hd]; rfl
    obtain ⟨k1, k2⟩ := ih hd' h1.2 hV
    rw [isectF, if_neg hne, if_pos hlt]
    refine ⟨k1, ?_⟩
    rw [k2]
    refine List.filter_congr fun w hw => ?_
    have hw' : b ≤ w := by
      rcases List.mem_cons.1 (List.mem_filter.1 hw).1 with h | h
      · omega
      · have := h2.1 w h; omega
    simp only [List.mem_cons, decide_eq_decide]
    exact ⟨Or.inr, fun h => h.resolve_left (by omega)⟩
  | case6 o a R b V hne hlt ih =>
    intro hd hR hV
    have h1 := List.pairwise_cons.1 hR
    have h2 := List.pairwise_cons.1 hV
    obtain ⟨k1, k2⟩ := ih hd hR h2.2
    rw [isectF, if_neg hne, if_neg hlt]
    refine ⟨k1, ?_⟩
    have hb : b ∉ a :: R := by
      intro h
      rcases List.mem_cons.1 h with h | h
      · exact hne h.symm
      · have := h1.1 b h; omega
    rw [k2, List.filter_cons (x := b)]
    split
    · rw [List.filter_cons, if_neg (by simpa using hb)]
    · rfl

/-- `setup` with an `f` gives the local graph and leaves `old_labels` clear. -/
theorem setupF_spec {N D : Nat → List Nat} (hN : ∀ v, (N v).Pairwise (· < ·)) (hD : ∀ v, (D v).Pairwise (· < ·)) (ig : Nat → Nat → Bool) (label : Bool) (u : Nat) :
    Local (locN D ig u) (N u) (setupF N D ig label (fun _ => 0) u).1 ∧ (setupF N D ig label (fun _ => 0) u).2 = fun _ => 0 := by
  cases label with
  | true =>
    refine ⟨⟨fun j hj => ?_, fun j hj => ?_⟩, ?_⟩
    · show rowLF _ _ _ _ _ _ = []
      rw [rowLF, if_neg fun h => hj h.1]
    · show (∀ w ∈ rowLF _ _ _ _ _ _, _) ∧ (rowLF _ _ _ _ _ _).map _ = _
      rw [rowLF, locN]
      by_cases hf : ig u ((N u).getD j 0) = true
      · rw [if_pos ⟨hj, hf⟩, if_pos hf]
        have h0 : ∀ w, ¬ (w ∈ N u ∧ ig u w = true) → markIdxF (ig u) (N u) 0 (fun _ => 0) w = 0 := fun w hw => markIdxF_notin hw
        have h1 : ∀ w ∈ N u, ig u w = true → ∃ p < (N u).length, (N u).getD p 0 = w ∧ markIdxF (ig u) (N u) 0 (fun _ => 0) w = p + 1 := fun w hw hf => by
          obtain ⟨p, hp, h1, h2⟩ := markIdxF_in (o := 0) (ol := fun _ => 0) ((hN u).imp fun h => Nat.ne_of_lt h) w hw hf
          exact ⟨p, hp, h1, by rw [h2]; omega⟩
        generalize markIdxF (ig u) (N u) 0 (fun _ => 0) = ol at h0 h1
        generalize D ((N u).getD j 0) = l
        generalize (N u).getD j 0 = v
        induction l with
        | nil => exact ⟨fun w hw => (by cases hw), rfl⟩
        | cons w l ih =>
          rw [List.filterMap_cons, List.filter_cons]
          by_cases hv : ig v w = true
          · rw [if_pos hv]
            by_cases hw : w ∈ N u ∧ ig u w = true
            · obtain ⟨p, hp, h2, h3⟩ := h1 w hw.1 hw.2
              rw [h3, if_pos (by omega), if_pos (by rw [hw.2, hv]; rfl), List.filter_cons, if_pos (by simpa using hw.1)]
              refine ⟨fun q hq => ?_, ?_⟩
              · rcases List.mem_cons.1 hq with rfl | hq
                · omega
                · exact ih.1 q hq
              · rw [List.map_cons, ih.2, Nat.add_sub_cancel, h2]
            · rw [h0 w hw, if_neg (by omega)]
              dsimp only
              by_cases hc : (ig u w && ig v w) = true
              · rw [if_pos hc]
                rw [Bool.and_eq_true] at hc
                rw [List.filter_cons, if_neg (by simpa using fun h => hw ⟨h, hc.1⟩)]
                exact ih
              · rw [if_neg hc]; exact ih
          · rw [if_neg hv, if_neg (by rw [Bool.and_eq_true]; exact fun h => hv h.2)]
            exact ih
      · rw [if_neg fun h => hf h.2, if_neg hf]
        exact ⟨fun w hw => (by cases hw), rfl⟩
    · funext w
      show setAll _ _ _ _ = 0
      rw [setAll]
      split
      · rfl
      · rename_i hw; exact markIdxF_notin fun h => hw h.1
  | false =>
    refine ⟨⟨fun j hj => ?_, fun j hj => ?_⟩, rfl⟩
    · show rowIF _ _ _ _ _ = []
      rw [rowIF, if_neg fun h => hj h.1]
    · show (∀ w ∈ rowIF _ _ _ _ _, _) ∧ (rowIF _ _ _ _ _).map _ = _
      rw [rowIF, locN]
      by_cases hf : ig u ((N u).getD j 0) = true
      · rw [if_pos ⟨hj, hf⟩, if_pos hf]
        exact isectF_spec 0 (N u) _ (by simp) (hN u) (hD _)
      · rw [if_neg fun h => hf h.2, if_neg hf]
        exact ⟨fun w hw => (by cases hw), rfl⟩

theorem locN_up {D : Nat → List Nat} {rk : Nat → Nat} (hrk : ∀ v, ∀ w ∈ D v, rk v < rk w) {ig : Nat → Nat → Bool} {u : Nat} :
    ∀ v, ∀ w ∈ locN D ig u v, rk v < rk w := by
  intro v w hw
  unfold locN at hw
  split at hw
  · exact hrk v w (List.mem_filter.1 hw).1
  · cases hw

theorem locN_nodup {D : Nat → List Nat} (hD : ∀ v, (D v).Pairwise (· < ·)) {ig : Nat → Nat → Bool} {u : Nat} (v : Nat) : (locN D ig u v).Nodup := by
  unfold locN
  split
  · exact ((hD v).imp fun h => Nat.ne_of_lt h).filter _
  · exact List.nodup_nil

/-- An iteration of `cliqueUpdate`: no access out of bounds, and the calls give every vertex its sequences in the local graph. -/
theorem iterF_spec {N D : Nat → List Nat} {n : Nat} {rk : Nat → Nat} (hN : ∀ v, (N v).Pairwise (· < ·)) (hD : ∀ v, (D v).Pairwise (· < ·))
    (hrk : ∀ v, ∀ w ∈ D v, rk v < rk w) (hbN : ∀ x, ∀ w ∈ N x, w < n) (hb : ∀ x, ∀ w ∈ D x, w < n) (ig : Nat → Nat → Bool) {K d : Nat} (hK : 2 ≤ K) (hK2 : K ≤ 128)
    (label : Bool) {c : Caps} (hc : FitsAll c d K n) (u : Nat) (hd : (N u).length ≤ d) :
    ∃ l, iterF N D ig K label c u (fun _ => 0, fun _ => 0) = some ((seqs (locN D ig u) K (N u)).length, l, (fun _ => 0, fun _ => 0)) ∧
      (∀ x, incTot l x = occ id (seqs (locN D ig u) K (N u)) x) ∧ ∀ p ∈ l, 0 < p.2 := by
  rw [iterF]
  by_cases hnil : N u = []
  · rw [if_pos hnil, hnil]
    obtain ⟨m, rfl⟩ : ∃ m, K = m + 1 := ⟨K - 1, by omega⟩
    exact ⟨[], rfl, fun _ => rfl, fun p hp => by cases hp⟩
  obtain ⟨k1, k2⟩ := setupF_spec hN hD ig label u
  have hnb : ¬ Bad c D label (N u) (N u) (setupF N D ig label (fun _ => 0) u).1 := by
    have h1 := hc.base.ind
    have h2 := hc.base.num
    have h3 := hc.degs
    have h4 := hc.edges
    have h5 := hc.old
    have h6 := hc.rel
    have h7 : d ≤ K * d := Nat.le_mul_of_pos_left _ (by omega)
    rintro (h | h | h | h | ⟨j, hj, hj2⟩ | ⟨_, ⟨w, hw, hw2⟩ | ⟨v, hv, w, hw, hw2⟩⟩)
    · omega
    · omega
    · omega
    · omega
    · have hj := List.mem_range.1 hj
      have : ((setupF N D ig label (fun _ => 0) u).1 j).length ≤ (N u).length := length_bound (local_nodup (locN_nodup hD) k1 j) (k1.2 j hj).1
      have h8 : j * (N u).length + (N u).length ≤ d * d := by
        calc j * (N u).length + (N u).length = (j + 1) * (N u).length := by rw [Nat.add_mul, Nat.one_mul]
          _ ≤ d * d := Nat.mul_le_mul (by omega) hd
      omega
    · have := hbN u w hw; omega
    · have := hb v w hw; omega
  rw [if_neg hnil, if_neg hnb]
  obtain ⟨l, hl1, hl2⟩ := go_local (locN_up hrk) (locN_nodup hD) ((hN u).imp fun h => Nat.ne_of_lt h) k1 (j := K - 2) (lev := 0) (by omega)
    (c := c) (by rw [show K - 2 + 2 = K by omega]; exact hc.base.small hd) (c2 := fun _ => c) (Or.inl rfl)
  rw [show K - 2 + 2 = K by omega] at hl1 hl2
  show ∃ b, Option.map _ (go (setupF N D ig label (fun _ => 0) u).1 (N u).length (fun j => (N u).getD j 0) (fun _ => c) (K - 2) 1 0 c
    (List.range (N u).length) (fun _ => 0)) = _ ∧ _
  rw [hl1]
  refine ⟨l.filter fun p => decide (0 < p.2), by rw [Option.map_some, k2], fun x => by rw [incTot_filter, hl2], fun p hp => ?_⟩
  exact of_decide_eq_true (List.mem_filter.1 hp).2

/-- The calls of one worker. -/
theorem workerCalls_spec {N D : Nat → List Nat} {n : Nat} {rk : Nat → Nat} (hN : ∀ v, (N v).Pairwise (· < ·)) (hD : ∀ v, (D v).Pairwise (· < ·))
    (hrk : ∀ v, ∀ w ∈ D v, rk v < rk w) (hbN : ∀ x, ∀ w ∈ N x, w < n) (hb : ∀ x, ∀ w ∈ D x, w < n) (ig : Nat → Nat → Bool) {K d : Nat} (hK : 2 ≤ K) (hK2 : K ≤ 128)
    (label : Bool) {w : Caps × List Nat} (hc : FitsAll w.1 d K n) (hd : ∀ u ∈ w.2, (N u).length ≤ d) :
    ∃ l, workerCalls N D ig K label w = some l ∧ (∀ x, incTot l x = (w.2.map fun u => occ id (seqs (locN D ig u) K (N u)) x).sum) ∧
      (K ≠ 2 → ∀ p ∈ l, 0 < p.2) := by
  rw [workerCalls]
  by_cases h2 : K = 2
  · rw [if_pos h2]
    refine ⟨_, rfl, fun x => ?_, fun h => absurd h2 h⟩
    rw [incTot_flatMap, h2]
    congr 1
    exact List.map_congr_left fun u _ => triCalls_tot hN hD ig u x
  · rw [if_neg h2]
    have hit : ∀ u ∈ w.2, ∃ l, iterF N D ig K label w.1 u (fun _ => 0, fun _ => 0) = some ((seqs (locN D ig u) K (N u)).length, l, (fun _ => 0, fun _ => 0)) ∧
      (∀ x, incTot l x = occ id (seqs (locN D ig u) K (N u)) x) ∧ ∀ p ∈ l, 0 < p.2 := fun u hu =>
      iterF_spec hN hD hrk hbN hb ig hK hK2 label hc u (hd u hu)
    clear hd
    generalize w.2 = us at hit
    have hl : ∃ a l, loop (iterF N D ig K label w.1) us (fun _ => 0, fun _ => 0) = some (a, l, (fun _ => 0, fun _ => 0)) ∧
        (∀ x, incTot l x = (us.map fun u => occ id (seqs (locN D ig u) K (N u)) x).sum) ∧ ∀ p ∈ l, 0 < p.2 := by
      induction us with
      | nil => exact ⟨0, [], rfl, fun _ => rfl, fun p hp => by cases hp⟩
      | cons u us ih =>
        obtain ⟨a, l, e1, e2, e3⟩ := ih fun v hv => hit v (List.mem_cons_of_mem _ hv)
        obtain ⟨m, f1, f2, f3⟩ := hit u List.mem_cons_self
        refine ⟨_, m ++ l, by rw [loop, f1]; dsimp only; rw [e1], fun x => ?_, fun p hp => ?_⟩
        · rw [incTot_append, f2, e2, List.map_cons, List.sum_cons]
        · rcases List.mem_append.1 hp with hp | hp
          · exact f3 p hp
          · exact e3 p hp
    obtain ⟨a, l, e1, e2, e3⟩ := hl
    rw [e1]
    exact ⟨l, rfl, e2, fun _ => e3⟩

/-! ### Recording -/

theorem record_spec : ∀ (l : Incs) (pc : Nat → Nat) (keys : List Nat),
    (∀ x, (record l pc keys).1 x = pc x + incTot l x) ∧ (∀ x, x ∈ (record l pc keys).2 → x ∈ keys ∨ x ∈ l.map Prod.fst) ∧
    (∀ x ∈ keys, x ∈ (record l pc keys).2) ∧ ∀ x, pc x = 0 → x ∈ l.map Prod.fst → x ∈ (record l pc keys).2 := by
  intro l
  induction l with
  | nil => intro pc keys; exact ⟨fun x => rfl, fun x h => Or.inl h, fun x h => h, fun x _ h => by cases h⟩
  | cons p l ih =>
    obtain ⟨v, c⟩ := p
    intro pc keys
    obtain ⟨h1, h2, h3, h4⟩ := ih (upd pc v (pc v + c)) (if pc v = 0 then keys ++ [v] else keys)
    rw [record]
    have hc : ∀ x, incTot ((v, c) :: l) x = (if v = x then c else 0) + incTot l x := fun x => by simp [incTot]
    have hk : ∀ x ∈ keys, x ∈ (if pc v = 0 then keys ++ [v] else keys) := fun x hx => by
      split
      · exact List.mem_append_left _ hx
      · exact hx
    refine ⟨fun x => ?_, fun x hx => ?_, fun x hx => h3 x (hk x hx), fun x hx hl => ?_⟩
    · rw [h1, hc, upd]
      by_cases h : x = v
      · subst h; simp; omega
      · rw [if_neg h, if_neg (Ne.symm h)]; omega
    · rcases h2 x hx with h | h
      · split at h
        · rcases List.mem_append.1 h with h | h
          · exact Or.inl h
          · rw [List.mem_singleton] at h; subst h; exact Or.inr (by simp)
        · exact Or.inl h
      · exact Or.inr (List.mem_cons_of_mem _ h)
    · by_cases h : x = v
      · subst h
        exact h3 x (by rw [if_pos hx]; simp)
      · rcases List.mem_cons.1 hl with h' | h'
        · exact absurd h' h
        · exact h4 x (by rw [upd, if_neg h]; exact hx) h'

theorem recordS_spec {cap : Nat} : ∀ (l : Incs) (pc : Nat → Nat) (idx : List Nat) (r : (Nat → Nat) × List Nat), recordS cap l pc idx = some r →
    r = record l pc idx := by
  intro l
  induction l with
  | nil => intro pc idx r h; rw [recordS, Option.some.injEq] at h; rw [record, h]
  | cons p l ih =>
    obtain ⟨v, c⟩ := p
    intro pc idx r h
    rw [recordS] at h
    rw [record]
    split at h
    · rename_i h0
      rw [if_pos h0]
      split at h
      · cases h
      · exact ih _ _ _ h
    · rename_i h0
      rw [if_neg h0]
      exact ih _ _ _ h

/-- If all counts are positive, every vertex is recorded once, and `update_idxs` is large enough for the neighbours of the active vertex. -/
theorem recordS_ok {cap : Nat} {R : List Nat} (hcap : R.length ≤ cap) : ∀ (l : Incs) (pc : Nat → Nat) (idx : List Nat), (∀ p ∈ l, 0 < p.2 ∧ p.1 ∈ R) →
    idx.Nodup → (∀ x ∈ idx, x ∈ R ∧ pc x ≠ 0) → ∃ r, recordS cap l pc idx = some r := by
  intro l
  induction l with
  | nil => intro pc idx _ _ _; exact ⟨_, rfl⟩
  | cons p l ih =>
    obtain ⟨v, c⟩ := p
    intro pc idx h1 h2 h3
    have hv := h1 (v, c) List.mem_cons_self
    have hup : ∀ x, pc x ≠ 0 → upd pc v (pc v + c) x ≠ 0 := fun x hx => by
      rw [upd]; split
      · rename_i he; rw [← he]; omega
      · exact hx
    rw [recordS]
    split
    · rename_i h0
      have hvi : v ∉ idx := fun hc => (h3 v hc).2 h0
      have hlen : (v :: idx).length ≤ R.length := (List.subperm_of_subset (List.nodup_cons.2 ⟨hvi, h2⟩) fun x hx => by
        rcases List.mem_cons.1 hx with rfl | hx
        · exact hv.2
        · exact (h3 x hx).1).length_le
      rw [if_neg (by rw [List.length_cons] at hlen; omega)]
      refine ih _ _ (fun p hp => h1 p (List.mem_cons_of_mem _ hp)) ?_ fun x hx => ?_
      · exact List.nodup_append.2 ⟨h2, List.nodup_singleton v, fun a ha b hb hc => hvi (by rw [List.mem_singleton] at hb; rw [← hb, ← hc]; exact ha)⟩
      · rcases List.mem_append.1 hx with hx | hx
        · exact ⟨(h3 x hx).1, hup x (h3 x hx).2⟩
        · rw [List.mem_singleton] at hx
          subst hx
          refine ⟨hv.2, ?_⟩
          rw [upd_same]
          have := hv.1
          omega
    · exact ih _ _ (fun p hp => h1 p (List.mem_cons_of_mem _ hp)) h2 fun x hx => ⟨(h3 x hx).1, hup x (h3 x hx).2⟩

end Gbbs.Clique
