/-
C107: the neighbour order and the core order.
-/
import Verif.Scan.Model
import Mathlib.Data.List.Sort
import Mathlib.Tactic.ByContra

namespace Gbbs.Scan

open UF

set_option linter.unusedSectionVars false

variable {S : Type} [LinearOrder S]

/-! ### Slices -/

/-- The similarities of the arcs of `u`. -/
def SG.row (G : SG S) (u : Nat) : List (Es S) := (G.nb u).map fun v => ⟨u, v, G.sim u v⟩

theorem row_src {G : SG S} {u : Nat} {e : Es S} (h : e ∈ G.row u) : e.src = u := by
  obtain ⟨v, -, rfl⟩ := List.mem_map.1 h; rfl

theorem filter_flatMap_rows (g : Nat → List (Es S)) (hg : ∀ u, ∀ e ∈ g u, e.src = u) (l : List Nat) (hl : l.Nodup) (u : Nat) :
    (l.flatMap g).filter (fun e => decide (e.src = u)) = if u ∈ l then g u else [] := by
  induction l with
  | nil => rfl
  | cons a l ih =>
    rw [List.nodup_cons] at hl
    rw [List.flatMap_cons, List.filter_append, ih hl.2]
    by_cases h : u = a
    · subst h
      rw [if_neg hl.1, if_pos List.mem_cons_self, List.append_nil, List.filter_eq_self]
      intro e he
      simpa using hg u e he
    · have : (g a).filter (fun e => decide (e.src = u)) = [] := by
        rw [List.filter_eq_nil_iff]
        intro e he
        simp only [decide_eq_true_eq]
        intro h'
        exact h (h'.symm.trans (hg a e he))
      rw [this, List.nil_append]
      simp [h]

/-- A list sorted by the source is the concatenation of the parts of the sources. -/
theorem sorted_split (l : List (Es S)) (hs : l.Pairwise fun a b => a.src ≤ b.src) (k : Nat) :
    l.filter (fun e => decide (e.src < k)) ++ l.filter (fun e => decide (e.src = k)) = l.filter (fun e => decide (e.src < k + 1)) := by
  induction l with
  | nil => rfl
  | cons a l ih =>
    rw [List.pairwise_cons] at hs
    rcases Nat.lt_trichotomy a.src k with h | h | h
    · rw [List.filter_cons_of_pos (by simpa using h), List.filter_cons_of_neg (by simp; omega), List.filter_cons_of_pos (by simp; omega),
        List.cons_append, ih hs.2]
    · have : (a :: l).filter (fun e => decide (e.src < k)) = [] := by
        rw [List.filter_eq_nil_iff]
        intro e he
        rcases List.mem_cons.1 he with rfl | he
        · simp; omega
        · have := hs.1 e he; simp; omega
      rw [this, List.nil_append]
      refine List.filter_congr fun e he => ?_
      have : k ≤ e.src := by
        rcases List.mem_cons.1 he with rfl | he
        · omega
        · have := hs.1 e he; omega
      simp; omega
    · have : ∀ e ∈ a :: l, k < e.src := by
        intro e he
        rcases List.mem_cons.1 he with rfl | he
        · exact h
        · have := hs.1 e he; omega
      rw [List.filter_eq_nil_iff.2 (fun e he => by have := this e he; simp; omega), List.filter_eq_nil_iff.2 (fun e he => by have := this e he; simp; omega),
        List.filter_eq_nil_iff.2 (fun e he => by have := this e he; simp; omega)]; rfl

theorem filter_prefix (l : List (Es S)) (hs : l.Pairwise fun a b => a.src ≤ b.src) (k : Nat) :
    l.filter (fun e => decide (e.src < k)) <+: l := by
  induction l with
  | nil => exact List.prefix_refl _
  | cons a l ih =>
    rw [List.pairwise_cons] at hs
    by_cases h : a.src < k
    · rw [List.filter_cons_of_pos (by simpa using h)]
      exact (List.cons_prefix_cons).2 ⟨rfl, ih hs.2⟩
    · rw [List.filter_eq_nil_iff.2]
      · exact List.nil_prefix
      · intro e he
        rcases List.mem_cons.1 he with rfl | he
        · simpa using h
        · have := hs.1 e he; simp; omega

theorem mem_arcs {G : SG S} {e : Es S} : e ∈ G.arcs ↔ e.src < G.n ∧ e ∈ G.row e.src := by
  rw [SG.arcs, List.mem_flatMap]
  constructor
  · rintro ⟨u, hu, he⟩
    have := row_src (G := G) he
    rw [this]; exact ⟨List.mem_range.1 hu, he⟩
  · exact fun h => ⟨e.src, List.mem_range.2 h.1, h.2⟩

/-- The slices of the neighbour order are the rows of the graph, by descending similarity. -/
theorem NeighborOrder.row {G : SG S} {sims : List (Es S)} (hs : sims.Perm G.arcs) {nbr : Nat → List (Es S)}
    (h : NeighborOrder G.n (fun u => (G.nb u).length) sims nbr) {u : Nat} (hu : u < G.n) :
    (nbr u).Perm (G.row u) ∧ (nbr u).Pairwise fun a b => b.sim ≤ a.sim := by
  obtain ⟨out, h1, h2, h3⟩ := h.ex
  have hout : out.Perm G.arcs := h1.trans hs
  have hsrc : out.Pairwise fun a b => a.src ≤ b.src := h2.imp fun {a b} h => by
    by_contra hc
    exact h (.inl (by omega))
  have hfil : ∀ k, (out.filter fun e => decide (e.src = k)).Perm (if k < G.n then G.row k else []) := by
    intro k
    refine (hout.filter _).trans ?_
    rw [show G.arcs = (List.range G.n).flatMap G.row from rfl, filter_flatMap_rows _ (fun u e he => row_src (G := G) he) _ List.nodup_range]
    simp only [List.mem_range]
    exact .refl _
  have hlen : ∀ k, k ≤ G.n → (out.filter fun e => decide (e.src < k)).length = exScan (fun u => (G.nb u).length) k := by
    intro k
    induction k with
    | zero => intro _; simp [exScan]
    | succ k ih =>
      intro hk
      rw [← sorted_split out hsrc, List.length_append, ih (by omega), (hfil k).length_eq, if_pos (by omega), SG.row, List.length_map]; rfl
  have hall : out.filter (fun e => decide (e.src < G.n)) = out := by
    rw [List.filter_eq_self]
    intro e he
    simpa using (mem_arcs.1 (hout.mem_iff.1 he)).1
  have htake : ∀ k, k ≤ G.n → out.take (exScan (fun u => (G.nb u).length) k) = out.filter fun e => decide (e.src < k) := by
    intro k hk
    rw [← hlen k hk]
    exact (List.prefix_iff_eq_take.1 (filter_prefix out hsrc k)).symm
  have key : nbr u = out.filter fun e => decide (e.src = u) := by
    rw [h3 u hu]
    have : out.take (if u + 1 = G.n then out.length else exScan (fun u => (G.nb u).length) (u + 1)) = out.filter fun e => decide (e.src < u + 1) := by
      by_cases he : u + 1 = G.n
      · rw [if_pos he, List.take_length, he, hall]
      · rw [if_neg he, htake (u + 1) (by omega)]
    rw [this, ← sorted_split out hsrc, ← hlen u (by omega), List.drop_left]
  refine ⟨?_, ?_⟩
  · rw [key]
    have := hfil u
    rwa [if_pos hu] at this
  · rw [key]
    have : (out.filter fun e => decide (e.src = u)).Pairwise fun l r => ¬ before r l := h2.sublist List.filter_sublist
    refine this.imp_of_mem fun {a b} ha hb h => ?_
    by_contra hc
    have ha' : a.src = u := by simpa using (List.mem_filter.1 ha).2
    have hb' : b.src = u := by simpa using (List.mem_filter.1 hb).2
    exact h (.inr ⟨hb'.trans ha'.symm, lt_of_not_ge hc⟩)

/-! ### Searching -/

/-- On a list that is sorted for the predicate, the prefix found are the elements with it. -/
theorem take_bsearch {α : Type} (p : α → Bool) (l : List α) (h : l.Pairwise fun a b => p b = true → p a = true) :
    l.take (bsearch p l) = l.filter p := by
  rw [bsearch]
  induction l with
  | nil => rfl
  | cons a l ih =>
    rw [List.pairwise_cons] at h
    by_cases ha : p a = true
    · rw [List.takeWhile_cons_of_pos ha, List.filter_cons_of_pos ha, List.length_cons, List.take_succ_cons, ih h.2]
    · rw [List.takeWhile_cons_of_neg ha, List.filter_cons_of_neg ha, List.length_nil, List.take_zero, List.filter_eq_nil_iff.2]
      exact fun b hb hp => ha (h.1 b hb hp)

theorem bsearch_eq {α : Type} (p : α → Bool) (l : List α) (h : l.Pairwise fun a b => p b = true → p a = true) :
    bsearch p l = (l.filter p).length := by
  rw [← take_bsearch p l h, List.length_take, Nat.min_eq_left]
  rw [bsearch]
  exact (List.takeWhile_prefix p).length_le

/-- Descending lists are sorted for every threshold. -/
theorem desc_pred {α : Type} (f : α → S) (l : List α) (h : l.Pairwise fun a b => f b ≤ f a) (eps : S) :
    l.Pairwise fun a b => decide (eps ≤ f b) = true → decide (eps ≤ f a) = true :=
  h.imp fun {a b} hab hb => by
    rw [decide_eq_true_eq] at hb ⊢
    exact le_trans hb hab

/-- In a descending list the element at `k` reaches the threshold exactly if more than `k` do. -/
theorem getElem_ge {α : Type} (f : α → S) (l : List α) (h : l.Pairwise fun a b => f b ≤ f a) (eps : S) (k : Nat) {e : α} (he : l[k]? = some e) :
    eps ≤ f e ↔ k < (l.filter fun a => decide (eps ≤ f a)).length := by
  induction l generalizing k with
  | nil => cases he
  | cons a l ih =>
    rw [List.pairwise_cons] at h
    by_cases ha : eps ≤ f a
    · rw [List.filter_cons_of_pos (by simpa using ha), List.length_cons]
      cases k with
      | zero =>
        rw [List.getElem?_cons_zero] at he
        cases he
        exact ⟨fun _ => by omega, fun _ => ha⟩
      | succ k =>
        rw [List.getElem?_cons_succ] at he
        rw [ih h.2 k he]; omega
    · have hn : (a :: l).filter (fun a => decide (eps ≤ f a)) = [] := by
        rw [List.filter_eq_nil_iff]
        intro b hb
        simp only [decide_eq_true_eq]
        intro hc
        rcases List.mem_cons.1 hb with rfl | hb
        · exact ha hc
        · exact ha (le_trans hc (h.1 b hb))
      rw [hn]
      constructor
      · intro hc
        have := List.mem_of_getElem? he
        have h2 := List.filter_eq_nil_iff.1 hn e this
        simp only [decide_eq_true_eq] at h2
        exact absurd hc h2
      · intro hc; simp at hc

/-- What the theorems use of the neighbour order. -/
structure Rows (G : SG S) (nbr : Nat → List (Es S)) : Prop where
  perm : ∀ u, u < G.n → (nbr u).Perm (G.row u)
  desc : ∀ u, u < G.n → (nbr u).Pairwise fun a b => b.sim ≤ a.sim

theorem Rows.of {G : SG S} {sims : List (Es S)} (hs : sims.Perm G.arcs) {nbr : Nat → List (Es S)}
    (h : NeighborOrder G.n (fun u => (G.nb u).length) sims nbr) : Rows G nbr := ⟨fun _ hu => (h.row hs hu).1, fun _ hu => (h.row hs hu).2⟩

/-- The similar neighbours of `u` are the first `simCount` entries of its slice. -/
theorem Rows.take {G : SG S} {nbr : Nat → List (Es S)} (R : Rows G nbr) (eps : S) {u : Nat} (hu : u < G.n) (e : Es S) :
    e ∈ (nbr u).take (simCount nbr eps u) ↔ e.src = u ∧ e.ngh ∈ G.nb u ∧ e.sim = G.sim u e.ngh ∧ eps ≤ G.sim u e.ngh := by
  rw [simCount, take_bsearch _ _ (desc_pred (fun e : Es S => e.sim) _ (R.desc u hu) eps), List.mem_filter, (R.perm u hu).mem_iff, SG.row, List.mem_map, decide_eq_true_eq]
  constructor
  · rintro ⟨⟨v, hv, rfl⟩, h⟩
    exact ⟨rfl, hv, rfl, h⟩
  · rintro ⟨h1, h2, h3, h4⟩
    refine ⟨⟨e.ngh, h2, ?_⟩, h3 ▸ h4⟩
    obtain ⟨a, b, c⟩ := e
    dsimp only at h1 h3 ⊢
    rw [h1, h3]

theorem Rows.count {G : SG S} {nbr : Nat → List (Es S)} (R : Rows G nbr) (eps : S) {u : Nat} (hu : u < G.n) :
    ((nbr u).filter fun e => decide (eps ≤ e.sim)).length = ((G.nb u).filter fun v => decide (eps ≤ G.sim u v)).length := by
  rw [((R.perm u hu).filter _).length_eq, SG.row, List.filter_map, List.length_map]; rfl

/-! ### The core order -/

theorem degreeOffsets_aux (ds : List Nat) (s : List Nat) (hb : ∀ i ∈ s, 1 ≤ i ∧ i < ds.length) (o0 : Nat → Nat) (j : Nat) :
    (s.foldl (fun o i => fun j => if ds.getD i 0 ≠ ds.getD (i - 1) 0 ∧ ds.getD (i - 1) 0 + 1 ≤ j ∧ j < ds.getD i 0 + 1 then i else o j) o0 j =
      o0 j ∧ ∀ i ∈ s, ¬ (ds.getD (i - 1) 0 < j ∧ j ≤ ds.getD i 0)) ∨
    ∃ i ∈ s, ds.getD (i - 1) 0 < j ∧ j ≤ ds.getD i 0 ∧
      s.foldl (fun o i => fun j => if ds.getD i 0 ≠ ds.getD (i - 1) 0 ∧ ds.getD (i - 1) 0 + 1 ≤ j ∧ j < ds.getD i 0 + 1 then i else o j) o0 j = i := by
  induction s generalizing o0 with
  | nil => exact .inl ⟨rfl, fun i hi => by cases hi⟩
  | cons a s ih =>
    rw [List.foldl_cons]
    rcases ih (fun i hi => hb i (List.mem_cons_of_mem _ hi)) (fun j => if ds.getD a 0 ≠ ds.getD (a - 1) 0 ∧ ds.getD (a - 1) 0 + 1 ≤ j ∧ j < ds.getD a 0 + 1 then a else o0 j) with ⟨h1, h2⟩ | ⟨i, h1, h2, h3, h4⟩
    · by_cases hc : ds.getD (a - 1) 0 < j ∧ j ≤ ds.getD a 0
      · refine .inr ⟨a, List.mem_cons_self, hc.1, hc.2, ?_⟩
        rw [h1, if_pos ⟨by omega, by omega, by omega⟩]
      · refine .inl ⟨?_, fun i hi => ?_⟩
        · rw [h1, if_neg (by omega)]
        · rcases List.mem_cons.1 hi with rfl | hi
          · exact hc
          · exact h2 i hi
    · exact .inr ⟨i, List.mem_cons_of_mem _ h1, h2, h3, h4⟩

theorem getD_lt (l : List Nat) {i : Nat} (h : i < l.length) : l.getD i 0 = l[i] := by simp [List.getD, h]

theorem getD_mono {ds : List Nat} (hs : ds.Pairwise (· ≤ ·)) {i j : Nat} (hij : i ≤ j) (hj : j < ds.length) : ds.getD i 0 ≤ ds.getD j 0 := by
  rw [getD_lt _ (by omega : i < ds.length), getD_lt _ hj]
  rcases Nat.eq_or_lt_of_le hij with rfl | h
  · exact Nat.le_refl _
  · exact List.pairwise_iff_getElem.1 hs i j (by omega) hj h

/-- `degree_offsets[j]` is the first position with a degree of at least `j`. -/
theorem degreeOffsets_spec (ds : List Nat) (hs : ds.Pairwise (· ≤ ·)) (u0 : Nat → Nat) (s : List Nat) (hp : s.Perm (List.range' 1 (ds.length - 1)))
    {j : Nat} (hj : j ≤ ds.getD (ds.length - 1) 0) (hne : ds ≠ []) :
    degreeOffsets ds u0 s j < ds.length ∧ (∀ i, i < degreeOffsets ds u0 s j → ds.getD i 0 < j) ∧ (∀ i, degreeOffsets ds u0 s j ≤ i → i < ds.length → j ≤ ds.getD i 0) := by
  have hpos : 0 < ds.length := List.length_pos_iff.2 hne
  have hmem : ∀ i, i ∈ s ↔ 1 ≤ i ∧ i < ds.length := fun i => by
    rw [hp.mem_iff, List.mem_range'_1]; omega
  rcases degreeOffsets_aux ds s (fun i hi => (hmem i).1 hi) (fun j => if j < ds.getD 0 0 + 1 then 0 else u0 j) j with ⟨h1, h2⟩ | ⟨i, h1, h2, h3, h4⟩
  · by_cases h0 : j < ds.getD 0 0 + 1
    · have he : degreeOffsets ds u0 s j = 0 := by rw [degreeOffsets, h1, if_pos h0]
      rw [he]
      exact ⟨hpos, fun i hi => by omega, fun i _ hi => by have := getD_mono hs (Nat.zero_le i) hi; omega⟩
    · -- some step passes `j`
      exfalso
      have : ∀ i, i < ds.length → ds.getD i 0 < j := by
        intro i
        induction i with
        | zero => intro _; omega
        | succ i ih =>
          intro hi
          have := h2 (i + 1) ((hmem _).2 ⟨by omega, hi⟩)
          rw [Nat.add_sub_cancel] at this
          have := ih (by omega)
          omega
      have := this (ds.length - 1) (by omega)
      omega
  · have he : degreeOffsets ds u0 s j = i := h4
    have hi := (hmem i).1 h1
    rw [he]
    refine ⟨hi.2, fun k hk => ?_, fun k hk hk2 => ?_⟩
    · have := getD_mono hs (show k ≤ i - 1 by omega) (by omega); omega
    · have := getD_mono hs hk hk2; omega

theorem mapM_some {α β : Type} {f : α → Option β} {l : List α} {t : List β} (h : l.mapM f = some t) : List.Forall₂ (fun a b => f a = some b) l t := by
  induction l generalizing t with
  | nil => rw [List.mapM_nil] at h; cases h; exact .nil
  | cons a l ih =>
    rw [List.mapM_cons] at h
    cases ha : f a with
    | none => rw [ha] at h; cases h
    | some b =>
      rw [ha] at h
      cases hl : l.mapM f with
      | none => rw [hl] at h; cases h
      | some t' =>
        rw [hl] at h
        cases h
        exact .cons ha (ih hl)

theorem mapM_exists {α β : Type} {f : α → Option β} {l : List α} (h : ∀ a ∈ l, ∃ b, f a = some b) : ∃ t, l.mapM f = some t := by
  induction l with
  | nil => exact ⟨[], rfl⟩
  | cons a l ih =>
    obtain ⟨b, hb⟩ := h a List.mem_cons_self
    obtain ⟨t, ht⟩ := ih fun a ha => h a (List.mem_cons_of_mem _ ha)
    exact ⟨b :: t, by rw [List.mapM_cons, hb, ht]; rfl⟩

/-- The vertices with degree at least `j` are the ones from `degree_offsets[j]`. -/
theorem drop_offsets {n : Nat} (hn : n ≠ 0) {nbr : Nat → List (Es S)} {vd : List Nat} (hp : vd.Perm (List.range n))
    (hd : vd.Pairwise fun a b => (nbr a).length ≤ (nbr b).length) (u0 : Nat → Nat) {s : List Nat} (hs : s.Perm (List.range' 1 (n - 1))) {j : Nat}
    (hj : j ≤ (vd.map fun v => (nbr v).length).getD (n - 1) 0) (v : Nat) :
    v ∈ vd.drop (degreeOffsets (vd.map fun v => (nbr v).length) u0 s j) ↔ v < n ∧ j ≤ (nbr v).length := by
  have hlen : vd.length = n := by rw [hp.length_eq, List.length_range]
  have hsp := degreeOffsets_spec (vd.map fun v => (nbr v).length) (List.pairwise_map.2 hd) u0 s (by rwa [List.length_map, hlen]) (j := j)
    (by rwa [List.length_map, hlen]) (by intro h; rw [List.map_eq_nil_iff] at h; subst h; exact hn hlen.symm)
  rw [List.length_map] at hsp
  generalize degreeOffsets (vd.map fun v => (nbr v).length) u0 s j = o at hsp
  have hget : ∀ i (hi : i < vd.length), (vd.map fun v => (nbr v).length).getD i 0 = (nbr vd[i]).length := by
    intro i hi
    rw [getD_lt _ (by rwa [List.length_map]), List.getElem_map]
  constructor
  · intro h
    obtain ⟨i, hi, rfl⟩ := List.mem_iff_getElem.1 h
    rw [List.getElem_drop]
    rw [List.length_drop] at hi
    refine ⟨List.mem_range.1 (hp.mem_iff.1 (List.getElem_mem _)), ?_⟩
    have := hsp.2.2 (o + i) (by omega) (by omega)
    rwa [hget _ (by omega)] at this
  · rintro ⟨h1, h2⟩
    obtain ⟨i, hi, rfl⟩ := List.mem_iff_getElem.1 (hp.mem_iff.2 (List.mem_range.2 h1))
    by_cases hio : i < o
    · have := hsp.2.1 i hio
      rw [hget _ hi] at this; omega
    · rw [List.mem_iff_getElem]
      exact ⟨i - o, by rw [List.length_drop]; omega, by rw [List.getElem_drop]; congr 1; omega⟩

theorem max_degree {n : Nat} {nbr : Nat → List (Es S)} {vd : List Nat} (hp : vd.Perm (List.range n))
    (hd : vd.Pairwise fun a b => (nbr a).length ≤ (nbr b).length) {v : Nat} (hv : v < n) :
    (nbr v).length ≤ (vd.map fun v => (nbr v).length).getD (n - 1) 0 := by
  have hlen : vd.length = n := by rw [hp.length_eq, List.length_range]
  obtain ⟨i, hi, rfl⟩ := List.mem_iff_getElem.1 (hp.mem_iff.2 (List.mem_range.2 hv))
  have := getD_mono (ds := vd.map fun v => (nbr v).length) (List.pairwise_map.2 hd) (show i ≤ n - 1 by omega) (by rw [List.length_map]; omega)
  rwa [getD_lt (i := i) _ (by rwa [List.length_map]), List.getElem_map] at this

/-- The list for `mu`: the vertices with `mu - 1` neighbours, each with the similarity of the `mu - 1`-th one, descending. -/
theorem coreList_mem {n : Nat} (hn : n ≠ 0) {nbr : Nat → List (Es S)} {vd : List Nat} (hp : vd.Perm (List.range n))
    (hd : vd.Pairwise fun a b => (nbr a).length ≤ (nbr b).length) {u0 : Nat → Nat} {s : List Nat} (hs : s.Perm (List.range' 1 (n - 1))) {mu : Nat} (hmu : 1 < mu)
    (hj : mu - 1 ≤ (vd.map fun v => (nbr v).length).getD (n - 1) 0) {l : List (Nat × S)}
    (h : CoreList nbr vd (degreeOffsets (vd.map fun v => (nbr v).length) u0 s) mu l) :
    (l.map (·.1)).Nodup ∧ l.Pairwise (fun a b => b.2 ≤ a.2) ∧
      ∀ v x, (v, x) ∈ l ↔ v < n ∧ ∃ e, (nbr v)[mu - 2]? = some e ∧ x = e.sim := by
  rw [CoreList, if_neg (by omega)] at h
  obtain ⟨t, h1, h2, h3⟩ := h
  have hf := mapM_some h1
  have hfst : t.map (·.1) = vd.drop (degreeOffsets (vd.map fun v => (nbr v).length) u0 s (mu - 1)) := by
    clear h1 h2 h3
    generalize vd.drop (degreeOffsets (vd.map fun v => (nbr v).length) u0 s (mu - 1)) = d at hf
    induction hf with
    | nil => rfl
    | cons hab _ ih =>
      rw [List.map_cons, ih]
      obtain ⟨e, -, he⟩ := Option.map_eq_some_iff.1 hab
      rw [← he]
  refine ⟨?_, h3, fun v x => ?_⟩
  · rw [(h2.map _).nodup_iff, hfst]
    exact (hp.nodup_iff.2 List.nodup_range).sublist (List.drop_sublist _ _)
  · rw [h2.mem_iff]
    constructor
    · intro hm
      obtain ⟨i, hi, he⟩ := List.mem_iff_getElem.1 hm
      have hlen := hf.length_eq
      have hg := (List.forall₂_iff_get.1 hf).2 i (by omega) hi
      simp only [List.get_eq_getElem] at hg
      rw [he] at hg
      obtain ⟨e, he1, he2⟩ := Option.map_eq_some_iff.1 hg
      cases he2
      exact ⟨((drop_offsets hn hp hd u0 hs hj _).1 (List.getElem_mem (by omega))).1, e, he1, rfl⟩
    · rintro ⟨hv, e, he, rfl⟩
      have hlen : mu - 2 < (nbr v).length := (List.getElem?_eq_some_iff.1 he).1
      have hm := (drop_offsets hn hp hd u0 hs hj v).2 ⟨hv, by omega⟩
      obtain ⟨i, hi, hie⟩ := List.mem_iff_getElem.1 hm
      have hg := (List.forall₂_iff_get.1 hf).2 i hi (by have := hf.length_eq; omega)
      simp only [List.get_eq_getElem] at hg
      rw [hie, he] at hg
      have : (v, e.sim) = t[i]'(by have := hf.length_eq; omega) := Option.some.inj hg
      rw [this]; exact List.getElem_mem _

/-- The thresholds exist: the reads of the neighbour order are in range. -/
theorem coreList_exists {n : Nat} (hn : n ≠ 0) {nbr : Nat → List (Es S)} {vd : List Nat} (hp : vd.Perm (List.range n))
    (hd : vd.Pairwise fun a b => (nbr a).length ≤ (nbr b).length) (u0 : Nat → Nat) {s : List Nat} (hs : s.Perm (List.range' 1 (n - 1))) {mu : Nat}
    (hj : mu - 1 ≤ (vd.map fun v => (nbr v).length).getD (n - 1) 0) :
    ∃ l, CoreList nbr vd (degreeOffsets (vd.map fun v => (nbr v).length) u0 s) mu l := by
  rw [show (∃ l, CoreList nbr vd (degreeOffsets (vd.map fun v => (nbr v).length) u0 s) mu l) = ∃ l, if mu ≤ 1 then l = []
    else ∃ t, ((vd.drop (degreeOffsets (vd.map fun v => (nbr v).length) u0 s (mu - 1))).mapM fun v => ((nbr v)[mu - 2]?).map fun e => (v, e.sim)) = some t ∧
    l.Perm t ∧ l.Pairwise fun a b => b.2 ≤ a.2 from rfl]
  by_cases h : mu ≤ 1
  · exact ⟨[], by rw [if_pos h]⟩
  · obtain ⟨t, ht⟩ := mapM_exists (f := fun v => ((nbr v)[mu - 2]?).map fun e => (v, e.sim)) (l := vd.drop (degreeOffsets (vd.map fun v => (nbr v).length) u0 s (mu - 1)))
      (fun v hv => by
        have := ((drop_offsets hn hp hd u0 hs hj v).1 hv).2
        exact ⟨_, by rw [List.getElem?_eq_getElem (show mu - 2 < (nbr v).length by omega)]; rfl⟩)
    refine ⟨t.mergeSort fun a b => decide (b.2 ≤ a.2), ?_⟩
    rw [if_neg h]
    refine ⟨t, ht, List.mergeSort_perm _ _, ?_⟩
    have := List.pairwise_mergeSort (le := fun a b : Nat × S => decide (b.2 ≤ a.2))
      (fun a b c h1 h2 => by rw [decide_eq_true_eq] at *; exact le_trans h2 h1) (fun a b => by
        rw [Bool.or_eq_true, decide_eq_true_eq, decide_eq_true_eq]; exact le_total _ _) t
    exact this.imp fun h => by rwa [decide_eq_true_eq] at h

/-- What the queries use of the index. -/
structure Ix (G : SG S) (nbr : Nat → List (Es S)) (ord : List (List (Nat × S))) : Prop extends Rows G nbr where
  core : CoreOrder G.n nbr ord

section
variable {G : SG S} {nbr : Nat → List (Es S)} {ord : List (List (Nat × S))}

theorem Ix.list (X : Ix G nbr ord) {mu : Nat} (hmu : 1 < mu) {l : List (Nat × S)} (hl : ord[mu]? = some l) :
    (l.map (·.1)).Nodup ∧ l.Pairwise (fun a b => b.2 ≤ a.2) ∧ ∀ v x, (v, x) ∈ l ↔ v < G.n ∧ ∃ e, (nbr v)[mu - 2]? = some e ∧ x = e.sim := by
  have hn : G.n ≠ 0 := fun h => by rw [X.core.none h] at hl; cases hl
  obtain ⟨vd, u0, s, h1, h2, h3, h4, h5⟩ := X.core.ex hn
  have := (List.getElem?_eq_some_iff.1 hl).1
  exact coreList_mem hn h1 h2 h3 hmu (by omega) (h5 mu l hl)

/-- `GetCores` returns exactly the cores, each once. -/
theorem Ix.cores (X : Ix G nbr ord) (mu : Nat) (eps : S) : (getCores G.n ord mu eps).Nodup ∧ ∀ v, v ∈ getCores G.n ord mu eps ↔ Core G mu eps v := by
  rw [getCores]
  by_cases hmu : mu ≤ 1
  · rw [if_pos hmu]
    exact ⟨List.nodup_range, fun v => by rw [List.mem_range, Core]; exact ⟨fun h => ⟨h, by omega⟩, fun h => h.1⟩⟩
  · rw [if_neg hmu]
    cases hl : ord[mu]? with
    | none =>
      refine ⟨List.nodup_nil, fun v => ⟨fun h => (by cases h), fun h => ?_⟩⟩
      exfalso
      have hn : G.n ≠ 0 := fun h0 => by have := h.1; omega
      obtain ⟨vd, u0, s, h1, h2, h3, h4, h5⟩ := X.core.ex hn
      have h6 := List.getElem?_eq_none_iff.1 hl
      have h7 := max_degree h1 h2 h.1
      have h8 : (nbr v).length = (G.nb v).length := by rw [(X.perm v h.1).length_eq, SG.row, List.length_map]
      have h9 := List.length_filter_le (fun u => decide (eps ≤ G.sim v u)) (G.nb v)
      have h10 := h.2
      omega
    | some l =>
      obtain ⟨h1, h2, h3⟩ := X.list (by omega) hl
      have htake := take_bsearch (fun c : Nat × S => decide (eps ≤ c.2)) l (desc_pred (·.2) l h2 eps)
      dsimp only
      rw [htake]
      refine ⟨h1.sublist ((List.filter_sublist).map _), fun v => ?_⟩
      rw [List.mem_map]
      constructor
      · rintro ⟨⟨w, x⟩, hm, rfl⟩
        rw [List.mem_filter, h3, decide_eq_true_eq] at hm
        obtain ⟨⟨hv, e, he, rfl⟩, hx⟩ := hm
        have := (getElem_ge (·.sim) _ (X.desc w hv) eps _ he).1 hx
        rw [X.count eps hv] at this
        exact ⟨hv, by dsimp only; omega⟩
      · rintro ⟨hv, hc⟩
        rw [← X.count eps hv] at hc
        have hle := List.length_filter_le (fun e : Es S => decide (eps ≤ e.sim)) (nbr v)
        have he : (nbr v)[mu - 2]? = some ((nbr v)[mu - 2]'(by omega)) := List.getElem?_eq_getElem _
        refine ⟨(v, ((nbr v)[mu - 2]'(by omega)).sim), ?_, rfl⟩
        rw [List.mem_filter, h3, decide_eq_true_eq]
        exact ⟨⟨hv, _, he, rfl⟩, (getElem_ge (·.sim) _ (X.desc v hv) eps _ he).2 (by omega)⟩

/-- With a smaller threshold the cores are kept, in the same positions. -/
theorem Ix.prefix (X : Ix G nbr ord) (mu : Nat) {eps eps' : S} (h : eps' ≤ eps) : getCores G.n ord mu eps <+: getCores G.n ord mu eps' := by
  rw [getCores, getCores]
  by_cases hmu : mu ≤ 1
  · rw [if_pos hmu, if_pos hmu]
  · rw [if_neg hmu, if_neg hmu]
    cases hl : ord[mu]? with
    | none => exact List.prefix_refl _
    | some l =>
      obtain ⟨-, h2, -⟩ := X.list (by omega) hl
      dsimp only
      refine List.IsPrefix.map _ ?_
      rw [List.prefix_take_iff]
      refine ⟨List.take_prefix _ _, ?_⟩
      have : bsearch (fun c : Nat × S => decide (eps ≤ c.2)) l ≤ bsearch (fun c : Nat × S => decide (eps' ≤ c.2)) l := by
        rw [bsearch_eq _ _ (desc_pred (·.2) l h2 eps), bsearch_eq _ _ (desc_pred (·.2) l h2 eps')]
        refine List.Sublist.length_le (List.monotone_filter_right l fun c hc => ?_)
        rw [decide_eq_true_eq] at hc ⊢
        exact le_trans h hc
      exact Nat.le_trans (List.length_take_le _ _) this

/-- Every graph has an index. -/
theorem index_exists (G : SG S) : ∃ nbr ord, NeighborOrder G.n (fun u => (G.nb u).length) G.arcs nbr ∧ CoreOrder G.n nbr ord := by
  classical
  let le : Es S → Es S → Bool := fun a b => decide (¬ before b a)
  have hs := List.pairwise_mergeSort (le := le) (fun a b c h1 h2 => by
      simp only [le] at *
      rw [decide_eq_true_eq] at *
      intro h
      rcases h with h | ⟨h, h'⟩
      · by_cases h3 : b.src < a.src
        · exact h1 (.inl h3)
        · exact h2 (.inl (by omega))
      · by_cases h3 : b.src < a.src
        · exact h1 (.inl h3)
        · by_cases h4 : c.src < b.src
          · exact h2 (.inl h4)
          · rcases lt_or_ge a.sim b.sim with h5 | h5
            · exact h1 (.inr ⟨by omega, h5⟩)
            · exact h2 (.inr ⟨by omega, lt_of_le_of_lt h5 h'⟩))
    (fun a b => by
      simp only [le]
      rw [Bool.or_eq_true, decide_eq_true_eq, decide_eq_true_eq]
      by_contra hc
      rw [not_or, not_not, not_not] at hc
      obtain ⟨h1 | h1, h2 | h2⟩ := hc
      · omega
      · omega
      · omega
      · exact absurd h1.2 (lt_asymm h2.2)) G.arcs
  have hN : NeighborOrder G.n (fun u => (G.nb u).length) G.arcs (fun i => ((G.arcs.mergeSort le).take (if i + 1 = G.n then (G.arcs.mergeSort le).length else
      exScan (fun u => (G.nb u).length) (i + 1))).drop (exScan (fun u => (G.nb u).length) i)) :=
    ⟨G.arcs.mergeSort le, List.mergeSort_perm _ _, hs.imp fun h => by simpa only [le, decide_eq_true_eq] using h, fun _ _ => rfl⟩
  generalize (fun i => ((G.arcs.mergeSort le).take (if i + 1 = G.n then (G.arcs.mergeSort le).length else
      exScan (fun u => (G.nb u).length) (i + 1))).drop (exScan (fun u => (G.nb u).length) i)) = nbr at hN
  by_cases hn : G.n = 0
  · exact ⟨nbr, [], hN, ⟨fun _ => rfl, fun h => absurd hn h⟩⟩
  · let vd := (List.range G.n).mergeSort fun a b => decide ((nbr a).length ≤ (nbr b).length)
    have hp : vd.Perm (List.range G.n) := List.mergeSort_perm _ _
    have hd : vd.Pairwise fun a b => (nbr a).length ≤ (nbr b).length :=
      (List.pairwise_mergeSort (le := fun a b => decide ((nbr a).length ≤ (nbr b).length)) (fun a b c h1 h2 => by
        rw [decide_eq_true_eq] at *; omega) (fun a b => by
        rw [Bool.or_eq_true, decide_eq_true_eq, decide_eq_true_eq]; omega) (List.range G.n)).imp fun h => by rwa [decide_eq_true_eq] at h
    let D := (vd.map fun v => (nbr v).length).getD (G.n - 1) 0
    have hex : ∀ mu, mu < D + 2 → ∃ l, CoreList nbr vd (degreeOffsets (vd.map fun v => (nbr v).length) (fun _ => 0) (List.range' 1 (G.n - 1))) mu l :=
      fun mu hmu => coreList_exists hn hp hd _ (.refl _) (by omega)
    choose f hf using hex
    refine ⟨nbr, (List.range (D + 2)).attach.map fun x => f x.1 (List.mem_range.1 x.2), hN, fun h => absurd h hn, fun _ =>
      ⟨vd, fun _ => 0, List.range' 1 (G.n - 1), hp, hd, .refl _, ?_, fun mu l hl => ?_⟩⟩
    · rw [List.length_map, List.length_attach, List.length_range]
    · obtain ⟨hlt, hl⟩ := List.getElem?_eq_some_iff.1 hl
      rw [List.getElem_map, List.getElem_attach] at hl
      subst hl
      have := hf mu (by rwa [List.length_map, List.length_attach, List.length_range] at hlt)
      convert this using 2
      exact List.getElem_range _

end

end Gbbs.Scan
