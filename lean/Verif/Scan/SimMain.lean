/-
C108: the array of similarities, the exact measures, and their limits.
-/
import Verif.Scan.Sim
import Verif.Scan.Exists
import Mathlib.Data.List.Perm.Subperm

namespace Gbbs.Scan

open Finset (range)

/-! ### Model of the measures -/

/-- The numerator and the denominator of `JaccardSimilarity`, `similarity_measure.h:880-888`, in `uintE`. -/
def jaccard (d1 d2 : Nat) (c : Int) : Int × Int := ((c + 2) % 2 ^ 32, (((d1 + d2 : Nat) : Int) % 2 ^ 32 - c) % 2 ^ 32)

/-- The numerator of `CosineSimilarity` without weights and the arguments of the two square roots, `:779-788`. -/
def cosine (d1 d2 : Nat) (c : Int) : Int × Int × Int := ((c + 2) % 2 ^ 32, ((d1 : Int) + 1) % 2 ^ 32, ((d2 : Int) + 1) % 2 ^ 32)

/-! ### Specification -/

/-- The closed neighbourhood. -/
def WG.C (G : WG) (u : Nat) : Finset Nat := insert u (G.N u)

/-- The graph with the similarities: `f` for the sum of the common neighbours, `ap` between two vertices of high degree. -/
def WG.sg {S : Type} (G : WG) (hi : Nat → Bool) (f : Nat → Nat → Int → S) (ap : Nat → Nat → S) : SG S :=
  ⟨G.n, G.nb, fun u v => if hi u && hi v then ap u v else f u v (G.shared u v % 2 ^ 32)⟩

section
variable {S : Type} {G : WG} {rank : Nat → Nat} {hi : Nat → Bool} {f : Nat → Nat → Int → S} {ap : Nat → Nat → S}

theorem arcs_len (G : SG S) : G.arcs.length = exScan (fun u => (G.nb u).length) G.n := by
  rw [SG.arcs]
  induction G.n with
  | zero => rfl
  | succ k ih => rw [List.range_succ, List.flatMap_append, List.length_append, ih, exScan]; simp

theorem arcs_iff {G : SG S} {e : Es S} : e ∈ G.arcs ↔ e.src < G.n ∧ e.ngh ∈ G.nb e.src ∧ e.sim = G.sim e.src e.ngh := by
  rw [SG.arcs, List.mem_flatMap]
  constructor
  · rintro ⟨u, hu, he⟩
    obtain ⟨v, hv, rfl⟩ := List.mem_map.1 he
    exact ⟨List.mem_range.1 hu, hv, rfl⟩
  · rintro ⟨h1, h2, h3⟩
    exact ⟨e.src, List.mem_range.2 h1, List.mem_map.2 ⟨e.ngh, h2, by rw [← h3]⟩⟩

theorem arcs_nodup {G : SG S} (h : ∀ u, (G.nb u).Nodup) : G.arcs.Nodup := by
  rw [SG.arcs, List.nodup_flatMap]
  refine ⟨fun u _ => (h u).map fun v v' he => by cases he; rfl, List.nodup_range.imp fun {u u'} hne e h1 h2 => hne ?_⟩
  obtain ⟨v, -, rfl⟩ := List.mem_map.1 h1
  obtain ⟨v', -, he⟩ := List.mem_map.1 h2
  cases he
  rfl

theorem shared_comm (u v : Nat) : G.shared u v = G.shared v u := by
  rw [WG.shared, WG.shared, Finset.inter_comm]
  exact Finset.sum_congr rfl fun x _ => Int.mul_comm _ _

/-- The array holds every arc once, with its similarity, in some order. -/
theorem sims_perm (hG : G.Ok) (hr : ∀ u v, u < G.n → v < G.n → rank u = rank v → u = v) (hh : ∀ u v, v ∈ G.nb u → rank u < rank v → hi u = true → hi v = true)
    (hf : ∀ u v c, f u v c = f v u c) (hap : ∀ u v, ap u v = ap v u) {evs : List (Nat × Int)} (he : Counted G.n hi (G.dir rank) evs) {dflt : Es S} {sims : List (Es S)}
    (hs : SimsOut G.m (G.dir rank) (fun v u c => if hi v then ap v u else f v u c) dflt G.n (counter evs) sims) : sims.Perm (G.sg hi f ap).arcs := by
  refine (List.Subperm.perm_of_length_le (List.Nodup.subperm (arcs_nodup (G := G.sg hi f ap) fun u => (hG.srt u).imp Nat.ne_of_lt) fun e hm => ?_) ?_).symm
  · obtain ⟨u, v, s⟩ := e
    obtain ⟨h1, h2, h3⟩ := arcs_iff.1 hm
    dsimp only [WG.sg] at h1 h2 h3
    subst h3
    have key : ∀ {a b}, b ∈ G.nb a → rank a < rank b → ∃ k, (G.dir rank a)[k]? = some (b, G.wt a b) ∧
        (if hi a then ap a b else f a b (counter evs (offs (G.dir rank) a + k))) = if hi a && hi b then ap a b else f a b (G.shared a b % 2 ^ 32) := by
      intro a b hb hlt
      obtain ⟨k, hk, hk'⟩ := List.mem_iff_getElem.1 (show (b, G.wt a b) ∈ G.dir rank a from mem_dir.2 ⟨hb, hlt, rfl⟩)
      have hk'' : (G.dir rank a)[k]? = some (b, G.wt a b) := by rw [List.getElem?_eq_getElem hk, hk']
      refine ⟨k, hk'', ?_⟩
      by_cases ha : hi a = true
      · rw [if_pos ha, if_pos (by rw [ha, hh a b hb hlt ha]; rfl)]
      · rw [if_neg ha, if_neg (by rw [Bool.and_eq_true]; exact fun h => ha h.1), counter_exact hG hr hh he hk'' ha]
    have hne : rank u ≠ rank v := fun he => by
      have := hr u v h1 (hG.lt u v h2).2 he
      subst this
      exact hG.loop _ h2
    rcases Nat.lt_or_gt_of_ne hne with hlt | hlt
    · obtain ⟨k, hk, he⟩ := key h2 hlt
      have := hs.fst u k v _ h1 hk
      rw [he] at this
      exact List.mem_of_getElem? this
    · obtain ⟨k, hk, he⟩ := key (hG.symm u v h2).1 hlt
      have := hs.snd v k u _ (hG.lt u v h2).2 hk
      rw [he] at this
      have heq : (if hi v && hi u then ap v u else f v u (G.shared v u % 2 ^ 32)) = if hi u && hi v then ap u v else f u v (G.shared u v % 2 ^ 32) := by
        rw [Bool.and_comm, hap v u, hf v u, shared_comm]
      rw [heq] at this
      exact List.mem_of_getElem? this
  · rw [hs.len, arcs_len]; exact Nat.le_refl _

/-- Half of the arcs lead to a higher rank, so the array has room for them. -/
theorem room (hG : G.Ok) : 2 * exScan (fun u => (G.dir rank u).length) G.n ≤ G.m := by
  let L : List (Nat × Nat) := (List.range G.n).flatMap fun v => (G.dir rank v).map fun e => (v, e.1)
  have hL : ∀ {p}, p ∈ L ↔ p.1 < G.n ∧ p.2 ∈ G.nb p.1 ∧ rank p.1 < rank p.2 := by
    intro p
    rw [List.mem_flatMap]
    constructor
    · rintro ⟨u, hu, he⟩
      obtain ⟨e, hv, rfl⟩ := List.mem_map.1 he
      have := mem_dir.1 hv
      exact ⟨List.mem_range.1 hu, this.1, this.2.1⟩
    · rintro ⟨h1, h2, h3⟩
      exact ⟨p.1, List.mem_range.2 h1, List.mem_map.2 ⟨(p.2, G.wt p.1 p.2), mem_dir.2 ⟨h2, h3, rfl⟩, rfl⟩⟩
  have hLn : L.Nodup := by
    rw [List.nodup_flatMap]
    refine ⟨fun u _ => ?_, List.nodup_range.imp fun {u u'} hne e h1 h2 => hne ?_⟩
    · rw [List.Nodup, List.pairwise_map]
      exact (dir_srt hG u).imp fun h he => Nat.ne_of_lt h (congrArg Prod.snd he)
    · obtain ⟨v, -, rfl⟩ := List.mem_map.1 h1
      obtain ⟨v', -, he⟩ := List.mem_map.1 h2
      exact (congrArg Prod.fst he).symm
  have hLl : L.length = exScan (fun u => (G.dir rank u).length) G.n := by
    show ((List.range G.n).flatMap _).length = _
    induction G.n with
    | zero => rfl
    | succ k ih => rw [List.range_succ, List.flatMap_append, List.length_append, ih, exScan]; simp
  let A : List (Nat × Nat) := (⟨G.n, G.nb, fun _ _ => ()⟩ : SG Unit).arcs.map fun e => (e.src, e.ngh)
  have hA : (L ++ L.map Prod.swap).length ≤ A.length := by
    refine (List.Nodup.subperm ?_ ?_).length_le
    · rw [List.nodup_append]
      refine ⟨hLn, hLn.map Prod.swap_injective, fun a ha b hb he => ?_⟩
      subst he
      obtain ⟨c, hc, rfl⟩ := List.mem_map.1 hb
      have e1 := hL.1 ha
      have e2 := hL.1 hc
      have := e1.2.2
      have := e2.2.2
      dsimp only [Prod.swap] at *
      omega
    · intro p hp
      have hpA : ∀ {p : Nat × Nat}, p.1 < G.n → p.2 ∈ G.nb p.1 → p ∈ A := fun {p} h1 h2 => List.mem_map.2 ⟨⟨p.1, p.2, ()⟩, arcs_iff.2 ⟨h1, h2, rfl⟩, rfl⟩
      rcases List.mem_append.1 hp with hp | hp
      · have := hL.1 hp; exact hpA this.1 this.2.1
      · obtain ⟨c, hc, rfl⟩ := List.mem_map.1 hp
        have := hL.1 hc
        exact hpA (hG.lt _ _ this.2.1).2 (hG.symm _ _ this.2.1).1
  rw [List.length_append, List.length_map, hLl, List.length_map, arcs_len] at hA
  rw [WG.m]
  dsimp only at hA
  omega

/-- The array can be filled. -/
theorem simsOut_exists (hG : G.Ok) (sim : Nat → Nat → Int → S) (dflt : Es S) (cnt : Nat → Int) : ∃ sims, SimsOut G.m (G.dir rank) sim dflt G.n cnt sims := by
  classical
  have hD := dir_srt (rank := rank) hG
  have hroom := room (rank := rank) hG
  have hex : ∀ q, ∃ e : Es S, (∀ v k u w, v < G.n → (G.dir rank v)[k]? = some (u, w) → q / 2 = offs (G.dir rank) v + k →
      e = if q % 2 = 0 then ⟨v, u, sim v u (cnt (offs (G.dir rank) v + k))⟩ else ⟨u, v, sim v u (cnt (offs (G.dir rank) v + k))⟩) ∧
      ((¬ ∃ v k u w, v < G.n ∧ (G.dir rank v)[k]? = some (u, w) ∧ q / 2 = offs (G.dir rank) v + k) → e = dflt) := by
    intro q
    by_cases h : ∃ v k u w, v < G.n ∧ (G.dir rank v)[k]? = some (u, w) ∧ q / 2 = offs (G.dir rank) v + k
    · have h' := h
      obtain ⟨v, k, u, w, h1, h2, h3⟩ := h'
      refine ⟨if q % 2 = 0 then ⟨v, u, sim v u (cnt (offs (G.dir rank) v + k))⟩ else ⟨u, v, sim v u (cnt (offs (G.dir rank) v + k))⟩, ?_, fun hn => absurd h hn⟩
      intro v' k' u' w' h1' h2' h3'
      obtain ⟨rfl, rfl⟩ := (pos_iff hD h2 h2').1 (by rw [← h3, h3'])
      rw [← h3, ← h3']
    · exact ⟨dflt, fun v k u w h1 h2 h3 => absurd ⟨v, k, u, w, h1, h2, h3⟩ h, fun _ => rfl⟩
  choose at_ hat hdf using hex
  have hlt : ∀ v k u w, v < G.n → (G.dir rank v)[k]? = some (u, w) → offs (G.dir rank) v + k < exScan (fun u => (G.dir rank u).length) G.n := by
    intro v k u w h1 h2
    have := (List.getElem?_eq_some_iff.1 h2).1
    have h3 := exScan_mono (fun u => (G.dir rank u).length) (show v + 1 ≤ G.n by omega)
    rw [exScan] at h3
    rw [offs]; omega
  have hget : ∀ q, q < G.m → ((List.range G.m).map at_)[q]? = some (at_ q) := fun q hq => by
    rw [List.getElem?_map, List.getElem?_range hq]; rfl
  refine ⟨(List.range G.m).map at_, by simp, fun v k u w h1 h2 => ?_, fun v k u w h1 h2 => ?_, fun q hq hd => ?_⟩
  · have := hlt v k u w h1 h2
    rw [hget _ (by omega), hat _ v k u w h1 h2 (by omega), if_pos (by omega)]
  · have := hlt v k u w h1 h2
    rw [hget _ (by omega), hat _ v k u w h1 h2 (by omega), if_neg (by omega)]
  · rw [hget _ hq]
    congr 1
    refine hdf q ?_
    rintro ⟨v, k, u, w, h1, h2, h3⟩
    have := hlt v k u w h1 h2
    omega

/-! ### The exact measures -/

theorem card_closed (hG : G.Ok) (u : Nat) : (G.C u).card = (G.nb u).length + 1 := by
  rw [WG.C, Finset.card_insert_of_notMem (by rw [WG.N, List.mem_toFinset]; exact hG.loop u), WG.N, List.toFinset_card_of_nodup ((hG.srt u).imp Nat.ne_of_lt)]

theorem closed_inter (hG : G.Ok) {u v : Nat} (h : v ∈ G.nb u) : (G.C u ∩ G.C v).card = (G.N u ∩ G.N v).card + 2 := by
  have hu := hG.loop u
  have hv := hG.loop v
  have hvu := (hG.symm u v h).1
  have hne : u ≠ v := fun e => by subst e; exact hu h
  have : G.C u ∩ G.C v = insert u (insert v (G.N u ∩ G.N v)) := by
    ext x
    simp only [WG.C, WG.N, Finset.mem_inter, Finset.mem_insert, List.mem_toFinset]
    constructor
    · rintro ⟨rfl | h1, rfl | h2⟩
      · exact .inl rfl
      · exact .inl rfl
      · exact .inr (.inl rfl)
      · exact .inr (.inr ⟨h1, h2⟩)
    · rintro (rfl | rfl | ⟨h1, h2⟩)
      · exact ⟨.inl rfl, .inr hvu⟩
      · exact ⟨.inr h, .inl rfl⟩
      · exact ⟨.inr h1, .inr h2⟩
  rw [this, Finset.card_insert_of_notMem, Finset.card_insert_of_notMem]
  · simp only [WG.N, Finset.mem_inter, List.mem_toFinset]; exact fun h => hv h.2
  · simp only [WG.N, Finset.mem_inter, Finset.mem_insert, List.mem_toFinset]
    rintro (h | h)
    · exact hne h
    · exact hu h.1

theorem card_le (hG : G.Ok) {u : Nat} (hu : u < G.n) (s : Finset Nat) (hs : ∀ x ∈ s, x = u ∨ ∃ v, x ∈ G.nb v) : s.card ≤ G.n := by
  have : s ⊆ range G.n := fun x hx => by
    rw [Finset.mem_range]
    rcases hs x hx with rfl | ⟨v, hv⟩
    · exact hu
    · exact (hG.lt v x hv).2
  simpa using Finset.card_le_card this

/-- Without weights the counter is the number of common neighbours. -/
theorem shared_card (h1 : ∀ u v, G.wt u v = 1) (u v : Nat) : G.shared u v = (G.N u ∩ G.N v).card := by
  rw [WG.shared, Finset.sum_congr rfl fun x _ => by rw [h1, h1], Finset.sum_const]
  simp

theorem shared_fits (hG : G.Ok) (hn : G.n ≤ UF.uMax) (h1 : ∀ u v, G.wt u v = 1) {u : Nat} (hu : u < G.n) (v : Nat) :
    G.shared u v % 2 ^ 32 = (G.N u ∩ G.N v).card := by
  rw [shared_card h1]
  refine Int.emod_eq_of_lt (by omega) ?_
  have := card_le hG hu (G.N u ∩ G.N v) fun x hx => .inr ⟨u, by simpa [WG.N] using (Finset.mem_inter.1 hx).1⟩
  have hm : UF.uMax < 2 ^ 32 := by decide
  omega

/-- C108, Jaccard: the quotient formed for an edge has the size of the intersection of the closed neighbourhoods above, and that of
their union below. -/
theorem jaccard_exact (hG : G.Ok) (hn : G.n ≤ UF.uMax) (h1 : ∀ u v, G.wt u v = 1) {u v : Nat} (h : v ∈ G.nb u) :
    jaccard (G.nb u).length (G.nb v).length (G.shared u v % 2 ^ 32) = (((G.C u ∩ G.C v).card : Int), ((G.C u ∪ G.C v).card : Int)) := by
  have hu := (hG.lt u v h).1
  have hm : UF.uMax < 2 ^ 32 := by decide
  have hc : ∀ x ∈ G.C u ∪ G.C v, x = u ∨ ∃ w, x ∈ G.nb w := by
    intro x hx
    simp only [WG.C, WG.N, Finset.mem_union, Finset.mem_insert, List.mem_toFinset] at hx
    rcases hx with (rfl | hx) | (rfl | hx)
    · exact .inl rfl
    · exact .inr ⟨_, hx⟩
    · exact .inr ⟨_, h⟩
    · exact .inr ⟨_, hx⟩
  have e1 := card_le hG hu (G.C u ∪ G.C v) hc
  have e2 := card_le hG hu (G.C u ∩ G.C v) fun x hx => hc x (Finset.mem_union_left _ (Finset.mem_inter.1 hx).1)
  have e3 := Finset.card_union_add_card_inter (G.C u) (G.C v)
  rw [card_closed hG, card_closed hG, closed_inter hG h] at e3
  rw [jaccard, shared_fits hG hn h1 hu, closed_inter hG h]
  rw [closed_inter hG h] at e2
  refine Prod.ext ?_ ?_ <;> dsimp only <;> omega

/-- C108, cosine: the numerator is the size of the intersection of the closed neighbourhoods, the square roots are those of their sizes. -/
theorem cosine_exact (hG : G.Ok) (hn : G.n ≤ UF.uMax) (h1 : ∀ u v, G.wt u v = 1) {u v : Nat} (h : v ∈ G.nb u) :
    cosine (G.nb u).length (G.nb v).length (G.shared u v % 2 ^ 32) = (((G.C u ∩ G.C v).card : Int), ((G.C u).card : Int), ((G.C v).card : Int)) := by
  have hu := (hG.lt u v h).1
  have hv := (hG.lt u v h).2
  have hm : UF.uMax < 2 ^ 32 := by decide
  have hc : ∀ w, ∀ x ∈ G.C w, x = w ∨ ∃ y, x ∈ G.nb y := by
    intro w x hx
    simp only [WG.C, WG.N, Finset.mem_insert, List.mem_toFinset] at hx
    exact hx.imp id fun h => ⟨_, h⟩
  have e1 := card_le hG hu (G.C u) (hc u)
  have e2 := card_le hG hv (G.C v) (hc v)
  have e3 := card_le hG hu (G.C u ∩ G.C v) fun x hx => hc u x (Finset.mem_inter.1 hx).1
  rw [card_closed hG] at e1 e2
  rw [closed_inter hG h] at e3
  rw [cosine, shared_fits hG hn h1 hu, closed_inter hG h, card_closed hG, card_closed hG]
  refine Prod.ext ?_ (Prod.ext ?_ ?_) <;> dsimp only <;> omega

/-! ### The index on these similarities -/

theorem sg_ok (hG : G.Ok) (hn : G.n ≤ UF.uMax) (hf : ∀ u v c, f u v c = f v u c) (hap : ∀ u v, ap u v = ap v u) : (G.sg hi f ap).Ok where
  fits := hn
  lt u v _ hv := (hG.lt u v hv).2
  symm u v _ hv := ⟨(hG.symm u v hv).1, by
    dsimp only [WG.sg]
    rw [Bool.and_comm, hap v u, hf v u, shared_comm]⟩

/-- From the graph to the index: the constructor of `Index`, `scan.h:30-35`, for a similarity measure. With `cluster_correct` and
`clusterMany_correct`, queries return SCAN clusterings for the similarities of the measure. -/
theorem index_of_measure [LinearOrder S] (hG : G.Ok) (hr : ∀ u v, u < G.n → v < G.n → rank u = rank v → u = v)
    (hh : ∀ u v, v ∈ G.nb u → rank u < rank v → hi u = true → hi v = true)
    (hf : ∀ u v c, f u v c = f v u c) (hap : ∀ u v, ap u v = ap v u) {evs : List (Nat × Int)} (he : Counted G.n hi (G.dir rank) evs) {dflt : Es S} {sims : List (Es S)}
    (hs : SimsOut G.m (G.dir rank) (fun v u c => if hi v then ap v u else f v u c) dflt G.n (counter evs) sims)
    {nbr : Nat → List (Es S)} {ord : List (List (Nat × S))} (h1 : NeighborOrder G.n (fun u => (G.nb u).length) sims nbr) (h2 : CoreOrder G.n nbr ord) :
    Ix (G.sg hi f ap) nbr ord := .of (G := G.sg hi f ap) (sims_perm hG hr hh hf hap he hs) h1 h2

end

/-! ### Example -/

/-- Two triangles with a common edge, and a vertex hanging on. -/
def exW : WG where
  n := 5
  nb u := match u with | 0 => [1, 2] | 1 => [0, 2, 3] | 2 => [0, 1, 3, 4] | 3 => [1, 2] | 4 => [2] | _ => []
  wt _ _ := 1

theorem exW_nb {u v : Nat} (h : v ∈ exW.nb u) : u < 5 := by
  by_contra hc
  obtain ⟨k, rfl⟩ : ∃ k, u = k + 5 := ⟨u - 5, by omega⟩
  simp [exW] at h

theorem exW_ok : exW.Ok := by
  have h1 : ∀ u < 5, ∀ v ∈ exW.nb u, v < 5 ∧ u ∈ exW.nb v := by decide +kernel
  have h2 : ∀ u < 5, (exW.nb u).Pairwise (· < ·) := by decide +kernel
  have h3 : ∀ u < 5, u ∉ exW.nb u := by decide +kernel
  refine ⟨fun u v hv => ⟨exW_nb hv, (h1 u (exW_nb hv) v hv).1⟩, fun u => ?_, fun u v hv => ⟨(h1 u (exW_nb hv) v hv).2, rfl⟩, fun u hu => h3 u (exW_nb hu) hu⟩
  by_cases hu : u < 5
  · exact h2 u hu
  · obtain ⟨k, rfl⟩ : ∃ k, u = k + 5 := ⟨u - 5, by omega⟩
    exact List.Pairwise.nil

/-- The ranks by degree; the hypotheses of `counter_exact` and `sims_perm` are met, also with a threshold of 3 for high degrees. -/
def exRank (u : Nat) : Nat := match u with | 0 => 1 | 1 => 3 | 2 => 4 | 3 => 2 | 4 => 0 | u => u

example : exW.Ok ∧ (∀ u v, u < exW.n → v < exW.n → exRank u = exRank v → u = v) ∧
    (∀ u v, v ∈ exW.nb u → exRank u < exRank v → decide (3 ≤ (exW.nb u).length) = true → decide (3 ≤ (exW.nb v).length) = true) ∧
    (∃ evs, Counted exW.n (fun u => decide (3 ≤ (exW.nb u).length)) (exW.dir exRank) evs) ∧ exW.n ≤ UF.uMax ∧ exW.shared 1 2 = 2 := by
  refine ⟨exW_ok, ?_, ?_, ⟨_, .refl _⟩, by decide, by decide +kernel⟩
  · have : ∀ u < 5, ∀ v < 5, exRank u = exRank v → u = v := by decide +kernel
    exact fun u v hu hv => this u hu v hv
  · have : ∀ u < 5, ∀ v ∈ exW.nb u, exRank u < exRank v → decide (3 ≤ (exW.nb u).length) = true → decide (3 ≤ (exW.nb v).length) = true := by decide +kernel
    exact fun u v hv => this u (exW_nb hv) v hv

/-! ### Limits -/

/-- An edge between 0 and 1, and a self-loop at 1. -/
def loopW : WG where
  n := 2
  nb u := match u with | 0 => [1] | 1 => [0, 1] | _ => []
  wt _ _ := 1

/-- With a self-loop the array is not the arcs: the loop is missing, and an entry that was never written stands for an arc from 0 to 0. -/
theorem loop_wrong {S : Type} (sim : Nat → Nat → Int → S) (s0 : S) (cnt : Nat → Int) (G : SG S) (hn : G.n = 2) (hnb : G.nb = loopW.nb) :
    ∃ sims, SimsOut loopW.m (loopW.dir fun u => u) sim ⟨0, 0, s0⟩ 2 cnt sims ∧
      ∀ sims, SimsOut loopW.m (loopW.dir fun u => u) sim ⟨0, 0, s0⟩ 2 cnt sims → ⟨0, 0, s0⟩ ∈ sims ∧ ¬ sims.Perm G.arcs := by
  have hD0 : loopW.dir (fun u => u) 0 = [(1, 1)] := by decide
  have hD1 : loopW.dir (fun u => u) 1 = [] := by decide
  have hm : loopW.m = 3 := by decide
  have hx : exScan (fun u => (loopW.dir (fun u => u) u).length) 2 = 1 := by decide
  have ho : offs (loopW.dir fun u => u) 0 = 0 := by decide
  refine ⟨[⟨0, 1, sim 0 1 (cnt 0)⟩, ⟨1, 0, sim 0 1 (cnt 0)⟩, ⟨0, 0, s0⟩], ⟨by rw [hm]; rfl, ?_, ?_, ?_⟩, fun sims hs => ?_⟩
  · intro v k u w hv hk
    rcases (by omega : v = 0 ∨ v = 1) with rfl | rfl
    · rw [hD0] at hk
      cases k with
      | zero => cases hk; rw [ho]; rfl
      | succ k => cases hk
    · rw [hD1] at hk; cases hk
  · intro v k u w hv hk
    rcases (by omega : v = 0 ∨ v = 1) with rfl | rfl
    · rw [hD0] at hk
      cases k with
      | zero => cases hk; rw [ho]; rfl
      | succ k => cases hk
    · rw [hD1] at hk; cases hk
  · intro q hq hle
    rw [hx] at hle
    rw [hm] at hq
    have : q = 2 := by omega
    subst this
    rfl
  · have h2 := hs.rest 2 (by rw [hm]; decide) (by rw [hx])
    have hmem := List.mem_of_getElem? h2
    refine ⟨hmem, fun hp => ?_⟩
    have := (arcs_iff.1 (hp.mem_iff.1 hmem)).2.1
    rw [hnb] at this
    exact absurd this (show (0 : Nat) ∉ loopW.nb 0 by decide)

/-- The edge 3 4 with three common neighbours 0, 1, 2; all weights are 40000. -/
def heavyW (w : Int) : WG where
  n := 5
  nb u := match u with | 0 => [3, 4] | 1 => [3, 4] | 2 => [3, 4] | 3 => [0, 1, 2, 4] | 4 => [0, 1, 2, 3] | _ => []
  wt _ _ := w

theorem heavyW_nb {w : Int} {u v : Nat} (h : v ∈ (heavyW w).nb u) : u < 5 := by
  by_contra hc
  obtain ⟨k, rfl⟩ : ∃ k, u = k + 5 := ⟨u - 5, by omega⟩
  simp [heavyW] at h

theorem heavyW_ok (w : Int) : (heavyW w).Ok := by
  have h1 : ∀ u < 5, ∀ v ∈ (heavyW 0).nb u, v < 5 ∧ u ∈ (heavyW 0).nb v := by decide +kernel
  have h2 : ∀ u < 5, ((heavyW 0).nb u).Pairwise (· < ·) := by decide +kernel
  have h3 : ∀ u < 5, u ∉ (heavyW 0).nb u := by decide +kernel
  refine ⟨fun u v hv => ⟨heavyW_nb hv, (h1 u (heavyW_nb hv) v hv).1⟩, fun u => ?_, fun u v hv => ⟨(h1 u (heavyW_nb hv) v hv).2, rfl⟩, fun u hu => h3 u (heavyW_nb hu) hu⟩
  by_cases hu : u < 5
  · exact h2 u hu
  · obtain ⟨k, rfl⟩ : ∃ k, u = k + 5 := ⟨u - 5, by omega⟩
    exact List.Pairwise.nil

/-- With weights of 40000 the counter of the edge 3 4, which should be 4800000000, is 505032704 whatever the schedule: `std::atomic<uintE>` wraps.
Each product and each returned sum fits into `int`. -/
theorem heavy_wraps {evs : List (Nat × Int)} (he : Counted 5 (fun _ => false) ((heavyW 40000).dir fun u => u) evs) :
    (heavyW 40000).shared 3 4 = 4800000000 ∧ counter evs (offs ((heavyW 40000).dir fun u => u) 3 + 0) = 505032704 := by
  have hs : (heavyW 40000).shared 3 4 = 4800000000 := by decide +kernel
  refine ⟨hs, ?_⟩
  rw [counter_exact (G := heavyW 40000) (v := 4) (w := 40000) (heavyW_ok _) (fun _ _ _ _ h => h) (fun _ _ _ _ h => by cases h) he (by decide) (by decide), hs]
  rfl

/-- The same with negative weights: a triangle whose two edges at 2 have weights of different sign gives the edge 0 1 the counter 2^32 - 1, not -1. -/
def negW : WG where
  n := 3
  nb u := match u with | 0 => [1, 2] | 1 => [0, 2] | 2 => [0, 1] | _ => []
  wt u v := if (u = 0 ∧ v = 2) ∨ (u = 2 ∧ v = 0) then -1 else 1

theorem negW_nb {u v : Nat} (h : v ∈ negW.nb u) : u < 3 := by
  by_contra hc
  obtain ⟨k, rfl⟩ : ∃ k, u = k + 3 := ⟨u - 3, by omega⟩
  simp [negW] at h

theorem negW_ok : negW.Ok := by
  have h1 : ∀ u < 3, ∀ v ∈ negW.nb u, v < 3 ∧ u ∈ negW.nb v ∧ negW.wt v u = negW.wt u v := by decide +kernel
  have h2 : ∀ u < 3, (negW.nb u).Pairwise (· < ·) := by decide +kernel
  have h3 : ∀ u < 3, u ∉ negW.nb u := by decide +kernel
  refine ⟨fun u v hv => ⟨negW_nb hv, (h1 u (negW_nb hv) v hv).1⟩, fun u => ?_, fun u v hv => (h1 u (negW_nb hv) v hv).2, fun u hu => h3 u (negW_nb hu) hu⟩
  by_cases hu : u < 3
  · exact h2 u hu
  · obtain ⟨k, rfl⟩ : ∃ k, u = k + 3 := ⟨u - 3, by omega⟩
    exact List.Pairwise.nil

theorem neg_wraps {evs : List (Nat × Int)} (he : Counted 3 (fun _ => false) (negW.dir fun u => u) evs) :
    negW.shared 0 1 = -1 ∧ counter evs (offs (negW.dir fun u => u) 0 + 0) = 4294967295 := by
  have hs : negW.shared 0 1 = -1 := by decide +kernel
  refine ⟨hs, ?_⟩
  rw [counter_exact (G := negW) (v := 1) (w := 1) negW_ok (fun _ _ _ _ h => h) (fun _ _ _ _ h => by cases h) he (by decide) (by decide), hs]
  rfl

end Gbbs.Scan
