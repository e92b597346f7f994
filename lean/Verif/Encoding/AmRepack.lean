import Verif.Encoding.AmPack

/-! # Repacking `bytepd_amortized` lists -/

namespace Gbbs.AM

open Gbbs Byte Blk EncSpec

variable {W : Type} {c : WCodec W} {ok : W → Prop}

/-! ## Space -/

/-- Bytes used by weights. -/
def wsum (L : Lawful c ok) (l : List (Nat × W)) : Nat :=
  (l.map (fun e => (L.enc e.2).length)).sum

theorem wsum_append (L : Lawful c ok) (l r : List (Nat × W)) :
    wsum L (l ++ r) = wsum L l + wsum L r := by simp [wsum]

theorem wsum_sublist (L : Lawful c ok) {l r : List (Nat × W)} (h : l.Sublist r) :
    wsum L l ≤ wsum L r := by
  induction h with
  | slnil => exact Nat.le_refl _
  | cons e _ ih => simp only [wsum, List.map_cons, List.sum_cons] at *; omega
  | cons_cons e _ ih => simp only [wsum, List.map_cons, List.sum_cons] at *; omega

theorem encRest_bounds (L : Lawful c ok) (prev : Nat) (l : List (Nat × W)) (h : Chain ok prev l) :
    l.length + wsum L l ≤ (encRest L prev l).length ∧
    (encRest L prev l).length ≤ 5 * l.length + wsum L l := by
  induction l generalizing prev with
  | nil => simp [encRest, wsum]
  | cons e r ih =>
    obtain ⟨n, w⟩ := e
    obtain ⟨h1, h2, h3, h4⟩ := h
    have := ih n h4
    have := encEdge_len5 (d := n - prev) (by omega)
    have := encEdge_length_pos (d := n - prev) (by omega)
    simp only [wsum] at *
    simp only [encRest, List.length_append, List.length_cons, List.map_cons, List.sum_cons]
    omega

theorem encBlk_bounds (L : Lawful c ok) (src : Nat) (hsrc : src < uintEMod) (l : List (Nat × W))
    (hv : ValidList l) (hok : ∀ e ∈ l, ok e.2) :
    l.length + wsum L l ≤ (encBlk plain L src l).length ∧
    (encBlk plain L src l).length ≤ 5 * l.length + wsum L l := by
  cases l with
  | nil => simp [encBlk, wsum]
  | cons e r =>
    obtain ⟨n, w⟩ := e
    have hc : Chain ok n r := chain_of_valid hv (fun e he => hok e (List.mem_cons_of_mem _ he))
    have := encRest_bounds L n r hc
    have := encSigned_len5 (plain.lt src n hsrc (hv.bounded (n, w) (by simp)))
    have := encSigned_length (plain.d src n)
    simp only [wsum] at *
    simp only [encBlk, List.length_append, List.length_cons, List.map_cons, List.sum_cons]
    omega

/-- Old extent of a layout is at least one byte per originally encoded entry plus weights. -/
theorem ext_ge {L : Lawful c ok} {m : Mem} {a src vd ext : Nat} {offs cap : Nat → Nat}
    {orig blk : Nat → List (Nat × W)} (h : Lay L m a src vd ext offs cap orig blk) :
    8 * numBlocks vd + vd + wsum L (live vd orig) ≤ ext := by
  have key : ∀ k, k < numBlocks vd →
      4 * numBlocks vd + 4 * (k + 1) + st orig (k + 1) + wsum L ((List.range (k + 1)).flatMap orig) ≤
        offs k + 4 + cap k := by
    intro k hk
    induction k with
    | zero =>
      have h1 := h.off0
      have h2 := h.capOk 0 hk
      have hs := orig_sub vd orig hk
      have h3 := (encBlk_bounds L src h.srcLt (orig 0) (ValidList.sublist hs h.valid)
        (fun e he => h.ok e (hs.subset he))).1
      have h4 : st orig (0 + 1) = (orig 0).length := by simp [scan]
      have h5 : (List.range (0 + 1)).flatMap orig = orig 0 := by simp
      rw [h4, h5]; omega
    | succ k ih =>
      have h0 := ih (by omega)
      have h1 := h.sep k hk
      have h2 := h.capOk (k + 1) hk
      have hs := orig_sub vd orig hk
      have h3 := (encBlk_bounds L src h.srcLt (orig (k + 1)) (ValidList.sublist hs h.valid)
        (fun e he => h.ok e (hs.subset he))).1
      have h4 : st orig (k + 1 + 1) = st orig (k + 1) + (orig (k + 1)).length := rfl
      have h5 : (List.range (k + 1 + 1)).flatMap orig =
          (List.range (k + 1)).flatMap orig ++ orig (k + 1) := by
        rw [List.range_succ, List.flatMap_append]; simp
      rw [h4, h5, wsum_append]
      omega
  have hp := numBlocks_pos vd
  have h1 := key (numBlocks vd - 1) (by omega)
  have h2 := h.fits (numBlocks vd - 1) (by omega)
  have h3 := h.vdSum
  rw [show numBlocks vd - 1 + 1 = numBlocks vd by omega] at h1
  simp only [live]
  omega

/-- New layout: offset of block `i`. -/
def noffs (L : Lawful c ok) (src : Nat) (K : List (Nat × W)) (i : Nat) : Nat :=
  4 * numBlocks K.length + scan (fun i => 4 + (encBlk plain L src (block K i)).length) i

theorem noffs_succ (L : Lawful c ok) (src : Nat) (K : List (Nat × W)) (i : Nat) :
    noffs L src K (i + 1) = noffs L src K i + (4 + (encBlk plain L src (block K i)).length) := by
  simp only [noffs, scan]; omega

theorem noffs_mono (L : Lawful c ok) (src : Nat) (K : List (Nat × W)) {i j : Nat} (h : i ≤ j) :
    noffs L src K i ≤ noffs L src K j := by
  have := scan_mono (fun i => 4 + (encBlk plain L src (block K i)).length) h
  simp only [noffs]; omega

theorem noffs_le (L : Lawful c ok) (src : Nat) (hsrc : src < uintEMod) (K : List (Nat × W))
    (hv : ValidList K) (hok : ∀ e ∈ K, ok e.2) (k : Nat) :
    noffs L src K k ≤ 4 * numBlocks K.length + 4 * k + 5 * K.length + wsum L K := by
  have key : ∀ k, noffs L src K k ≤ 4 * numBlocks K.length + 4 * k +
      5 * ((List.range k).flatMap (block K)).length + wsum L ((List.range k).flatMap (block K)) := by
    intro k
    induction k with
    | zero => simp [noffs, scan]
    | succ k ih =>
      have hs := block_sublist K k
      have h1 := (encBlk_bounds L src hsrc (block K k) (ValidList.sublist hs hv)
        (fun e he => hok e (hs.subset he))).2
      rw [noffs_succ, List.range_succ, List.flatMap_append, List.length_append, wsum_append]
      simp only [List.flatMap_cons, List.flatMap_nil, List.append_nil]
      omega
  have h1 := key k
  have hs : ((List.range k).flatMap (block K)).Sublist K := by
    rw [flatMap_blocks]; exact List.take_sublist _ _
  have := hs.length_le
  have := wsum_sublist L hs
  omega

/-! ## The rewriting loop -/

theorem blockBytes_eq (L : Lawful c ok) (src : Nat) (hsrc : src < uintEMod) (K : List (Nat × W))
    (hv : ValidList K) (hok : ∀ e ∈ K, ok e.2) (i : Nat) :
    blockBytes c src (chunk K i) = 4 + (encBlk plain L src (block K i)).length := by
  have hs := block_sublist K i
  rw [blockBytes, show chunk K i = block K i from rfl,
    seqComp_eq L _ _ src (block K i) hsrc (ValidList.sublist hs hv)
      (fun e he => hok e (hs.subset he))]
  simp

theorem repack_loop (L : Lawful c ok) (a src : Nat) (hsrc : src < uintEMod) (K : List (Nat × W))
    (hv : ValidList K) (hok : ∀ e ∈ K, ok e.2)
    (hsz : noffs L src K (numBlocks K.length) < 4294967296)
    (hK : 0 < K.length) (hKlt : K.length < 4294967296)
    (offs : Nat → Nat)
    (hoffs : ∀ i, (numBlocks K.length - 1) * 4 + 4 + offs i = noffs L src K i)
    (order : List Nat) (m : Mem) (D : Nat → Prop)
    (hlt : ∀ i ∈ order, i < numBlocks K.length) (hnd : order.Nodup) (hD : ∀ i ∈ order, ¬ D i)
    (hvd : m.load32 a = K.length)
    (hdone : ∀ i, i < numBlocks K.length → D i →
      (0 < i → m.load32 (a + 4 + 4 * (i - 1)) = noffs L src K i) ∧
      m.load32 (a + noffs L src K i) = i * 1000 ∧
      m.Has (a + noffs L src K i + 4) (encBlk plain L src (block K i))) :
    ∃ m', order.foldl (repackBlock c a src (numBlocks K.length) offs K) m = m' ∧
      m'.load32 a = K.length ∧
      (∀ i, i < numBlocks K.length → D i ∨ i ∈ order →
        (0 < i → m'.load32 (a + 4 + 4 * (i - 1)) = noffs L src K i) ∧
        m'.load32 (a + noffs L src K i) = i * 1000 ∧
        m'.Has (a + noffs L src K i + 4) (encBlk plain L src (block K i))) ∧
      (∀ x, x < a ∨ a + noffs L src K (numBlocks K.length) ≤ x → m' x = m x) := by
  induction order generalizing m D with
  | nil => exact ⟨m, rfl, hvd, by simpa using hdone, fun _ _ => rfl⟩
  | cons i order ih =>
    have hi := hlt i (by simp)
    rw [List.nodup_cons] at hnd
    have hs := block_sublist K i
    have hnbK : numBlocks K.length = 1 + (K.length - 1) / 1000 := rfl
    have hbase : ∀ j, 4 * numBlocks K.length ≤ noffs L src K j := fun j => by
      simp only [noffs]; omega
    have hup : noffs L src K (i + 1) ≤ noffs L src K (numBlocks K.length) :=
      noffs_mono L src K (by omega)
    have hsucc := noffs_succ L src K i
    have hbi := hbase i
    have hfin : a + (numBlocks K.length - 1) * 4 + 4 + offs i = a + noffs L src K i := by
      have := hoffs i; omega
    -- one step
    obtain ⟨m1, hm1, hw⟩ : ∃ m1 : Mem, m1 = (if i > 0 then
        m.store32 (a + 4 + 4 * (i - 1)) (a + noffs L src K i - a) else m) ∧
        repackBlock c a src (numBlocks K.length) offs K m i =
          (m1.store32 (a + noffs L src K i) (i * 1000)).write (a + noffs L src K i + 4)
            (encBlk plain L src (block K i)) := by
      refine ⟨_, rfl, ?_⟩
      simp only [repackBlock, hfin]
      rw [show chunk K i = block K i from rfl, seqComp_eq L _ _ src (block K i) hsrc
        (ValidList.sublist hs hv) (fun e he => hok e (hs.subset he))]
    generalize hm2 : repackBlock c a src (numBlocks K.length) offs K m i = m2 at hw
    -- what the step leaves alone
    have hout : ∀ x, (x < a + 4 + 4 * (i - 1) ∨ a + 4 + 4 * (i - 1) + 4 ≤ x ∨ i = 0) →
        (x < a + noffs L src K i ∨ a + noffs L src K (i + 1) ≤ x) → m2 x = m x := by
      intro x hx1 hx2
      rw [hw, Mem.write_outside _ _ _ _ (by omega), Mem.store32_outside _ _ _ _ (by omega), hm1]
      split
      · exact Mem.store32_outside _ _ _ _ (by omega)
      · rfl
    have hm1_out : ∀ x, a + 4 * numBlocks K.length ≤ x → m1 x = m x := by
      intro x hx
      rw [hm1]
      split
      · exact Mem.store32_outside _ _ _ _ (by omega)
      · rfl
    obtain ⟨m', g1, g2, g3, g4⟩ := ih m2 (fun j => D j ∨ j = i)
      (fun j hj => hlt j (List.mem_cons_of_mem _ hj)) hnd.2
      (fun j hj hj' => by
        rcases hj' with hj' | hj'
        · exact hD j (List.mem_cons_of_mem _ hj) hj'
        · subst hj'; exact hnd.1 hj)
      (by
        rw [← hvd]
        exact Mem.load32_congr (fun x hx1 hx2 => hout x (by omega) (by omega)))
      (by
        intro j hj hDj
        by_cases e : j = i
        · subst e
          refine ⟨fun h0 => ?_, ?_, ?_⟩
          · have : m2.load32 (a + 4 + 4 * (j - 1)) = m1.load32 (a + 4 + 4 * (j - 1)) := by
              refine Mem.load32_congr (fun x hx1 hx2 => ?_)
              rw [hw, Mem.write_outside _ _ _ _ (by omega), Mem.store32_outside _ _ _ _ (by omega)]
            rw [this, hm1, if_pos h0, Mem.load32_store32_same _ _ _ (by omega)]
            omega
          · have : m2.load32 (a + noffs L src K j) =
                (m1.store32 (a + noffs L src K j) (j * 1000)).load32 (a + noffs L src K j) := by
              refine Mem.load32_congr (fun x hx1 hx2 => ?_)
              rw [hw, Mem.write_outside _ _ _ _ (by omega)]
            rw [this, Mem.load32_store32_same _ _ _ (by omega)]
          · rw [hw]; exact Mem.write_has _ _ _
        · have hD' : D j := by simpa [e] using hDj
          obtain ⟨d1, d2, d3⟩ := hdone j hj hD'
          have hsj := noffs_succ L src K j
          have hbj := hbase j
          have hsep : noffs L src K (j + 1) ≤ noffs L src K i ∨
              noffs L src K (i + 1) ≤ noffs L src K j := by
            rcases Nat.lt_or_gt_of_ne e with e | e
            · exact Or.inl (noffs_mono L src K e)
            · exact Or.inr (noffs_mono L src K e)
          refine ⟨fun h0 => ?_, ?_, ?_⟩
          · rw [← d1 h0]
            exact Mem.load32_congr (fun x hx1 hx2 => hout x (by omega) (by omega))
          · rw [← d2]
            exact Mem.load32_congr (fun x hx1 hx2 => hout x (by omega) (by omega))
          · exact Mem.has_of_agree (fun x hx1 hx2 => (hout x (by omega) (by omega)).symm) d3)
    refine ⟨m', by rw [List.foldl_cons, hm2]; exact g1, g2, ?_, ?_⟩
    · intro j hj hDj
      apply g3 j hj
      rcases hDj with h | h
      · exact Or.inl (Or.inl h)
      · rcases List.mem_cons.1 h with e | e
        · exact Or.inl (Or.inr e)
        · exact Or.inr e
    · intro x hx
      rw [g4 x hx]
      exact hout x (by omega) (by omega)

theorem liveEdges_lay {L : Lawful c ok} {m : Mem} {a src vd ext : Nat} {offs cap : Nat → Nat}
    {orig blk : Nat → List (Nat × W)} (h : Lay L m a src vd ext offs cap orig blk) :
    liveEdges c m a src (live vd blk).length (numBlocks vd) = some (live vd blk) := by
  simp only [liveEdges, live, st_length]
  rw [foldlM_some _ (fun out i => out ++ blk i)]
  · rw [PD.foldl_append_flatMap, List.nil_append]
  · intro i hi out
    rw [run_block h _ (by simpa using hi), visit_keep]
    simp

/-- Repacking keeps the represented list and stays inside the reserved bytes. -/
theorem repack_lay {L : Lawful c ok} {m : Mem} {a src vd ext : Nat} {offs cap : Nat → Nat}
    {orig blk : Nat → List (Nat × W)} (h : Lay L m a src vd ext offs cap orig blk)
    (hfew : (live vd blk).length < vd / 10) (hpos : 0 < (live vd blk).length) (order : List Nat)
    (ho : Schedule (numBlocks (live vd blk).length) order) :
    ∃ m' offs' cap', repack c m a src (live vd blk).length order = some m' ∧
      Lay L m' a src (live vd blk).length ext offs' cap' (block (live vd blk))
        (block (live vd blk)) ∧
      (∀ x, x < a ∨ a + ext ≤ x → m' x = m x) := by
  have hl := liveEdges_lay h
  have hv := edges_valid h
  have hok := edges_ok h
  have hsub : (live vd blk).Sublist (live vd orig) := flatMap_sub h.sub
  have hws := wsum_sublist L hsub
  have hext := ext_ge h
  have hvlt : vd < 4294967296 := h.vdEq ▸ Mem.load32_lt m a
  generalize hK : live vd blk = K at *
  have hv' : ValidList K := hK ▸ hv
  have hok' : ∀ e ∈ K, ok e.2 := hK ▸ hok
  have hnn : numBlocks K.length ≤ numBlocks vd := by
    show 1 + (K.length - 1) / 1000 ≤ 1 + (vd - 1) / 1000
    omega
  have hnle := noffs_le L src h.srcLt K hv' hok' (numBlocks K.length)
  have hfit : noffs L src K (numBlocks K.length) ≤ ext := by omega
  have hextlt := h.extLt
  have hnp := numBlocks_pos K.length
  obtain ⟨m', g1, g2, g3, g4⟩ := repack_loop L a src h.srcLt K hv' hok' (by omega) hpos (by omega)
    (scan (fun i => blockBytes c src (chunk K i)))
    (fun i => by
      rw [noffs, scan_congr (fun j _ => blockBytes_eq L src h.srcLt K hv' hok' j)]; omega)
    order (m.store32 a K.length) (fun _ => False) (fun i hi => (ho.2 i).1 hi) ho.1
    (fun _ _ h => h) (Mem.load32_store32_same _ _ _ (by omega)) (fun _ _ h => h.elim)
  have hall : live K.length (block K) = K := flatMap_blocks_all K
  refine ⟨m', noffs L src K, fun i => (encBlk plain L src (block K i)).length, ?_, ?_, ?_⟩
  · rw [repack, if_pos hpos, h.vdEq, hl]
    simp only
    rw [← g1]; rfl
  · have hnbK : numBlocks K.length = 1 + (K.length - 1) / 1000 := rfl
    exact
      { srcLt := h.srcLt, vdPos := hpos, vdEq := g2
        vdSum := by rw [scan_block]; exact Nat.min_eq_right (numBlocks_cover _)
        sub := fun _ => List.Sublist.refl _
        len := fun i => by rw [block_length]; omega
        valid := by
          rw [show (List.range (numBlocks K.length)).flatMap (block K) = K from hall]; exact hv'
        ok := by
          rw [show (List.range (numBlocks K.length)).flatMap (block K) = K from hall]; exact hok'
        off0 := by simp [noffs, scan]
        capOk := fun _ _ => Nat.le_refl _
        sep := fun i hi => by have := noffs_succ L src K i; omega
        fits := fun i hi => by
          have := noffs_succ L src K i
          have := noffs_mono L src K (show i + 1 ≤ numBlocks K.length by omega)
          omega
        extLt := hextlt
        hdr := fun i h0 hi => (g3 i hi (Or.inr ((ho.2 i).2 hi))).1 h0
        start := fun i hi => by
          rw [(g3 i hi (Or.inr ((ho.2 i).2 hi))).2.1, scan_block, Nat.min_eq_left (by omega)]
        body := fun i hi => (g3 i hi (Or.inr ((ho.2 i).2 hi))).2.2 }
  · intro x hx
    rw [g4 x (by omega)]
    have := off_ge h (numBlocks_pos vd)
    have := h.fits 0 (numBlocks_pos vd)
    exact Mem.store32_outside _ _ _ _ (by omega)

/-- A memory region `[a, a+ext)` representing the list `edges` of vertex `src`. -/
def Represents (L : Lawful c ok) (m : Mem) (a src ext vd : Nat) (edges : List (Nat × W)) : Prop :=
  ∃ offs cap orig blk, Lay L m a src vd ext offs cap orig blk ∧ live vd blk = edges

theorem live_kept (pred : Nat → Nat → W → Bool) (src vd : Nat) (blk : Nat → List (Nat × W)) :
    live vd (kept pred src blk) = (live vd blk).filter (fun e => pred src e.1 e.2) := by
  simp only [live, List.filter_flatMap]

theorem pack_lay {L : Lawful c ok} {m : Mem} {a src vd ext : Nat} {edges : List (Nat × W)}
    (h : Represents L m a src ext vd edges) (pred : Nat → Nat → W → Bool)
    (order1 order2 order3 : List Nat)
    (ho1 : Schedule (numBlocks vd) order1) (ho2 : Schedule (numBlocks vd) order2)
    (ho3 : Schedule (numBlocks (edges.filter (fun e => pred src e.1 e.2)).length) order3)
    (h100 : numBlocks vd ≠ 100) :
    ∃ m' vd', pack c pred m a src edges.length order1 order2 order3 =
        some (m', (edges.filter (fun e => pred src e.1 e.2)).length) ∧
      Represents L m' a src ext vd' (edges.filter (fun e => pred src e.1 e.2)) ∧ vd' ≤ vd ∧
      (∀ x, x < a ∨ a + ext ≤ x → m' x = m x) := by
  obtain ⟨offs, cap, orig, blk, lay, rfl⟩ := h
  obtain ⟨m1, cts, h1, h2, h3, h4⟩ := phase12 lay pred order1 order2 ho1 ho2
  rw [← live_kept] at ho3 ⊢
  rw [pack, lay.vdEq]
  simp only [h1]
  rw [if_neg h100]
  simp only [h2]
  by_cases hfew : (live vd (kept pred src blk)).length < vd / 10
  · rw [if_pos hfew]
    by_cases hpos : 0 < (live vd (kept pred src blk)).length
    · obtain ⟨m', offs', cap', g1, g2, g3⟩ := repack_lay h3 hfew hpos order3 ho3
      rw [g1]
      refine ⟨m', _, rfl, ⟨offs', cap', _, _, g2, flatMap_blocks_all _⟩, by omega, ?_⟩
      intro x hx
      rw [g3 x hx, h4 x hx]
    · rw [repack, if_neg hpos]
      exact ⟨_, vd, rfl, ⟨offs, cap, orig, _, h3, rfl⟩, Nat.le_refl _, h4⟩
  · rw [if_neg hfew]
    exact ⟨_, vd, rfl, ⟨offs, cap, orig, _, h3, rfl⟩, Nat.le_refl _, h4⟩

end Gbbs.AM
