/-
C142: the sparse traversal of `edgeMap` over compressed graphs (`gbbs/edge_map_blocked.h` with the
vertices of `gbbs/compressed_vertex.h` and the decoders of `gbbs/encodings/decoders.h`).
-/
import Verif.EdgeMap.Chunked
import Verif.EdgeMap.Traverse
import Verif.Encoding.AmTheorems
import Verif.Encoding.PdTheorems

namespace Gbbs.EdgeMapC

open Gbbs Byte Blk EncSpec Chunked
open Gbbs.Filter (numBlocks)

/-! ### Model -/

/-- `edge_map_blocked.h:339-364`: the arrays `blocks` and `degrees` (before the scan) as one array, as
in `Chunked.fillBlocks`, but with the number of blocks `nb i` (`get_num_blocks`) and the degrees
`bd i j` (`block_degree`) that the vertex at frontier position `i` reports. -/
def fill (nb : Nat → Nat) (bd : Nat → Nat → Nat) (order : List Nat)
    (a0 : Nat → (Nat × Nat) × Nat) : Nat → (Nat × Nat) × Nat :=
  scatter (exScan nb) (fun i => (List.range (nb i)).map fun j => ((i, j), bd i j)) order a0

/-- The work of one group, `edge_map_blocked.h:384-430`: every work block is decoded and the entries
it emits are appended to the output blocks; `none` if decoding or appending is undefined. -/
def runGroupB {S : Type} (wbs maxb : Nat) (emit : Nat → Option (List S)) (work : List Nat) :
    Option (List (List S)) :=
  work.foldlM (fun vec w => (emit w).bind fun e => emitBlock wbs maxb vec e) []

/-- `edgeMapChunked`, `edge_map_blocked.h:319-456`, over vertices that report `nb` blocks of degrees
`bd`.  `dec i j` are the edges that `decode_block(.., j, ..)` of the vertex at position `i` passes to
its callback; `sel w es` are the entries that the callback (`compressed_vertex.h:240-253`) emits for
work block `w`, an arbitrary function since it depends on the client function and the interleaving of
the groups.  `wbs` is `getInternalBlockSize()`.  `none` as in `Chunked.chunked`.  As there, the
32-bit sums of `vertex_offs` are not cut. -/
def chunkedB {E S : Type} (wbs maxb workers nv : Nat) (nb : Nat → Nat) (bd : Nat → Nat → Nat)
    (dec : Nat → Nat → Option (List E)) (order : List Nat) (a0 : Nat → (Nat × Nat) × Nat)
    (sel : Nat → List E → List S) : Option (List S) :=
  let a := fill nb bd order a0
  let nbk := exScan nb nv
  if nbk = 0 then none
  else
    let incl := inclusive a
    let total := incl (nbk - 1)
    let ebs := edgeBlockSize workers total
    let ng := numBlocks total ebs
    match (List.range ng).mapM fun g => runGroupB wbs maxb
        (fun w => (dec (a w).1.1 (a w).1.2).map (sel w)) (groupWork incl nbk ebs ng g) with
    | none => none
    | some vecs => some (vecs.flatten.flatten)

/-- `compressed_neighbors`, `compressed_vertex.h:46-53`: id, degree and the address of the list. -/
structure Nghs where
  a : Nat
  src : Nat
  deg : Nat

/-- The callback of `decode_block` gets `(ngh, wgh, id)`; with the id of the vertex it makes the edge. -/
def edgesOf {W : Type} (src : Nat) (cs : List (Call W)) : List (Nat × Nat × W) :=
  cs.map fun x => (src, x.2.1, x.2.2)

/-- `bytepd_amortized::get_num_blocks`, `byte_pd_amortized.h:642-649`. -/
def amBlocks (m : Mem) (v : Nghs) : Nat := if v.deg = 0 then 0 else AM.numBlocks (m.load32 v.a)

/-- `edgeMapChunked` on a `bytepd_amortized` graph with memory `m` for the frontier `F 0 … F (nv-1)`
(`compressed_vertex.h:239-260`, `decoders.h:217-296`); `PARALLEL_DEGREE` is the internal block size
(`compressed_vertex.h:287`). -/
def chunkedAM {W S : Type} (c : WCodec W) (m : Mem) (F : Nat → Nghs) (maxb workers nv : Nat)
    (order : List Nat) (a0 : Nat → (Nat × Nat) × Nat) (sel : Nat → List (Nat × Nat × W) → List S) :
    Option (List S) :=
  chunkedB parallelDegree maxb workers nv (fun i => amBlocks m (F i))
    (fun i j => AM.getBlockDegree m (F i).a (F i).deg j)
    (fun i j => (AM.decodeBlock c (fun _ _ _ _ => true) m (F i).a (F i).src (F i).deg j).map
      (edgesOf (F i).src)) order a0 sel

/-- `bytepd::get_num_blocks`, `byte_pd.cc:59-61`. -/
def pdBlocks (v : Nghs) : Nat := numBlocks v.deg parallelDegree

/-- `edgeMapChunked` on a `bytepd` graph (`decoders.h:115-215`). -/
def chunkedPD {W S : Type} (c : WCodec W) (m : Mem) (F : Nat → Nghs) (maxb workers nv : Nat)
    (order : List Nat) (a0 : Nat → (Nat × Nat) × Nat) (sel : Nat → List (Nat × Nat × W) → List S) :
    Option (List S) :=
  chunkedB parallelDegree maxb workers nv (fun i => pdBlocks (F i))
    (fun i j => PD.getBlockDegree (F i).deg j)
    (fun i j => (PD.decodeBlock c (fun _ _ _ _ => true) m (F i).a (F i).src (F i).deg j).map
      (edgesOf (F i).src)) order a0 sel

/-! ### Specification -/

/-- All edges of the frontier. -/
def frontierEdges {W : Type} (nv : Nat) (src : Nat → Nat) (edges : Nat → List (Nat × W)) :
    List (Nat × Nat × W) :=
  (List.range nv).flatMap fun i => (edges i).map fun e => (src i, e.1, e.2)

/-- A traversal (as a function of what the work blocks emit) visits exactly the edges `all`: they are
split into work blocks, each edge in one of them and once, and the output consists of what is emitted
for these blocks. -/
def Visits {E S : Type} (run : (Nat → List E → List S) → Option (List S)) (all : List E) : Prop :=
  ∃ bs : List (List E), bs.flatten = all ∧
    ∀ sel : Nat → List E → List S, (∀ w es, (sel w es).length ≤ es.length) →
      run sel = some (bs.zipIdx.flatMap fun b => sel b.2 b.1)

/-! ### The traversal in general -/

section general

variable {E S : Type} {nb : Nat → Nat} {bd : Nat → Nat → Nat}

/-- The blocks in order. -/
def blocksOf (nb : Nat → Nat) (nv : Nat) : List (Nat × Nat) :=
  (List.range nv).flatMap fun i => (List.range (nb i)).map fun j => (i, j)

theorem blocksOf_length (nb : Nat → Nat) (nv : Nat) : (blocksOf nb nv).length = exScan nb nv := by
  unfold blocksOf
  rw [flatMap_length_exScan]
  exact exScan_congr fun i _ => by simp

theorem fill_at {nv : Nat} {order : List Nat} (hs : Sched nv order)
    (a0 : Nat → (Nat × Nat) × Nat) {w : Nat} (hw : w < exScan nb nv) :
    ∃ ij, (blocksOf nb nv)[w]? = some ij ∧ fill nb bd order a0 w = (ij, bd ij.1 ij.2) := by
  have h := (scatter_spec 0 (fun i => (List.range (nb i)).map fun j => ((i, j), bd i j))
    (exScan nb) nv (by
      intro i _
      rw [Nat.zero_add]
      exact exScan_congr fun j _ => by simp) order hs a0).1
  have hlen : exScan (fun i => ((List.range (nb i)).map fun j => ((i, j), bd i j)).length) nv =
      exScan nb nv := exScan_congr fun j _ => by simp
  rw [hlen] at h
  have h2 : (List.range nv).flatMap (fun i => (List.range (nb i)).map fun j => ((i, j), bd i j)) =
      (blocksOf nb nv).map fun ij => (ij, bd ij.1 ij.2) := by
    unfold blocksOf
    rw [List.map_flatMap]
    congr 1
    funext i
    rw [List.map_map]; rfl
  rw [h2] at h
  have hl := blocksOf_length nb nv
  have hw' : w < (blocksOf nb nv).length := by omega
  refine ⟨_, List.getElem?_eq_getElem hw', ?_⟩
  have h1 := congrArg (fun l => l[w]?) h
  simp only [slice_getElem? _ _ _ _ hw, Nat.zero_add, List.getElem?_map,
    List.getElem?_eq_getElem hw', Option.map_some, Option.some.injEq] at h1
  exact h1

theorem runGroupB_some (wbs maxb : Nat) (emit : Nat → List S) (emit' : Nat → Option (List S))
    (work : List Nat) (h : ∀ w ∈ work, emit' w = some (emit w)) :
    runGroupB wbs maxb emit' work = runGroup wbs maxb emit work := by
  unfold runGroupB runGroup
  have key : ∀ (work : List Nat) (v : List (List S)), (∀ w ∈ work, emit' w = some (emit w)) →
      work.foldlM (fun vec w => (emit' w).bind fun e => emitBlock wbs maxb vec e) v =
      work.foldlM (fun vec w => emitBlock wbs maxb vec (emit w)) v := by
    intro work
    induction work with
    | nil => intro v _; rfl
    | cons w work ih =>
      intro v h
      rw [List.foldlM_cons, List.foldlM_cons, h w List.mem_cons_self]
      simp only [Option.bind_some]
      congr 1
      funext v'
      exact ih v' fun w' hw' => h w' (List.mem_cons_of_mem _ hw')
  exact key work [] h

theorem mapM_congr' {α β : Type} {f g : α → Option β} {l : List α} (h : ∀ x ∈ l, f x = g x) :
    l.mapM f = l.mapM g := by
  induction l with
  | nil => rfl
  | cons x l ih =>
    rw [List.mapM_cons, List.mapM_cons, h x List.mem_cons_self,
      ih fun y hy => h y (List.mem_cons_of_mem _ hy)]

/-- The groups cover the blocks if some block has a positive reported degree. -/
theorem groups_cover {wbs maxb workers nv : Nat} (hmax : wbs ≤ maxb)
    {dec : Nat → Nat → Option (List E)} {blk : Nat → Nat → List E}
    (hdec : ∀ i j, i < nv → j < nb i → dec i j = some (blk i j))
    (hlen : ∀ i j, i < nv → j < nb i → (blk i j).length ≤ wbs)
    (hpos : ∃ i j, i < nv ∧ j < nb i ∧ 0 < bd i j)
    {order : List Nat} (hs : Sched nv order) (a0 : Nat → (Nat × Nat) × Nat) :
    (let a := fill nb bd order a0
     let nbk := exScan nb nv
     let total := inclusive a (nbk - 1)
     let ebs := edgeBlockSize workers total
     let ng := numBlocks total ebs
     (List.range ng).flatMap (groupWork (inclusive a) nbk ebs ng) = List.range nbk) ∧
    ∀ sel : Nat → List E → List S, (∀ w es, (sel w es).length ≤ es.length) →
      chunkedB wbs maxb workers nv nb bd dec order a0 sel =
        some ((((blocksOf nb nv).map fun ij => blk ij.1 ij.2).zipIdx).flatMap
          fun b => sel b.2 b.1) := by
  obtain ⟨i0, j0, hi0, hj0, hb0⟩ := hpos
  have hnbk : 0 < exScan nb nv := exScan_pos_of hi0 (by omega)
  have hbl := blocksOf_length nb nv
  obtain ⟨w0, hw0, hget⟩ : ∃ w0, w0 < exScan nb nv ∧ (blocksOf nb nv)[w0]? = some (i0, j0) := by
    have hmem : (i0, j0) ∈ blocksOf nb nv :=
      List.mem_flatMap.2 ⟨i0, List.mem_range.2 hi0, List.mem_map.2 ⟨j0, List.mem_range.2 hj0, rfl⟩⟩
    obtain ⟨w, hw⟩ := List.mem_iff_getElem?.1 hmem
    refine ⟨w, ?_, hw⟩
    have := (List.getElem?_eq_some_iff.1 hw).1
    omega
  generalize ha : fill nb bd order a0 = a
  generalize hN : exScan nb nv = nbk at *
  have hat : ∀ w, w < nbk → ∃ ij, (blocksOf nb nv)[w]? = some ij ∧ a w = (ij, bd ij.1 ij.2) := by
    intro w hw
    rw [← ha]
    exact fill_at hs a0 (by omega)
  have htot : 0 < inclusive a (nbk - 1) := by
    obtain ⟨ij, h1, h2⟩ := hat w0 hw0
    rw [hget] at h1
    cases h1
    refine exScan_pos_of (i := w0) (by omega) ?_
    simp only [h2]; exact hb0
  generalize hT : inclusive a (nbk - 1) = total at *
  have hebs : 0 < edgeBlockSize workers total := by show 0 < max 4000 _; omega
  have hng : 0 < numBlocks total (edgeBlockSize workers total) := numBlocks_pos hebs htot
  have hpart := groups_partition (inclusive a) nbk (edgeBlockSize workers total) _ hng
  refine ⟨by simp only [hT]; exact hpart, fun sel hsel => ?_⟩
  have hmemb : ∀ w, w < nbk → (a w).1.1 < nv ∧ (a w).1.2 < nb (a w).1.1 ∧
      (blocksOf nb nv)[w]? = some (a w).1 := by
    intro w hw
    obtain ⟨ij, h1, h2⟩ := hat w hw
    have hmem := List.mem_of_getElem? h1
    unfold blocksOf at hmem
    simp only [List.mem_flatMap, List.mem_map, List.mem_range] at hmem
    obtain ⟨i, hi, j, hj, rfl⟩ := hmem
    rw [h2]
    exact ⟨hi, hj, h1⟩
  unfold chunkedB
  simp only [ha, hN, hT]
  rw [if_neg (by omega)]
  have hwork : ∀ g ∈ List.range (numBlocks total (edgeBlockSize workers total)),
      ∀ w ∈ groupWork (inclusive a) nbk (edgeBlockSize workers total)
        (numBlocks total (edgeBlockSize workers total)) g, w < nbk := by
    intro g hg w hw
    have : w ∈ List.range nbk := by
      rw [← hpart]; exact List.mem_flatMap.2 ⟨g, hg, hw⟩
    exact List.mem_range.1 this
  rw [mapM_congr' fun g hg => runGroupB_some wbs maxb
    (fun w => sel w (blk (a w).1.1 (a w).1.2)) _ _ fun w hw => by
      obtain ⟨h1, h2, _⟩ := hmemb w (hwork g hg w hw)
      rw [hdec _ _ h1 h2]; rfl]
  obtain ⟨vecs, h1, h2⟩ := mapM_runGroup wbs maxb hmax (fun w => sel w (blk (a w).1.1 (a w).1.2))
    (groupWork (inclusive a) nbk (edgeBlockSize workers total)
      (numBlocks total (edgeBlockSize workers total)))
    (List.range (numBlocks total (edgeBlockSize workers total))) (by
      intro g hg w hw
      obtain ⟨h1, h2, _⟩ := hmemb w (hwork g hg w hw)
      exact Nat.le_trans (hsel _ _) (hlen _ _ h1 h2))
  rw [h1]
  simp only
  rw [h2, hpart]
  congr 1
  have : ((blocksOf nb nv).map fun ij => blk ij.1 ij.2).zipIdx =
      (List.range nbk).map fun w => (blk (a w).1.1 (a w).1.2, w) := by
    apply List.ext_getElem
    · simp [hbl]
    · intro w h3 h4
      have hw : w < nbk := by simpa using h4
      obtain ⟨_, _, h5⟩ := hmemb w hw
      have h6 := (List.getElem?_eq_some_iff.1 h5).2
      simp [h6]
  rw [this, List.flatMap_map]

/-- If every block is reported to be empty, no group exists and nothing is visited. -/
theorem chunkedB_zero {wbs maxb workers nv : Nat} {dec : Nat → Nat → Option (List E)}
    (hnb : ∃ i, i < nv ∧ 0 < nb i) (hz : ∀ i j, i < nv → j < nb i → bd i j = 0)
    {order : List Nat} (hs : Sched nv order) (a0 : Nat → (Nat × Nat) × Nat)
    (sel : Nat → List E → List S) :
    chunkedB wbs maxb workers nv nb bd dec order a0 sel = some [] := by
  obtain ⟨i0, hi0, hb0⟩ := hnb
  have hnbk : 0 < exScan nb nv := exScan_pos_of hi0 hb0
  have htot : ∀ k, k ≤ exScan nb nv → exScan (fun w => (fill nb bd order a0 w).2) k = 0 := by
    intro k
    induction k with
    | zero => intro _; rfl
    | succ k ih =>
      intro hk
      simp only [exScan, ih (by omega), Nat.zero_add]
      obtain ⟨ij, h1, h2⟩ := fill_at (bd := bd) hs a0 (show k < exScan nb nv by omega)
      rw [h2]
      have hmem := List.mem_of_getElem? h1
      unfold blocksOf at hmem
      simp only [List.mem_flatMap, List.mem_map, List.mem_range] at hmem
      obtain ⟨i, hi, j, hj, rfl⟩ := hmem
      exact hz i j hi hj
  unfold chunkedB
  simp only
  rw [if_neg (by omega)]
  have : inclusive (fill nb bd order a0) (exScan nb nv - 1) = 0 := htot _ (by omega)
  rw [this]
  rfl

theorem flatten_blocksOf (nb : Nat → Nat) (nv : Nat) (blk : Nat → Nat → List E) :
    ((blocksOf nb nv).map fun ij => blk ij.1 ij.2).flatten =
      (List.range nv).flatMap fun i => (List.range (nb i)).flatMap (blk i) := by
  unfold blocksOf
  rw [← List.flatMap_def, List.flatMap_assoc]
  congr 1
  funext i
  rw [List.flatMap_map]

end general

theorem edgesOf_calls {W : Type} (src i : Nat) (l : List (Nat × W)) :
    edgesOf src (callsUntil (fun _ _ _ _ => true) src i l) = l.map fun e => (src, e.1, e.2) := by
  induction l generalizing i with
  | nil => rfl
  | cons e l ih =>
    obtain ⟨x, w⟩ := e
    have := ih (i + 1)
    simp only [edgesOf] at this
    simp [callsUntil, edgesOf, this]

/-! ### `bytepd_amortized` -/

section amortized

variable {W : Type} {c : WCodec W} {ok : W → Prop}

/-- `AM.Represents` with at most 1000 entries per block. -/
def RepB (L : Lawful c ok) (m : Mem) (a src ext vd : Nat) (edges : List (Nat × W)) : Prop :=
  ∃ offs cap orig blk, AM.Lay L m a src vd ext offs cap orig blk ∧ AM.live vd blk = edges ∧
    ∀ i, (blk i).length ≤ 1000

/-- The memory holds the list `edges` at `v`: a (possibly packed) layout of C51 with at most 1000
entries per block, or nothing if the list is empty. -/
def Stored (L : Lawful c ok) (m : Mem) (v : Nghs) (edges : List (Nat × W)) : Prop :=
  v.deg = edges.length ∧ (0 < edges.length → ∃ ext vd, RepB L m v.a v.src ext vd edges)

theorem RepB.rep {L : Lawful c ok} {m : Mem} {a src ext vd : Nat} {edges : List (Nat × W)}
    (h : RepB L m a src ext vd edges) : AM.Represents L m a src ext vd edges := by
  obtain ⟨o, cp, og, bl, h1, h2, _⟩ := h
  exact ⟨o, cp, og, bl, h1, h2⟩

theorem block_le (l : List (Nat × W)) (i : Nat) : (block l i).length ≤ 1000 := by
  rw [block_length]; omega

/-- The layout only depends on the bytes reserved for it. -/
theorem RepB.agree {L : Lawful c ok} {m m' : Mem} {a src ext vd : Nat} {edges : List (Nat × W)}
    (h : RepB L m a src ext vd edges) (hm : ∀ x, a ≤ x → x < a + ext → m' x = m x) :
    RepB L m' a src ext vd edges := by
  obtain ⟨offs, cap, orig, blk, lay, h2, h3⟩ := h
  have hnp := AM.numBlocks_pos vd
  have h0 := lay.fits 0 hnp
  have hoff := lay.off0
  refine ⟨offs, cap, orig, blk, { lay with vdEq := ?_, hdr := ?_, start := ?_, body := ?_ }, h2, h3⟩
  · rw [Mem.load32_congr (m' := m) fun x _ _ => hm x (by omega) (by omega)]
    exact lay.vdEq
  · intro i hi0 hi
    rw [Mem.load32_congr (m' := m) fun x _ _ => hm x (by omega) (by omega)]
    exact lay.hdr i hi0 hi
  · intro i hi
    have := lay.fits i hi
    rw [Mem.load32_congr (m' := m) fun x _ _ => hm x (by omega) (by omega)]
    exact lay.start i hi
  · intro i hi
    have h4 := lay.fits i hi
    have h5 := AM.sub_cap lay hi (lay.sub i)
    exact Mem.has_of_agree (fun x _ _ => (hm x (by omega) (by omega)).symm) (lay.body i hi)

theorem pack_stepB {L : Lawful c ok} {m : Mem} {a src vd ext d d' : Nat} {edges : List (Nat × W)}
    {m' : Mem} (h : RepB L m a src ext vd edges) (hd : d = edges.length)
    (pred : Nat → Nat → W → Bool) (order1 order2 order3 : List Nat)
    (ho1 : AM.Schedule (AM.numBlocks (m.load32 a)) order1)
    (ho2 : AM.Schedule (AM.numBlocks (m.load32 a)) order2)
    (ho3 : AM.Schedule (AM.numBlocks d') order3)
    (hp : AM.pack c pred m a src d order1 order2 order3 = some (m', d')) :
    ∃ vd', d' = (edges.filter (fun e => pred src e.1 e.2)).length ∧
      RepB L m' a src ext vd' (edges.filter (fun e => pred src e.1 e.2)) ∧
      (∀ x, x < a ∨ a + ext ≤ x → m' x = m x) := by
  obtain ⟨_, hcount, _, hfr⟩ := AM.pack_step h.rep hd pred order1 order2 order3 ho1 ho2 ho3 hp
  subst hd
  obtain ⟨offs, cap, orig, blk, lay, rfl, hle⟩ := h
  rw [lay.vdEq] at ho1 ho2
  rw [hcount] at ho3
  obtain ⟨m1, cts, h1, h2, h3, h4⟩ := AM.phase12 lay pred order1 order2 ho1 ho2
  have hle' : ∀ i, (AM.kept pred src blk i).length ≤ 1000 := fun i =>
    Nat.le_trans (List.length_filter_le _ _) (hle i)
  rw [← AM.live_kept] at ho3 hcount ⊢
  rw [AM.pack, lay.vdEq] at hp
  simp only [h1] at hp
  by_cases h100 : AM.numBlocks vd = 100
  · rw [if_pos h100] at hp; simp at hp
  rw [if_neg h100] at hp
  simp only [h2] at hp
  by_cases hfew : (AM.live vd (AM.kept pred src blk)).length < vd / 10
  · rw [if_pos hfew] at hp
    by_cases hpos : 0 < (AM.live vd (AM.kept pred src blk)).length
    · obtain ⟨m2, offs', cap', g1, g2, g3⟩ := AM.repack_lay h3 hfew hpos order3 ho3
      rw [g1] at hp
      simp only [Option.some.injEq, Prod.mk.injEq] at hp
      rw [← hp.1]
      exact ⟨_, hcount, ⟨offs', cap', _, _, g2, AM.live_block _, block_le _⟩, hp.1 ▸ hfr⟩
    · rw [AM.repack, if_neg hpos] at hp
      simp only [Option.some.injEq, Prod.mk.injEq] at hp
      rw [← hp.1]
      exact ⟨vd, hcount, ⟨offs, cap, orig, _, h3, rfl, hle'⟩, hp.1 ▸ hfr⟩
  · rw [if_neg hfew] at hp
    simp only [Option.some.injEq, Prod.mk.injEq] at hp
    rw [← hp.1]
    exact ⟨vd, hcount, ⟨offs, cap, orig, _, h3, rfl, hle'⟩, hp.1 ▸ hfr⟩

/-- Histories of `pack` calls on the vertices of a graph: state = (memory, degrees), `addr`/`src` the
addresses and ids.  Every call gets its own vertex, predicate and schedules. -/
inductive GPacks (c : WCodec W) (addr src : Nat → Nat) :
    Mem × (Nat → Nat) → List (Nat × (Nat → Nat → W → Bool)) → Mem × (Nat → Nat) → Prop
  | nil (s) : GPacks c addr src s [] s
  | step {m deg m' d' k pred rest order1 order2 order3 s''} :
      AM.Schedule (AM.numBlocks (m.load32 (addr k))) order1 →
      AM.Schedule (AM.numBlocks (m.load32 (addr k))) order2 →
      AM.Schedule (AM.numBlocks d') order3 →
      AM.pack c pred m (addr k) (src k) (deg k) order1 order2 order3 = some (m', d') →
      GPacks c addr src (m', fun i => if i = k then d' else deg i) rest s'' →
      GPacks c addr src (m, deg) ((k, pred) :: rest) s''

/-- The entries of vertex `k` that all its predicates accepted. -/
def keptOf (src : Nat → Nat) (hist : List (Nat × (Nat → Nat → W → Bool))) (k : Nat)
    (edges : List (Nat × W)) : List (Nat × W) :=
  edges.filter fun e => hist.all fun h => h.1 != k || h.2 (src k) e.1 e.2

/-- Packing keeps all lists of the graph stored: those packed hold the accepted entries, the others are
untouched, if the lists have disjoint regions. -/
theorem stored_history (L : Lawful c ok) {P : Nat → Prop} {addr src ext : Nat → Nat}
    (hdis : ∀ i k, P i → P k → i ≠ k → addr i + ext i ≤ addr k ∨ addr k + ext k ≤ addr i)
    {s s' : Mem × (Nat → Nat)} {hist : List (Nat × (Nat → Nat → W → Bool))}
    (hg : GPacks c addr src s hist s') :
    ∀ {edges : Nat → List (Nat × W)}, (∀ h ∈ hist, P h.1) →
      (∀ i, P i → s.2 i = (edges i).length ∧ ∃ vd, RepB L s.1 (addr i) (src i) (ext i) vd (edges i)) →
      ∀ i, P i → s'.2 i = (keptOf src hist i (edges i)).length ∧
        ∃ vd, RepB L s'.1 (addr i) (src i) (ext i) vd (keptOf src hist i (edges i)) := by
  induction hg with
  | nil s =>
    intro edges _ h i hi
    have : keptOf src [] i (edges i) = edges i := by simp [keptOf]
    rw [this]; exact h i hi
  | @step m deg m' d' k pred rest o1 o2 o3 s'' h1 h2 h3 h4 _ ih =>
    intro edges hk h i hi
    have hkn : P k := hk _ List.mem_cons_self
    obtain ⟨hd, vd, hr⟩ := h k hkn
    obtain ⟨vd', g1, g2, g3⟩ := pack_stepB hr hd pred o1 o2 o3 h1 h2 h3 h4
    have := ih (edges := fun i => if i = k then (edges k).filter (fun e => pred (src k) e.1 e.2)
      else edges i) (fun h hh => hk h (List.mem_cons_of_mem _ hh)) (by
        intro i hi
        by_cases hik : i = k
        · subst hik
          simp only [if_true]
          exact ⟨g1, vd', g2⟩
        · simp only [if_neg hik]
          obtain ⟨e1, vi, e2⟩ := h i hi
          refine ⟨e1, vi, e2.agree fun x hx1 hx2 => g3 x ?_⟩
          rcases hdis i k hi hkn hik with hh | hh <;> omega) i hi
    have e : keptOf src ((k, pred) :: rest) i (edges i) =
        keptOf src rest i (if i = k then (edges k).filter (fun e => pred (src k) e.1 e.2)
          else edges i) := by
      by_cases hik : i = k
      · subst hik
        simp only [keptOf, if_true, List.filter_filter, List.all_cons]
        congr 1; funext e; simp [Bool.and_comm]
      · rw [if_neg hik]
        simp only [keptOf, List.all_cons]
        congr 1; funext e
        have : (k != i) = true := by simpa using fun h => hik h.symm
        simp [this]
    rw [e]; exact this

/-- C142.  For every frontier of a graph in the `bytepd_amortized` format with at least one edge, the
sparse traversal of `edgeMap` visits exactly the edges of the frontier, each once, for every number of
workers, schedule, array content, and whatever the client function emits; nothing undefined happens.
`maxb` is the number of entries per output block; 1000 fit if entries have at most 16 bytes.
Missing: larger entries (`C18`), and `bytepd` (see `C142_bytepd_loses_edges`). -/
theorem C142_sparse_partial (L : Lawful c ok) (m : Mem) (F : Nat → Nghs) (nv : Nat)
    (edges : Nat → List (Nat × W)) (hF : ∀ i, i < nv → Stored L m (F i) (edges i))
    (hne : ∃ i, i < nv ∧ edges i ≠ []) (maxb workers : Nat) (hmax : 1000 ≤ maxb)
    (order : List Nat) (hs : Sched nv order) (a0 : Nat → (Nat × Nat) × Nat) {S : Type} :
    Visits (S := S) (chunkedAM c m F maxb workers nv order a0)
      (frontierEdges nv (fun i => (F i).src) edges) := by
  have hex : ∀ i, ∃ (vd : Nat) (blk : Nat → List (Nat × W)), i < nv → 0 < (edges i).length →
      (∃ ext offs cap orig, AM.Lay L m (F i).a (F i).src vd ext offs cap orig blk) ∧
        AM.live vd blk = edges i ∧ ∀ j, (blk j).length ≤ 1000 := by
    intro i
    by_cases h : i < nv ∧ 0 < (edges i).length
    · obtain ⟨ext, vd, offs, cap, orig, blk, h1, h2, h3⟩ := (hF i h.1).2 h.2
      exact ⟨vd, blk, fun _ _ => ⟨⟨ext, offs, cap, orig, h1⟩, h2, h3⟩⟩
    · exact ⟨0, fun _ => [], fun h1 h2 => absurd ⟨h1, h2⟩ h⟩
  choose vd blk hlay using hex
  have hnb : ∀ i, i < nv → amBlocks m (F i) =
      if (edges i).length = 0 then 0 else AM.numBlocks (vd i) := by
    intro i hi
    unfold amBlocks
    rw [(hF i hi).1]
    by_cases h0 : (edges i).length = 0
    · rw [if_pos h0, if_pos h0]
    · rw [if_neg h0, if_neg h0]
      obtain ⟨⟨_, _, _, _, h1⟩, _, _⟩ := hlay i hi (by omega)
      rw [h1.vdEq]
  have hinfo : ∀ i j, i < nv → j < amBlocks m (F i) → 0 < (edges i).length ∧ j < AM.numBlocks (vd i) := by
    intro i j hi hj
    rw [hnb i hi] at hj
    split at hj
    · omega
    · exact ⟨by omega, hj⟩
  refine ⟨_, ?_, (groups_cover (E := Nat × Nat × W) (S := S) (nb := fun i => amBlocks m (F i))
    (bd := fun i j => AM.getBlockDegree m (F i).a (F i).deg j)
    (blk := fun i j => (blk i j).map fun e => ((F i).src, e.1, e.2)) hmax ?_ ?_ ?_ hs a0).2⟩
  · rw [flatten_blocksOf (fun i => amBlocks m (F i)) nv
      (fun i j => (blk i j).map fun e => ((F i).src, e.1, e.2))]
    unfold frontierEdges
    apply List.flatMap_congr
    intro i hi
    have hi := List.mem_range.1 hi
    rw [← List.map_flatMap, hnb i hi]
    by_cases h0 : (edges i).length = 0
    · rw [if_pos h0, List.length_eq_zero_iff.1 h0]; rfl
    · rw [if_neg h0, ← (hlay i hi (by omega)).2.1]
  · intro i j hi hj
    obtain ⟨hp, hj⟩ := hinfo i j hi hj
    obtain ⟨⟨_, _, _, _, h1⟩, h2, _⟩ := hlay i hi hp
    have h3 := AM.decodeBlock_lay h1 (fun _ _ _ _ => true) (by rw [h2]; exact hp) hj
    rw [h2, ← (hF i hi).1] at h3
    rw [h3, Option.map_some, edgesOf_calls]
  · intro i j hi hj
    obtain ⟨hp, _⟩ := hinfo i j hi hj
    rw [List.length_map]
    exact (hlay i hi hp).2.2 j
  · obtain ⟨i, hi, hne⟩ := hne
    have hp : 0 < (edges i).length := List.length_pos_iff.2 hne
    obtain ⟨⟨_, _, _, _, h1⟩, h2, _⟩ := hlay i hi hp
    obtain ⟨j, hj, hjp⟩ : ∃ j, j < AM.numBlocks (vd i) ∧ 0 < (blk i j).length := by
      rcases Classical.em (∃ j, j < AM.numBlocks (vd i) ∧ 0 < (blk i j).length) with h | h
      · exact h
      · exfalso
        apply hne
        rw [← h2]
        apply List.flatMap_eq_nil_iff.2
        intro j hj
        have hj := List.mem_range.1 hj
        apply List.length_eq_zero_iff.1
        rcases Nat.eq_zero_or_pos (blk i j).length with h0 | h0
        · exact h0
        · exact absurd ⟨j, hj, h0⟩ h
    refine ⟨i, j, hi, ?_, ?_⟩
    · show j < amBlocks m (F i)
      rw [hnb i hi, if_neg (by omega)]; exact hj
    · have h3 := AM.getBlockDegree_lay h1 (by rw [h2]; exact hp) hj
      rw [h2, ← (hF i hi).1] at h3
      show 0 < AM.getBlockDegree m (F i).a (F i).deg j
      rw [h3]; exact hjp

/-- Vertices without edges keep degree 0 if they are never packed. -/
theorem gpacks_other {addr src : Nat → Nat} {s s' : Mem × (Nat → Nat)}
    {hist : List (Nat × (Nat → Nat → W → Bool))} (hg : GPacks c addr src s hist s') {i : Nat}
    (hi : ∀ h ∈ hist, h.1 ≠ i) : s'.2 i = s.2 i := by
  induction hg with
  | nil s => rfl
  | step _ _ _ _ _ ih =>
    rw [ih fun h hh => hi h (List.mem_cons_of_mem _ hh)]
    exact if_neg fun h => hi _ List.mem_cons_self h.symm

/-- C142, end to end: a graph whose non-empty lists are encoded in disjoint regions, any history of
`pack` calls on its vertices, then a frontier `vs 0 … vs (nv-1)` with at least one remaining edge.  The
sparse traversal of `edgeMap` visits exactly the remaining edges of the frontier, each once.
Missing as in `C142_sparse_partial`; further lists of more than 300 million entries, and packing of
vertices that never had an edge (it reads foreign bytes). -/
theorem C142_packed_graph_partial (L : Lawful c ok) (hw : ∀ w, ok w → (L.enc w).length ≤ 5)
    (n : Nat) (hn : n ≤ 4294967296) (addr : Nat → Nat) (edges : Nat → List (Nat × W)) (old : Nat → Mem)
    (m : Mem) (hv : ∀ v, v < n → ValidList (edges v)) (hok : ∀ v, v < n → ∀ e ∈ edges v, ok e.2)
    (hlen : ∀ v, v < n → (edges v).length ≤ 300000000)
    (hmem : ∀ v, v < n → edges v ≠ [] →
      AgreeOn (AM.sequentialCompressEdgeSet c (old v) (addr v) v (edges v)).1 m (addr v)
        (AM.sequentialCompressEdgeSet c (old v) (addr v) v (edges v)).2)
    (hdis : ∀ u v, u < n → v < n → edges u ≠ [] → edges v ≠ [] → u ≠ v →
      (AM.sequentialCompressEdgeSet c (old u) (addr u) u (edges u)).2 ≤ addr v ∨
      (AM.sequentialCompressEdgeSet c (old v) (addr v) v (edges v)).2 ≤ addr u)
    (hist : List (Nat × (Nat → Nat → W → Bool))) (hh : ∀ h ∈ hist, h.1 < n ∧ edges h.1 ≠ [])
    (m' : Mem) (deg' : Nat → Nat)
    (hg : GPacks c addr id (m, fun v => (edges v).length) hist (m', deg'))
    (nv : Nat) (vs : Nat → Nat) (hvs : ∀ i, i < nv → vs i < n)
    (hne : ∃ i, i < nv ∧ keptOf id hist (vs i) (edges (vs i)) ≠ [])
    (maxb workers : Nat) (hmax : 1000 ≤ maxb) (order : List Nat) (hs : Sched nv order)
    (a0 : Nat → (Nat × Nat) × Nat) {S : Type} :
    Visits (S := S) (chunkedAM c m' (fun i => ⟨addr (vs i), vs i, deg' (vs i)⟩) maxb workers nv
      order a0) (frontierEdges nv vs fun i => keptOf id hist (vs i) (edges (vs i))) := by
  have henc : ∀ v, v < n → edges v ≠ [] →
      (AM.sequentialCompressEdgeSet c (old v) (addr v) v (edges v)).2 =
        addr v + AM.size L v (edges v) ∧
      RepB L m (addr v) v (AM.size L v (edges v)) (edges v).length (edges v) := by
    intro v hvn hnev
    have hp : 0 < (edges v).length := List.length_pos_iff.2 hnev
    obtain ⟨m1, b1, h1, _, hb, _, h4⟩ := AM.encode_spec L hw (old v) (addr v) v (edges v) (by omega)
      (hv v hvn) (hok v hvn) (hlen v hvn)
    have hag := hmem v hvn hnev
    rw [h1] at hag ⊢
    obtain ⟨offs, cap, lay⟩ := h4 hp m hag
    exact ⟨hb hp, offs, cap, _, _, lay, AM.live_block _, block_le _⟩
  have hall := stored_history L (P := fun v => v < n ∧ edges v ≠ []) (addr := addr) (src := id)
    (ext := fun v => AM.size L v (edges v)) (by
      intro i k hi hk hik
      have := hdis i k hi.1 hk.1 hi.2 hk.2 hik
      rw [(henc i hi.1 hi.2).1, (henc k hk.1 hk.2).1] at this
      exact this) hg (edges := edges) hh (fun i hi => ⟨rfl, _, (henc i hi.1 hi.2).2⟩)
  refine C142_sparse_partial L m' _ nv _ ?_ hne maxb workers hmax order hs a0
  intro i hi
  by_cases he : edges (vs i) = []
  · have h0 : keptOf id hist (vs i) (edges (vs i)) = [] := by rw [he]; rfl
    have h1 := gpacks_other hg (i := vs i) fun h hhm heq => (hh h hhm).2 (by rw [heq]; exact he)
    refine ⟨?_, fun h => ?_⟩
    · simp only [h0, List.length_nil]
      simp only [he, List.length_nil] at h1
      exact h1
    · simp only [h0, List.length_nil] at h; omega
  · obtain ⟨h1, vd, h2⟩ := hall (vs i) ⟨hvs i hi, he⟩
    exact ⟨h1, fun _ => ⟨_, vd, h2⟩⟩

end amortized

/-! ### `bytepd` -/

section bytepd

variable {W : Type} {c : PD.PCodec W} {ok : W → Prop}

/-- The memory holds the list `edges` at `v` in the `bytepd` format. -/
def StoredPD (L : Lawful c.codec ok) (m : Mem) (v : Nghs) (edges : List (Nat × W)) : Prop :=
  v.deg = edges.length ∧ (0 < edges.length → ∃ offs, PD.Lay L m v.a v.src edges offs)

theorem pdBlocks_eq (v : Nghs) : pdBlocks v = if v.deg = 0 then 0 else 1 + (v.deg - 1) / 1000 := rfl

/-- C142, `bytepd`, partial: the frontier is traversed correctly if one of its vertices has a degree
other than 0 and 1000.  Missing: the other frontiers (false, `C142_bytepd_loses_edges`). -/
theorem C142_bytepd_partial (L : Lawful c.codec ok) (m : Mem) (F : Nat → Nghs) (nv : Nat)
    (edges : Nat → List (Nat × W)) (hF : ∀ i, i < nv → StoredPD L m (F i) (edges i))
    (hne : ∃ i, i < nv ∧ (edges i).length ≠ 0 ∧ (edges i).length ≠ 1000)
    (maxb workers : Nat) (hmax : 1000 ≤ maxb)
    (order : List Nat) (hs : Sched nv order) (a0 : Nat → (Nat × Nat) × Nat) {S : Type} :
    Visits (S := S) (chunkedPD c.codec m F maxb workers nv order a0)
      (frontierEdges nv (fun i => (F i).src) edges) := by
  have hinfo : ∀ i j, i < nv → j < pdBlocks (F i) →
      0 < (edges i).length ∧ j < 1 + ((edges i).length - 1) / 1000 := by
    intro i j hi hj
    rw [pdBlocks_eq, (hF i hi).1] at hj
    split at hj <;> omega
  refine ⟨_, ?_, (groups_cover (E := Nat × Nat × W) (S := S) (nb := fun i => pdBlocks (F i))
    (bd := fun i j => PD.getBlockDegree (F i).deg j)
    (blk := fun i j => (block (edges i) j).map fun e => ((F i).src, e.1, e.2))
    hmax ?_ ?_ ?_ hs a0).2⟩
  · rw [flatten_blocksOf (fun i => pdBlocks (F i)) nv
      (fun i j => (block (edges i) j).map fun e => ((F i).src, e.1, e.2))]
    unfold frontierEdges
    apply List.flatMap_congr
    intro i hi
    have hi := List.mem_range.1 hi
    rw [← List.map_flatMap, pdBlocks_eq, (hF i hi).1]
    by_cases h0 : (edges i).length = 0
    · rw [if_pos h0, List.length_eq_zero_iff.1 h0]; rfl
    · rw [if_neg h0]
      exact congrArg _ (AM.live_block (edges i))
  · intro i j hi hj
    obtain ⟨hp, hj⟩ := hinfo i j hi hj
    obtain ⟨offs, lay⟩ := (hF i hi).2 hp
    have h3 := PD.decodeBlock_lay lay (fun _ _ _ _ => true) hj
    rw [← (hF i hi).1] at h3
    rw [h3, Option.map_some, edgesOf_calls]
  · intro i j hi hj
    rw [List.length_map]
    exact block_le _ j
  · obtain ⟨i, hi, h0, h1⟩ := hne
    have hd := (hF i hi).1
    by_cases hm : (edges i).length % 1000 = 0
    · refine ⟨i, 0, hi, ?_, ?_⟩
      · show 0 < pdBlocks (F i)
        rw [pdBlocks_eq, if_neg (by omega)]; omega
      · show 0 < PD.getBlockDegree (F i).deg 0
        rw [PD.getBlockDegree, if_neg (by omega)]
        simp only [parallelDegree]
        rw [if_pos (by omega)]; omega
    · refine ⟨i, ((edges i).length - 1) / 1000, hi, ?_, ?_⟩
      · show _ < pdBlocks (F i)
        rw [pdBlocks_eq, if_neg (by omega), hd]; omega
      · show 0 < PD.getBlockDegree (F i).deg _
        rw [PD.getBlockDegree, if_neg (by omega)]
        simp only [parallelDegree]
        split <;> omega

/-- C142 is false for `bytepd`: if every vertex of the frontier has degree 0 or 1000, and one has 1000,
the traversal loses all edges of the frontier, whatever memory, schedule and client function
(`get_block_degree` reports 0 for the last block of such a vertex, C06, so the sum of the degrees is 0
and no group exists). -/
theorem C142_bytepd_loses_edges (cd : WCodec W) (m : Mem) (F : Nat → Nghs) (nv : Nat)
    (hF : ∀ i, i < nv → (F i).deg = 0 ∨ (F i).deg = 1000) (hne : ∃ i, i < nv ∧ (F i).deg = 1000)
    (maxb workers : Nat) (order : List Nat) (hs : Sched nv order) (a0 : Nat → (Nat × Nat) × Nat) :
    (∀ (S : Type) (sel : Nat → List (Nat × Nat × W) → List S),
      chunkedPD cd m F maxb workers nv order a0 sel = some []) ∧
    ∀ edges : Nat → List (Nat × W), (∀ i, i < nv → (F i).deg = (edges i).length) →
      ¬ Visits (S := Nat × Nat × W) (chunkedPD cd m F maxb workers nv order a0)
        (frontierEdges nv (fun i => (F i).src) edges) := by
  have hrun : ∀ (S : Type) (sel : Nat → List (Nat × Nat × W) → List S),
      chunkedPD cd m F maxb workers nv order a0 sel = some [] := by
    intro S sel
    obtain ⟨i0, hi0, h0⟩ := hne
    refine chunkedB_zero ⟨i0, hi0, ?_⟩ ?_ hs a0 sel
    · show 0 < pdBlocks (F i0)
      rw [pdBlocks_eq, h0]; decide
    · intro i j hi hj
      show PD.getBlockDegree (F i).deg j = 0
      have hj : j < pdBlocks (F i) := hj
      rw [pdBlocks_eq] at hj
      rcases hF i hi with h | h
      · rw [h]; rfl
      · rw [h] at hj ⊢
        have : j = 0 := by simp at hj; omega
        rw [this]; decide
  refine ⟨hrun, ?_⟩
  rintro edges he ⟨bs, hb, hv⟩
  have h1 := hv (fun _ es => es) fun _ _ => Nat.le_refl _
  rw [hrun] at h1
  simp only [Option.some.injEq] at h1
  have h2 : bs.zipIdx.flatMap (fun b => b.1) = bs.flatten := by
    rw [List.flatMap_def, List.zipIdx_map_fst]
  rw [h2, hb] at h1
  obtain ⟨i0, hi0, h0⟩ := hne
  have h3 := List.flatMap_eq_nil_iff.1 h1.symm i0 (List.mem_range.2 hi0)
  have h4 := List.map_eq_nil_iff.1 h3
  have := he i0 hi0
  rw [h4, h0] at this
  simp at this

/-- The failing case is reached: `edgeMapData` (C57) sends a sparse frontier of one vertex of degree
1000 in a graph with at least 20020 edges to this traversal, with the default flags. -/
theorem C142_bytepd_reached (n e : Nat) (he : 20020 ≤ e) :
    (EdgeMap.choose ⟨1, false, none, n, e, none, false, false, false, 1000⟩).1 =
      EdgeMap.Choice.chunked := by
  have h : ¬ (1 + 1000 > e / 20) := by omega
  simp [EdgeMap.choose, h]

end bytepd

/-! ### What `edgeMap` returns -/

/-- C142, with C57: for claim functions (`Fn`), in every interleaving of the blocks, the returned
vertices are exactly the targets, without repetition: if the traversal visits the edges of the frontier
in the blocks `bs` (`Visits`), and `G` lists the neighbours. -/
theorem C142_returns_targets {W : Type} (nv : Nat) (src : Nat → Nat) (edges : Nat → List (Nat × W))
    (bs : List (List (Nat × Nat × W))) (hb : bs.flatten = frontierEdges nv src edges)
    (G : EdgeMap.Gr) (hG : ∀ i, i < nv → G.fwd (src i) = (edges i).map Prod.fst) (f : EdgeMap.Fn)
    (inF cl0 : Nat → Bool) (hin : ∀ s, inF s = true ↔ ∃ i, i < nv ∧ src i = s)
    (c : EdgeMap.Conf Nat) (hc : EdgeMap.Complete f cl0
      (EdgeMap.chunkedOps fun w => ((bs[w]?).getD []).map fun e => (e.1, e.2.1)) c) :
    c.out.Nodup ∧ ∀ d, d ∈ c.out ↔ EdgeMap.Target G f inF cl0 d := by
  refine EdgeMap.chunked_target G f inF cl0 _ ?_ c hc
  rintro ⟨s, d⟩
  have h1 : (∃ g : Nat, (s, d) ∈ ((bs[g]?).getD []).map fun (e : Nat × Nat × W) => (e.1, e.2.1)) ↔
      ∃ w, (s, d, w) ∈ bs.flatten := by
    constructor
    · rintro ⟨g, hg⟩
      obtain ⟨⟨s', d', w⟩, he, heq⟩ := List.mem_map.1 hg
      simp only [Prod.mk.injEq] at heq
      obtain ⟨rfl, rfl⟩ := heq
      refine ⟨w, List.mem_flatten.2 ?_⟩
      cases hbg : bs[g]? with
      | none => rw [hbg] at he; cases he
      | some b => rw [hbg] at he; exact ⟨b, List.mem_of_getElem? hbg, he⟩
    · rintro ⟨w, hw⟩
      obtain ⟨b, hbm, he⟩ := List.mem_flatten.1 hw
      obtain ⟨g, hg⟩ := List.mem_iff_getElem?.1 hbm
      refine ⟨g, List.mem_map.2 ⟨(s, d, w), ?_, rfl⟩⟩
      rw [hg]; exact he
  rw [h1, hb]
  unfold frontierEdges
  simp only [List.mem_flatMap, List.mem_range, List.mem_map, Prod.mk.injEq]
  constructor
  · rintro ⟨w, i, hi, e, he, rfl, rfl, rfl⟩
    exact ⟨(hin _).2 ⟨i, hi, rfl⟩, by rw [hG i hi]; exact List.mem_map.2 ⟨e, he, rfl⟩⟩
  · rintro ⟨hs, hd⟩
    obtain ⟨i, hi, rfl⟩ := (hin _).1 hs
    rw [hG i hi] at hd
    obtain ⟨e, he, rfl⟩ := List.mem_map.1 hd
    exact ⟨e.2, i, hi, e, he, rfl, rfl, rfl⟩

/-! ### The hypotheses are met -/

/-- Two blocks of a frontier of two vertices with a common neighbour. -/
example : ([[(4, 1, ()), (4, 2, ())], [(7, 2, ())]] : List (List (Nat × Nat × Unit))).flatten =
    frontierEdges 2 (fun i => 4 + 3 * i) (fun i => if i = 0 then [(1, ()), (2, ())] else [(2, ())]) :=
  rfl

theorem sched_ex : Sched 2 [1, 0] := ⟨by decide, fun i => by simp; omega⟩

/-- A graph of two vertices in one memory, in disjoint regions, and a history that deletes an edge. -/
example : ∃ (m m' : Mem) (deg' addr : Nat → Nat) (edges : Nat → List (Nat × Int)) (old : Nat → Mem),
    (∀ v, v < 2 → ValidList (edges v)) ∧
    (∀ v, v < 2 → edges v ≠ [] →
      AgreeOn (AM.sequentialCompressEdgeSet intCodec (old v) (addr v) v (edges v)).1 m (addr v)
        (AM.sequentialCompressEdgeSet intCodec (old v) (addr v) v (edges v)).2) ∧
    (AM.sequentialCompressEdgeSet intCodec (old 0) (addr 0) 0 (edges 0)).2 ≤ addr 1 ∧
    GPacks intCodec addr id (m, fun v => (edges v).length) [(0, fun _ n _ => n != 9)] (m', deg') ∧
    keptOf id [(0, fun _ n _ => n != 9)] 0 (edges 0) = [(1, 3)] ∧ edges 1 ≠ [] := by
  have hv : ValidList [(1, (3 : Int)), (9, 4)] := ⟨by decide, by decide⟩
  have hv1 : ValidList [(0, (-5 : Int))] := ⟨by decide, by decide⟩
  have hs : AM.Schedule 1 [0] := ⟨by decide, fun i => by simp⟩
  obtain ⟨m1, b1, e1, e2, _, _, _⟩ := AM.encode_spec intLawful intLawful_len (fun _ => 0) 100 1
    [(0, -5)] (by decide) hv1 (by simp [Int32NotMin]) (by decide)
  obtain ⟨m'', h⟩ := AM.C51_amortized_pack_defined m1 0 0
    [(1, 3), (9, 4)] (by decide) hv (by simp [Int32NotMin]) (by decide)
    (by decide) (fun _ n _ => n != 9) [0] [0] [0] hs hs hs
  obtain ⟨m2, b2, g1, _, g3, g4, g5⟩ := AM.encode_spec intLawful intLawful_len m1 0 0
    [(1, 3), (9, 4)] (by decide) hv (by simp [Int32NotMin]) (by decide)
  obtain ⟨_, _, lay⟩ := g5 (by decide) m2 (fun _ _ _ => rfl)
  have hvd := lay.vdEq
  have hb2 : b2 ≤ 100 := by
    rw [g3 (by decide)]
    decide +kernel
  rw [g1] at h
  refine ⟨m2, m'', fun i => if i = 0 then 1 else if i = 1 then 1 else 0, fun v => 100 * v,
    fun v => if v = 0 then [(1, 3), (9, 4)] else if v = 1 then [(0, -5)] else [],
    fun v => if v = 0 then m1 else fun _ => 0, ?_, ?_, ?_, ?_, by decide, by decide⟩
  · intro v hv2
    obtain rfl | rfl : v = 0 ∨ v = 1 := by omega
    · exact hv
    · exact hv1
  · intro v hv2 _
    obtain rfl | rfl : v = 0 ∨ v = 1 := by omega
    · simp only [if_true, Nat.mul_zero, g1]; exact fun _ _ _ => rfl
    · simp only [if_neg (show ¬ (1 : Nat) = 0 by decide), if_true, Nat.mul_one, e1]
      exact fun x h1 _ => (g4 x (Or.inr (by omega))).symm
  · simp only [if_true, Nat.mul_zero, g1]; exact hb2
  · refine .step (order1 := [0]) (order2 := [0]) (order3 := [0]) (d' := 1) (m' := m'') ?_ ?_ hs h ?_
    · show AM.Schedule (AM.numBlocks (m2.load32 0)) [0]
      rw [hvd]; exact hs
    · show AM.Schedule (AM.numBlocks (m2.load32 0)) [0]
      rw [hvd]; exact hs
    · have : (fun i => if i = 0 then 1 else if i = 1 then 1 else 0) = fun i => if i = 0 then 1 else
          ((fun v => if v = 0 then [(1, (3 : Int)), (9, 4)] else if v = 1 then [(0, -5)] else []) i :
            List (Nat × Int)).length := by
        funext i
        by_cases h0 : i = 0
        · simp [h0]
        · by_cases h1 : i = 1
          · simp [h1]
          · simp [h0, h1]
      rw [this]
      exact .nil _

/-- `bytepd`: a list of 1500 entries is stored. -/
example : ∃ (m : Mem) (v : Nghs) (edges : List (Nat × Unit)),
    StoredPD (c := PD.emptyP) emptyLawful m v edges ∧ edges.length = 1500 := by
  have hv : ValidList ((List.range 1500).map fun i => (i, ())) := by
    refine ⟨?_, ?_⟩
    · rw [List.map_map]
      exact (List.map_id _).symm ▸ List.pairwise_lt_range
    · intro e he
      obtain ⟨i, hi, rfl⟩ := List.mem_map.1 he
      have := List.mem_range.1 hi
      show i < _
      omega
  obtain ⟨m', b, _, _, _, _, h5⟩ := PD.encode_spec (c := PD.emptyP) emptyLawful (fun _ _ => rfl)
    (fun w _ => emptyLawful_len w) (fun _ => 0) 0 7 ((List.range 1500).map fun i => (i, ())) (by decide)
    hv (fun _ _ => trivial) (by
      intro e he
      obtain ⟨i, hi, rfl⟩ := List.mem_map.1 he
      have := List.mem_range.1 hi
      unfold PD.Far
      show ¬ (i + _ = _ ∨ _ = i)
      omega) (by simp)
  exact ⟨m', ⟨0, 7, 1500⟩, _, ⟨by simp, fun h => h5 h m' fun _ _ _ => rfl⟩, by simp⟩

example : ∃ (F : Nat → Nghs), (∀ i, i < 2 → (F i).deg = 0 ∨ (F i).deg = 1000) ∧
    (∃ i, i < 2 ∧ (F i).deg = 1000) ∧ Sched 2 [1, 0] :=
  ⟨fun i => ⟨0, i, 1000 * i⟩, by decide, ⟨1, by decide, rfl⟩, sched_ex⟩

end Gbbs.EdgeMapC
