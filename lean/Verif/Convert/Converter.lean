import Verif.Convert.File

/-!
# `utils/converter`: the compressed formats

`utils/converter.h` is the other program that writes compressed graphs.  It lets the user choose the
encoding (`-enc`, default `byte`) and the block size (`-bs`, default 256), and writes symmetric
graphs in batches.  The loaders (`gbbs/graph_io.h:219-326`) know one encoding only,
`bytepd_amortized` with blocks of `PARALLEL_DEGREE = 1000` entries.
-/

namespace Gbbs.Convert

open Gbbs Byte Blk EncSpec

variable {W : Type}

/-! ## Model -/

/-- `parlay::num_blocks(n, b)`: the quotient rounded up. -/
def numBlocksP (n b : Nat) : Nat := if n = 0 then 0 else 1 + (n - 1) / b

/-- The batches that the loop writes, `utils/converter.h:735-740` (`[start, end)`): `bs` is both the
size of a batch and the bound of the loop; `k` iterations remain. -/
def batches (bs n : Nat) : (k i : Nat) → List (Nat × Nat)
  | 0, _ => []
  | k + 1, i =>
    let start := i * bs
    let stop := min (start + bs) n
    if start ≥ stop then [] else (start, stop) :: batches bs n k (i + 1)

/-- One batch, `utils/converter.h:743-768`: the buffer is at address `r.base`. -/
def slab (c : WCodec W) (bs : Nat) (nbrs : Nat → List (Nat × W)) (r : Run) (start stop : Nat) :
    Option (List UInt8) :=
  (encodeAll c bs nbrs
    (fun j => r.base + (offsets c bs nbrs j - offsets c bs nbrs start)) r.order r.m0).map fun m =>
      bytesAt m r.base (offsets c bs nbrs stop - offsets c bs nbrs start)

/-- The loop over the batches: what is written for the edges.  `runs` describes, per batch, the
buffer and the order of the iterations. -/
def slabs (c : WCodec W) (bs : Nat) (nbrs : Nat → List (Nat × W)) (runs : Nat → Run) :
    Nat → List (Nat × Nat) → Option (List UInt8)
  | _, [] => some []
  | i, (start, stop) :: rest =>
    match slab c bs nbrs (runs i) start stop with
    | none => none
    | some bytes => (slabs c bs nbrs runs (i + 1) rest).map fun b => bytes ++ b

/-- `bytepd_amortized::write_graph_bytepd_amortized_format` of a symmetric graph,
`utils/converter.h:671-772`, with block size `PAR_DEGREE_TWO = bs` and `n_batches` batches. -/
def converterSym (c : WCodec W) (bs nBatches : Nat) (g : Adj W) (runs : Nat → Run) :
    Option (List UInt8) :=
  let b := numBlocksP g.n nBatches
  (slabs c bs g.out runs 0 (batches b g.n b 0)).map fun E =>
    le64 g.n ++ (le64 g.m ++ (le64 (offsets c bs g.out g.n) ++ (tables c bs g.n g.out ++ E)))

/-- The size pass of `byte::write_graph_byte_format`, `utils/converter.h:29-53`. -/
def byteSize (c : WCodec W) (u : Nat) (edges : List (Nat × W)) : Nat :=
  (sizeLoop c (edges.length + 1) u edges 0 0 0).1

/-- `byte::write_graph_byte_format`, `utils/converter.h:20-89`: the default encoding.  The vertices
are handled in order (they write disjoint parts of `edges`); the check of lines 67-72 is omitted. -/
def converterByte (c : WCodec W) (g : Adj W) (base : Nat) (m0 : Mem) : List UInt8 :=
  let offs := AM.scan (fun j => byteSize c j (g.out j))
  let m := (List.range g.n).foldl
    (fun m i => (Byte.sequentialCompressEdgeSet c m (base + offs i) i (g.out i)).1) m0
  le64 g.n ++ (le64 g.m ++ (le64 (offs g.n) ++
    (((List.range (g.n + 1)).flatMap fun i => le64 (offs i)) ++
      (((List.range g.n).flatMap fun i => le32 (g.out i).length) ++ bytesAt m base (offs g.n)))))

/-- The size pass of `degree_reorder`, `utils/converter.h:813-868`, for a vertex with new
identifier `newId` whose neighbours have the new identifiers `nghs`.  `deg` is 0 when it is used as
the length of the array allocated for more than 8192 neighbours (line 825: writing to it is
undefined, `none`) and as the length of the slice that is sorted and traversed (line 833). -/
def reorderPass (newId : Nat) (nghs : List Nat) : Option (Nat × Nat) :=
  let deg := 0
  if nghs.length > 0 then
    if nghs.length > 8192 then none
    else
      let slice := (nghs.take deg).mergeSort (fun a b => decide (a ≤ b))
      let r := sizeLoop emptyCodec 256 newId (slice.map fun v => (v, ())) 0 0 deg
      if r.2 > 0 then some (r.1 + (1 + (r.2 - 1) / 256 - 1) * 4 + (1 + (r.2 - 1) / 256) * 4 + 4, r.2)
      else some r
  else some (0, deg)

/-- `degree_reorder` (`-enc degree`), `utils/converter.h:792-924`: `rank` is the result of
`rankNodes`.  A vertex whose `degrees` entry is 0 gets no bytes; the edges of the others are not
modelled (`none`), since there are none. -/
def converterDegree (g : Adj Unit) (rank : Nat → Nat) : Option (List UInt8) :=
  match (List.range g.n).mapM fun i => reorderPass (rank i) ((g.out i).map fun e => rank e.1) with
  | none => none
  | some rows =>
    if rows.all fun r => decide (r.2 = 0) then
      let offs := AM.scan fun i => (rows.getD i (0, 0)).1
      some (le64 g.n ++ (le64 g.m ++ (le64 (offs g.n) ++
        (((List.range (g.n + 1)).flatMap fun i => le64 (offs i)) ++
          (List.range g.n).flatMap fun i => le32 (rows.getD i (0, 0)).2))))
    else none

/-! ## Batches -/

/-- The vertices covered by consecutive batches. -/
theorem batches_spec (bs n : Nat) (k i : Nat) (hi : i * bs ≤ n) :
    ∃ stop, stop = min ((i + k) * bs) n ∧
      (batches bs n k i).Pairwise (fun x y => x.2 ≤ y.1) ∧
      (∀ x ∈ batches bs n k i, x.1 ≤ x.2 ∧ x.2 ≤ n) ∧
      (∀ f : Nat → List UInt8, (batches bs n k i).flatMap
        (fun x => (List.range' x.1 (x.2 - x.1)).flatMap f) =
          (List.range' (i * bs) (stop - i * bs)).flatMap f) := by
  refine ⟨_, rfl, ?_⟩
  induction k generalizing i with
  | zero =>
    rw [Nat.add_zero, Nat.min_eq_left hi]
    simp [batches]
  | succ k ih =>
    have hm : (i + 1) * bs = i * bs + bs := Nat.succ_mul ..
    have hk : (i + (k + 1)) * bs = (i + 1 + k) * bs := by rw [show i + (k + 1) = i + 1 + k by omega]
    have hle : (i + 1) * bs ≤ (i + 1 + k) * bs := Nat.mul_le_mul_right _ (by omega)
    simp only [batches]
    by_cases hs : i * bs ≥ min (i * bs + bs) n
    · rw [if_pos hs]
      refine ⟨List.Pairwise.nil, by simp, fun f => ?_⟩
      have : min ((i + (k + 1)) * bs) n - i * bs = 0 := by
        by_cases hb : bs = 0
        · subst hb; simp
        · omega
      rw [this]; rfl
    · rw [if_neg hs]
      by_cases hlast : n ≤ i * bs + bs
      · -- the batch that reaches the end; the next one is empty
        have hnil : batches bs n k (i + 1) = [] := by
          cases k with
          | zero => rfl
          | succ k => rw [batches, if_pos (by omega)]
        rw [hnil]
        refine ⟨by simp, by simp; omega, fun f => ?_⟩
        simp only [List.flatMap_cons, List.flatMap_nil, List.append_nil]
        congr 2; omega
      · obtain ⟨h1, h2, h3⟩ := ih (i + 1) (by omega)
        have hfst : ∀ x ∈ batches bs n k (i + 1), (i + 1) * bs ≤ x.1 := by
          clear h1 h2 h3 ih hlast hs hk hle
          generalize i + 1 = j
          induction k generalizing j with
          | zero => simp [batches]
          | succ k ih =>
            intro x hx
            simp only [batches] at hx
            split at hx
            · simp at hx
            · rcases List.mem_cons.1 hx with rfl | hx
              · exact Nat.le_refl _
              · have := ih (j + 1) x hx
                have : (j + 1) * bs = j * bs + bs := Nat.succ_mul ..
                omega
        refine ⟨?_, ?_, fun f => ?_⟩
        · rw [List.pairwise_cons]
          refine ⟨fun y hy => ?_, h1⟩
          have := hfst y hy
          show min (i * bs + bs) n ≤ y.1
          omega
        · intro x hx
          rcases List.mem_cons.1 hx with rfl | hx
          · show i * bs ≤ min (i * bs + bs) n ∧ min (i * bs + bs) n ≤ n
            omega
          · exact h2 x hx
        · rw [List.flatMap_cons, h3 f, hk, Nat.min_eq_left (by omega : i * bs + bs ≤ n), hm]
          rw [show i * bs + bs - i * bs = bs by omega, ← List.flatMap_append]
          rw [show min ((i + 1 + k) * bs) n - i * bs =
            bs + (min ((i + 1 + k) * bs) n - (i * bs + bs)) by omega, ← List.range'_append_1]

variable {c : WCodec W} {ok : W → Prop}

/-- What a run of a batch must be: every vertex of the batch once. -/
def RunOk (r : Run) (x : Nat × Nat) : Prop :=
  r.order.Nodup ∧ ∀ v, v ∈ r.order ↔ x.1 ≤ v ∧ v < x.2

theorem has_range' {m : Mem} {a s k : Nat} {f : Nat → List UInt8}
    (h : ∀ i, s ≤ i → i < s + k →
      m.Has (a + (AM.scan (fun i => (f i).length) i - AM.scan (fun i => (f i).length) s)) (f i)) :
    m.Has a ((List.range' s k).flatMap f) ∧
    ((List.range' s k).flatMap f).length =
      AM.scan (fun i => (f i).length) (s + k) - AM.scan (fun i => (f i).length) s := by
  induction k with
  | zero => simp [Mem.Has]
  | succ k ih =>
    obtain ⟨h1, h2⟩ := ih (fun i hi1 hi2 => h i hi1 (by omega))
    have hmono := AM.scan_mono (fun i => (f i).length) (show s ≤ s + k by omega)
    rw [List.range'_1_concat, List.flatMap_append, Mem.has_append, h2]
    simp only [List.flatMap_cons, List.flatMap_nil, List.append_nil, List.length_append, h2]
    refine ⟨⟨h1, h (s + k) (by omega) (by omega)⟩, ?_⟩
    rw [show s + (k + 1) = (s + k) + 1 by omega, AM.scan]
    omega

theorem slab_eq (L : Lawful c ok) {bs n : Nat} (hbs : 0 < bs) {nbrs : Nat → List (Nat × W)}
    (hn : n ≤ uintEMod) (hg : ∀ v, v < n → Good ok (nbrs v)) (r : Run) (x : Nat × Nat)
    (hx : x.1 ≤ x.2 ∧ x.2 ≤ n) (hr : RunOk r x) :
    slab c bs nbrs r x.1 x.2 =
      some ((List.range' x.1 (x.2 - x.1)).flatMap fun v => encBytes L bs v (nbrs v)) := by
  obtain ⟨m', h1, h2, _⟩ := encodeAll_spec L hbs hn hg
    (fun j => r.base + (offsets c bs nbrs j - offsets c bs nbrs x.1)) r.order hr.1
    (fun v hv => by have := (hr.2 v).1 hv; omega)
    (fun v hv w hw hvw => by
      have hv := (hr.2 v).1 hv
      have hw := (hr.2 w).1 hw
      have e1 := AM.scan_mono (fun j => (encBytes L bs j (nbrs j)).length) (show v + 1 ≤ w from hvw)
      have e2 := AM.scan_mono (fun j => (encBytes L bs j (nbrs j)).length) hv.1
      rw [AM.scan] at e1
      simp only [offsets_eq L hbs hn hg (show v ≤ n by omega),
        offsets_eq L hbs hn hg (show w ≤ n by omega),
        offsets_eq L hbs hn hg (show x.1 ≤ n by omega)]
      omega) r.m0
  have key := has_range' (m := m') (a := r.base) (s := x.1) (k := x.2 - x.1)
    (f := fun v => encBytes L bs v (nbrs v)) (fun i hi1 hi2 => by
      have := h2 i ((hr.2 i).2 (by omega))
      rwa [offsets_eq L hbs hn hg (show i ≤ n by omega),
        offsets_eq L hbs hn hg (show x.1 ≤ n by omega)] at this)
  have hb := has_bytesAt key.1
  rw [key.2, show x.1 + (x.2 - x.1) = x.2 by omega] at hb
  rw [slab, h1, Option.map_some, offsets_eq L hbs hn hg (show x.1 ≤ n by omega),
    offsets_eq L hbs hn hg (show x.2 ≤ n by omega), hb]

theorem slabs_eq (L : Lawful c ok) {bs n : Nat} (hbs : 0 < bs) {nbrs : Nat → List (Nat × W)}
    (hn : n ≤ uintEMod) (hg : ∀ v, v < n → Good ok (nbrs v)) (runs : Nat → Run)
    (l : List (Nat × Nat)) (i : Nat) (hl : ∀ x ∈ l, x.1 ≤ x.2 ∧ x.2 ≤ n)
    (hr : ∀ j (h : j < l.length), RunOk (runs (i + j)) l[j]) :
    slabs c bs nbrs runs i l = some (l.flatMap fun x =>
      (List.range' x.1 (x.2 - x.1)).flatMap fun v => encBytes L bs v (nbrs v)) := by
  induction l generalizing i with
  | nil => rfl
  | cons x l ih =>
    obtain ⟨s, t⟩ := x
    have h0 := slab_eq L hbs hn hg (runs i) (s, t) (hl _ (by simp)) (hr 0 (by simp))
    have h1 := ih (i + 1) (fun y hy => hl y (by simp [hy])) (fun j hj => by
      have := hr (j + 1) (by simpa using hj)
      rwa [show i + (j + 1) = i + 1 + j by omega, List.getElem_cons_succ] at this)
    simp only [slabs, h0, h1, Option.map_some, List.flatMap_cons]

/-- The runs of all batches are as they should be. -/
def RunsOk (nBatches n : Nat) (runs : Nat → Run) : Prop :=
  let b := numBlocksP n nBatches
  ∀ j (h : j < (batches b n b 0).length), RunOk (runs j) (batches b n b 0)[j]

/-- What the converter writes: the lists of the first `b·b` vertices only, where `b` is the batch
size. -/
theorem converterSym_eq (L : Lawful c ok) {bs nBatches : Nat} (hbs : 0 < bs) {g : Adj W}
    (ha : Accepted ok g) (runs : Nat → Run) (hr : RunsOk nBatches g.n runs) :
    converterSym c bs nBatches g runs =
      some (le64 g.n ++ (le64 g.m ++ (le64 (offsets c bs g.out g.n) ++ (tables c bs g.n g.out ++
        (List.range (min (numBlocksP g.n nBatches * numBlocksP g.n nBatches) g.n)).flatMap
          fun v => encBytes L bs v (g.out v))))) := by
  have hn : g.n ≤ uintEMod := by have := ha.n; simp only [uintEMod]; omega
  obtain ⟨stop, hs, h1, h2, h3⟩ := batches_spec (numBlocksP g.n nBatches) g.n
    (numBlocksP g.n nBatches) 0 (by omega)
  rw [converterSym]
  rw [slabs_eq L hbs hn ha.out runs _ 0 h2 (fun j hj => by rw [Nat.zero_add]; exact hr j hj), h3]
  rw [Nat.zero_mul, Nat.sub_zero, hs, Nat.zero_add, ← List.range_eq_range']
  rfl

/-! ## When the file is right -/

theorem bodyBytes_one (L : Lawful c ok) (bs src : Nat) (l : List (Nat × W)) (h : l.length ≤ bs) :
    bodyBytes L bs src l 1 0 = le32 0 ++ (encList L src l ++ []) := by
  simp only [bodyBytes, blockB, Nat.zero_mul, List.drop_zero, List.take_of_length_le h]

/-- A list that fits into one block is encoded in the same way for all block sizes. -/
theorem encBytes_small (L : Lawful c ok) {bs : Nat} (src : Nat) {l : List (Nat × W)}
    (h : bs = 1000 ∨ (l.length ≤ bs ∧ l.length ≤ 1000)) :
    encBytes L bs src l = encBytes L 1000 src l := by
  rcases h with rfl | ⟨h1, h2⟩
  · rfl
  · by_cases hp : l.length > 0
    · have e1 : (l.length - 1) / bs = 0 := Nat.div_eq_of_lt (by omega)
      have e2 : (l.length - 1) / 1000 = 0 := Nat.div_eq_of_lt (by omega)
      simp only [encBytes, if_pos hp, e1, e2, bodyBytes_one L bs src l h1,
        bodyBytes_one L 1000 src l h2]
      rfl
    · simp only [encBytes, if_neg hp]

theorem converter_sizes (L : Lawful c ok) {bs : Nat} (hbs : 0 < bs) {n : Nat}
    {nbrs : Nat → List (Nat × W)} (hn : n ≤ uintEMod) (hg : ∀ v, v < n → Good ok (nbrs v))
    (hd : bs = 1000 ∨ ∀ v, v < n → (nbrs v).length ≤ bs ∧ (nbrs v).length ≤ 1000) :
    (∀ i, i ≤ n → offsets c bs nbrs i = offsets c 1000 nbrs i) ∧
    tables c bs n nbrs = tables c 1000 n nbrs := by
  have ho : ∀ i, i ≤ n → offsets c bs nbrs i = offsets c 1000 nbrs i := by
    intro i hi
    rw [offsets_eq L hbs hn hg hi, offsets_eq L (by decide) hn hg hi]
    refine AM.scan_congr (fun j hj => ?_)
    rw [encBytes_small L j (hd.imp id (fun h => h j (by omega)))]
  refine ⟨ho, ?_⟩
  rw [tables, tables]
  congr 1
  · simp only [List.flatMap]
    congr 1
    refine List.map_congr_left (fun i hi => ?_)
    rw [ho i (by have := List.mem_range.1 hi; omega)]
  · simp only [List.flatMap]
    congr 1
    refine List.map_congr_left (fun i hi => ?_)
    have hi := List.mem_range.1 hi
    rw [degrees_eq L hbs (by omega) (hg i hi), degrees_eq L (by decide) (by omega) (hg i hi)]

/-- If the batches cover all vertices, and the block size is that of the loader or no list is longer
than a block, the converter writes the file that the compressor writes, and the loader finds the
graph.  Missing: all other cases, see below. -/
theorem converter_partial (L : Lawful c ok) (hw : ∀ w, ok w → (L.enc w).length ≤ 5) {bs nBatches : Nat}
    (hbs : 0 < bs) (g : Adj W) (ha : Accepted ok g)
    (hd : bs = 1000 ∨ ∀ v, v < g.n → (g.out v).length ≤ bs ∧ (g.out v).length ≤ 1000)
    (hc : g.n ≤ numBlocksP g.n nBatches * numBlocksP g.n nBatches)
    (runs : Nat → Run) (hr : RunsOk nBatches g.n runs) :
    ∃ file, converterSym c bs nBatches g runs = some file ∧ ∀ M : Mem, M.Has 0 file →
      (readSymmetric M).n = g.n ∧ (readSymmetric M).m = g.m ∧
      Shows c M g.n g.out (readSymmetric M) := by
  have hn : g.n ≤ uintEMod := by have := ha.n; simp only [uintEMod]; omega
  have hs : AM.Schedule g.n (List.range g.n) := ⟨List.nodup_range, fun i => List.mem_range⟩
  obtain ⟨file, h1, h2⟩ := symmetric_roundtrip L hw g ha ⟨0, fun _ => 0, List.range g.n⟩ hs
  refine ⟨file, ?_, h2⟩
  rw [← h1, converterSym_eq L hbs ha runs hr, compressor_eq L ha _ hs, Nat.min_eq_right hc,
    (converter_sizes L hbs hn ha.out hd).1 _ (Nat.le_refl _), (converter_sizes L hbs hn ha.out hd).2]
  congr 5
  simp only [List.flatMap]
  congr 1
  refine List.map_congr_left (fun i hi => ?_)
  have hi := List.mem_range.1 hi
  rw [encBytes_small L i (hd.imp id (fun h => h i hi))]

/-- With the default of six batches the batches cover all vertices exactly for the empty graph, a
single vertex, 25 vertices, and more than 30. -/
theorem batches_cover (n : Nat) :
    n ≤ numBlocksP n 6 * numBlocksP n 6 ↔ n ≤ 1 ∨ n = 25 ∨ 30 < n := by
  by_cases h : n ≤ 30
  · have : ∀ k : Fin 31, k.val ≤ numBlocksP k.val 6 * numBlocksP k.val 6 ↔
        k.val ≤ 1 ∨ k.val = 25 ∨ 30 < k.val := by decide
    exact this ⟨n, by omega⟩
  · have h6 : 6 ≤ numBlocksP n 6 := by
      rw [numBlocksP, if_neg (by omega)]; omega
    have h7 : n ≤ 6 * numBlocksP n 6 := by
      rw [numBlocksP, if_neg (by omega)]; omega
    have : 6 * numBlocksP n 6 ≤ numBlocksP n 6 * numBlocksP n 6 := Nat.mul_le_mul_right _ h6
    constructor
    · intro _; omega
    · intro _; omega

/-! ## When it is not -/

/-- The lists of the vertices beyond the batches are not in the file: their addresses are at or
beyond its end. -/
theorem converter_truncated (L : Lawful c ok) {bs nBatches : Nat} (hbs : 0 < bs) (g : Adj W)
    (ha : Accepted ok g) (runs : Nat → Run) (hr : RunsOk nBatches g.n runs) (v : Nat)
    (hv : v < g.n) (hout : numBlocksP g.n nBatches * numBlocksP g.n nBatches ≤ v) (file : List UInt8)
    (hf : converterSym c bs nBatches g runs = some file)
    (hsmall : ∀ u, u ≤ g.n → offsets c bs g.out u < 18446744073709551616) (M : Mem)
    (hM : M.Has 0 file) :
    file.length ≤ (readSymmetric M).edges + (readSymmetric M).offset v := by
  have hn : g.n ≤ uintEMod := by have := ha.n; simp only [uintEMod]; omega
  rw [converterSym_eq L hbs ha runs hr, Nat.min_eq_left (by omega)] at hf
  have hf := (Option.some.inj hf).symm
  subst hf
  have hlen : (le64 g.n ++ (le64 g.m ++ (le64 (offsets c bs g.out g.n) ++ (tables c bs g.n g.out ++
        (List.range (numBlocksP g.n nBatches * numBlocksP g.n nBatches)).flatMap
          fun v => encBytes L bs v (g.out v))))).length = 24 + (g.n + 1) * 8 + g.n * 4 +
      AM.scan (fun j => (encBytes L bs j (g.out j)).length)
        (numBlocksP g.n nBatches * numBlocksP g.n nBatches) := by
    simp only [List.length_append, le64_length, tables_length, flatMap_length]
    omega
  rw [hlen]
  simp only [Mem.has_append, le64_length] at hM
  obtain ⟨h1, h2, h3, h4, _⟩ := hM
  rw [tables, Mem.has_append] at h4
  have e1 : load64 M 0 = g.n := load64_of_has h1 (by have := ha.n; omega)
  have e2 := has_flatMap_const (fun i => le64_length (offsets c bs g.out i)) h4.1 v (by omega)
  have e3 := load64_of_has e2 (hsmall v (by omega))
  rw [offsets_eq L hbs hn ha.out (by omega)] at e3
  have := AM.scan_mono (fun j => (encBytes L bs j (g.out j)).length) hout
  simp only [readSymmetric, e1]
  rw [show 0 + 8 + 8 + 8 + v * 8 = 3 * 8 + v * 8 by omega] at e3
  rw [e3]
  omega

end Gbbs.Convert
