import Verif.Convert.ConverterWrong

/-!
# C125 for directed graphs

`write_graph_bytepd_amortized_directed` of the converter, `utils/converter.h:503-668`
(`-enc bytepd-amortized` without `-s`): the file of the compressor with the block size
`PAR_DEGREE_TWO` in place of the 1000 that the loader assumes.  There are no batches, so that no
vertex is lost, whatever their number.

Simplifications: as in `Verif/Convert/File.lean`; the traversal in lines 508-511 has no effect, and
the messages on standard output are left out.
-/

namespace Gbbs.Convert

open Gbbs Byte Blk EncSpec

variable {W : Type} {c : WCodec W} {ok : W → Prop}

/-- `bytepd_amortized::write_graph_bytepd_amortized_directed`, `utils/converter.h:503-668`: the
header, tables and lists of the out-edges (lines 515-588), then the size, tables and lists of the
in-edges (lines 590-667).  `r` and `r'` are the runs of the two encoding loops. -/
def converterDirected (c : WCodec W) (bs : Nat) (g : Adj W) (r r' : Run) : Option (List UInt8) :=
  match edgeArray c bs g.n g.out r.base r.order r.m0 with
  | none => none
  | some E =>
    (edgeArray c bs g.n g.inn r'.base r'.order r'.m0).map fun E' =>
      (le64 g.n ++ (le64 g.m ++ (le64 (offsets c bs g.out g.n) ++ (tables c bs g.n g.out ++ E)))) ++
        (le64 (offsets c bs g.inn g.n) ++ (tables c bs g.n g.inn ++ E'))

theorem converterDirected_eq (L : Lawful c ok) {bs : Nat} (hbs : 0 < bs) {g : Adj W}
    (ha : Accepted ok g) (r r' : Run) (hr : AM.Schedule g.n r.order)
    (hr' : AM.Schedule g.n r'.order) :
    converterDirected c bs g r r' = some
      ((le64 g.n ++ (le64 g.m ++ (le64 (offsets c bs g.out g.n) ++ (tables c bs g.n g.out ++
        (List.range g.n).flatMap fun v => encBytes L bs v (g.out v))))) ++
        (le64 (offsets c bs g.inn g.n) ++ (tables c bs g.n g.inn ++
          (List.range g.n).flatMap fun v => encBytes L bs v (g.inn v)))) := by
  have hn : g.n ≤ uintEMod := by have := ha.n; simp only [uintEMod]; omega
  rw [converterDirected, edgeArray_eq L hbs hn ha.out r.base r.order hr r.m0]
  dsimp only
  rw [edgeArray_eq L hbs hn ha.inn r'.base r'.order hr' r'.m0]
  rfl

theorem lists_eq (L : Lawful c ok) {bs n : Nat} {nbrs : Nat → List (Nat × W)}
    (hd : bs = 1000 ∨ ∀ v, v < n → (nbrs v).length ≤ bs ∧ (nbrs v).length ≤ 1000) :
    ((List.range n).flatMap fun v => encBytes L bs v (nbrs v)) =
      (List.range n).flatMap fun v => encBytes L 1000 v (nbrs v) := by
  simp only [List.flatMap]
  congr 1
  refine List.map_congr_left (fun i hi => ?_)
  rw [encBytes_small L i (hd.imp id (fun h => h i (List.mem_range.1 hi)))]

/-- If the block size is that of the loader, or no list of either direction is longer than a block,
the converter writes the file that the compressor writes.  Missing: all other cases, see below. -/
theorem converterDirected_partial (L : Lawful c ok) (hw : ∀ w, ok w → (L.enc w).length ≤ 5)
    {bs : Nat} (hbs : 0 < bs) (g : Adj W) (ha : Accepted ok g)
    (hd : bs = 1000 ∨ ∀ v, v < g.n → (g.out v).length ≤ bs ∧ (g.out v).length ≤ 1000)
    (hd' : bs = 1000 ∨ ∀ v, v < g.n → (g.inn v).length ≤ bs ∧ (g.inn v).length ≤ 1000)
    (r r' : Run) (hr : AM.Schedule g.n r.order) (hr' : AM.Schedule g.n r'.order) :
    ∃ file, converterDirected c bs g r r' = some file ∧ ∀ M : Mem, M.Has 0 file →
      (readSymmetric M).n = g.n ∧ (readSymmetric M).m = g.m ∧
      Shows c M g.n g.out (readSymmetric M) ∧ Shows c M g.n g.inn (readInEdges M) := by
  have hn : g.n ≤ uintEMod := by have := ha.n; simp only [uintEMod]; omega
  obtain ⟨file, h1, h2⟩ := asymmetric_roundtrip L hw g ha r r' hr hr'
  refine ⟨file, ?_, h2⟩
  rw [← h1, converterDirected_eq L hbs ha r r' hr hr', compressorDirected, compressor_eq L ha r hr,
    (converter_sizes L hbs hn ha.out hd).1 _ (Nat.le_refl _), (converter_sizes L hbs hn ha.out hd).2,
    (converter_sizes L hbs hn ha.inn hd').1 _ (Nat.le_refl _),
    (converter_sizes L hbs hn ha.inn hd').2, lists_eq L hd, lists_eq L hd']
  dsimp only
  rw [edgeArray_eq L (by decide) hn ha.inn r'.base r'.order hr' r'.m0]
  rfl

/-- C125 for directed graphs without weights: with the default block size 256 the out- and the
in-neighbours are found if no vertex has more than 256 of either; with block size 1000 always. -/
theorem C125_directed_partial (bs : Nat) (hbs : 0 < bs) (g : Adj Unit)
    (ha : Accepted (fun _ => True) g)
    (hd : bs = 1000 ∨ ∀ v, v < g.n → (g.out v).length ≤ bs ∧ (g.out v).length ≤ 1000)
    (hd' : bs = 1000 ∨ ∀ v, v < g.n → (g.inn v).length ≤ bs ∧ (g.inn v).length ≤ 1000)
    (r r' : Run) (hr : AM.Schedule g.n r.order) (hr' : AM.Schedule g.n r'.order) :
    ∃ file, converterDirected emptyCodec bs g r r' = some file ∧ ∀ M : Mem, M.Has 0 file →
      (readSymmetric M).n = g.n ∧ (readSymmetric M).m = g.m ∧
      Shows emptyCodec M g.n g.out (readSymmetric M) ∧
      Shows emptyCodec M g.n g.inn (readInEdges M) :=
  converterDirected_partial emptyLawful (fun w _ => emptyLawful_len w) hbs g ha hd hd' r r' hr hr'

/-- The same with integer weights. -/
theorem C125_directed_int_partial (bs : Nat) (hbs : 0 < bs) (g : Adj Int)
    (ha : Accepted Int32NotMin g)
    (hd : bs = 1000 ∨ ∀ v, v < g.n → (g.out v).length ≤ bs ∧ (g.out v).length ≤ 1000)
    (hd' : bs = 1000 ∨ ∀ v, v < g.n → (g.inn v).length ≤ bs ∧ (g.inn v).length ≤ 1000)
    (r r' : Run) (hr : AM.Schedule g.n r.order) (hr' : AM.Schedule g.n r'.order) :
    ∃ file, converterDirected intCodec bs g r r' = some file ∧ ∀ M : Mem, M.Has 0 file →
      (readSymmetric M).n = g.n ∧ (readSymmetric M).m = g.m ∧
      Shows intCodec M g.n g.out (readSymmetric M) ∧
      Shows intCodec M g.n g.inn (readInEdges M) :=
  converterDirected_partial intLawful intLawful_len hbs g ha hd hd' r r' hr hr'

/-- A directed graph with three vertices, converted with block size 256. -/
example : ∃ (g : Adj Int) (r : Run), Accepted Int32NotMin g ∧ AM.Schedule g.n r.order ∧
    (∀ v, v < g.n → (g.out v).length ≤ 256 ∧ (g.out v).length ≤ 1000) ∧
    (∀ v, v < g.n → (g.inn v).length ≤ 256 ∧ (g.inn v).length ≤ 1000) ∧
    g.out 0 = [(1, -3), (2, 7)] ∧ g.inn 2 = [(0, 7)] := by
  refine ⟨{ n := 3, m := 2, out := fun v => if v = 0 then [(1, -3), (2, 7)] else []
            inn := fun v => if v = 1 then [(0, -3)] else if v = 2 then [(0, 7)] else [] },
    ⟨17, fun _ => 255, [2, 0, 1]⟩, ⟨by decide, by decide, ?_, ?_⟩,
    ⟨by decide, fun i => by simp; omega⟩, ?_, ?_, rfl, rfl⟩
  · intro v _
    by_cases h : v = 0
    · simp only [h, if_true]; exact ⟨⟨by decide, by decide⟩, by simp [Int32NotMin], by decide⟩
    · simp only [h, if_false]; exact ⟨⟨by decide, by decide⟩, by simp, by decide⟩
  · intro v _
    by_cases h : v = 1
    · simp only [h, if_true]; exact ⟨⟨by decide, by decide⟩, by simp [Int32NotMin], by decide⟩
    · by_cases h2 : v = 2
      · simp only [h2]; exact ⟨⟨by decide, by decide⟩, by simp [Int32NotMin], by decide⟩
      · simp only [h, h2, if_false]; exact ⟨⟨by decide, by decide⟩, by simp, by decide⟩
  · intro v _; dsimp only; split <;> simp
  · intro v _; dsimp only; split
    · simp
    · split <;> simp

/-! ## The default block size -/

/-- In a section of the file written with a smaller block size, a list that occupies more blocks
than the loader expects is read wrongly. -/
theorem section_wrong (L : Lawful c ok) {bs n : Nat} (hbs : 0 < bs) {nbrs : Nat → List (Nat × W)}
    (hn : n ≤ uintEMod) (hg : ∀ v, v < n → Good ok (nbrs v))
    (hsmall : offsets c bs nbrs n < 4294967296) {M : Mem} {p : Nat}
    (h : M.Has p (tables c bs n nbrs ++
      (List.range n).flatMap fun v => encBytes L bs v (nbrs v))) (G : Loaded)
    (he : G.edges = p + (n + 1) * 8 + n * 4)
    (ho : ∀ i, G.offset i = load64 M (p + i * 8))
    (hd : ∀ i, G.degree i = M.load32 (p + (n + 1) * 8 + i * 4)) (v : Nat) (hv : v < n)
    (hmore : ((nbrs v).length - 1) / 1000 < ((nbrs v).length - 1) / bs) :
    G.degree v = (nbrs v).length ∧
    (∀ ans, G.mapW c M ans v ≠ some (callsUntil ans v 0 (nbrs v))) ∧
    (∀ ans, G.mapU c M ans v ≠ some (blockedCalls ans v (nbrs v))) := by
  rw [Mem.has_append, tables_length] at h
  obtain ⟨h4, h5⟩ := h
  rw [tables, Mem.has_append] at h4
  have hgv := hg v hv
  have hoff : offsets c bs nbrs v < 4294967296 :=
    Nat.lt_of_le_of_lt (AM.scan_mono _ (by omega)) hsmall
  have hoff1 : offsets c bs nbrs (v + 1) < 4294967296 :=
    Nat.lt_of_le_of_lt (AM.scan_mono _ (by omega)) hsmall
  have e2 := load64_of_has (has_flatMap_const (fun i => le64_length (offsets c bs nbrs i)) h4.1 v
    (by omega)) (by omega)
  have hl : ((List.range (n + 1)).flatMap fun i => le64 (offsets c bs nbrs i)).length =
      (n + 1) * 8 := by rw [flatMap_length]; simp only [le64_length, scan_const]
  rw [hl] at h4
  have e3 := has_flatMap_const (fun i => le32_length (degrees c bs nbrs i)) h4.2 v hv
  rw [degrees_eq L hbs (by omega) hgv] at e3
  have e3 := Mem.load32_of_has e3 (by have := hgv.len; omega)
  rw [offsets_eq L hbs hn hg (by omega)] at e2 hoff hoff1
  rw [AM.scan] at hoff1
  have e5 := has_flatMap.1 h5 v hv
  have k1 : G.degree v = (nbrs v).length := by rw [hd, ← e3]
  have k2 : G.edges + G.offset v = p + ((n + 1) * 8 + n * 4) +
      AM.scan (fun j => (encBytes L bs j (nbrs j)).length) v := by
    rw [he, ho, e2]; omega
  refine ⟨k1, fun ans => ?_, fun ans => ?_⟩
  · rw [Loaded.mapW, k1, k2]
    exact (misread L hbs v (nbrs v) (by omega) (by have := hgv.len; omega) hmore e5 ans).1
  · rw [Loaded.mapU, k1, k2]
    exact (misread L hbs v (nbrs v) (by omega) (by have := hgv.len; omega) hmore e5 ans).2

/-- C125, block size, directed graphs: converted with the default block size and loaded, a vertex
with 257 to 1000 out-neighbours has the right out-degree, but no traversal of its out-neighbours is
right; and a vertex with 257 to 1000 in-neighbours likewise. -/
theorem C125_directed_blocksize (g : Adj Unit) (ha : Accepted (fun _ => True) g)
    (hsmall : offsets emptyCodec 256 g.out g.n < 4294967296)
    (hsmall' : offsets emptyCodec 256 g.inn g.n < 4294967296)
    (r r' : Run) (hr : AM.Schedule g.n r.order) (hr' : AM.Schedule g.n r'.order) :
    ∃ file, converterDirected emptyCodec 256 g r r' = some file ∧ ∀ M : Mem, M.Has 0 file →
      (∀ v, v < g.n → 256 < (g.out v).length → (g.out v).length ≤ 1000 →
        (readSymmetric M).degree v = (g.out v).length ∧
        (∀ ans, (readSymmetric M).mapW emptyCodec M ans v ≠
          some (callsUntil ans v 0 (g.out v))) ∧
        (∀ ans, (readSymmetric M).mapU emptyCodec M ans v ≠
          some (blockedCalls ans v (g.out v)))) ∧
      (∀ v, v < g.n → 256 < (g.inn v).length → (g.inn v).length ≤ 1000 →
        (readInEdges M).degree v = (g.inn v).length ∧
        (∀ ans, (readInEdges M).mapW emptyCodec M ans v ≠
          some (callsUntil ans v 0 (g.inn v))) ∧
        (∀ ans, (readInEdges M).mapU emptyCodec M ans v ≠
          some (blockedCalls ans v (g.inn v)))) := by
  have hn : g.n ≤ uintEMod := by have := ha.n; simp only [uintEMod]; omega
  have hbs : 0 < 256 := by decide
  refine ⟨_, converterDirected_eq emptyLawful hbs ha r r' hr hr', fun M hM => ?_⟩
  rw [Mem.has_append] at hM
  obtain ⟨hM, hI⟩ := hM
  have hlen : (le64 g.n ++ (le64 g.m ++ (le64 (offsets emptyCodec 256 g.out g.n) ++
      (tables emptyCodec 256 g.n g.out ++
        (List.range g.n).flatMap fun v => encBytes emptyLawful 256 v (g.out v))))).length =
      24 + (g.n + 1) * 8 + g.n * 4 + offsets emptyCodec 256 g.out g.n := by
    rw [offsets_eq emptyLawful hbs hn ha.out (Nat.le_refl _)]
    simp only [List.length_append, le64_length, tables_length, flatMap_length]
    omega
  rw [hlen, Mem.has_append, le64_length] at hI
  rw [Mem.has_append, Mem.has_append, Mem.has_append] at hM
  simp only [le64_length] at hM
  obtain ⟨h1, _, h3, h4⟩ := hM
  have e1 : load64 M 0 = g.n := load64_of_has h1 (by have := ha.n; omega)
  have e3 : load64 M 16 = offsets emptyCodec 256 g.out g.n := load64_of_has h3 (by omega)
  have hmore : ∀ k, 256 < k → k ≤ 1000 → (k - 1) / 1000 < (k - 1) / 256 := by
    intro k h1 h2
    rw [Nat.div_eq_of_lt (by omega : k - 1 < 1000)]
    exact Nat.div_pos (by omega) (by decide)
  refine ⟨fun v hv h1 h2 => ?_, fun v hv h1 h2 => ?_⟩
  · refine section_wrong emptyLawful hbs hn ha.out hsmall h4 _ ?_ ?_ ?_ v hv (hmore _ h1 h2)
    · simp only [readSymmetric, e1]
    · intro i; rfl
    · intro i; simp only [readSymmetric, e1]
  · refine section_wrong emptyLawful hbs hn ha.inn hsmall' hI.2 _ ?_ ?_ ?_ v hv (hmore _ h1 h2)
    · simp only [readInEdges, e1, e3]; omega
    · intro i; simp only [readInEdges, e1, e3]; congr 1; omega
    · intro i; simp only [readInEdges, e1, e3]; congr 1; omega

/-- The star with 300 leaves meets the hypotheses; the centre has 300 neighbours in each
direction. -/
example : Accepted (fun _ => True) star300 ∧
    offsets emptyCodec 256 star300.out star300.n < 4294967296 ∧
    offsets emptyCodec 256 star300.inn star300.n < 4294967296 ∧
    AM.Schedule star300.n (List.range star300.n) ∧ 0 < star300.n ∧
    256 < (star300.out 0).length ∧ (star300.out 0).length ≤ 1000 ∧
    256 < (star300.inn 0).length ∧ (star300.inn 0).length ≤ 1000 :=
  ⟨star300_accepted, by decide +kernel, by decide +kernel,
    ⟨List.nodup_range, fun _ => List.mem_range⟩, by decide, by decide +kernel, by decide +kernel,
    by decide +kernel, by decide +kernel⟩

end Gbbs.Convert
