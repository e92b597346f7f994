import Verif.Convert.Encode

/-!
# Writing a compressed graph file and loading it again

`utils/compressor.cc` writes a graph in the `bytepd_amortized` format,
`gbbs/graph_io.h` (`read_compressed_symmetric_graph`, `read_compressed_asymmetric_graph`) loads it.

Simplifications.  `long`, `uintT` and `size_t` have 64 bits, `uintE` 32; sums of sizes are computed
without wrap-around (the theorems show that they stay below 2^64).  A file is the list of bytes
written.  The loader gets a memory that starts with the bytes of the file; what follows the file is
arbitrary.  Words are read at unaligned addresses as the code does.
-/

namespace Gbbs.Convert

open Gbbs Byte Blk EncSpec

variable {W : Type}

/-! ## Model -/

/-- The eight bytes of a `long` / `uintT`. -/
def le64 (v : Nat) : List UInt8 := le32 (v % 4294967296) ++ le32 (v / 4294967296)

/-- `*((long*)p)` -/
def load64 (m : Mem) (a : Nat) : Nat := m.load32 a + 4294967296 * m.load32 (a + 4)

/-- A graph as the converters see it: `GA.n`, `GA.m` and, for every vertex, the entries of
`out_neighbors()` and of `in_neighbors()` in order. -/
structure Adj (W : Type) where
  n : Nat
  m : Nat
  out : Nat → List (Nat × W)
  inn : Nat → List (Nat × W)

/-- `byte_offsets` after the scan: `utils/compressor.cc:59-63`, `utils/converter.h:530-536`. -/
def offsets (c : WCodec W) (bs : Nat) (nbrs : Nat → List (Nat × W)) (i : Nat) : Nat :=
  AM.scan (fun j => (sizePass c bs j (nbrs j)).1) i

/-- `degrees`: `utils/compressor.cc:58`. -/
def degrees (c : WCodec W) (bs : Nat) (nbrs : Nat → List (Nat × W)) (i : Nat) : Nat :=
  (sizePass c bs i (nbrs i)).2

/-- One iteration of the loop that encodes the vertices, `utils/compressor.cc:68-81`,
`utils/converter.h:748-764`: the list of `i` is encoded at address `pos i`; if the number of bytes
is not the expected one the program ends with `exit(0)` (`none`). -/
def encodeVertex (c : WCodec W) (bs : Nat) (nbrs : Nat → List (Nat × W)) (pos : Nat → Nat) (m : Mem)
    (i : Nat) : Option Mem :=
  if degrees c bs nbrs i > 0 then
    let r := compress c bs m (pos i) i (nbrs i)
    if r.2 - pos i ≠ offsets c bs nbrs (i + 1) - offsets c bs nbrs i then none else some r.1
  else some m

/-- The parallel loop over the vertices; `order` is the order in which they are handled. -/
def encodeAll (c : WCodec W) (bs : Nat) (nbrs : Nat → List (Nat × W)) (pos : Nat → Nat)
    (order : List Nat) (m : Mem) : Option Mem :=
  order.foldlM (encodeVertex c bs nbrs pos) m

/-- The `len` bytes of memory at an address. -/
def bytesAt (m : Mem) (a len : Nat) : List UInt8 := (List.range len).map fun x => m (a + x)

/-- The array `edges`, `utils/compressor.cc:66-82`: it is allocated at address `base`, in a memory
with contents `m0`. -/
def edgeArray (c : WCodec W) (bs n : Nat) (nbrs : Nat → List (Nat × W)) (base : Nat)
    (order : List Nat) (m0 : Mem) : Option (List UInt8) :=
  (encodeAll c bs nbrs (fun i => base + offsets c bs nbrs i) order m0).map fun m =>
    bytesAt m base (offsets c bs nbrs n)

/-- The offsets and the degrees as written, `utils/compressor.cc:89-91`, `159-161`, `423-425`. -/
def tables (c : WCodec W) (bs n : Nat) (nbrs : Nat → List (Nat × W)) : List UInt8 :=
  ((List.range (n + 1)).flatMap fun i => le64 (offsets c bs nbrs i)) ++
    (List.range n).flatMap fun i => le32 (degrees c bs nbrs i)

/-- What the run of one encoding loop depends on besides the graph: the address and the contents of
the allocated memory and the order of the iterations. -/
structure Run where
  base : Nat
  m0 : Mem
  order : List Nat

/-- `write_graph_bytepd_amortized_format` of a symmetric graph, `utils/compressor.cc:167-428`
(`PARALLEL_DEGREE` is 1000). -/
def compressor (c : WCodec W) (g : Adj W) (r : Run) : Option (List UInt8) :=
  (edgeArray c 1000 g.n g.out r.base r.order r.m0).map fun E =>
    le64 g.n ++ (le64 g.m ++ (le64 (offsets c 1000 g.out g.n) ++ (tables c 1000 g.n g.out ++ E)))

/-- `write_graph_bytepd_amortized_directed`, `utils/compressor.cc:17-164`. -/
def compressorDirected (c : WCodec W) (g : Adj W) (r r' : Run) : Option (List UInt8) :=
  match compressor c g r with
  | none => none
  | some file =>
    (edgeArray c 1000 g.n g.inn r'.base r'.order r'.m0).map fun E =>
      file ++ (le64 (offsets c 1000 g.inn g.n) ++ (tables c 1000 g.n g.inn ++ E))

/-- What the loaders keep of one direction of the edges: `v_data[i].offset`, `v_data[i].degree` and
the pointer `edges`. -/
structure Loaded where
  n : Nat
  m : Nat
  edges : Nat
  offset : Nat → Nat
  degree : Nat → Nat

/-- `read_compressed_symmetric_graph`, `gbbs/graph_io.h:219-258`. -/
def readSymmetric (M : Mem) : Loaded :=
  let n := load64 M 0
  let skip := 3 * 8 + (n + 1) * 8
  { n := n, m := load64 M 8, edges := skip + n * 4
    offset := fun i => load64 M (3 * 8 + i * 8)
    degree := fun i => M.load32 (skip + i * 4) }

/-- The in-edges in `read_compressed_asymmetric_graph`, `gbbs/graph_io.h:261-326`; the out-edges are
read as in `readSymmetric`. -/
def readInEdges (M : Mem) : Loaded :=
  let n := load64 M 0
  let totalSpace := load64 M 16
  let skip := 3 * 8 + (n + 1) * 8 + n * 4 + totalSpace + 8
  { n := n, m := load64 M 8, edges := skip + (n + 1) * 8 + n * 4
    offset := fun i => load64 M (skip + i * 8)
    degree := fun i => M.load32 (skip + (n + 1) * 8 + i * 4) }

/-- Traversal of the neighbours of `v` in a loaded graph with weights
(`compressed_vertex.h`, `csv_bytepd_amortized`, through `bytepd_amortized::decode`). -/
def Loaded.mapW (G : Loaded) (c : WCodec W) (M : Mem) (ans : Nat → Nat → W → Nat → Bool)
    (v : Nat) : Option (List (Call W)) :=
  AM.decodeWeighted c ans M (G.edges + G.offset v) v (G.degree v)

/-- The same without weights. -/
def Loaded.mapU (G : Loaded) (c : WCodec W) (M : Mem) (ans : Nat → Nat → W → Nat → Bool)
    (v : Nat) : Option (List (List (Call W))) :=
  AM.decodeUnweighted c ans M (G.edges + G.offset v) v (G.degree v)

/-! ## Memory -/

theorem le64_length (v : Nat) : (le64 v).length = 8 := rfl

theorem load64_of_has {m : Mem} {a v : Nat} (h : m.Has a (le64 v)) (hv : v < 18446744073709551616) :
    load64 m a = v := by
  rw [le64, Mem.has_append, le32_length] at h
  rw [load64, Mem.load32_of_has h.1 (Nat.mod_lt _ (by decide)), Mem.load32_of_has h.2 (by omega)]
  omega

theorem has_bytesAt {m : Mem} {a : Nat} {bs : List UInt8} (h : m.Has a bs) :
    bytesAt m a bs.length = bs := by
  induction bs generalizing a with
  | nil => rfl
  | cons b bs ih =>
    have := ih h.2
    rw [bytesAt] at *
    rw [List.length_cons, List.range_succ_eq_map, List.map_cons, List.map_map]
    rw [show m (a + 0) = b from h.1]
    congr 1
    refine Eq.trans ?_ this
    exact List.map_congr_left (fun x _ => by
      show m (a + (x + 1)) = m (a + 1 + x)
      rw [show a + (x + 1) = a + 1 + x by omega])

theorem flatMap_length (f : Nat → List UInt8) (k : Nat) :
    ((List.range k).flatMap f).length = AM.scan (fun i => (f i).length) k := by
  induction k with
  | zero => rfl
  | succ k ih => rw [List.range_succ, List.flatMap_append, List.length_append, ih]; simp [AM.scan]

theorem has_flatMap {m : Mem} {a : Nat} {f : Nat → List UInt8} {k : Nat} :
    m.Has a ((List.range k).flatMap f) ↔
      ∀ i, i < k → m.Has (a + AM.scan (fun i => (f i).length) i) (f i) := by
  induction k with
  | zero => simp [Mem.Has]
  | succ k ih =>
    rw [List.range_succ, List.flatMap_append, Mem.has_append, ih, flatMap_length]
    simp only [List.flatMap_cons, List.flatMap_nil, List.append_nil]
    constructor
    · rintro ⟨h1, h2⟩ i hi
      by_cases e : i = k
      · subst e; exact h2
      · exact h1 i (by omega)
    · exact fun h => ⟨fun i hi => h i (by omega), h k (by omega)⟩

theorem scan_const (w k : Nat) : AM.scan (fun _ => w) k = k * w := by
  induction k with
  | zero => simp [AM.scan]
  | succ k ih => rw [AM.scan, ih, Nat.succ_mul]

theorem has_flatMap_const {m : Mem} {a w : Nat} {f : Nat → List UInt8} {k : Nat}
    (hf : ∀ i, (f i).length = w) (h : m.Has a ((List.range k).flatMap f)) (i : Nat) (hi : i < k) :
    m.Has (a + i * w) (f i) := by
  have := has_flatMap.1 h i hi
  rwa [show (fun i => (f i).length) = fun _ => w from funext hf, scan_const] at this

/-! ## The encoding loop -/

variable {c : WCodec W} {ok : W → Prop}

/-- Lists that the encoders accept: identifiers of 32 bits, strictly increasing, at most 3·10^8
of them, weights for which the codec works. -/
structure Good (ok : W → Prop) (l : List (Nat × W)) : Prop where
  valid : ValidList l
  ok : ∀ e ∈ l, ok e.2
  len : l.length ≤ 300000000

theorem degrees_eq (L : Lawful c ok) {bs : Nat} (hbs : 0 < bs) {nbrs : Nat → List (Nat × W)}
    {i : Nat} (hi : i < uintEMod) (hg : Good ok (nbrs i)) :
    degrees c bs nbrs i = (nbrs i).length := by
  rw [degrees, sizePass_eq L bs i hbs hi _ hg.valid hg.ok]

theorem offsets_eq (L : Lawful c ok) {bs n : Nat} (hbs : 0 < bs) {nbrs : Nat → List (Nat × W)}
    (hn : n ≤ uintEMod) (hg : ∀ v, v < n → Good ok (nbrs v)) {i : Nat} (hi : i ≤ n) :
    offsets c bs nbrs i = AM.scan (fun j => (encBytes L bs j (nbrs j)).length) i := by
  refine AM.scan_congr (fun j hj => ?_)
  have := hg j (by omega)
  rw [sizePass_eq L bs j hbs (by omega) _ this.valid this.ok]

theorem encodeAll_spec (L : Lawful c ok) {bs n : Nat} (hbs : 0 < bs)
    {nbrs : Nat → List (Nat × W)} (hn : n ≤ uintEMod) (hg : ∀ v, v < n → Good ok (nbrs v))
    (pos : Nat → Nat) (order : List Nat) (hnd : order.Nodup) (hlt : ∀ v ∈ order, v < n)
    (hsep : ∀ v ∈ order, ∀ w ∈ order, v < w →
      pos v + (encBytes L bs v (nbrs v)).length ≤ pos w) (m : Mem) :
    ∃ m', encodeAll c bs nbrs pos order m = some m' ∧
      (∀ v ∈ order, m'.Has (pos v) (encBytes L bs v (nbrs v))) ∧
      (∀ x, (∀ v ∈ order, x < pos v ∨ pos v + (encBytes L bs v (nbrs v)).length ≤ x) →
        m' x = m x) := by
  induction order generalizing m with
  | nil => exact ⟨m, rfl, by simp, fun _ _ => rfl⟩
  | cons v order ih =>
    have hv := hlt v (by simp)
    have hgv := hg v hv
    rw [List.nodup_cons] at hnd
    have hstep : encodeVertex c bs nbrs pos m v =
        some (m.write (pos v) (encBytes L bs v (nbrs v))) := by
      rw [encodeVertex, degrees_eq L hbs (by omega) hgv]
      by_cases hp : (nbrs v).length > 0
      · rw [if_pos hp, compress_eq L bs m (pos v) v (nbrs v) (by omega) hgv.valid hgv.ok]
        dsimp only
        rw [if_neg]
        rw [offsets_eq L hbs hn hg (by omega), offsets_eq L hbs hn hg (by omega), AM.scan]
        omega
      · have : nbrs v = [] := List.length_eq_zero_iff.1 (by omega)
        rw [if_neg hp, this]
        rfl
    obtain ⟨m', h1, h2, h3⟩ := ih hnd.2 (fun w hw => hlt w (by simp [hw]))
      (fun u hu w hw => hsep u (by simp [hu]) w (by simp [hw]))
      (m.write (pos v) (encBytes L bs v (nbrs v)))
    refine ⟨m', ?_, ?_, ?_⟩
    · rw [encodeAll, List.foldlM_cons, hstep]
      exact h1
    · intro w hw
      rcases List.mem_cons.1 hw with rfl | hw
      · refine Mem.has_of_agree (fun x hx1 hx2 => (h3 x (fun u hu => ?_)).symm)
          (Mem.write_has m (pos w) _)
        have hne : u ≠ w := fun e => hnd.1 (e ▸ hu)
        rcases Nat.lt_or_gt_of_ne hne with h | h
        · have := hsep u (by simp [hu]) w (by simp) h; omega
        · have := hsep w (by simp) u (by simp [hu]) h; omega
      · exact h2 w hw
    · intro x hx
      rw [h3 x (fun u hu => hx u (by simp [hu])),
        Mem.write_outside _ _ _ _ (hx v (by simp))]

/-- Any order of the vertices gives the same array: the encoded lists one after the other. -/
theorem edgeArray_eq (L : Lawful c ok) {bs n : Nat} (hbs : 0 < bs)
    {nbrs : Nat → List (Nat × W)} (hn : n ≤ uintEMod) (hg : ∀ v, v < n → Good ok (nbrs v))
    (base : Nat) (order : List Nat) (ho : AM.Schedule n order) (m0 : Mem) :
    edgeArray c bs n nbrs base order m0 =
      some ((List.range n).flatMap fun v => encBytes L bs v (nbrs v)) := by
  obtain ⟨m', h1, h2, _⟩ := encodeAll_spec L hbs hn hg (fun i => base + offsets c bs nbrs i) order
    ho.1 (fun v hv => (ho.2 v).1 hv)
    (fun v hv w hw hvw => by
      have hv := (ho.2 v).1 hv
      have hw := (ho.2 w).1 hw
      have := AM.scan_mono (fun j => (encBytes L bs j (nbrs j)).length) (show v + 1 ≤ w from hvw)
      rw [AM.scan] at this
      simp only [offsets_eq L hbs hn hg (show v ≤ n by omega),
        offsets_eq L hbs hn hg (show w ≤ n by omega)]
      omega) m0
  rw [edgeArray, h1, Option.map_some]
  have : m'.Has base ((List.range n).flatMap fun v => encBytes L bs v (nbrs v)) := by
    rw [has_flatMap]
    intro i hi
    have := h2 i ((ho.2 i).2 hi)
    rwa [offsets_eq L hbs hn hg (show i ≤ n by omega)] at this
  have hb := has_bytesAt this
  rw [flatMap_length] at hb
  rw [offsets_eq L hbs hn hg (Nat.le_refl n), hb]

/-! ## Reading -/

/-- Decoding a list from any memory that has its bytes. -/
theorem decode_of_has (L : Lawful c ok) (hw : ∀ w, ok w → (L.enc w).length ≤ 5) {M : Mem}
    {p src : Nat} {l : List (Nat × W)} (hsrc : src < uintEMod) (hg : Good ok l)
    (h : M.Has p (encBytes L 1000 src l)) (ans : Nat → Nat → W → Nat → Bool) :
    AM.decodeWeighted c ans M p src l.length = some (callsUntil ans src 0 l) ∧
    AM.decodeUnweighted c ans M p src l.length = some (blockedCalls ans src l) := by
  obtain ⟨m', b, h1, _, _, h4⟩ := AM.roundtrip L hw M p src l hsrc hg.valid hg.ok hg.len
  rw [← compress_1000, compress_eq L 1000 M p src l hsrc hg.valid hg.ok] at h1
  obtain ⟨rfl, rfl⟩ := Prod.mk.inj h1
  have := h4 M (fun x hx1 hx2 => (has_write x hx1 hx2 h).symm) ans
  exact ⟨this.1, this.2.1⟩

theorem encBytes_lt (L : Lawful c ok) (hw : ∀ w, ok w → (L.enc w).length ≤ 5) {src : Nat}
    {l : List (Nat × W)} (hsrc : src < uintEMod) (hg : Good ok l) :
    (encBytes L 1000 src l).length < 4294967296 := by
  have h0 := compress_eq L 1000 (fun _ => 0) 0 src l hsrc hg.valid hg.ok
  rw [compress_1000] at h0
  by_cases hp : 0 < l.length
  · have hb := blocksLen_le plain L hw src 4 hsrc l hg.valid hg.ok (AM.numBlocks l.length) 0
    have hnb : AM.numBlocks l.length = 1 + (l.length - 1) / 1000 := rfl
    have hlen := hg.len
    have hs : AM.size L src l < 4294967296 := by simp only [AM.size]; omega
    obtain ⟨m', h1, _⟩ := AM.encode_lay L (fun _ => 0) 0 src l hsrc hg.valid hg.ok hp (by omega) hs
    rw [h0] at h1
    have := (Prod.mk.inj h1).2
    omega
  · have : l = [] := List.length_eq_zero_iff.1 (by omega)
    subst this
    simp [encBytes]

theorem scan_le {f : Nat → Nat} {B k : Nat} (h : ∀ i, i < k → f i ≤ B) : AM.scan f k ≤ k * B := by
  induction k with
  | zero => simp [AM.scan]
  | succ k ih =>
    have := ih (fun i hi => h i (by omega))
    have := h k (by omega)
    rw [AM.scan, Nat.succ_mul]; omega

theorem total_lt (L : Lawful c ok) (hw : ∀ w, ok w → (L.enc w).length ≤ 5) {n : Nat}
    {nbrs : Nat → List (Nat × W)} (hn : n ≤ uintEMod) (hg : ∀ v, v < n → Good ok (nbrs v))
    {i : Nat} (hi : i ≤ n) :
    AM.scan (fun j => (encBytes L 1000 j (nbrs j)).length) i < 18446744073709551616 := by
  have h1 : AM.scan (fun j => (encBytes L 1000 j (nbrs j)).length) i ≤ i * 4294967295 :=
    scan_le (fun j hj => by
      have := encBytes_lt L hw (show j < uintEMod by omega) (hg j (by omega))
      omega)
  have h2 : i * 4294967295 ≤ 4294967296 * 4294967295 :=
    Nat.mul_le_mul_right _ (by simp only [uintEMod] at hn; omega)
  omega

/-- What is in the tables of a section of the file. -/
theorem tables_spec (L : Lawful c ok) (hw : ∀ w, ok w → (L.enc w).length ≤ 5) {n : Nat}
    {nbrs : Nat → List (Nat × W)} (hn : n ≤ uintEMod) (hg : ∀ v, v < n → Good ok (nbrs v))
    {M : Mem} {p : Nat} (h : M.Has p (tables c 1000 n nbrs)) :
    (∀ i, i ≤ n → load64 M (p + i * 8) =
      AM.scan (fun j => (encBytes L 1000 j (nbrs j)).length) i) ∧
    (∀ i, i < n → M.load32 (p + (n + 1) * 8 + i * 4) = (nbrs i).length) := by
  rw [tables, Mem.has_append, flatMap_length] at h
  simp only [le64_length, scan_const] at h
  obtain ⟨h1, h2⟩ := h
  refine ⟨fun i hi => ?_, fun i hi => ?_⟩
  · have := has_flatMap_const (fun i => le64_length (offsets c 1000 nbrs i)) h1 i (by omega)
    rw [offsets_eq L (by decide) hn hg hi] at this
    exact load64_of_has this (total_lt L hw hn hg hi)
  · have := has_flatMap_const (fun i => le32_length (degrees c 1000 nbrs i)) h2 i hi
    have hgi := hg i hi
    rw [degrees_eq L (by decide) (by omega) hgi] at this
    exact Mem.load32_of_has this (by have := hgi.len; omega)

theorem tables_length (c : WCodec W) (bs n : Nat) (nbrs : Nat → List (Nat × W)) :
    (tables c bs n nbrs).length = (n + 1) * 8 + n * 4 := by
  rw [tables, List.length_append, flatMap_length, flatMap_length]
  simp only [le64_length, le32_length, scan_const]

/-- What a loaded direction of the edges must give: the degrees and every traversal. -/
structure Shows (c : WCodec W) (M : Mem) (n : Nat) (nbrs : Nat → List (Nat × W)) (G : Loaded) :
    Prop where
  degree : ∀ v, v < n → G.degree v = (nbrs v).length
  mapW : ∀ v, v < n → ∀ ans, G.mapW c M ans v = some (callsUntil ans v 0 (nbrs v))
  mapU : ∀ v, v < n → ∀ ans, G.mapU c M ans v = some (blockedCalls ans v (nbrs v))

theorem section_shows (L : Lawful c ok) (hw : ∀ w, ok w → (L.enc w).length ≤ 5) {n : Nat}
    {nbrs : Nat → List (Nat × W)} (hn : n ≤ uintEMod) (hg : ∀ v, v < n → Good ok (nbrs v))
    {M : Mem} {p : Nat} (h : M.Has p (tables c 1000 n nbrs ++
      (List.range n).flatMap fun v => encBytes L 1000 v (nbrs v))) (G : Loaded)
    (he : G.edges = p + (n + 1) * 8 + n * 4)
    (ho : ∀ i, G.offset i = load64 M (p + i * 8))
    (hd : ∀ i, G.degree i = M.load32 (p + (n + 1) * 8 + i * 4)) : Shows c M n nbrs G := by
  rw [Mem.has_append, tables_length] at h
  obtain ⟨h1, h2⟩ := h
  obtain ⟨t1, t2⟩ := tables_spec L hw hn hg h1
  have key : ∀ v, v < n → M.Has (G.edges + G.offset v) (encBytes L 1000 v (nbrs v)) := by
    intro v hv
    have := has_flatMap.1 h2 v hv
    rw [ho, t1 v (by omega), he]
    rwa [show p + ((n + 1) * 8 + n * 4) = p + (n + 1) * 8 + n * 4 by omega] at this
  have hdeg : ∀ v, v < n → G.degree v = (nbrs v).length := fun v hv => by rw [hd, t2 v hv]
  refine ⟨hdeg, fun v hv ans => ?_, fun v hv ans => ?_⟩
  · rw [Loaded.mapW, hdeg v hv]
    exact (decode_of_has L hw (by omega) (hg v hv) (key v hv) ans).1
  · rw [Loaded.mapU, hdeg v hv]
    exact (decode_of_has L hw (by omega) (hg v hv) (key v hv) ans).2

/-! ## C124 -/

/-- A graph that the converters accept. -/
structure Accepted (ok : W → Prop) (g : Adj W) : Prop where
  n : g.n ≤ 4294967295
  m : g.m < 9223372036854775808
  out : ∀ v, v < g.n → Good ok (g.out v)
  inn : ∀ v, v < g.n → Good ok (g.inn v)

theorem compressor_eq (L : Lawful c ok) {g : Adj W} (ha : Accepted ok g) (r : Run)
    (hr : AM.Schedule g.n r.order) :
    compressor c g r = some (le64 g.n ++ (le64 g.m ++ (le64 (offsets c 1000 g.out g.n) ++
      (tables c 1000 g.n g.out ++
        (List.range g.n).flatMap fun v => encBytes L 1000 v (g.out v))))) := by
  have hn : g.n ≤ uintEMod := by have := ha.n; simp only [uintEMod]; omega
  rw [compressor, edgeArray_eq L (by decide) hn ha.out r.base r.order hr r.m0]
  rfl

theorem header (L : Lawful c ok) (hw : ∀ w, ok w → (L.enc w).length ≤ 5) {g : Adj W}
    (ha : Accepted ok g) {M : Mem} {X : List UInt8}
    (h : M.Has 0 (le64 g.n ++ (le64 g.m ++ (le64 (offsets c 1000 g.out g.n) ++ X)))) :
    load64 M 0 = g.n ∧ load64 M 8 = g.m ∧
    load64 M 16 = AM.scan (fun j => (encBytes L 1000 j (g.out j)).length) g.n ∧ M.Has 24 X := by
  have hn : g.n ≤ uintEMod := by have := ha.n; simp only [uintEMod]; omega
  simp only [Mem.has_append, le64_length] at h
  obtain ⟨h1, h2, h3, h4⟩ := h
  rw [offsets_eq L (by decide) hn ha.out (Nat.le_refl _)] at h3
  have := ha.n
  have := ha.m
  exact ⟨load64_of_has h1 (by omega), load64_of_has h2 (by omega),
    load64_of_has h3 (total_lt L hw hn ha.out (Nat.le_refl _)), h4⟩

/-- For every weight codec that works: the compressor does not stop early, and in every memory that
starts with the file the loader finds the number of vertices, the number of edges, the degrees and
the neighbours with their weights. -/
theorem symmetric_roundtrip (L : Lawful c ok) (hw : ∀ w, ok w → (L.enc w).length ≤ 5) (g : Adj W)
    (ha : Accepted ok g) (r : Run) (hr : AM.Schedule g.n r.order) :
    ∃ file, compressor c g r = some file ∧ ∀ M : Mem, M.Has 0 file →
      (readSymmetric M).n = g.n ∧ (readSymmetric M).m = g.m ∧
      Shows c M g.n g.out (readSymmetric M) := by
  have hn : g.n ≤ uintEMod := by have := ha.n; simp only [uintEMod]; omega
  refine ⟨_, compressor_eq L ha r hr, fun M hM => ?_⟩
  obtain ⟨e1, e2, e3, h4⟩ := header L hw ha hM
  refine ⟨e1, e2, section_shows L hw hn ha.out h4 _ ?_ ?_ ?_⟩
  · simp only [readSymmetric, e1]
  · intro i; rfl
  · intro i; simp only [readSymmetric, e1]

theorem asymmetric_roundtrip (L : Lawful c ok) (hw : ∀ w, ok w → (L.enc w).length ≤ 5) (g : Adj W)
    (ha : Accepted ok g) (r r' : Run) (hr : AM.Schedule g.n r.order)
    (hr' : AM.Schedule g.n r'.order) :
    ∃ file, compressorDirected c g r r' = some file ∧ ∀ M : Mem, M.Has 0 file →
      (readSymmetric M).n = g.n ∧ (readSymmetric M).m = g.m ∧
      Shows c M g.n g.out (readSymmetric M) ∧ Shows c M g.n g.inn (readInEdges M) := by
  have hn : g.n ≤ uintEMod := by have := ha.n; simp only [uintEMod]; omega
  refine ⟨_, by
    rw [compressorDirected, compressor_eq L ha r hr]
    dsimp only
    rw [edgeArray_eq L (by decide) hn ha.inn r'.base r'.order hr' r'.m0]
    rfl, fun M hM => ?_⟩
  rw [Mem.has_append] at hM
  obtain ⟨hM, hI⟩ := hM
  obtain ⟨e1, e2, e3, h4⟩ := header L hw ha hM
  have hlen : (le64 g.n ++ (le64 g.m ++ (le64 (offsets c 1000 g.out g.n) ++
      (tables c 1000 g.n g.out ++
        (List.range g.n).flatMap fun v => encBytes L 1000 v (g.out v))))).length =
      24 + (g.n + 1) * 8 + g.n * 4 +
        AM.scan (fun j => (encBytes L 1000 j (g.out j)).length) g.n := by
    simp only [List.length_append, le64_length, tables_length, flatMap_length]
    omega
  rw [hlen, Mem.has_append, le64_length] at hI
  refine ⟨e1, e2, section_shows L hw hn ha.out h4 _ ?_ ?_ ?_,
    section_shows L hw hn ha.inn hI.2 _ ?_ ?_ ?_⟩
  · simp only [readSymmetric, e1]
  · intro i; rfl
  · intro i; simp only [readSymmetric, e1]
  · simp only [readInEdges, e1, e3]; omega
  · intro i; simp only [readInEdges, e1, e3]; congr 1; omega
  · intro i; simp only [readInEdges, e1, e3]; congr 1; omega

/-- C124, symmetric graphs without weights. -/
theorem C124_symmetric_unweighted (g : Adj Unit) (ha : Accepted (fun _ => True) g) (r : Run)
    (hr : AM.Schedule g.n r.order) :
    ∃ file, compressor emptyCodec g r = some file ∧ ∀ M : Mem, M.Has 0 file →
      (readSymmetric M).n = g.n ∧ (readSymmetric M).m = g.m ∧
      Shows emptyCodec M g.n g.out (readSymmetric M) :=
  symmetric_roundtrip emptyLawful (fun w _ => emptyLawful_len w) g ha r hr

/-- C124, symmetric graphs with integer weights other than `INT_MIN`. -/
theorem C124_symmetric_int (g : Adj Int) (ha : Accepted Int32NotMin g) (r : Run)
    (hr : AM.Schedule g.n r.order) :
    ∃ file, compressor intCodec g r = some file ∧ ∀ M : Mem, M.Has 0 file →
      (readSymmetric M).n = g.n ∧ (readSymmetric M).m = g.m ∧
      Shows intCodec M g.n g.out (readSymmetric M) :=
  symmetric_roundtrip intLawful intLawful_len g ha r hr

/-- C124, directed graphs without weights: both the out-neighbours and the in-neighbours. -/
theorem C124_directed_unweighted (g : Adj Unit) (ha : Accepted (fun _ => True) g) (r r' : Run)
    (hr : AM.Schedule g.n r.order) (hr' : AM.Schedule g.n r'.order) :
    ∃ file, compressorDirected emptyCodec g r r' = some file ∧ ∀ M : Mem, M.Has 0 file →
      (readSymmetric M).n = g.n ∧ (readSymmetric M).m = g.m ∧
      Shows emptyCodec M g.n g.out (readSymmetric M) ∧
      Shows emptyCodec M g.n g.inn (readInEdges M) :=
  asymmetric_roundtrip emptyLawful (fun w _ => emptyLawful_len w) g ha r r' hr hr'

/-- C124, directed graphs with integer weights. -/
theorem C124_directed_int (g : Adj Int) (ha : Accepted Int32NotMin g) (r r' : Run)
    (hr : AM.Schedule g.n r.order) (hr' : AM.Schedule g.n r'.order) :
    ∃ file, compressorDirected intCodec g r r' = some file ∧ ∀ M : Mem, M.Has 0 file →
      (readSymmetric M).n = g.n ∧ (readSymmetric M).m = g.m ∧
      Shows intCodec M g.n g.out (readSymmetric M) ∧
      Shows intCodec M g.n g.inn (readInEdges M) :=
  asymmetric_roundtrip intLawful intLawful_len g ha r r' hr hr'

/-- A directed graph with three vertices, weights, a vertex without out-neighbours and an order of
the iterations other than the natural one. -/
example : ∃ (g : Adj Int) (r : Run), Accepted Int32NotMin g ∧ AM.Schedule g.n r.order ∧
    r.order ≠ List.range g.n ∧ g.out 0 = [(1, -3), (2, 2147483647)] ∧ g.inn 2 = [(0, 2147483647)] := by
  refine ⟨{ n := 3, m := 2, out := fun v => if v = 0 then [(1, -3), (2, 2147483647)] else []
            inn := fun v => if v = 1 then [(0, -3)] else if v = 2 then [(0, 2147483647)] else [] },
    ⟨17, fun _ => 255, [2, 0, 1]⟩, ⟨by decide, by decide, ?_, ?_⟩,
    ⟨by decide, fun i => by simp; omega⟩, by decide, rfl, rfl⟩
  · intro v _
    by_cases h : v = 0
    · simp only [h, if_true]; exact ⟨⟨by decide, by decide⟩, by simp [Int32NotMin], by decide⟩
    · simp only [h, if_false]; exact ⟨⟨by decide, by decide⟩, by simp, by decide⟩
  · intro v _
    by_cases h : v = 1
    · simp only [h, if_true]; exact ⟨⟨by decide, by decide⟩, by simp [Int32NotMin], by decide⟩
    · by_cases h2 : v = 2
      · simp only [h2]; exact ⟨⟨by decide, by decide⟩, by simp [Int32NotMin], by decide⟩
      · simp only [h, h2, if_false]; exact ⟨⟨by decide, by decide⟩, by simp, by decide⟩

end Gbbs.Convert
