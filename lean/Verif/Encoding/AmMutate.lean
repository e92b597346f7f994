import Verif.Encoding.AmFilter

/-!
# `filter_edges` on graphs compressed with `bytepd_amortized`

`gbbs/graph_mutation.h:187-283` for `csv_byte` vertices: count with `reduce`, scan, then per vertex
`filter` the edges with value 2 into the result and `pack` the edges with value 0 in place.
-/

namespace Gbbs.AM

open Byte Blk EncSpec

variable {W : Type}

/-- A compressed graph: its bytes and the degrees in `v_data` (`graph.h:50-77`); the list of `v` starts at
a fixed address. -/
structure CG where
  mem : Mem
  deg : Nat → Nat

/-- What the run time system chooses: for `filter`, and for the three loops of `pack` (by vertex and number
of iterations). -/
structure MChoice (W : Type) where
  fil : Nat → Choice W
  p1 : Nat → Nat → List Nat
  p2 : Nat → Nat → List Nat
  p3 : Nat → Nat → List Nat

/-- Every loop runs all its iterations once. -/
def MChoice.Fair (h : MChoice W) : Prop :=
  (∀ v, (h.fil v).Fair) ∧ (∀ v k, Schedule k (h.p1 v k)) ∧ (∀ v k, Schedule k (h.p2 v k)) ∧
    ∀ v k, Schedule k (h.p3 v k)

/-- `graph_mutation.h:195-212`: the numbers of edges of `v` with value 1 and with value 2. -/
def counts (c : WCodec W) (pred : Nat → Nat → W → Nat) (m : Mem) (a v d : Nat) : Option (Nat × Nat) :=
  mapReduce c (fun s u w => (if pred s u w = 1 then 1 else 0, if pred s u w = 2 then 1 else 0))
    (fun l r => (l.1 + r.1, l.2 + r.2)) (0, 0) m a v d

/-- `graph_mutation.h:255-273`: the body for vertex `v`; `n1`, `n2` are its numbers, `off` the position
of its part of the result.  The calls of `out_f` write `arr[off + j]`.  Each vertex has its own part of
`tmp`, as large as `calculateTemporarySpace` asked for. -/
def filterEdgesVertex (c : WCodec W) (pred : Nat → Nat → W → Nat) (noOutput : Bool) (h : MChoice W)
    (a v n1 n2 off : Nat) (G : CG) (arr : Nat → Nat × Nat × W) :
    Option (CG × (Nat → Nat × Nat × W)) :=
  let nToPack := n1 + n2
  if 0 < nToPack then
    let out :=
      if 0 < n2 ∧ noOutput = false then
        (filter c (fun s u w => pred s u w == 2) (h.fil v) G.mem a v (G.deg v)
          (tmpSpace (G.deg v))).map
          (fun calls => calls.foldl (fun arr k => upd arr (off + k.1) (v, k.2)) arr)
      else some arr
    match out with
    | none => none
    | some arr =>
      if nToPack < G.deg v then
        (pack c (fun s u w => pred s u w == 0) G.mem a v (G.deg v)
          (h.p1 v (numBlocks (G.mem.load32 a))) (h.p2 v (numBlocks (G.mem.load32 a)))
          (h.p3 v (numBlocks (G.deg v - nToPack)))).map
          (fun r => (⟨r.1, upd G.deg v r.2⟩, arr))
      else some (⟨G.mem, upd G.deg v 0⟩, arr)
  else some (G, arr)

/-- `filter_edges`, `graph_mutation.h:187-283`: the graph, the result with its size, and `G.m`.  `order` is
the order of the second loop over the vertices; different vertices touch different memory. -/
def filterEdgesC (c : WCodec W) (pred : Nat → Nat → W → Nat) (noOutput : Bool) (h : MChoice W) (n : Nat)
    (addr : Nat → Nat) (order : List Nat) (junk : Nat → Nat × Nat × W) (G : CG) :
    Option (CG × (Nat → Nat × Nat × W) × Nat × Nat) :=
  match (List.range n).mapM (fun v => counts c pred G.mem (addr v) v (G.deg v)) with
  | none => none
  | some cts =>
    let n1 := fun v => ((cts[v]?).getD (0, 0)).1
    let n2 := fun v => ((cts[v]?).getD (0, 0)).2
    match order.foldlM (fun s v => filterEdgesVertex c pred noOutput h (addr v) v (n1 v) (n2 v)
        (exScan n2 v) s.1 s.2) (G, junk) with
    | none => none
    | some (G', arr) => some (G', arr, exScan n2 n, exScan G'.deg n)

/-- `count(p)`, `compressed_vertex.h:86-92`, and the `reduce` of `sample_edges`,
`graph_mutation.h:336-341`: the number of edges of `v` accepted by `p`. -/
def countOne (c : WCodec W) (p : Nat → Nat → W → Bool) (m : Mem) (a v d : Nat) : Option Nat :=
  mapReduce c (fun s u w => if p s u w then 1 else 0) (· + ·) 0 m a v d

/-- `filter(p, out_f, tmp_v)` of vertex `v` with `out_f` writing `arr[off + j]`,
`graph_mutation.h:314-318`, `372-376`. -/
def filterOut (c : WCodec W) (p : Nat → Nat → W → Bool) (h : Choice W) (m : Mem) (a v d off : Nat)
    (arr : Nat → Nat × Nat × W) : Option (Nat → Nat × Nat × W) :=
  (filter c p h m a v d (tmpSpace d)).map
    (fun calls => calls.foldl (fun arr k => upd arr (off + k.1) (v, k.2)) arr)

/-- `filter_all_edges`, `graph_mutation.h:284-325`; the offsets are unbounded here (64 bits in the code
with `LONG`, else 32), `G.m = 0` is left out: the degrees afterwards, and the result with its
size. -/
def filterAllC (c : WCodec W) (p : Nat → Nat → W → Bool) (h : Nat → Choice W) (n : Nat)
    (addr : Nat → Nat) (order : List Nat) (init : Nat → Nat × Nat × W) (G : CG) :
    Option ((Nat → Nat) × (Nat → Nat × Nat × W) × Nat) :=
  match (List.range n).mapM (fun v => countOne c p G.mem (addr v) v (G.deg v)) with
  | none => none
  | some cts =>
    let ct := fun v => (cts[v]?).getD 0
    (order.foldlM (fun (s : (Nat → Nat) × (Nat → Nat × Nat × W)) v =>
      if s.1 v > 0 then
        (filterOut c p (h v) G.mem (addr v) v (s.1 v) (exScan ct v) s.2).map
          (fun arr => (upd s.1 v 0, arr))
      else some s) (G.deg, init)).map (fun s => (s.1, s.2, exScan ct n))

/-- `sample_edges`, `graph_mutation.h:328-381`, for a predicate with values 0 and 1: the result with its
size; the graph is not changed. -/
def sampleC (c : WCodec W) (p : Nat → Nat → W → Bool) (h : Nat → Choice W) (n : Nat)
    (addr : Nat → Nat) (order : List Nat) (init : Nat → Nat × Nat × W) (G : CG) :
    Option ((Nat → Nat × Nat × W) × Nat) :=
  match (List.range n).mapM (fun v => countOne c p G.mem (addr v) v (G.deg v)) with
  | none => none
  | some cts =>
    let ct := fun v => (cts[v]?).getD 0
    (order.foldlM (fun arr v =>
      if exScan ct (v + 1) - exScan ct v > 0 then
        filterOut c p (h v) G.mem (addr v) v (G.deg v) (exScan ct v) arr
      else some arr) init).map (fun arr => (arr, exScan ct n))

/-! ## Specification -/

/-- Some edges of the list are kept and some are not. -/
def Partly (pred : Nat → Nat → W → Nat) (v : Nat) (l : List (Nat × W)) : Prop :=
  (∃ e ∈ l, pred v e.1 e.2 = 0) ∧ ∃ e ∈ l, pred v e.1 e.2 ≠ 0

/-- The graph stores these lists: the degree is the length, and a non-empty list is stored, as the encoder
and `pack` leave it, in the bytes `[addr v, addr v + ext v)`. -/
def Stores {c : WCodec W} {ok : W → Prop} (L : Lawful c ok) (n : Nat) (addr ext : Nat → Nat) (G : CG)
    (lists : Nat → List (Nat × W)) : Prop :=
  ∀ v, v < n → G.deg v = (lists v).length ∧
    (lists v ≠ [] → ∃ vd, Represents L G.mem (addr v) v (ext v) vd (lists v))

/-- The byte ranges of the vertices do not overlap. -/
def Apart (n : Nat) (addr ext : Nat → Nat) : Prop :=
  ∀ u v, u < n → v < n → u ≠ v → addr u + ext u ≤ addr v ∨ addr v + ext v ≤ addr u

/-! ## Proofs -/

section

variable {c : WCodec W} {ok : W → Prop} {L : Lawful c ok}

theorem represents_congr {m m' : Mem} {a src ext vd : Nat} {edges : List (Nat × W)}
    (h : Represents L m a src ext vd edges) (hag : ∀ x, a ≤ x → x < a + ext → m' x = m x) :
    Represents L m' a src ext vd edges := by
  obtain ⟨offs, cap, orig, blk, lay, hl⟩ := h
  have h4 : 4 * numBlocks vd ≤ ext := by
    have := off_ge lay (numBlocks_pos vd)
    have := lay.fits 0 (numBlocks_pos vd)
    omega
  have hnp := numBlocks_pos vd
  refine ⟨offs, cap, orig, blk, { lay with vdEq := ?_, hdr := ?_, start := ?_, body := ?_ }, hl⟩
  · rw [← lay.vdEq]
    exact Mem.load32_congr fun x h1 h2 => hag x (by omega) (by omega)
  · intro i h0 hi
    rw [← lay.hdr i h0 hi]
    exact Mem.load32_congr fun x h1 h2 => hag x (by omega) (by omega)
  · intro i hi
    have := lay.fits i hi
    rw [← lay.start i hi]
    exact Mem.load32_congr fun x h1 h2 => hag x (by omega) (by omega)
  · intro i hi
    have h1 := lay.fits i hi
    have h2 := sub_cap lay hi (lay.sub i)
    exact Mem.has_of_agree (fun x h3 h4 => (hag x (by omega) (by omega)).symm) (lay.body i hi)

theorem reduce_counts (f : Nat × W → Nat) (l : List (Nat × W)) (x : Nat × Nat) :
    l.foldl (fun (a : Nat × Nat) e => (a.1 + (if f e = 1 then 1 else 0),
      a.2 + (if f e = 2 then 1 else 0))) x =
    (x.1 + (l.filter fun e => f e == 1).length, x.2 + (l.filter fun e => f e == 2).length) := by
  induction l generalizing x with
  | nil => rfl
  | cons e l ih =>
    rw [List.foldl_cons, ih]
    simp only [List.filter_cons]
    by_cases h1 : f e = 1
    · simp [h1]; omega
    · by_cases h2 : f e = 2
      · simp [h2]; omega
      · simp [h1, h2]

theorem counts_eq {m : Mem} {a v ext vd : Nat} {edges : List (Nat × W)}
    (h : Represents L m a v ext vd edges) (pred : Nat → Nat → W → Nat) :
    counts c pred m a v edges.length = some ((edges.filter fun e => pred v e.1 e.2 == 1).length,
      (edges.filter fun e => pred v e.1 e.2 == 2).length) := by
  obtain ⟨offs, cap, orig, blk, lay, rfl⟩ := h
  rw [counts, mapReduce_lay lay _ _ _ (by simp) (by simp) (by intros; simp [Nat.add_assoc]),
    PD.reduceList_eq _ _ _ (by simp), reduce_counts (fun e => pred v e.1 e.2)]
  simp

theorem foldl_calls (off v : Nat) (calls : List (Nat × Nat × W)) :
    ∀ arr : Nat → Nat × Nat × W, (calls.map Prod.fst).Nodup →
    (∀ k ∈ calls, (calls.foldl (fun arr k => upd arr (off + k.1) (v, k.2)) arr) (off + k.1) =
      (v, k.2)) ∧
    ∀ x, (∀ k ∈ calls, x ≠ off + k.1) →
      (calls.foldl (fun arr k => upd arr (off + k.1) (v, k.2)) arr) x = arr x := by
  induction calls with
  | nil => intro arr _; simp
  | cons k calls ih =>
    intro arr hnd
    rw [List.map_cons, List.nodup_cons] at hnd
    obtain ⟨h1, h2⟩ := ih (upd arr (off + k.1) (v, k.2)) hnd.2
    refine ⟨?_, ?_⟩
    · intro j hj
      rcases List.mem_cons.1 hj with rfl | hj
      · rw [List.foldl_cons, h2 _ ?_]
        · simp
        · intro i hi e
          exact hnd.1 (List.mem_map.2 ⟨i, hi, by omega⟩)
      · exact h1 j hj
    · intro x hx
      rw [List.foldl_cons, h2 x (fun i hi => hx i (List.mem_cons_of_mem _ hi)),
        upd_of_ne _ _ (hx k List.mem_cons_self)]

theorem write_calls (off v : Nat) (l : List (Nat × W)) (calls : List (Nat × Nat × W))
    (hp : calls.Perm (l.mapIdx fun k e => (k, e))) (arr : Nat → Nat × Nat × W) :
    calls.foldl (fun arr k => upd arr (off + k.1) (v, k.2)) arr =
      writeAt arr off (l.map fun e => (v, e)) := by
  have hkeys : (l.mapIdx fun k e => (k, e)).map Prod.fst = List.range l.length := by
    apply List.ext_getElem?
    intro i
    by_cases hi : i < l.length
    · simp [hi]
    · rw [List.getElem?_eq_none (by simpa using hi), List.getElem?_eq_none (by simpa using hi)]
  have hnd : (calls.map Prod.fst).Nodup := by
    rw [(hp.map Prod.fst).nodup_iff, hkeys]; exact List.nodup_range
  obtain ⟨h1, h2⟩ := foldl_calls off v calls arr hnd
  funext x
  rw [writeAt_apply]
  by_cases hx : off ≤ x ∧ x - off < l.length
  · obtain ⟨hx1, hx2⟩ := hx
    have hm : (x - off, l[x - off]) ∈ calls := by
      rw [hp.mem_iff, List.mem_mapIdx]
      exact ⟨x - off, hx2, rfl⟩
    have := h1 _ hm
    simp only [show off + (x - off) = x by omega] at this
    rw [this, if_pos hx1, List.getElem?_map, List.getElem?_eq_getElem hx2]
    rfl
  · rw [h2 x ?_]
    · split
      · rw [List.getElem?_eq_none (by rw [List.length_map]; omega)]; rfl
      · rfl
    · intro k hk e
      rw [hp.mem_iff, List.mem_mapIdx] at hk
      obtain ⟨i, hi, rfl⟩ := hk
      exact hx ⟨by simp only at e; omega, by simp only at e; omega⟩

theorem length_parts (l : List (Nat × W)) (f : Nat × W → Nat) (hf : ∀ e ∈ l, f e ≤ 2) :
    l.length = (l.filter fun e => f e == 0).length +
      ((l.filter fun e => f e == 1).length + (l.filter fun e => f e == 2).length) := by
  induction l with
  | nil => rfl
  | cons e l ih =>
    have h := ih (fun x hx => hf x (List.mem_cons_of_mem _ hx))
    have h2 := hf e List.mem_cons_self
    simp only [List.filter_cons, List.length_cons]
    have : f e = 0 ∨ f e = 1 ∨ f e = 2 := by omega
    rcases this with h0 | h0 | h0 <;> simp [h0] <;> omega

/-- What `filter_edges` writes for one vertex. -/
def written (noOutput : Bool) (pred : Nat → Nat → W → Nat) (v : Nat) (l : List (Nat × W)) :
    List (Nat × Nat × W) :=
  if noOutput then [] else (l.filter fun e => pred v e.1 e.2 == 2).map fun e => (v, e)

/-- The body for one vertex. -/
theorem filterEdgesVertex_spec {G : CG} {a v ext : Nat} {edges : List (Nat × W)}
    (no : Bool) (pred : Nat → Nat → W → Nat) (hpred : ∀ e ∈ edges, pred v e.1 e.2 ≤ 2) (h : MChoice W)
    (hf : h.Fair) (hdeg : G.deg v = edges.length)
    (hrep : edges ≠ [] → ∃ vd, Represents L G.mem a v ext vd edges ∧
      (Partly pred v edges → numBlocks vd ≠ 100))
    (off : Nat) (arr : Nat → Nat × Nat × W) :
    ∃ G', filterEdgesVertex c pred no h a v (edges.filter fun e => pred v e.1 e.2 == 1).length
        (edges.filter fun e => pred v e.1 e.2 == 2).length off G arr =
        some (G', writeAt arr off (written no pred v edges)) ∧
      G'.deg = upd G.deg v (edges.filter fun e => pred v e.1 e.2 == 0).length ∧
      ((edges.filter fun e => pred v e.1 e.2 == 0) ≠ [] → ∃ vd, Represents L G'.mem a v ext vd
        (edges.filter fun e => pred v e.1 e.2 == 0)) ∧
      ∀ x, x < a ∨ a + ext ≤ x → G'.mem x = G.mem x := by
  have hparts := length_parts edges (fun e => pred v e.1 e.2) hpred
  by_cases hpos : 0 < (edges.filter fun e => pred v e.1 e.2 == 1).length +
      (edges.filter fun e => pred v e.1 e.2 == 2).length
  · have hne : edges ≠ [] := by rintro rfl; simp at hpos
    obtain ⟨vd, hr, h100⟩ := hrep hne
    have hout : (if 0 < (edges.filter fun e => pred v e.1 e.2 == 2).length ∧ no = false then
        (filter c (fun s u w => pred s u w == 2) (h.fil v) G.mem a v (G.deg v)
          (tmpSpace (G.deg v))).map
          (fun calls => calls.foldl (fun arr k => upd arr (off + k.1) (v, k.2)) arr)
        else some arr) = some (writeAt arr off (written no pred v edges)) := by
      cases no with
      | true => rw [if_neg (by simp)]; rfl
      | false =>
      by_cases h2 : 0 < (edges.filter fun e => pred v e.1 e.2 == 2).length
      · rw [if_pos ⟨h2, rfl⟩]
        obtain ⟨offs, cap, orig, blk, lay, hl⟩ := hr
        obtain ⟨calls, g1, g2⟩ := filter_lay lay (fun s u w => pred s u w == 2) (h.fil v) (hf.1 v)
        rw [hl] at g1 g2
        rw [hdeg, g1, Option.map_some, write_calls off v _ calls g2 arr]; rfl
      · have h20 : (edges.filter fun e => pred v e.1 e.2 == 2) = [] :=
          List.length_eq_zero_iff.1 (by omega)
        rw [if_neg (fun hh => h2 hh.1), written, h20]; rfl
    simp only [filterEdgesVertex]
    rw [if_pos hpos, hout]
    simp only
    by_cases hlt : (edges.filter fun e => pred v e.1 e.2 == 1).length +
        (edges.filter fun e => pred v e.1 e.2 == 2).length < G.deg v
    · have hvd : G.mem.load32 a = vd := by obtain ⟨_, _, _, _, lay, _⟩ := hr; exact lay.vdEq
      have hsub : edges.length - ((edges.filter fun e => pred v e.1 e.2 == 1).length +
          (edges.filter fun e => pred v e.1 e.2 == 2).length) =
          (edges.filter fun e => pred v e.1 e.2 == 0).length := by omega
      obtain ⟨m', vd', g1, g2, _, g4⟩ := pack_lay hr (fun s u w => pred s u w == 0)
        (h.p1 v (numBlocks vd)) (h.p2 v (numBlocks vd))
        (h.p3 v (numBlocks (edges.filter fun e => pred v e.1 e.2 == 0).length))
        (hf.2.1 _ _) (hf.2.2.1 _ _) (hf.2.2.2 _ _) (h100 (by
          constructor
          · obtain ⟨e, he⟩ := List.exists_mem_of_length_pos
              (l := edges.filter fun e => pred v e.1 e.2 == 0) (by omega)
            rw [List.mem_filter] at he
            exact ⟨e, he.1, by simpa using he.2⟩
          · by_contra hc
            have : (edges.filter fun e => pred v e.1 e.2 == 0) = edges :=
              List.filter_eq_self.2 fun e he => by
                by_contra h0
                exact hc ⟨e, he, by simpa using h0⟩
            rw [this] at hsub
            omega))
      rw [if_pos hlt, hvd, hdeg, hsub, g1]
      exact ⟨_, rfl, rfl, fun _ => ⟨vd', g2⟩, g4⟩
    · rw [if_neg hlt]
      have h0 : (edges.filter fun e => pred v e.1 e.2 == 0).length = 0 := by omega
      exact ⟨_, rfl, by rw [h0], fun hh => absurd (List.length_eq_zero_iff.1 h0) hh, fun _ _ => rfl⟩
  · simp only [filterEdgesVertex]
    rw [if_neg hpos]
    have h2 : (edges.filter fun e => pred v e.1 e.2 == 2).length = 0 := by omega
    have hall : (edges.filter fun e => pred v e.1 e.2 == 0) = edges :=
      List.filter_sublist.eq_of_length (by omega)
    refine ⟨G, by rw [written, List.length_eq_zero_iff.1 h2]; cases no <;> rfl, ?_, ?_, fun _ _ => rfl⟩
    · rw [hall, ← hdeg]; funext x; by_cases e : x = v
      · subst e; simp
      · rw [upd_of_ne _ _ e]
    · rw [hall]; intro hne
      obtain ⟨vd, hr, _⟩ := hrep hne
      exact ⟨vd, hr⟩

theorem fold_spec {n : Nat} {addr ext : Nat → Nat} (hap : Apart n addr ext)
    (no : Bool) (pred : Nat → Nat → W → Nat) (lists : Nat → List (Nat × W))
    (hpred : ∀ v, v < n → ∀ e ∈ lists v, pred v e.1 e.2 ≤ 2) (h : MChoice W) (hf : h.Fair)
    (n1 n2 offs : Nat → Nat)
    (hn1 : ∀ v, v < n → n1 v = ((lists v).filter fun e => pred v e.1 e.2 == 1).length)
    (hn2 : ∀ v, v < n → n2 v = ((lists v).filter fun e => pred v e.1 e.2 == 2).length)
    (order : List Nat) : ∀ (G : CG) (arr : Nat → Nat × Nat × W) (cur : Nat → List (Nat × W)),
    order.Nodup → (∀ v ∈ order, v < n) → Stores L n addr ext G cur →
    (∀ v ∈ order, cur v = lists v ∧ (Partly pred v (lists v) → numBlocks (G.mem.load32 (addr v)) ≠ 100)) →
    ∃ G', order.foldlM (fun s v => filterEdgesVertex c pred no h (addr v) v (n1 v) (n2 v)
        (offs v) s.1 s.2) (G, arr) =
        some (G', scatter offs (fun v => written no pred v (lists v)) order arr) ∧
      Stores L n addr ext G' (fun v => if v ∈ order then
        (lists v).filter fun e => pred v e.1 e.2 == 0 else cur v) := by
  induction order with
  | nil => intro G arr cur _ _ hs _; exact ⟨G, rfl, by simpa using hs⟩
  | cons v order ih =>
    intro G arr cur hnd hlt hs ht
    rw [List.nodup_cons] at hnd
    have hv := hlt v List.mem_cons_self
    obtain ⟨hc, h100⟩ := ht v List.mem_cons_self
    obtain ⟨hd, hr⟩ := hs v hv
    rw [hc] at hd hr
    obtain ⟨G1, g1, g2, g3, g4⟩ := filterEdgesVertex_spec (L := L) (ext := ext v) no pred (hpred v hv) h hf hd
      (fun hne => by
        obtain ⟨vd, hr⟩ := hr hne
        have hvd : G.mem.load32 (addr v) = vd := by obtain ⟨_, _, _, _, lay, _⟩ := hr; exact lay.vdEq
        exact ⟨vd, hr, fun hp => hvd ▸ h100 hp⟩) (offs v) arr
    have hother : ∀ u, u < n → u ≠ v → ∀ x, addr u ≤ x → x < addr u + ext u →
        G1.mem x = G.mem x := by
      intro u hu hne x h1 h2
      apply g4
      rcases hap u v hu hv hne with h3 | h3 <;> omega
    have hs1 : Stores L n addr ext G1 (fun u => if u = v then
        (lists v).filter fun e => pred v e.1 e.2 == 0 else cur u) := by
      intro u hu
      by_cases hne : u = v
      · subst hne
        simp only [if_pos]
        exact ⟨by rw [g2]; simp, g3⟩
      · simp only [if_neg hne]
        refine ⟨by rw [g2, upd_of_ne _ _ hne]; exact (hs u hu).1, fun hh => ?_⟩
        obtain ⟨vd, hr⟩ := (hs u hu).2 hh
        exact ⟨vd, represents_congr hr (hother u hu hne)⟩
    obtain ⟨G2, k1, k2⟩ := ih G1 (writeAt arr (offs v) (written no pred v (lists v))) _ hnd.2
      (fun u hu => hlt u (List.mem_cons_of_mem _ hu)) hs1 (by
        intro u hu
        have hne : u ≠ v := fun e => hnd.1 (e ▸ hu)
        have hun := hlt u (List.mem_cons_of_mem _ hu)
        obtain ⟨hc', h100'⟩ := ht u (List.mem_cons_of_mem _ hu)
        simp only [if_neg hne]
        refine ⟨hc', fun hh => ?_⟩
        obtain ⟨vd, hr⟩ := (hs u hun).2 (by
          rw [hc']
          obtain ⟨⟨e, he, _⟩, _⟩ := hh
          exact List.ne_nil_of_mem he)
        have e1 : G.mem.load32 (addr u) = vd := by
          obtain ⟨_, _, _, _, lay, _⟩ := hr; exact lay.vdEq
        have e2 : G1.mem.load32 (addr u) = vd := by
          obtain ⟨_, _, _, _, lay, _⟩ := represents_congr hr (hother u hun hne); exact lay.vdEq
        rw [e2, ← e1]; exact h100' hh)
    refine ⟨G2, ?_, ?_⟩
    · rw [List.foldlM_cons, hn1 v hv, hn2 v hv, g1]
      simp only [Option.bind_eq_bind, Option.bind_some]
      rw [k1]; rfl
    · intro u hu
      have := k2 u hu
      by_cases h1 : u ∈ order
      · simpa [h1] using this
      · by_cases h2 : u = v
        · subst h2; simpa [h1] using this
        · simpa [h1, h2] using this

theorem counts_stores {n : Nat} {addr ext : Nat → Nat} {G : CG} {lists : Nat → List (Nat × W)}
    (hs : Stores L n addr ext G lists) (pred : Nat → Nat → W → Nat) {v : Nat} (hv : v < n) :
    counts c pred G.mem (addr v) v (G.deg v) =
      some (((lists v).filter fun e => pred v e.1 e.2 == 1).length,
        ((lists v).filter fun e => pred v e.1 e.2 == 2).length) := by
  obtain ⟨hd, hr⟩ := hs v hv
  rw [hd]
  by_cases hne : lists v = []
  · rw [hne]; rfl
  · obtain ⟨vd, hr⟩ := hr hne
    exact counts_eq hr pred

/-- A stored graph shows its lists. -/
theorem stores_decode {n : Nat} {addr ext : Nat → Nat} {G : CG} {lists : Nat → List (Nat × W)}
    (hs : Stores L n addr ext G lists) {v : Nat} (hv : v < n) (ans : Nat → Nat → W → Nat → Bool) :
    decodeWeighted c ans G.mem (addr v) v (G.deg v) = some (callsUntil ans v 0 (lists v)) := by
  obtain ⟨hd, hr⟩ := hs v hv
  rw [hd]
  by_cases hne : lists v = []
  · rw [hne]; rfl
  · obtain ⟨vd, offs, cap, orig, blk, lay, hl⟩ := hr hne
    rw [← hl]
    exact decodeWeighted_lay lay ans

theorem exScan_flatMap {α : Type} (g : Nat → List α) (n : Nat) :
    exScan (fun v => (g v).length) n = ((List.range n).flatMap g).length := by
  induction n with
  | zero => rfl
  | succ n ih => simp [exScan, ih, List.range_succ]

theorem scatter_nil {α : Type} (offs : Nat → Nat) (g : Nat → List α) (hg : ∀ v, g v = [])
    (order : List Nat) (arr : Nat → α) : scatter offs g order arr = arr := by
  induction order generalizing arr with
  | nil => rfl
  | cons v order ih =>
    rw [show scatter offs g (v :: order) arr = scatter offs g order (writeAt arr (offs v) (g v)) from rfl,
      hg v]
    exact ih _

theorem filterEdgesC_spec {n : Nat} {addr ext : Nat → Nat} {G : CG} {lists : Nat → List (Nat × W)}
    (hs : Stores L n addr ext G lists) (hap : Apart n addr ext) (no : Bool)
    (pred : Nat → Nat → W → Nat)
    (hpred : ∀ v, v < n → ∀ e ∈ lists v, pred v e.1 e.2 ≤ 2) (h : MChoice W) (hf : h.Fair)
    (h100 : ∀ v, v < n → Partly pred v (lists v) → numBlocks (G.mem.load32 (addr v)) ≠ 100)
    (order : List Nat) (ho : Sched n order) (junk : Nat → Nat × Nat × W) :
    ∃ G' arr k M, filterEdgesC c pred no h n addr order junk G = some (G', arr, k, M) ∧
      Stores L n addr ext G' (fun v => (lists v).filter fun e => pred v e.1 e.2 == 0) ∧
      k = ((List.range n).flatMap (fun v =>
        ((lists v).filter fun e => pred v e.1 e.2 == 2).map fun e => (v, e))).length ∧
      (no = true → arr = junk) ∧
      (no = false → slice arr 0 k = (List.range n).flatMap (fun v =>
        ((lists v).filter fun e => pred v e.1 e.2 == 2).map fun e => (v, e))) ∧
      M = ((List.range n).map fun v => ((lists v).filter fun e => pred v e.1 e.2 == 0).length).sum := by
  rw [filterEdgesC, mapM_some _ (fun v => (((lists v).filter fun e => pred v e.1 e.2 == 1).length,
    ((lists v).filter fun e => pred v e.1 e.2 == 2).length)) _
    (fun v hv => counts_stores hs pred (List.mem_range.1 hv))]
  simp only
  set cts := (List.range n).map (fun v => (((lists v).filter fun e => pred v e.1 e.2 == 1).length,
    ((lists v).filter fun e => pred v e.1 e.2 == 2).length)) with hcts
  have hget : ∀ v, v < n → (cts[v]?).getD (0, 0) =
      (((lists v).filter fun e => pred v e.1 e.2 == 1).length,
        ((lists v).filter fun e => pred v e.1 e.2 == 2).length) := by
    intro v hv; simp [hcts, hv]
  set g : Nat → List (Nat × Nat × W) := fun v =>
    ((lists v).filter fun e => pred v e.1 e.2 == 2).map fun e => (v, e) with hg
  have hex : ∀ i, i ≤ n → exScan (fun v => ((cts[v]?).getD (0, 0)).2) i =
      exScan (fun v => (g v).length) i := by
    intro i
    induction i with
    | zero => intro _; rfl
    | succ i ih =>
      intro hi
      simp only [exScan, ih (by omega), hget i (by omega), hg, List.length_map]
  obtain ⟨G', k1, k2⟩ := fold_spec hap no pred lists hpred h hf
    (fun v => ((cts[v]?).getD (0, 0)).1) (fun v => ((cts[v]?).getD (0, 0)).2)
    (exScan fun v => ((cts[v]?).getD (0, 0)).2)
    (fun v hv => by simp only [hget v hv]) (fun v hv => by simp only [hget v hv]) order G junk lists
    ho.1 (fun v hv => (ho.2 v).1 hv) hs (fun v hv => ⟨rfl, h100 v ((ho.2 v).1 hv)⟩)
  rw [k1]
  have hst : Stores L n addr ext G' (fun v => (lists v).filter fun e => pred v e.1 e.2 == 0) := by
    intro v hv
    have := k2 v hv
    simpa only [if_pos ((ho.2 v).2 hv)] using this
  refine ⟨G', _, _, _, rfl, hst, ?_, ?_, ?_, ?_⟩
  · rw [hex n (Nat.le_refl _), exScan_flatMap]
  · rintro rfl
    exact scatter_nil _ _ (fun _ => rfl) order junk
  · rintro rfl
    rw [hex n (Nat.le_refl _)]
    exact (scatter_spec 0 g _ n (fun i hi => by rw [hex i (by omega)]; omega) order ho junk).1
  · have : ∀ i, i ≤ n → exScan G'.deg i = ((List.range i).map fun v =>
        ((lists v).filter fun e => pred v e.1 e.2 == 0).length).sum := by
      intro i
      induction i with
      | zero => intro _; rfl
      | succ i ih =>
        intro hi
        rw [List.range_succ, List.map_append, List.sum_append, ← ih (by omega)]
        simp only [exScan, (hst i (by omega)).1]
        simp
    exact this n (Nat.le_refl _)

theorem countOne_stores {n : Nat} {addr ext : Nat → Nat} {G : CG} {lists : Nat → List (Nat × W)}
    (hs : Stores L n addr ext G lists) (p : Nat → Nat → W → Bool) {v : Nat} (hv : v < n) :
    countOne c p G.mem (addr v) v (G.deg v) =
      some ((lists v).filter fun e => p v e.1 e.2).length := by
  obtain ⟨hd, hr⟩ := hs v hv
  rw [hd]
  by_cases hne : lists v = []
  · rw [hne]; rfl
  · obtain ⟨vd, offs, cap, orig, blk, lay, hl⟩ := hr hne
    rw [← hl, countOne, mapReduce_lay lay _ _ _ (by simp) (by simp) (by intros; omega),
      PD.reduceList_eq _ _ _ (by simp)]
    have : ∀ (l : List (Nat × W)) (x : Nat), l.foldl (fun a e => a + (if p v e.1 e.2 then 1 else 0)) x =
        x + (l.filter fun e => p v e.1 e.2).length := by
      intro l
      induction l with
      | nil => intro x; rfl
      | cons e l ih =>
        intro x
        rw [List.foldl_cons, ih, List.filter_cons]
        by_cases hp : p v e.1 e.2 = true
        · simp [hp]; omega
        · simp [hp]
    rw [this]; simp

theorem filterOut_stores {n : Nat} {addr ext : Nat → Nat} {G : CG} {lists : Nat → List (Nat × W)}
    (hs : Stores L n addr ext G lists) (p : Nat → Nat → W → Bool) (h : Choice W) (hf : h.Fair) {v : Nat}
    (hv : v < n) (off : Nat) (arr : Nat → Nat × Nat × W) :
    filterOut c p h G.mem (addr v) v (G.deg v) off arr =
      some (writeAt arr off (((lists v).filter fun e => p v e.1 e.2).map fun e => (v, e))) := by
  obtain ⟨hd, hr⟩ := hs v hv
  rw [hd]
  by_cases hne : lists v = []
  · rw [hne]; rfl
  · obtain ⟨vd, offs, cap, orig, blk, lay, hl⟩ := hr hne
    obtain ⟨calls, g1, g2⟩ := filter_lay lay p h hf
    rw [hl] at g1 g2
    rw [filterOut, g1, Option.map_some, write_calls off v _ calls g2 arr]

theorem filterAllC_spec {n : Nat} {addr ext : Nat → Nat} {G : CG} {lists : Nat → List (Nat × W)}
    (hs : Stores L n addr ext G lists) (p : Nat → Nat → W → Bool) (h : Nat → Choice W)
    (hf : ∀ v, (h v).Fair) (order : List Nat) (ho : Sched n order) (init : Nat → Nat × Nat × W) :
    ∃ deg arr k, filterAllC c p h n addr order init G = some (deg, arr, k) ∧
      (∀ v, v < n → deg v = 0) ∧
      slice arr 0 k = (List.range n).flatMap (fun v =>
        ((lists v).filter fun e => p v e.1 e.2).map fun e => (v, e)) := by
  rw [filterAllC, mapM_some _ (fun v => ((lists v).filter fun e => p v e.1 e.2).length) _
    (fun v hv => countOne_stores hs p (List.mem_range.1 hv))]
  simp only
  set cts := (List.range n).map (fun v => ((lists v).filter fun e => p v e.1 e.2).length) with hcts
  set g : Nat → List (Nat × Nat × W) := fun v =>
    ((lists v).filter fun e => p v e.1 e.2).map fun e => (v, e) with hg
  have hex : ∀ i, i ≤ n → exScan (fun v => (cts[v]?).getD 0) i = exScan (fun v => (g v).length) i := by
    intro i
    induction i with
    | zero => intro _; rfl
    | succ i ih =>
      intro hi
      simp only [exScan, ih (by omega), hg, List.length_map]
      simp [hcts, show i < n by omega]
  have fold : ∀ (order : List Nat) (deg : Nat → Nat) (arr : Nat → Nat × Nat × W), order.Nodup →
      (∀ v ∈ order, v < n ∧ deg v = G.deg v) →
      ∃ deg', order.foldlM (fun (s : (Nat → Nat) × (Nat → Nat × Nat × W)) v =>
        if s.1 v > 0 then
          (filterOut c p (h v) G.mem (addr v) v (s.1 v) (exScan (fun v => (cts[v]?).getD 0) v) s.2).map
            (fun arr => (upd s.1 v 0, arr))
        else some s) (deg, arr) =
        some (deg', scatter (exScan fun v => (cts[v]?).getD 0) g order arr) ∧
        (∀ v ∈ order, deg' v = 0) ∧ ∀ v, v ∉ order → deg' v = deg v := by
    intro order
    induction order with
    | nil => intro deg arr _ _; exact ⟨deg, rfl, by simp, fun _ _ => rfl⟩
    | cons v order ih =>
      intro deg arr hnd hlt
      rw [List.nodup_cons] at hnd
      obtain ⟨hv, hdv⟩ := hlt v List.mem_cons_self
      have hstep : (if deg v > 0 then
          (filterOut c p (h v) G.mem (addr v) v (deg v) (exScan (fun v => (cts[v]?).getD 0) v) arr).map
            (fun arr => (upd deg v 0, arr))
          else some (deg, arr)) =
          some (upd deg v 0, writeAt arr (exScan (fun v => (cts[v]?).getD 0) v) (g v)) := by
        by_cases hd : deg v > 0
        · rw [if_pos hd, hdv, filterOut_stores hs p (h v) (hf v) hv]; rfl
        · rw [if_neg hd]
          have h0 : lists v = [] := by
            have := (hs v hv).1
            exact List.length_eq_zero_iff.1 (by omega)
          have hu : upd deg v 0 = deg := by
            funext x; by_cases e : x = v
            · subst e; simp; omega
            · rw [upd_of_ne _ _ e]
          rw [hu, hg]; simp only [h0]; rfl
      obtain ⟨deg', k1, k2, k3⟩ := ih (upd deg v 0)
        (writeAt arr (exScan (fun v => (cts[v]?).getD 0) v) (g v)) hnd.2 (fun u hu => by
          have hne : u ≠ v := fun e => hnd.1 (e ▸ hu)
          rw [upd_of_ne _ _ hne]
          exact hlt u (List.mem_cons_of_mem _ hu))
      refine ⟨deg', ?_, ?_, ?_⟩
      · rw [List.foldlM_cons, hstep]
        simp only [Option.bind_eq_bind, Option.bind_some]
        rw [k1]; rfl
      · intro u hu
        rcases List.mem_cons.1 hu with rfl | hu
        · rw [k3 _ hnd.1]; simp
        · exact k2 u hu
      · intro u hu
        rw [List.mem_cons, not_or] at hu
        rw [k3 u hu.2, upd_of_ne _ _ hu.1]
  obtain ⟨deg', k1, k2, _⟩ := fold order G.deg init ho.1 (fun v hv => ⟨(ho.2 v).1 hv, rfl⟩)
  rw [k1]
  refine ⟨deg', _, _, rfl, fun v hv => k2 v ((ho.2 v).2 hv), ?_⟩
  rw [hex n (Nat.le_refl _)]
  exact (scatter_spec 0 g _ n (fun i hi => by rw [hex i (by omega)]; omega) order ho init).1

theorem sampleC_spec {n : Nat} {addr ext : Nat → Nat} {G : CG} {lists : Nat → List (Nat × W)}
    (hs : Stores L n addr ext G lists) (p : Nat → Nat → W → Bool) (h : Nat → Choice W)
    (hf : ∀ v, (h v).Fair) (order : List Nat) (ho : Sched n order) (init : Nat → Nat × Nat × W) :
    ∃ arr k, sampleC c p h n addr order init G = some (arr, k) ∧
      slice arr 0 k = (List.range n).flatMap (fun v =>
        ((lists v).filter fun e => p v e.1 e.2).map fun e => (v, e)) := by
  rw [sampleC, mapM_some _ (fun v => ((lists v).filter fun e => p v e.1 e.2).length) _
    (fun v hv => countOne_stores hs p (List.mem_range.1 hv))]
  simp only
  set cts := (List.range n).map (fun v => ((lists v).filter fun e => p v e.1 e.2).length) with hcts
  set g : Nat → List (Nat × Nat × W) := fun v =>
    ((lists v).filter fun e => p v e.1 e.2).map fun e => (v, e) with hg
  have hget : ∀ v, v < n → (cts[v]?).getD 0 = (g v).length := by
    intro v hv; simp [hcts, hg, hv]
  have hex : ∀ i, i ≤ n → exScan (fun v => (cts[v]?).getD 0) i = exScan (fun v => (g v).length) i := by
    intro i
    induction i with
    | zero => intro _; rfl
    | succ i ih =>
      intro hi
      simp only [exScan, ih (by omega), hget i (by omega)]
  have fold := foldlM_some (fun arr v =>
      if exScan (fun v => (cts[v]?).getD 0) (v + 1) - exScan (fun v => (cts[v]?).getD 0) v > 0 then
        filterOut c p (h v) G.mem (addr v) v (G.deg v) (exScan (fun v => (cts[v]?).getD 0) v) arr
      else some arr) (fun arr v => writeAt arr (exScan (fun v => (cts[v]?).getD 0) v) (g v)) order init
    (by
      intro v hv arr
      have hvn := (ho.2 v).1 hv
      have e1 : exScan (fun v => (cts[v]?).getD 0) (v + 1) - exScan (fun v => (cts[v]?).getD 0) v =
          (g v).length := by
        simp only [exScan, hget v hvn]; omega
      rw [e1]
      by_cases h0 : (g v).length > 0
      · rw [if_pos h0, filterOut_stores hs p (h v) (hf v) hvn]
      · rw [if_neg h0, List.length_eq_zero_iff.1 (show (g v).length = 0 by omega)]; rfl)
  rw [fold]
  refine ⟨_, _, rfl, ?_⟩
  rw [hex n (Nat.le_refl _)]
  exact (scatter_spec 0 g _ n (fun i hi => by rw [hex i (by omega)]; omega) order ho init).1

/-- Every memory whose range for `v` holds the bytes written by the encoder stores the lists. -/
theorem encoded_stores (hw : ∀ w, ok w → (L.enc w).length ≤ 5) {n : Nat} (addr : Nat → Nat) (G : CG)
    (lists : Nat → List (Nat × W)) (hn : n < 4294967296)
    (hd : ∀ v, v < n → G.deg v = (lists v).length)
    (hv : ∀ v, v < n → ValidList (lists v) ∧ (∀ e ∈ lists v, ok e.2) ∧ (lists v).length ≤ 300000000)
    (henc : ∀ v, v < n → lists v ≠ [] → ∃ m0, ∀ x, addr v ≤ x →
      x < (sequentialCompressEdgeSet c m0 (addr v) v (lists v)).2 →
      G.mem x = (sequentialCompressEdgeSet c m0 (addr v) v (lists v)).1 x) :
    Stores L n addr (fun v => size L v (lists v)) G lists := by
  intro v hvn
  refine ⟨hd v hvn, fun hne => ?_⟩
  obtain ⟨h1, h2, h3⟩ := hv v hvn
  obtain ⟨m0, hm⟩ := henc v hvn hne
  have hpos : 0 < (lists v).length := List.length_pos_of_ne_nil hne
  obtain ⟨m1, b1, e1, _, hb, _, h4⟩ := encode_spec L hw m0 (addr v) v (lists v) (by omega) h1 h2 h3
  rw [e1, hb hpos] at hm
  obtain ⟨offs, cap, lay⟩ := h4 hpos G.mem (fun x hx1 hx2 => (hm x hx1 (by
    have := hb hpos; omega)).symm)
  exact ⟨_, offs, cap, _, _, lay, live_block _⟩

end

/-- C157: `filter_edges` on a graph compressed with `bytepd_amortized`, stored in disjoint byte ranges,
freshly encoded or already packed.  For every predicate with values 0, 1, 2 and every schedule of all
loops it is defined (unless a vertex that keeps some but not all edges has exactly 100 blocks, see C51), every vertex keeps exactly its
edges with value 0, in order and with their weights, the result lists the edges with value 2 by vertex
and in order, and `G.m` is the number of edges kept.  The graph is again stored in the same ranges, so
this holds for any number of calls in a row. -/
theorem C157_filter_edges_compressed_partial {n : Nat} {addr ext : Nat → Nat} {G : CG}
    {lists : Nat → List (Nat × Int)} (hs : Stores intLawful n addr ext G lists) (hap : Apart n addr ext)
    (pred : Nat → Nat → Int → Nat) (hpred : ∀ v, v < n → ∀ e ∈ lists v, pred v e.1 e.2 ≤ 2)
    (h : MChoice Int) (hf : h.Fair)
    (h100 : ∀ v, v < n → Partly pred v (lists v) → numBlocks (G.mem.load32 (addr v)) ≠ 100)
    (order : List Nat) (ho : Sched n order) (junk : Nat → Nat × Nat × Int) :
    ∃ G' arr k M, filterEdgesC intCodec pred false h n addr order junk G = some (G', arr, k, M) ∧
      (∀ v, v < n → G'.deg v = ((lists v).filter fun e => pred v e.1 e.2 == 0).length ∧
        ∀ ans, decodeWeighted intCodec ans G'.mem (addr v) v (G'.deg v) =
          some (callsUntil ans v 0 ((lists v).filter fun e => pred v e.1 e.2 == 0))) ∧
      slice arr 0 k = (List.range n).flatMap (fun v =>
        ((lists v).filter fun e => pred v e.1 e.2 == 2).map fun e => (v, e)) ∧
      M = ((List.range n).map fun v =>
        ((lists v).filter fun e => pred v e.1 e.2 == 0).length).sum ∧
      Stores intLawful n addr ext G' (fun v => (lists v).filter fun e => pred v e.1 e.2 == 0) := by
  obtain ⟨G', arr, k, M, g1, g2, _, _, g3, g4⟩ := filterEdgesC_spec hs hap false pred hpred h hf h100 order ho junk
  exact ⟨G', arr, k, M, g1, fun v hv => ⟨(g2 v hv).1, stores_decode g2 hv⟩, g3 rfl, g4, g2⟩

/-- C157, unweighted. -/
theorem C157_filter_edges_unweighted_partial {n : Nat} {addr ext : Nat → Nat} {G : CG}
    {lists : Nat → List (Nat × Unit)} (hs : Stores emptyLawful n addr ext G lists)
    (hap : Apart n addr ext)
    (pred : Nat → Nat → Unit → Nat) (hpred : ∀ v, v < n → ∀ e ∈ lists v, pred v e.1 e.2 ≤ 2)
    (h : MChoice Unit) (hf : h.Fair)
    (h100 : ∀ v, v < n → Partly pred v (lists v) → numBlocks (G.mem.load32 (addr v)) ≠ 100)
    (order : List Nat) (ho : Sched n order) (junk : Nat → Nat × Nat × Unit) :
    ∃ G' arr k M, filterEdgesC emptyCodec pred false h n addr order junk G = some (G', arr, k, M) ∧
      (∀ v, v < n → G'.deg v = ((lists v).filter fun e => pred v e.1 e.2 == 0).length ∧
        ∀ p, filterSequential emptyCodec p G'.mem (addr v) v (G'.deg v) =
          some (((lists v).filter fun e => pred v e.1 e.2 == 0).filter fun e => p v e.1 e.2) ∨
          G'.deg v = 0) ∧
      slice arr 0 k = (List.range n).flatMap (fun v =>
        ((lists v).filter fun e => pred v e.1 e.2 == 2).map fun e => (v, e)) ∧
      M = ((List.range n).map fun v =>
        ((lists v).filter fun e => pred v e.1 e.2 == 0).length).sum ∧
      Stores emptyLawful n addr ext G' (fun v => (lists v).filter fun e => pred v e.1 e.2 == 0) := by
  obtain ⟨G', arr, k, M, g1, g2, _, _, g3, g4⟩ := filterEdgesC_spec hs hap false pred hpred h hf h100 order ho junk
  refine ⟨G', arr, k, M, g1, fun v hv => ⟨(g2 v hv).1, fun p => ?_⟩, g3 rfl, g4, g2⟩
  obtain ⟨hd, hr⟩ := g2 v hv
  simp only at hd hr
  by_cases hne : ((lists v).filter fun e => pred v e.1 e.2 == 0) = []
  · right; rw [hd, hne]; rfl
  · obtain ⟨vd, offs, cap, orig, blk, lay, hl⟩ := hr hne
    left
    rw [hd]
    simp only [← hl]
    exact filterSequential_lay lay p

/-- C157: `filter_edges` with the flag `no_output`: the graph is changed as without it, but the array
returned, which has one entry for each edge with value 2, is left as it was allocated (uninitialised). -/
theorem C157_no_output_partial {n : Nat} {addr ext : Nat → Nat} {G : CG}
    {lists : Nat → List (Nat × Int)} (hs : Stores intLawful n addr ext G lists) (hap : Apart n addr ext)
    (pred : Nat → Nat → Int → Nat) (hpred : ∀ v, v < n → ∀ e ∈ lists v, pred v e.1 e.2 ≤ 2)
    (h : MChoice Int) (hf : h.Fair)
    (h100 : ∀ v, v < n → Partly pred v (lists v) → numBlocks (G.mem.load32 (addr v)) ≠ 100)
    (order : List Nat) (ho : Sched n order) (junk : Nat → Nat × Nat × Int) :
    ∃ G' k M, filterEdgesC intCodec pred true h n addr order junk G = some (G', junk, k, M) ∧
      (∀ v, v < n → G'.deg v = ((lists v).filter fun e => pred v e.1 e.2 == 0).length ∧
        ∀ ans, decodeWeighted intCodec ans G'.mem (addr v) v (G'.deg v) =
          some (callsUntil ans v 0 ((lists v).filter fun e => pred v e.1 e.2 == 0))) ∧
      k = ((List.range n).flatMap (fun v =>
        ((lists v).filter fun e => pred v e.1 e.2 == 2).map fun e => (v, e))).length ∧
      M = ((List.range n).map fun v =>
        ((lists v).filter fun e => pred v e.1 e.2 == 0).length).sum ∧
      Stores intLawful n addr ext G' (fun v => (lists v).filter fun e => pred v e.1 e.2 == 0) := by
  obtain ⟨G', arr, k, M, g1, g2, g5, g6, _, g4⟩ :=
    filterEdgesC_spec hs hap true pred hpred h hf h100 order ho junk
  rw [g6 rfl] at g1
  exact ⟨G', k, M, g1, fun v hv => ⟨(g2 v hv).1, stores_decode g2 hv⟩, g5, g4, g2⟩

/-- C157: `filter_all_edges` on a compressed graph: the result lists exactly the accepted edges, by vertex
and in order, with their weights, and every vertex has degree 0 afterwards. -/
theorem C157_filter_all_edges_compressed {n : Nat} {addr ext : Nat → Nat} {G : CG}
    {lists : Nat → List (Nat × Int)} (hs : Stores intLawful n addr ext G lists)
    (p : Nat → Nat → Int → Bool) (h : Nat → Choice Int) (hf : ∀ v, (h v).Fair)
    (order : List Nat) (ho : Sched n order) (init : Nat → Nat × Nat × Int) :
    ∃ deg arr k, filterAllC intCodec p h n addr order init G = some (deg, arr, k) ∧
      (∀ v, v < n → deg v = 0) ∧
      slice arr 0 k = (List.range n).flatMap (fun v =>
        ((lists v).filter fun e => p v e.1 e.2).map fun e => (v, e)) :=
  filterAllC_spec hs p h hf order ho init

/-- C157: `sample_edges` on a compressed graph with a predicate with values 0 and 1: the result lists
exactly the accepted edges, by vertex and in order, with their weights. -/
theorem C157_sample_edges_compressed {n : Nat} {addr ext : Nat → Nat} {G : CG}
    {lists : Nat → List (Nat × Int)} (hs : Stores intLawful n addr ext G lists)
    (p : Nat → Nat → Int → Bool) (h : Nat → Choice Int) (hf : ∀ v, (h v).Fair)
    (order : List Nat) (ho : Sched n order) (init : Nat → Nat × Nat × Int) :
    ∃ arr k, sampleC intCodec p h n addr order init G = some (arr, k) ∧
      slice arr 0 k = (List.range n).flatMap (fun v =>
        ((lists v).filter fun e => p v e.1 e.2).map fun e => (v, e)) :=
  sampleC_spec hs p h hf order ho init

/-- C157, `filter_all_edges` and `sample_edges`, unweighted. -/
theorem C157_filter_all_sample_unweighted {n : Nat} {addr ext : Nat → Nat} {G : CG}
    {lists : Nat → List (Nat × Unit)} (hs : Stores emptyLawful n addr ext G lists)
    (p : Nat → Nat → Unit → Bool) (h : Nat → Choice Unit) (hf : ∀ v, (h v).Fair)
    (order : List Nat) (ho : Sched n order) (init : Nat → Nat × Nat × Unit) :
    (∃ deg arr k, filterAllC emptyCodec p h n addr order init G = some (deg, arr, k) ∧
      (∀ v, v < n → deg v = 0) ∧
      slice arr 0 k = (List.range n).flatMap (fun v =>
        ((lists v).filter fun e => p v e.1 e.2).map fun e => (v, e))) ∧
    ∃ arr k, sampleC emptyCodec p h n addr order init G = some (arr, k) ∧
      slice arr 0 k = (List.range n).flatMap (fun v =>
        ((lists v).filter fun e => p v e.1 e.2).map fun e => (v, e)) :=
  ⟨filterAllC_spec hs p h hf order ho init, sampleC_spec hs p h hf order ho init⟩

/-- C157: the encoder stores the lists: a memory with the encoder's bytes in the range of each vertex
meets the hypothesis of the theorems above. -/
theorem C157_encoded_int {n : Nat} (addr : Nat → Nat) (G : CG) (lists : Nat → List (Nat × Int))
    (hn : n < 4294967296) (hd : ∀ v, v < n → G.deg v = (lists v).length)
    (hv : ∀ v, v < n → ValidList (lists v) ∧ (∀ e ∈ lists v, Int32NotMin e.2) ∧
      (lists v).length ≤ 300000000)
    (henc : ∀ v, v < n → lists v ≠ [] → ∃ m0, ∀ x, addr v ≤ x →
      x < (sequentialCompressEdgeSet intCodec m0 (addr v) v (lists v)).2 →
      G.mem x = (sequentialCompressEdgeSet intCodec m0 (addr v) v (lists v)).1 x) :
    Stores intLawful n addr (fun v => size intLawful v (lists v)) G lists :=
  encoded_stores intLawful_len addr G lists hn hd hv henc

/-- A path of three vertices with weights, encoded one after the other; the edges `{0, 1}` get value 2, the
rest 0. -/
def exLists (v : Nat) : List (Nat × Int) :=
  match v with
  | 0 => [(1, 5)]
  | 1 => [(0, 5), (2, -7)]
  | 2 => [(1, -7)]
  | _ => []

/-- The addresses of its lists. -/
def exAddr (v : Nat) : Nat := 100 * v

/-- Its bytes. -/
def exMem : Mem :=
  (List.range 3).foldl (fun m v => (sequentialCompressEdgeSet intCodec m (exAddr v) v (exLists v)).1)
    (fun _ => 0)

/-- The choice with every loop run in reverse. -/
def exChoice : MChoice Int where
  fil _ := ⟨fun _ l => (List.range l).reverse, fun _ n => (List.range (Filter.numBlocks n fBsize)).reverse,
    fun _ n => (List.range (Filter.numBlocks n fBsize)).reverse, fun _ _ => 0, fun _ _ => (0, 0)⟩
  p1 _ k := (List.range k).reverse
  p2 _ k := (List.range k).reverse
  p3 _ k := (List.range k).reverse

example : exChoice.Fair := by
  have hr : ∀ n, Sched n (List.range n).reverse := fun n =>
    ⟨List.nodup_reverse.2 List.nodup_range, fun i => by simp⟩
  exact ⟨fun _ => ⟨fun _ _ => hr _, fun _ _ => hr _, fun _ _ => hr _⟩, fun _ _ => hr _, fun _ _ => hr _,
    fun _ _ => hr _⟩

/-- The graph meets the hypotheses of C157. -/
example : Stores intLawful 3 exAddr (fun v => size intLawful v (exLists v))
      ⟨exMem, fun v => (exLists v).length⟩ exLists ∧
    Apart 3 exAddr (fun v => size intLawful v (exLists v)) ∧
    (∀ v, v < 3 → numBlocks (exMem.load32 (exAddr v)) ≠ 100) := by
  refine ⟨C157_encoded_int exAddr _ exLists (by decide) (fun _ _ => rfl) ?_ ?_, ?_, by decide +kernel⟩
  · intro v hv
    have : v = 0 ∨ v = 1 ∨ v = 2 := by omega
    rcases this with rfl | rfl | rfl <;>
      exact ⟨⟨by decide, by decide⟩, by simp [exLists, Int32NotMin], by decide⟩
  · intro v hv _
    have h1 : ∀ v, v < 3 → (sequentialCompressEdgeSet intCodec (fun _ => 0) (exAddr v) v (exLists v)).2 ≤
        exAddr v + 20 := by decide +kernel
    have h2 : ∀ v, v < 3 → ∀ i, i < 20 → exMem (exAddr v + i) =
        (sequentialCompressEdgeSet intCodec (fun _ => 0) (exAddr v) v (exLists v)).1 (exAddr v + i) := by
      decide +kernel
    refine ⟨fun _ => 0, fun x hx1 hx2 => ?_⟩
    have := h1 v hv
    have := h2 v hv (x - exAddr v) (by omega)
    rwa [show exAddr v + (x - exAddr v) = x by omega] at this
  · have h1 : ∀ v, v < 3 → size intLawful v (exLists v) ≤ 20 := by decide +kernel
    intro u v hu hv hne
    have := h1 u hu
    have := h1 v hv
    simp only [exAddr]
    omega

/-- The result of the call. -/
def exRun : Option (CG × (Nat → Nat × Nat × Int) × Nat × Nat) :=
  filterEdgesC intCodec (fun s u _ => if s + u = 1 then 2 else 0) false exChoice 3 exAddr [2, 0, 1]
    (fun _ => (9, 9, 9)) ⟨exMem, fun v => (exLists v).length⟩

example : exRun.map (fun r => slice r.2.1 0 r.2.2.1) = some [(0, 1, 5), (1, 0, 5)] ∧
    exRun.map (fun r => r.2.2.2) = some 2 ∧ exRun.map (fun r => r.1.deg 0) = some 0 ∧
    (exRun.bind fun r => filterSequential intCodec (fun _ _ _ => true) r.1.mem (exAddr 1) 1 (r.1.deg 1)) =
      some [(2, -7)] ∧
    (exRun.bind fun r => filterSequential intCodec (fun _ _ _ => true) r.1.mem (exAddr 2) 2 (r.1.deg 2)) =
      some [(1, -7)] := by
  refine ⟨?_, ?_, ?_, ?_, ?_⟩ <;> decide +kernel

example : (filterAllC intCodec (fun s u _ => s < u) exChoice.fil 3 exAddr [1, 2, 0] (fun _ => (0, 0, 0))
      ⟨exMem, fun v => (exLists v).length⟩).map (fun r => slice r.2.1 0 r.2.2) =
      some [(0, 1, 5), (1, 2, -7)] ∧
    (sampleC intCodec (fun _ _ w => decide (w < 0)) exChoice.fil 3 exAddr [1, 2, 0] (fun _ => (0, 0, 0))
      ⟨exMem, fun v => (exLists v).length⟩).map (fun r => slice r.1 0 r.2) =
      some [(1, 2, -7), (2, 1, -7)] := by
  refine ⟨?_, ?_⟩ <;> decide +kernel

end Gbbs.AM
