import Verif.Encoding.AmIter
import Verif.Seq.Filter
import Verif.Scatter

/-!
# `bytepd_amortized::filter`

`gbbs/encodings/byte_pd_amortized.h:1051-1104`, the traversal behind `filter_edges`, `filter_all_edges`
and `sample_edges` (`gbbs/graph_mutation.h:263`, `318`, `376`).  Up to 10000 live entries it is
`filter_sequential`.  Above, it decodes a few blocks at a time into a buffer of a tenth of the degree
and runs `filterf` over the buffer.
-/

namespace Gbbs.AM

open Byte Blk EncSpec
open Filter (filterfCall filterfCall_correct expectedCalls expectedCalls_append)

variable {W : Type}

/-- Subtraction of two `uintE` values. -/
def sub32 (x y : Nat) : Nat := (x + (uintEMod - y)) % uintEMod

/-- `calculateTemporarySpace`, `compressed_vertex.h:124-131` under `AMORTIZEDPD` (set by `.bazelrc` and
the makefile); the constants are `macros.h:86`, `90`. -/
def tmpSpace (degree : Nat) : Nat := if degree ≤ 10000 then 0 else degree / 10

/-- `_F_BSIZE`, `bridge.h:466`. -/
def fBsize : Nat := 2000

/-- `out[i] = std::make_tuple(ngh, wgh)`, `byte_pd_amortized.h:1006`, `1012`, on a buffer of `size`
entries; a write behind the buffer is undefined (`none`). -/
def writeCb (size : Nat) (s : Option (Nat → Nat × W)) (_src ngh : Nat) (w : W) (i : Nat) :
    Option (Nat → Nat × W) × Bool :=
  (s.bind fun t => if i < size then some (upd t i (ngh, w)) else none, true)

/-- `decode_block(finger, out, start, end, source)`, `byte_pd_amortized.h:999-1015`.  `end - start` is
unsigned, so a negative difference decodes one entry. -/
def decodeInto (c : WCodec W) (m : Mem) (size pos source start stop : Nat) (tmp : Nat → Nat × W) :
    Option (Nat → Nat × W) :=
  if stop ≠ start then
    (decodeFrom c (writeCb size) m pos source (max 1 (stop - start)) start (some tmp)).join
  else some tmp

/-- The body for block `i` of the loop `byte_pd_amortized.h:1078-1092`; state: `tmp` and
`last_offset`. -/
def decodeOne (c : WCodec W) (m : Mem) (a source degree nb size endBlock first i : Nat)
    (s : (Nat → Nat × W) × Nat) : Option ((Nat → Nat × W) × Nat) :=
  let finger := blockFinger m a nb i
  let start := sub32 (m.load32 finger) first
  let stop := sub32 (blockEnd m a nb degree i) first
  let last := if i = endBlock - 1 then stop else s.2
  (decodeInto c m size (finger + 4) source start stop s.1).map (fun t => (t, last))

/-- The loop `byte_pd_amortized.h:1076-1092`.  `order` lists the iterations relative to `start_block` in
the order of their execution; they write disjoint parts of `tmp`. -/
def decodeRound (c : WCodec W) (m : Mem) (a source degree nb size startBlock endBlock : Nat)
    (order : List Nat) (tmp : Nat → Nat × W) : Option ((Nat → Nat × W) × Nat) :=
  order.foldlM (fun s j => decodeOne c m a source degree nb size endBlock
    (m.load32 (blockFinger m a nb startBlock)) (startBlock + j) s) (tmp, 0)

/-- What the run time system chooses: the order of the decoding loop (by first block and number of
blocks), the orders of the two loops in `filterf` (by first block and number of entries), the contents
of its fresh array and of `tmp` at the beginning of each round. -/
structure Choice (W : Type) where
  dec : Nat → Nat → List Nat
  o1 : Nat → Nat → List Nat
  o2 : Nat → Nat → List Nat
  sums : Nat → Nat → Nat
  junk : Nat → Nat → Nat × W

/-- Every loop runs all its iterations once. -/
def Choice.Fair (h : Choice W) : Prop :=
  (∀ b l, Sched l (h.dec b l)) ∧ (∀ b n, Sched (Filter.numBlocks n fBsize) (h.o1 b n)) ∧
    ∀ b n, Sched (Filter.numBlocks n fBsize) (h.o2 b n)

/-- The `while` loop `byte_pd_amortized.h:1067-1102`: the calls of `out`.  A loop that does not advance
runs out of `fuel` (`none`). -/
def filterLoop (c : WCodec W) (pred : Nat → Nat → W → Bool) (h : Choice W) (m : Mem)
    (a source degree nb size perIter : Nat) : (fuel done off : Nat) → Option (List (Nat × Nat × W))
  | 0, done, _ => if done < nb then none else some []
  | fuel + 1, done, off =>
    if done < nb then
      let endBlock := min (done + perIter) nb
      let total := endBlock - done
      match decodeRound c m a source degree nb size done endBlock (h.dec done total) (h.junk done) with
      | none => none
      | some (tmp, last) =>
        let r := filterfCall fBsize (fun e : Nat × W => pred source e.1 e.2) last off (h.o1 done last)
          (h.o2 done last) (h.sums done) tmp
        (filterLoop c pred h m a source degree nb size perIter fuel (done + total) (off + r.2)).map
          (r.1 ++ ·)
    else some []

/-- `filter`, `byte_pd_amortized.h:1051-1104`, with a buffer of `size` entries: the calls
`out(k, (ngh, wgh))`. -/
def filter (c : WCodec W) (pred : Nat → Nat → W → Bool) (h : Choice W) (m : Mem)
    (a source degree size : Nat) : Option (List (Nat × Nat × W)) :=
  if degree ≤ 10000 ∧ degree > 0 then
    (filterSequential c pred m a source degree).map (fun l => l.mapIdx fun k e => (k, e))
  else if degree > 0 then
    let nb := numBlocks (m.load32 a)
    filterLoop c pred h m a source degree nb size (degree / 10 / parallelDegree) nb 0 0
  else some []

/-! ## Proofs -/

theorem visit_write (size src : Nat) (l : List (Nat × W)) : ∀ (i : Nat) (t : Nat → Nat × W),
    i + l.length ≤ size → visit (writeCb size) src i l (some t) = some (writeAt t i l) := by
  induction l with
  | nil => intro i t _; rfl
  | cons e r ih =>
    intro i t h
    obtain ⟨n, w⟩ := e
    simp only [List.length_cons] at h
    simp only [visit, writeCb, Option.bind_some, if_pos (show i < size by omega), writeAt]
    exact ih (i + 1) _ (by omega)

theorem exScan_st (blk : Nat → List (Nat × W)) (b j : Nat) :
    st blk b + exScan (fun j => (blk (b + j)).length) j = st blk (b + j) := by
  induction j with
  | zero => rfl
  | succ j ih =>
    have : st blk (b + (j + 1)) = st blk (b + j) + (blk (b + j)).length := rfl
    rw [this, ← ih]
    simp only [exScan]
    omega

section lay

variable {c : WCodec W} {ok : W → Prop} {L : Lawful c ok} {m : Mem} {a src vd ext : Nat}
  {offs cap : Nat → Nat} {orig blk : Nat → List (Nat × W)}

theorem blk_len (h : Lay L m a src vd ext offs cap orig blk) (i : Nat) : (blk i).length ≤ 1000 :=
  Nat.le_trans (h.sub i).length_le (h.len i)

theorem exScan_le_blocks (h : Lay L m a src vd ext offs cap orig blk) (b j : Nat) :
    exScan (fun j => (blk (b + j)).length) j ≤ j * 1000 := by
  induction j with
  | zero => simp [exScan]
  | succ j ih => simp only [exScan]; have := blk_len h (b + j); omega

theorem st_lt (h : Lay L m a src vd ext offs cap orig blk) {i : Nat} (hi : i ≤ numBlocks vd) :
    st blk i < uintEMod := by
  have h1 : st blk i ≤ st orig i := by
    clear hi
    induction i with
    | zero => exact Nat.le_refl _
    | succ i ih =>
      show st blk i + (blk i).length ≤ st orig i + (orig i).length
      have := (h.sub i).length_le; omega
  have h2 : st orig i ≤ st orig (numBlocks vd) := scan_mono _ hi
  have h3 := h.vdSum
  have h4 : vd < 4294967296 := h.vdEq ▸ Mem.load32_lt m a
  simp only [uintEMod]; omega

theorem sub32_eq {x y : Nat} (hx : x < uintEMod) (h : y ≤ x) : sub32 x y = x - y := by
  simp only [sub32, uintEMod] at *; omega

theorem decodeOne_eq (h : Lay L m a src vd ext offs cap orig blk) {b j e size : Nat}
    (hj : b + j < numBlocks vd)
    (hs : exScan (fun j => (blk (b + j)).length) (j + 1) ≤ size) (s : (Nat → Nat × W) × Nat) :
    decodeOne c m a src (st blk (numBlocks vd)) (numBlocks vd) size e (st blk b) (b + j) s =
      some (writeAt s.1 (exScan (fun j => (blk (b + j)).length) j) (blk (b + j)),
        if b + j = e - 1 then exScan (fun j => (blk (b + j)).length) (j + 1) else s.2) := by
  have e1 := exScan_st blk b j
  have e2 := exScan_st blk b (j + 1)
  have l1 := st_lt h (show b + j ≤ numBlocks vd by omega)
  have l2 := st_lt h (show b + (j + 1) ≤ numBlocks vd by omega)
  have e3 : b + j + 1 = b + (j + 1) := by omega
  simp only [decodeOne, finger_eq h hj, end_eq h hj, h.start _ hj, e3]
  rw [sub32_eq l1 (by omega), sub32_eq l2 (by omega),
    show st blk (b + j) - st blk b = exScan (fun j => (blk (b + j)).length) j by omega,
    show st blk (b + (j + 1)) - st blk b = exScan (fun j => (blk (b + j)).length) (j + 1) by omega]
  have e4 : exScan (fun j => (blk (b + j)).length) (j + 1) =
    exScan (fun j => (blk (b + j)).length) j + (blk (b + j)).length := rfl
  have e5 : decodeInto c m size (a + offs (b + j) + 4) src
      (exScan (fun j => (blk (b + j)).length) j) (exScan (fun j => (blk (b + j)).length) (j + 1)) s.1 =
      some (writeAt s.1 (exScan (fun j => (blk (b + j)).length) j) (blk (b + j))) := by
    by_cases hl : (blk (b + j)).length = 0
    · rw [decodeInto, if_neg (by omega), List.length_eq_zero_iff.1 hl]; rfl
    · rw [decodeInto, if_pos (by omega), show max 1 (exScan (fun j => (blk (b + j)).length) (j + 1) -
        exScan (fun j => (blk (b + j)).length) j) = (blk (b + j)).length by omega,
        decodeFrom_eq plain L _ m src _ _ _ _ h.srcLt (blk_valid h hj) (blk_ok h hj) (h.body _ hj),
        visit_write _ _ _ _ _ (by omega)]
      rfl
  rw [e5]; rfl

/-- One round: every write stays inside the buffer, the buffer then starts with the live entries of the
blocks of this round, and `last_offset` is their number. -/
theorem decodeRound_spec (h : Lay L m a src vd ext offs cap orig blk) {b e size : Nat} (hb : b < e)
    (he : e ≤ numBlocks vd) (hs : (e - b) * 1000 ≤ size) (order : List Nat)
    (ho : Sched (e - b) order) (tmp : Nat → Nat × W) :
    ∃ t, decodeRound c m a src (st blk (numBlocks vd)) (numBlocks vd) size b e order tmp =
        some (t, ((List.range (e - b)).flatMap fun j => blk (b + j)).length) ∧
      slice t 0 ((List.range (e - b)).flatMap fun j => blk (b + j)).length =
        (List.range (e - b)).flatMap fun j => blk (b + j) := by
  set g : Nat → List (Nat × W) := fun j => blk (b + j) with hg
  have hsz : ∀ j, j < e - b → exScan (fun j => (g j).length) (j + 1) ≤ size := by
    intro j hj
    have := exScan_le_blocks h b (j + 1)
    have : (j + 1) * 1000 ≤ (e - b) * 1000 := Nat.mul_le_mul_right _ hj
    show exScan (fun j => (blk (b + j)).length) (j + 1) ≤ size
    omega
  have hlen : ((List.range (e - b)).flatMap g).length = exScan (fun j => (g j).length) (e - b) := by
    have := st_length (fun j => g j) (e - b)
    rw [this]
    have := exScan_st g 0 (e - b)
    simp only [Nat.zero_add] at this
    rw [← this]
    show 0 + _ = _
    omega
  have fold : ∀ (order : List Nat), (∀ j ∈ order, j < e - b) → ∀ s : (Nat → Nat × W) × Nat,
      order.foldlM (fun s j => decodeOne c m a src (st blk (numBlocks vd)) (numBlocks vd) size e
        (st blk b) (b + j) s) s =
      some (scatter (exScan fun j => (g j).length) g order s.1,
        if e - b - 1 ∈ order then exScan (fun j => (g j).length) (e - b) else s.2) := by
    intro order
    induction order with
    | nil => intro _ s; simp [scatter]
    | cons j order ih =>
      intro hlt s
      have hj := hlt j List.mem_cons_self
      rw [List.foldlM_cons, decodeOne_eq h (by omega) (hsz j hj)]
      simp only [Option.bind_eq_bind, Option.bind_some]
      rw [ih (fun k hk => hlt k (List.mem_cons_of_mem _ hk))]
      refine congrArg some (Prod.ext rfl ?_)
      simp only [List.mem_cons]
      by_cases h1 : e - b - 1 ∈ order
      · rw [if_pos h1, if_pos (Or.inr h1)]
      · rw [if_neg h1]
        by_cases h2 : b + j = e - 1
        · rw [if_pos h2, if_pos (Or.inl (by omega)), show j + 1 = e - b by omega]
        · rw [if_neg h2, if_neg (by rintro (h3 | h3); · omega
                                    · exact h1 h3)]
  refine ⟨scatter (exScan fun j => (g j).length) g order tmp, ?_, ?_⟩
  · rw [decodeRound, finger_eq h (by omega), h.start b (by omega),
      fold order (fun j hj => (ho.2 j).1 hj), if_pos ((ho.2 _).2 (by omega)), hlen]
  · rw [hlen]
    exact (scatter_spec 0 g (exScan fun j => (g j).length) (e - b) (fun i _ => by omega) order ho
      tmp).1

theorem filterLoop_spec (h : Lay L m a src vd ext offs cap orig blk) (pred : Nat → Nat → W → Bool)
    (ch : Choice W) (hf : ch.Fair) {size per : Nat} (hp : 0 < per) (hs : per * 1000 ≤ size)
    (fuel : Nat) : ∀ (done off : Nat), done ≤ numBlocks vd → numBlocks vd ≤ done + fuel →
    ∃ calls, filterLoop c pred ch m a src (st blk (numBlocks vd)) (numBlocks vd) size per fuel done
        off = some calls ∧
      calls.Perm (expectedCalls off (((List.range (numBlocks vd - done)).flatMap
        fun j => blk (done + j)).filter fun e => pred src e.1 e.2)) := by
  induction fuel with
  | zero =>
    intro done off h1 h2
    rw [filterLoop, if_neg (by omega), show numBlocks vd - done = 0 by omega]
    exact ⟨[], rfl, by simp [expectedCalls]⟩
  | succ fuel ih =>
    intro done off h1 h2
    by_cases hd : done < numBlocks vd
    · have hE : min (done + per) (numBlocks vd) ≤ numBlocks vd := Nat.min_le_right _ _
      have hE' : done < min (done + per) (numBlocks vd) := by omega
      have hEp : min (done + per) (numBlocks vd) - done ≤ per := by omega
      rw [filterLoop, if_pos hd]
      generalize min (done + per) (numBlocks vd) = e at *
      have hes : (e - done) * 1000 ≤ size :=
        Nat.le_trans (Nat.mul_le_mul_right 1000 hEp) hs
      obtain ⟨t, g1, g2⟩ := decodeRound_spec h hE' hE hes (ch.dec done (e - done)) (hf.1 _ _)
        (ch.junk done)
      simp only [g1]
      generalize hR : (List.range (e - done)).flatMap (fun j => blk (done + j)) = R at *
      obtain ⟨f1, f2⟩ := filterfCall_correct fBsize (by simp [fBsize])
        (fun e : Nat × W => pred src e.1 e.2) R.length off (ch.o1 done R.length)
        (ch.o2 done R.length) (hf.2.1 _ _) (hf.2.2 _ _) (ch.sums done) t
      rw [g2] at f1 f2
      obtain ⟨calls, k1, k2⟩ := ih (done + (e - done)) (off + (R.filter fun e => pred src e.1 e.2).length)
        (by omega) (by omega)
      rw [f2, k1]
      refine ⟨_, rfl, ?_⟩
      have hsplit : (List.range (numBlocks vd - done)).flatMap (fun j => blk (done + j)) =
          R ++ (List.range (numBlocks vd - (done + (e - done)))).flatMap
            (fun j => blk (done + (e - done) + j)) := by
        rw [show numBlocks vd - done = (e - done) + (numBlocks vd - (done + (e - done))) by omega,
          List.range_add, List.flatMap_append, hR]
        congr 1
        rw [List.flatMap_map]
        simp only [Nat.add_assoc]
      rw [hsplit, List.filter_append, expectedCalls_append]
      exact f1.append k2
    · rw [filterLoop, if_neg hd, show numBlocks vd - done = 0 by omega]
      exact ⟨[], rfl, by simp [expectedCalls]⟩

theorem filter_lay (h : Lay L m a src vd ext offs cap orig blk) (pred : Nat → Nat → W → Bool)
    (ch : Choice W) (hf : ch.Fair) :
    ∃ calls, filter c pred ch m a src (live vd blk).length (tmpSpace (live vd blk).length) =
        some calls ∧
      calls.Perm (((live vd blk).filter fun e => pred src e.1 e.2).mapIdx fun k e => (k, e)) := by
  rw [filter]
  by_cases h1 : (live vd blk).length ≤ 10000 ∧ (live vd blk).length > 0
  · rw [if_pos h1, filterSequential_lay h pred]
    exact ⟨_, rfl, List.Perm.refl _⟩
  · rw [if_neg h1]
    by_cases h2 : (live vd blk).length > 0
    · rw [if_pos h2, tmpSpace, if_neg (by omega)]
      have hp : 0 < (live vd blk).length / 10 / parallelDegree := by
        show 0 < (live vd blk).length / 10 / 1000; omega
      have hs : (live vd blk).length / 10 / parallelDegree * 1000 ≤ (live vd blk).length / 10 := by
        show (live vd blk).length / 10 / 1000 * 1000 ≤ _; omega
      obtain ⟨calls, g1, g2⟩ := filterLoop_spec h pred ch hf hp hs (numBlocks vd) 0 0 (Nat.zero_le _)
        (by omega)
      refine ⟨calls, ?_, ?_⟩
      · have e1 : st blk (numBlocks vd) = (live vd blk).length := (st_length blk _).symm
        rw [e1] at g1
        simp only [h.vdEq]
        exact g1
      · refine g2.trans (List.Perm.of_eq ?_)
        simp only [Nat.zero_add, Nat.sub_zero, expectedCalls]
    · have : live vd blk = [] := List.length_eq_zero_iff.1 (by omega)
      rw [if_neg h2, this]
      exact ⟨[], rfl, by simp⟩

end lay

/-- C156: encode a list with `bytepd_amortized` and run any history of `pack` calls under any
schedules.  `filter` with the buffer that `calculateTemporarySpace` asks for is defined (no write
behind the buffer, and the loop ends), for every degree and every schedule of its loops, and calls
`out` exactly once for each accepted remaining entry, with its weight and its rank among them. -/
theorem C156_amortized_filter_int (m : Mem) (a src : Nat) (edges : List (Nat × Int))
    (hsrc : src < 4294967296) (hv : ValidList edges) (hok : ∀ e ∈ edges, Int32NotMin e.2)
    (hpos : 0 < edges.length) (hlen : edges.length ≤ 300000000)
    (preds : List (Nat → Nat → Int → Bool)) (m' : Mem) (d : Nat)
    (hp : Packs intCodec a src ((sequentialCompressEdgeSet intCodec m a src edges).1, edges.length) preds
      (m', d)) (pred : Nat → Nat → Int → Bool) (ch : Choice Int) (hf : ch.Fair) :
    ∃ calls, filter intCodec pred ch m' a src d (tmpSpace d) = some calls ∧
      calls.Perm (((acceptedBy src preds edges).filter fun e => pred src e.1 e.2).mapIdx
        fun k e => (k, e)) := by
  obtain ⟨g1, g2, ext, vd, offs, cap, orig, blk, lay, hl⟩ := history_represents intLawful
    intLawful_len m a src edges hsrc hv hok hpos hlen preds m' d hp
  rw [g1, ← hl]
  exact filter_lay lay pred ch hf

/-- C156, unweighted. -/
theorem C156_amortized_filter_unweighted (m : Mem) (a src : Nat) (edges : List (Nat × Unit))
    (hsrc : src < 4294967296) (hv : ValidList edges)
    (hpos : 0 < edges.length) (hlen : edges.length ≤ 300000000)
    (preds : List (Nat → Nat → Unit → Bool)) (m' : Mem) (d : Nat)
    (hp : Packs emptyCodec a src ((sequentialCompressEdgeSet emptyCodec m a src edges).1, edges.length)
      preds (m', d)) (pred : Nat → Nat → Unit → Bool) (ch : Choice Unit) (hf : ch.Fair) :
    ∃ calls, filter emptyCodec pred ch m' a src d (tmpSpace d) = some calls ∧
      calls.Perm (((acceptedBy src preds edges).filter fun e => pred src e.1 e.2).mapIdx
        fun k e => (k, e)) := by
  obtain ⟨g1, g2, ext, vd, offs, cap, orig, blk, lay, hl⟩ := history_represents emptyLawful
    (fun w _ => emptyLawful_len w) m a src edges hsrc hv (fun _ _ => trivial) hpos hlen preds m' d hp
  rw [g1, ← hl]
  exact filter_lay lay pred ch hf

/-- C156: whatever was packed before, no block holds more than 1000 entries, so the local array of 1000
entries in `pack` (`byte_pd_amortized.h:934`) is never overrun either. -/
theorem C156_amortized_block_bound (m : Mem) (a src : Nat) (edges : List (Nat × Int))
    (hsrc : src < 4294967296) (hv : ValidList edges) (hok : ∀ e ∈ edges, Int32NotMin e.2)
    (hpos : 0 < edges.length) (hlen : edges.length ≤ 300000000)
    (preds : List (Nat → Nat → Int → Bool)) (m' : Mem) (d : Nat)
    (hp : Packs intCodec a src ((sequentialCompressEdgeSet intCodec m a src edges).1, edges.length) preds
      (m', d)) (i : Nat) (hi : i < numBlocks (m'.load32 a)) (hd : 0 < d) :
    getBlockDegree m' a d i ≤ 1000 := by
  obtain ⟨g1, g2, ext, vd, offs, cap, orig, blk, lay, hl⟩ := history_represents intLawful
    intLawful_len m a src edges hsrc hv hok hpos hlen preds m' d hp
  rw [lay.vdEq] at hi
  rw [← hl] at g1
  subst g1
  rw [getBlockDegree_lay lay hd hi]
  exact blk_len lay i

/-- A list of 25000 entries: 25 blocks, two per round, in a buffer of 2500 entries; the hypotheses hold
for it, and a choice that runs every loop backwards is fair. -/
example : ValidList ((List.range 25000).map fun i : Nat => (3 * i, (i : Int))) ∧
    (∀ e ∈ (List.range 25000).map fun i : Nat => (3 * i, (i : Int)), Int32NotMin e.2) ∧
    tmpSpace 25000 = 2500 ∧ 25000 / 10 / parallelDegree = 2 ∧ numBlocks 25000 = 25 ∧
    (∃ ch : Choice Int, ch.Fair ∧ ch.dec 4 2 = [1, 0]) := by
  have hr : ∀ n, Sched n (List.range n).reverse := fun n =>
    ⟨List.nodup_reverse.2 List.nodup_range, fun i => by simp⟩
  have hm : ∀ n, n ≤ 1000000 → ValidList ((List.range n).map fun i : Nat => (3 * i, (i : Int))) ∧
      ∀ e ∈ (List.range n).map (fun i : Nat => (3 * i, (i : Int))), Int32NotMin e.2 := by
    intro n hn
    refine ⟨⟨?_, ?_⟩, ?_⟩
    · rw [List.map_map, List.pairwise_map]
      exact List.pairwise_lt_range.imp fun h => by simp only [Function.comp]; omega
    · intro e he
      obtain ⟨i, hi, rfl⟩ := List.mem_map.1 he
      have := List.mem_range.1 hi
      simp only; omega
    · intro e he
      obtain ⟨i, hi, rfl⟩ := List.mem_map.1 he
      have := List.mem_range.1 hi
      simp only [Int32NotMin]; omega
  have h25 := hm 25000 (by omega)
  refine ⟨h25.1, h25.2, by decide, by decide, by decide,
    ⟨fun _ l => (List.range l).reverse, fun _ n => (List.range (Filter.numBlocks n fBsize)).reverse,
      fun _ n => (List.range (Filter.numBlocks n fBsize)).reverse, fun _ _ => 0, fun _ _ => (0, 0)⟩,
    ⟨fun _ _ => hr _, fun _ _ => hr _, fun _ _ => hr _⟩, by decide⟩

/-- Decoding a block of three entries needs a buffer of three entries; with two it is undefined. -/
example : (decodeInto intCodec (sequentialCompressEdgeSet intCodec (fun _ => 0) 0 7
      [(3, -5), (9, 1), (4000000000, 2)]).1 3 8 7 0 3 (fun _ => (0, 0))).map (fun t => slice t 0 3) =
        some [(3, -5), (9, 1), (4000000000, 2)] ∧
    (decodeInto intCodec (sequentialCompressEdgeSet intCodec (fun _ => 0) 0 7
      [(3, -5), (9, 1), (4000000000, 2)]).1 2 8 7 0 3 (fun _ => (0, 0))).isNone = true := by
  decide +kernel

end Gbbs.AM
