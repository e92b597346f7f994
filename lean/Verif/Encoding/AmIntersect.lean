import Verif.Encoding.AmIter
import Verif.Convert.Encode

/-!
# Intersection of `bytepd_amortized` lists
(`simple_iter`, `intersect`, `intersect_f`: `gbbs/encodings/byte_pd_amortized.h:267-312`, `563-603`)
-/

namespace Gbbs.AM

open Gbbs Byte Blk EncSpec Convert

variable {W : Type} {c : WCodec W} {ok : W → Prop}

/-! ## Model -/

/-- `bytepd_amortized::simple_iter`, `byte_pd_amortized.h:268-278`. -/
structure SIter (W : Type) where
  finger : Nat
  chunk : Nat
  last : Nat × W
  proc : Nat

/-- The constructor for `degree > 0`, `byte_pd_amortized.h:280-289`: the number of blocks is computed
from the degree, not from the virtual degree stored in the list. -/
def SIter.init (c : WCodec W) (m : Mem) (a src degree : Nat) : Option (SIter W) :=
  let nb := 1 + (degree - 1) / parallelDegree
  match readFirst c m (a + (nb - 1) * 4 + 8) src with
  | none => none
  | some (e, pos) => some ⟨pos, 0, e, 1⟩

/-- `simple_iter::next`, `byte_pd_amortized.h:295-307`. -/
def SIter.next (c : WCodec W) (m : Mem) (src : Nat) (it : SIter W) : Option (SIter W) :=
  if it.proc = parallelDegree then
    match readFirst c m (it.finger + 4) src with
    | none => none
    | some (e, pos) => some ⟨pos, it.chunk + 1, e, 1⟩
  else
    match eatEdge m it.finger with
    | none => none
    | some (d, pos) =>
      match c.eat m pos with
      | none => none
      | some (w, pos) => some ⟨pos, it.chunk, ((it.last.1 + d) % uintEMod, w), it.proc + 1⟩

/-- `simple_iter::has_next`, `byte_pd_amortized.h:309-311`. -/
def SIter.hasNext (degree : Nat) (it : SIter W) : Bool := it.chunk * parallelDegree + it.proc < degree

/-- Loop of `intersect` and `intersect_f`, `byte_pd_amortized.h:568-579`, `589-601`; the values passed
to `f` are collected. -/
def simpleLoop (c : WCodec W) (m : Mem) (s1 s2 n1 n2 : Nat) (i j : Nat) (it1 it2 : SIter W)
    (acc : List Nat) : Option (List Nat) :=
  if _h : i < n1 ∧ j < n2 then
    let e1 := it1.last.1
    let e2 := it2.last.1
    if e1 = e2 then
      match it1.next c m s1, it2.next c m s2 with
      | some it1, some it2 => simpleLoop c m s1 s2 n1 n2 (i + 1) (j + 1) it1 it2 (acc ++ [e1])
      | _, _ => none
    else if e1 < e2 then
      match it1.next c m s1 with
      | some it1 => simpleLoop c m s1 s2 n1 n2 (i + 1) j it1 it2 acc
      | none => none
    else
      match it2.next c m s2 with
      | some it2 => simpleLoop c m s1 s2 n1 n2 i (j + 1) it1 it2 acc
      | none => none
  else some acc
termination_by (n1 - i) + (n2 - j)

/-- `intersect_f`, `byte_pd_amortized.h:583-603`: the values passed to `f`, in order; `intersect`
(`563-581`) returns their number. -/
def simpleIntersect (c : WCodec W) (m : Mem) (l1 l2 n1 n2 s1 s2 : Nat) : Option (List Nat) :=
  if n1 = 0 ∨ n2 = 0 then some []
  else
    match SIter.init c m l1 s1 n1, SIter.init c m l2 s2 n2 with
    | some it1, some it2 => simpleLoop c m s1 s2 n1 n2 0 0 it1 it2 []
    | _, _ => none

/-! ## On freshly encoded lists -/

/-- The iterator stands on an entry of block `it.chunk` of a fresh list; `T` are the entries after it in
the block, `R` all entries after it. -/
structure SPos (L : Lawful c ok) (m : Mem) (src : Nat) (all : List (Nat × W)) (it : SIter W)
    (T R : List (Nat × W)) : Prop where
  atE : At L m ⟨it.finger, it.last⟩ (it.last :: T)
  inB : it.proc + T.length = (blockB 1000 all it.chunk).length
  lt : it.chunk < 1 + (all.length - 1) / 1000
  body : m.Has (it.finger + (encRest L it.last.1 T).length)
    (bodyBytes L 1000 src all (1 + (all.length - 1) / 1000 - (it.chunk + 1)) (it.chunk + 1))
  rest : R = T ++ all.drop ((it.chunk + 1) * 1000)

/-- The iterator stands on the first of the remaining entries, if there are any. -/
def SAt (L : Lawful c ok) (m : Mem) (src : Nat) (all : List (Nat × W)) (it : SIter W) :
    List (Nat × W) → Prop
  | [] => True
  | e :: R => it.last = e ∧ it.chunk * 1000 + it.proc + R.length = all.length ∧
      ∃ T, SPos L m src all it T R

theorem readFirst_list {L : Lawful c ok} {m : Mem} {pos src : Nat} {e : Nat × W} {T : List (Nat × W)}
    (hsrc : src < uintEMod) (hv : ValidList (e :: T)) (hok : ∀ x ∈ e :: T, ok x.2)
    (hm : m.Has pos (encList L src (e :: T))) :
    ∃ p, readFirst c m pos src = some (e, p) ∧ At L m ⟨p, e⟩ (e :: T) ∧
      p + (encRest L e.1 T).length = pos + (encList L src (e :: T)).length := by
  obtain ⟨n, w⟩ := e
  have hn : n < uintEMod := hv.bounded _ (List.mem_cons_self ..)
  have hc : Chain ok n T := chain_of_valid hv (fun e he => hok e (List.mem_cons_of_mem _ he))
  obtain ⟨e1, e2, e3⟩ := eat_first L hsrc hn (hok (n, w) (by simp)) hm
  refine ⟨_, by simp only [readFirst, e1, e2], ⟨rfl, e3, hc⟩, ?_⟩
  simp only [encList, List.length_append]
  omega

/-- Entering block `i`. -/
theorem enter {L : Lawful c ok} {m : Mem} {src : Nat} {all : List (Nat × W)} (hsrc : src < uintEMod)
    (hv : ValidList all) (hok : ∀ x ∈ all, ok x.2) {i pos : Nat} (hi : i < 1 + (all.length - 1) / 1000)
    (hp : 0 < all.length)
    (hb : m.Has pos (bodyBytes L 1000 src all (1 + (all.length - 1) / 1000 - i) i)) :
    ∃ e T p, all.drop (i * 1000) = e :: (T ++ all.drop ((i + 1) * 1000)) ∧
      readFirst c m (pos + 4) src = some (e, p) ∧
      SAt L m src all ⟨p, i, e, 1⟩ (e :: (T ++ all.drop ((i + 1) * 1000))) := by
  have hd := drop_eq_block 1000 i all
  have hlb : (blockB 1000 all i).length = min 1000 (all.length - i * 1000) := by simp [blockB]
  rw [show 1 + (all.length - 1) / 1000 - i = (1 + (all.length - 1) / 1000 - (i + 1)) + 1 by omega,
    bodyBytes, Mem.has_append, Mem.has_append, le32_length] at hb
  obtain ⟨_, hb1, hb2⟩ := hb
  have hs := blockB_sub 1000 all i
  have hvb := ValidList.sublist hs hv
  have hokb : ∀ x ∈ blockB 1000 all i, ok x.2 := fun x hx => hok x (hs.subset hx)
  cases hB : blockB 1000 all i with
  | nil => rw [hB] at hlb; simp only [List.length_nil] at hlb; omega
  | cons e T =>
    rw [hB] at hd hb1 hb2 hvb hokb hlb
    obtain ⟨p, h1, h2, h3⟩ := readFirst_list hsrc hvb hokb hb1
    refine ⟨e, T, p, by rw [hd]; rfl, h1, rfl, ?_, T, h2, ?_, hi, ?_, rfl⟩
    · have := congrArg List.length hd
      simp only [List.length_drop, List.length_append, List.length_cons] at this ⊢
      omega
    · rw [hB]; simp only [List.length_cons]; omega
    · simp only
      rw [h3]; exact hb2

theorem sat_next {L : Lawful c ok} {m : Mem} {src : Nat} {all : List (Nat × W)} (hsrc : src < uintEMod)
    (hv : ValidList all) (hok : ∀ x ∈ all, ok x.2) {it it' : SIter W} {e : Nat × W}
    {R : List (Nat × W)} (h : SAt L m src all it (e :: R)) (hn : it.next c m src = some it') :
    SAt L m src all it' R := by
  obtain ⟨rfl, htot, T, hp⟩ := h
  cases R with
  | nil => trivial
  | cons x R =>
    have hlb : (blockB 1000 all it.chunk).length = min 1000 (all.length - it.chunk * 1000) := by
      simp [blockB]
    have hin := hp.inB
    cases T with
    | nil =>
      have hrest := hp.rest
      simp only [List.length_nil, Nat.add_zero, List.nil_append] at hin hrest
      have hlen := congrArg List.length hrest
      simp only [List.length_cons, List.length_drop] at hlen htot
      have hproc : it.proc = 1000 := by omega
      rw [SIter.next, if_pos hproc] at hn
      have hb := hp.body
      simp only [encRest, List.length_nil, Nat.add_zero] at hb
      obtain ⟨e, T, p, h1, h2, h3⟩ := enter hsrc hv hok (i := it.chunk + 1) (by omega) (by omega) hb
      rw [h2] at hn
      simp only [Option.some.injEq] at hn
      subst hn
      rw [hrest, h1]
      exact h3
    | cons y T =>
      obtain ⟨n, w⟩ := y
      simp only [List.length_cons] at hin htot
      rw [SIter.next, if_neg (by simp only [parallelDegree]; omega)] at hn
      obtain ⟨h1, h2, h3⟩ := hp.atE
      obtain ⟨e1, e2, e3, e4⟩ := eat_step L h3 h2
      simp only at e1 e3 e4 h2
      simp only [e1, e3, e2, Option.some.injEq] at hn
      have hr := hp.rest
      simp only [List.cons_append] at hr
      obtain ⟨hre, hr2⟩ := List.cons.inj hr
      subst hn hre
      refine ⟨rfl, ?_, T, ⟨rfl, e4, h3.2.2.2⟩, ?_, hp.lt, ?_, hr2⟩
      · simp only; omega
      · simp only; omega
      · have hb := hp.body
        simp only [encRest, List.length_append] at hb ⊢
        rw [show it.finger + (encEdge (n - it.last.1)).length + (L.enc w).length + (encRest L n T).length =
          it.finger + ((encEdge (n - it.last.1)).length + ((L.enc w).length + (encRest L n T).length)) by
            omega]
        exact hb

theorem sat_init {L : Lawful c ok} {m : Mem} {a src : Nat} {all : List (Nat × W)} (hsrc : src < uintEMod)
    (hv : ValidList all) (hok : ∀ x ∈ all, ok x.2) (hp : 0 < all.length)
    (hm : m.Has a (encBytes L 1000 src all)) {it : SIter W}
    (hi : SIter.init c m a src all.length = some it) : SAt L m src all it all := by
  have hol := offBytes_length L 1000 src all (1 + (all.length - 1) / 1000) 0
    (4 * (1 + (all.length - 1) / 1000))
  simp only [encBytes, if_pos hp, Mem.has_append, le32_length, hol] at hm
  obtain ⟨_, _, hb⟩ := hm
  rw [if_neg (by omega)] at hb
  obtain ⟨e, T, p, h1, h2, h3⟩ := enter hsrc hv hok (i := 0) (by omega) hp hb
  simp only [Nat.zero_mul, List.drop_zero] at h1
  simp only [SIter.init, parallelDegree] at hi
  rw [show a + (1 + (all.length - 1) / 1000 - 1) * 4 + 8 =
    a + 4 + 4 * (1 + (all.length - 1) / 1000 - 1) + 4 by omega, h2] at hi
  simp only [Option.some.injEq] at hi
  subst hi
  rw [← h1] at h3
  exact h3

theorem gt_of_sorted {e : Nat × W} {R : List (Nat × W)} (h : ((e :: R).map Prod.fst).Pairwise (· < ·)) :
    (∀ x ∈ R, e.1 < x.1) ∧ (R.map Prod.fst).Pairwise (· < ·) := by
  simp only [List.map_cons, List.pairwise_cons, List.mem_map] at h
  exact ⟨fun x hx => h.1 _ ⟨x, hx, rfl⟩, h.2⟩

theorem simpleLoop_eq {L : Lawful c ok} {m : Mem} {s1 s2 : Nat} {l1 l2 : List (Nat × W)}
    (hs1 : s1 < uintEMod) (hs2 : s2 < uintEMod) (hv1 : ValidList l1) (hv2 : ValidList l2)
    (hok1 : ∀ x ∈ l1, ok x.2) (hok2 : ∀ x ∈ l2, ok x.2) (n1 n2 : Nat) (k : Nat) :
    ∀ (R1 R2 : List (Nat × W)) (i j : Nat) (it1 it2 : SIter W) (acc r : List Nat),
      R1.length + R2.length ≤ k → n1 = i + R1.length → n2 = j + R2.length →
      SAt L m s1 l1 it1 R1 → SAt L m s2 l2 it2 R2 →
      (R1.map Prod.fst).Pairwise (· < ·) → (R2.map Prod.fst).Pairwise (· < ·) →
      simpleLoop c m s1 s2 n1 n2 i j it1 it2 acc = some r → r = acc ++ common R1 R2 := by
  induction k with
  | zero =>
    intro R1 R2 i j it1 it2 acc r hk h1 h2 _ _ _ _ hr
    have : R1 = [] := List.length_eq_zero_iff.1 (by omega)
    subst this
    rw [simpleLoop, dif_neg (by simp at h1; omega)] at hr
    simpa [common] using hr.symm
  | succ k ih =>
    intro R1 R2 i j it1 it2 acc r hk h1 h2 a1 a2 p1 p2 hr
    rw [simpleLoop] at hr
    cases R1 with
    | nil =>
      rw [dif_neg (by simp at h1; omega)] at hr
      simpa [common] using hr.symm
    | cons e1 R1 =>
    cases R2 with
    | nil =>
      rw [dif_neg (by simp at h2; omega)] at hr
      rw [common_nil_right]
      simpa using hr.symm
    | cons e2 R2 =>
      obtain ⟨x1, w1⟩ := e1
      obtain ⟨x2, w2⟩ := e2
      simp only [List.length_cons] at h1 h2 hk
      rw [dif_pos (by omega)] at hr
      simp only [a1.1, a2.1] at hr
      obtain ⟨g1, q1⟩ := gt_of_sorted p1
      obtain ⟨g2, q2⟩ := gt_of_sorted p2
      split at hr
      · rename_i heq
        subst heq
        split at hr
        · rename_i hn1 hn2
          have := ih R1 R2 _ _ _ _ _ _ (by omega) (by omega) (by omega) (sat_next hs1 hv1 hok1 a1 hn1)
            (sat_next hs2 hv2 hok2 a2 hn2) q1 q2 hr
          rw [this, List.append_assoc]
          congr 1
          have : common ((x1, w1) :: R1) ((x1, w2) :: R2) =
              x1 :: common R1 ((x1, w2) :: R2) := by
            simp [common]
          rw [this, common_skip_right g1]
          rfl
        · simp at hr
      · split at hr
        · rename_i _ hlt
          split at hr
          · rename_i hn1
            have := ih R1 ((x2, w2) :: R2) _ _ _ _ _ _ (by simp only [List.length_cons]; omega)
              (by omega) (by simp only [List.length_cons]; omega) (sat_next hs1 hv1 hok1 a1 hn1) a2 q1 p2 hr
            rw [this, common_cons_lt]
            intro e he
            rcases List.mem_cons.1 he with rfl | he
            · exact hlt
            · exact Nat.lt_trans hlt (g2 e he)
          · simp at hr
        · rename_i hne hlt
          split at hr
          · rename_i hn2
            have := ih ((x1, w1) :: R1) R2 _ _ _ _ _ _ (by simp only [List.length_cons]; omega)
              (by simp only [List.length_cons]; omega) (by omega) a1 (sat_next hs2 hv2 hok2 a2 hn2) p1 q2 hr
            rw [this, common_skip_right]
            intro e he
            rcases List.mem_cons.1 he with rfl | he
            · simp only; omega
            · have := g1 e he
              simp only at this
              omega
          · simp at hr

theorem simpleIntersect_eq (L : Lawful c ok) (m : Mem) (p1 p2 s1 s2 : Nat) (l1 l2 : List (Nat × W))
    (r : List Nat) (hs1 : s1 < uintEMod) (hs2 : s2 < uintEMod)
    (h1 : ValidList l1) (h2 : ValidList l2) (hok1 : ∀ x ∈ l1, ok x.2) (hok2 : ∀ x ∈ l2, ok x.2)
    (hm1 : m.Has p1 (encBytes L 1000 s1 l1)) (hm2 : m.Has p2 (encBytes L 1000 s2 l2))
    (hr : simpleIntersect c m p1 p2 l1.length l2.length s1 s2 = some r) : r = common l1 l2 := by
  by_cases h0 : l1.length = 0 ∨ l2.length = 0
  · rw [simpleIntersect, if_pos h0] at hr
    simp only [Option.some.injEq] at hr
    subst hr
    rcases h0 with h0 | h0
    · rw [List.length_eq_zero_iff.1 h0]; simp [common]
    · rw [List.length_eq_zero_iff.1 h0, common_nil_right]
  · rw [simpleIntersect, if_neg h0] at hr
    split at hr
    · rename_i hi1 hi2
      have := simpleLoop_eq hs1 hs2 h1 h2 hok1 hok2 l1.length l2.length _ l1 l2 0 0 _ _
        [] r (Nat.le_refl _) (by simp) (by simp) (sat_init hs1 h1 hok1 (by omega) hm1 hi1)
        (sat_init hs2 h2 hok2 (by omega) hm2 hi2) h1.sorted h2.sorted hr
      simpa using this
    · simp at hr

/-! ## After packing -/

theorem load32_zero {m : Mem} {p : Nat} (h : m.load32 p = 0) : m p = 0 ∧ m (p + 1) = 0 := by
  simp only [Mem.load32] at h
  constructor
  · apply UInt8.toNat.inj; simp; omega
  · apply UInt8.toNat.inj; simp; omega

theorem eatEdge_zero {m : Mem} {p : Nat} (h : m p = 0) : eatEdge m p = some (0, p + 1) := by
  simp [eatEdge, eatLoop, lastBitSet, h]

theorem eatFirst_zero {m : Mem} {p src : Nat} (h : m p = 0) (hs : src < uintEMod) :
    eatFirstEdge m p src = some (src, p + 1) := by
  simp [eatFirstEdge, eatSigned, lastBitSet, h, Nat.mod_eq_of_lt hs]

/-- A list whose degree has dropped below its number of blocks: the first entry seen is the vertex
itself. -/
theorem init_packed {ok : Unit → Prop} {L : Lawful emptyCodec ok} {m : Mem} {a src ext vd : Nat} {edges : List (Nat × Unit)}
    (h : Represents L m a src ext vd edges) (hnb : numBlocks edges.length + 1 = numBlocks vd) :
    ∃ it it', SIter.init emptyCodec m a src edges.length = some it ∧ it.last.1 = src ∧
      it.next emptyCodec m src = some it' := by
  obtain ⟨offs, cap, orig, blk, lay, rfl⟩ := h
  have h0 := lay.start 0 (numBlocks_pos vd)
  rw [lay.off0] at h0
  obtain ⟨z0, z1⟩ := load32_zero (show m.load32 (a + 4 * numBlocks vd) = 0 from h0)
  have e0 : a + (1 + ((live vd blk).length - 1) / 1000 - 1) * 4 + 8 = a + 4 * numBlocks vd := by
    simp only [numBlocks, parallelDegree] at hnb ⊢; omega
  refine ⟨⟨a + 4 * numBlocks vd + 1, 0, (src, ()), 1⟩, ⟨a + 4 * numBlocks vd + 1 + 1, 0, (src, ()), 2⟩, ?_, rfl, ?_⟩
  · simp only [SIter.init, parallelDegree, e0, readFirst, eatFirst_zero z0 lay.srcLt, emptyCodec]
  · simp only [SIter.next, parallelDegree, eatEdge_zero z1, emptyCodec]
    simp [Nat.mod_eq_of_lt lay.srcLt]

theorem pack_keep {L : Lawful c ok} {m : Mem} {a src vd ext : Nat} {edges : List (Nat × W)}
    (h : Represents L m a src ext vd edges) (pred : Nat → Nat → W → Bool)
    (order1 order2 order3 : List Nat)
    (ho1 : Schedule (numBlocks vd) order1) (ho2 : Schedule (numBlocks vd) order2)
    (h100 : numBlocks vd ≠ 100)
    (hmany : ¬ (edges.filter (fun e => pred src e.1 e.2)).length < vd / 10) :
    ∃ m', pack c pred m a src edges.length order1 order2 order3 =
        some (m', (edges.filter (fun e => pred src e.1 e.2)).length) ∧
      Represents L m' a src ext vd (edges.filter (fun e => pred src e.1 e.2)) ∧
      (∀ x, x < a ∨ a + ext ≤ x → m' x = m x) := by
  obtain ⟨offs, cap, orig, blk, lay, rfl⟩ := h
  obtain ⟨m1, cts, h1, h2, h3, h4⟩ := phase12 lay pred order1 order2 ho1 ho2
  rw [← live_kept] at hmany ⊢
  rw [pack, lay.vdEq]
  simp only [h1]
  rw [if_neg h100]
  simp only [h2]
  rw [if_neg hmany]
  exact ⟨_, rfl, ⟨offs, cap, orig, _, h3, rfl⟩, h4⟩

/-! ## C134 -/

/-- C134 (partial): when the intersection of two freshly encoded `bytepd_amortized` lists is defined, it
reports exactly the common neighbours, in increasing order, whatever the number of blocks.  Missing:
definedness (as in `byte`, an exhausted iterator is advanced once more and decodes the bytes behind its
list), and lists that have been packed, for which it is false
(`C134_amortized_intersect_packed_wrong`). -/
theorem C134_amortized_intersect_partial (m : Mem) (p1 p2 s1 s2 : Nat) (l1 l2 : List (Nat × Int))
    (hs1 : s1 < 4294967296) (hs2 : s2 < 4294967296) (h1 : ValidList l1) (h2 : ValidList l2)
    (hok1 : ∀ x ∈ l1, Int32NotMin x.2) (hok2 : ∀ x ∈ l2, Int32NotMin x.2)
    (hsep : (sequentialCompressEdgeSet intCodec m p1 s1 l1).2 ≤ p2) (r : List Nat)
    (hr : simpleIntersect intCodec
      (sequentialCompressEdgeSet intCodec (sequentialCompressEdgeSet intCodec m p1 s1 l1).1 p2 s2
        l2).1 p1 p2 l1.length l2.length s1 s2 = some r) :
    r = common l1 l2 := by
  rw [← compress_1000, ← compress_1000, compress_eq intLawful 1000 m p1 s1 l1 hs1 h1 hok1] at hr
  rw [← compress_1000, compress_eq intLawful 1000 m p1 s1 l1 hs1 h1 hok1] at hsep
  rw [compress_eq intLawful 1000 _ p2 s2 l2 hs2 h2 hok2] at hr
  refine simpleIntersect_eq intLawful _ p1 p2 s1 s2 l1 l2 r hs1 hs2 h1 h2 hok1 hok2 ?_
    (Mem.write_has _ _ _) hr
  exact Mem.has_of_agree
    (fun i _ hi => (Mem.write_outside _ _ _ _ (Or.inl (by simp only at hsep; omega))).symm)
    (Mem.write_has _ _ _)

example : common [(1, (0 : Int)), (4, 0), (9, 0)] [(4, 0), (7, 0), (9, 5)] = [4, 9] := by decide

/-- C134 fails after packing.  Encode the 1001 neighbours of `src` and the single neighbour `src` of `u`,
and pack the first list with any predicate that keeps 1000 entries, under any schedules.  The
intersection of the two lists then reports `src`, although `src` is not among the neighbours of `src`:
`simple_iter` takes the start of block 0 from the degree (one block), but the list still has two. -/
theorem C134_amortized_intersect_packed_wrong (m : Mem) (a p2 src u : Nat) (edges : List (Nat × Unit))
    (hsrc : src < 4294967296) (hu : u < 4294967296) (hv : ValidList edges) (hlen : edges.length = 1001)
    (m1 : Mem) (b : Nat) (henc1 : sequentialCompressEdgeSet emptyCodec m a src edges = (m1, b))
    (hsep : b ≤ p2) (m2 : Mem) (b2 : Nat)
    (henc2 : sequentialCompressEdgeSet emptyCodec m1 p2 u [(src, ())] = (m2, b2))
    (hzero : m2 b2 = 0)
    (pred : Nat → Nat → Unit → Bool)
    (hkeep : (edges.filter (fun e => pred src e.1 e.2)).length = 1000)
    (order1 order2 order3 : List Nat) (ho1 : Schedule 2 order1) (ho2 : Schedule 2 order2) :
    ∃ m3, pack emptyCodec pred m2 a src edges.length order1 order2 order3 = some (m3, 1000) ∧
      simpleIntersect emptyCodec m3 a p2 1000 1 src u = some [src] ∧
      ((∀ e ∈ edges, e.1 ≠ src) →
        common (edges.filter (fun e => pred src e.1 e.2)) [(src, ())] = []) := by
  have hv2 : ValidList [(src, ())] := ⟨by simp, by simpa [uintEMod] using hsrc⟩
  obtain ⟨m1', b1', e1, e2, e3, e4, e5⟩ := encode_spec emptyLawful (fun w _ => emptyLawful_len w) m a src
    edges hsrc hv (fun _ _ => trivial) (by omega)
  rw [henc1] at e1
  simp only [Prod.mk.injEq] at e1
  obtain ⟨rfl, rfl⟩ := e1
  rw [← compress_1000, compress_eq emptyLawful 1000 m1 p2 u _ hu hv2 (fun _ _ => trivial)] at henc2
  simp only [Prod.mk.injEq] at henc2
  obtain ⟨hm2, hb2⟩ := henc2
  have hag : AgreeOn m1 m2 a b := by
    intro x hx1 hx2
    rw [← hm2, Mem.write_outside _ _ _ _ (by omega)]
  obtain ⟨offs, cap, lay⟩ := e5 (by omega) m2 hag
  have hrep : Represents emptyLawful m2 a src (size emptyLawful src edges) edges.length edges :=
    ⟨offs, cap, _, _, lay, live_block edges⟩
  have hnb : numBlocks edges.length = 2 := by rw [hlen]; rfl
  obtain ⟨m3, g1, g2, g3⟩ := pack_keep hrep pred order1 order2 order3 (by rw [hnb]; exact ho1)
    (by rw [hnb]; exact ho2) (by rw [hnb]; decide) (by rw [hkeep, hlen]; decide)
  rw [hkeep] at g1
  refine ⟨m3, g1, ?_, ?_⟩
  · obtain ⟨it, it', i1, i2, i3⟩ := init_packed g2 (by rw [hkeep, hnb]; rfl)
    rw [hkeep] at i1
    -- the second list is untouched
    have hsz := e3 (by omega)
    have hrest : ∀ x, p2 ≤ x → m3 x = m2 x := fun x hx => g3 x (by omega)
    have hhas : m3.Has p2 (encBytes emptyLawful 1000 u [(src, ())]) := by
      refine Mem.has_of_agree (fun i hi _ => (hrest i hi).symm) ?_
      rw [← hm2]; exact Mem.write_has _ _ _
    have henc : encBytes emptyLawful 1000 u [(src, ())] =
        le32 1 ++ (le32 0 ++ encList emptyLawful u [(src, ())]) := by
      simp [encBytes, offBytes, bodyBytes, blockB]
    rw [henc] at hhas hb2
    simp only [Mem.has_append, le32_length] at hhas
    obtain ⟨p, f1, f2, f3⟩ := readFirst_list (c := emptyCodec) hu hv2 (fun _ _ => trivial) hhas.2.2
    simp only [encRest, List.length_nil, Nat.add_zero] at f3
    simp only [List.length_append, le32_length] at hb2
    have hp : p = b2 := by omega
    have hz : m3 p = 0 := by rw [hp, hrest _ (by omega)]; exact hzero
    have j1 : SIter.init emptyCodec m3 p2 u 1 = some ⟨p, 0, (src, ()), 1⟩ := by
      simp only [SIter.init, parallelDegree]
      rw [show p2 + (1 + (1 - 1) / 1000 - 1) * 4 + 8 = p2 + 4 + 4 by omega, f1]
    have j2 : SIter.next emptyCodec m3 u ⟨p, 0, (src, ()), 1⟩ =
        some ⟨p + 1, 0, ((src + 0) % uintEMod, ()), 2⟩ := by
      simp only [SIter.next, parallelDegree, eatEdge_zero hz, emptyCodec]
      simp
    rw [simpleIntersect, if_neg (by omega), i1, j1]
    simp only
    rw [simpleLoop, dif_pos (by omega)]
    simp only [i2, if_true, i3, j2]
    rw [simpleLoop, dif_neg (by omega)]
    rfl
  · intro hno
    simp only [common, List.map_cons, List.map_nil, List.filter_eq_nil_iff, List.mem_map,
      List.mem_filter, List.mem_singleton, decide_eq_true_eq]
    rintro x ⟨e, ⟨he, _⟩, rfl⟩ h
    exact hno e he h

/-- The hypotheses of `C134_amortized_intersect_packed_wrong` are met. -/
example : ∃ edges : List (Nat × Unit), ValidList edges ∧ edges.length = 1001 ∧
    (edges.filter (fun e => decide (e.1 ≠ 1001))).length = 1000 ∧ (∀ e ∈ edges, e.1 ≠ 0) ∧
    Schedule 2 [1, 0] := by
  have hl : ((List.range 1001).map fun i => (i + 1, ())).map Prod.fst = (List.range 1001).map (· + 1) := by
    rw [List.map_map]; rfl
  refine ⟨(List.range 1001).map fun i => (i + 1, ()), ⟨?_, ?_⟩, by simp, ?_, ?_, by decide, ?_⟩
  · rw [hl, List.pairwise_map]
    exact List.pairwise_lt_range.imp (by omega)
  · intro e he
    obtain ⟨i, hi, rfl⟩ := List.mem_map.1 he
    have := List.mem_range.1 hi
    simp only; omega
  · decide +kernel
  · intro e he
    obtain ⟨i, hi, rfl⟩ := List.mem_map.1 he
    simp
  · intro i
    simp; omega

end Gbbs.AM
