/-
C150: the estimates of `ApproxCosineSimilarity`, `benchmarks/SCAN/IndexBased/similarity_measure.h:286-411`, `:521-548` and `similarity_measure.cc:12-32`.
-/
import Verif.Scan.MinHash
import Mathlib.Data.Nat.Bitwise
import Mathlib.Algebra.BigOperators.Group.Finset.Basic
import Mathlib.Algebra.Order.Group.Int

namespace Gbbs.Scan

open Finset (range)

/-! ### Model -/

/-- The arithmetic of `float` as far as it is used here, `:382-409`: `+=`, the product with a weight (without weights it returns its first argument), and
the comparison with 0. Nothing is assumed about it. -/
structure Arith (F : Type) where
  add : F → F → F
  scale : F → Int → F
  nonneg : F → Bool

/-- `DivideRoundingUp(num_samples, kBitArraySize)` in `uint64_t`, `:159-162`, `:356-357`. -/
def arrays (S : Nat) : Nat := (S + (2 ^ 64 - 1)) % 2 ^ 64 / 64 + 1

/-- `max_bit_id`, `:376-379`. -/
def maxBit (S a : Nat) : Nat := if a + 1 = arrays S then 64 - (arrays S * 64 - S) else 64

/-- The indices written by `RandomNormalNumbers`, `similarity_measure.cc:21-30`; the iterations write to different places. -/
def boxWrites (num : Nat) : List Nat := (List.range ((num + 1) / 2)).flatMap fun i => if 2 * i + 1 < num then [2 * i, 2 * i + 1] else [2 * i]

section
variable {F : Type} (A : Arith F) (G : WG) (hi : Nat → Bool) (S : Nat) (z : Nat → F)

/-- `needs_normals_seq`, `:317-344`: set by every vertex that needs a fingerprint, for itself and its neighbours. -/
def nflag (v : Nat) : Bool := (List.range G.n).any fun u => flag G hi u && (u == v || (G.nb u).contains v)

/-- `normals_indices`: the prefix sums, `:347-348`. -/
def nIdx (v : Nat) : Nat := exScan (fun v => if nflag G hi v then 1 else 0) v

/-- The length of `normals`: a product of two `uintE`, `:349-350`. -/
def nSize : Nat := nIdx G hi G.n * S % 2 ^ 32

/-- Reading `normals`; `z` are the numbers drawn. `none`: out of bounds. -/
def rd (p : Nat) : Option F := if p < nSize G hi S then some (z p) else none

/-- The place of the number of vertex `v` for bit `b` of array `a`: a product of two `uintE`, then sums in `size_t`, `:371`, `:385`, `:394`. -/
def place (v a b : Nat) : Nat := S * nIdx G hi v % 2 ^ 32 + a * 64 + b

/-- `hyperplane_dot_products[bit_id]`, `:381-403`: the number of the vertex, then those of its neighbours in their order (the map is sequential). The loop
over the bits is inside of that over the neighbours in the code, but the bits do not interact. -/
def dot (u a b : Nat) : Option F :=
  (rd G hi S z (place G hi S u a b)).bind fun s =>
  (G.nb u).foldlM (fun s v => (rd G hi S z (place G hi S v a b)).map fun x => A.add s (A.scale x (G.wt u v))) s

/-- `bits`, `:375`, `:404-408`. -/
def bits (u a : Nat) : Option Nat :=
  (List.range (maxBit S a)).foldlM (fun w b => (dot A G hi S z u a b).map fun d => if A.nonneg d then w ||| 2 ^ b else w) 0

/-- `fingerprint_offset`: here a product of `uintE` and `size_t`, `:372`, `:524-525`, `:532-533`. -/
def sOff (u : Nat) : Nat := fpIdx G hi u * arrays S % 2 ^ 64

/-- The length of `fingerprints`, `:359-360`. -/
def sSize : Nat := fpIdx G hi G.n * arrays S % 2 ^ 64

/-- The writes to `fingerprints` for vertex `u`, `:362-410`. The value is `none` if a read was out of bounds. -/
def sWrites (u : Nat) : List (Nat × Option Nat) :=
  if needs G hi u then (List.range (arrays S)).map fun a => (sOff G hi S u + a, bits A G hi S z u a) else []

/-- `fingerprints` after the writes in the order of any schedule; uninitialized at the start. -/
def Hashes (fp : Nat → Option Nat) : Prop :=
  ∃ ws : List (Nat × Option Nat), ws.Perm ((List.range G.n).flatMap (sWrites A G hi S z)) ∧
    fp = fun p => ws.foldl (fun a w => if w.1 = p then w.2 else a) none

/-- `__builtin_popcountll`. -/
def popcount (x : Nat) : Nat := (List.range 64).countP fun b => x.testBit b

/-- `parlay::reduce(fingerprint_xor)` in `uint32_t`, `:534-542`. The similarity is the cosine of this number times pi divided by `num_samples`, or 0 if it
is negative. -/
def distance (fp : Nat → Option Nat) (u v : Nat) : Option Nat :=
  ((List.range (arrays S)).foldlM (fun t i =>
    (fp (sOff G hi S u + i)).bind fun x => (fp (sOff G hi S v + i)).map fun y => (t + popcount (x ^^^ y)) % 2 ^ 32) 0)

/-- `degree_threshold` of `AllEdges`, `:896`: the product with 1.5 is exact. -/
def hiCos (u : Nat) : Bool := decide (3 * S / 2 ≤ (G.nb u).length)

/-! ### Specification -/

/-- The side of a hyperplane on which the vector of the closed neighbourhood of `u` lies, if `r x` is the coordinate of the normal vector at `x`. -/
def side (r : Nat → F) (u : Nat) : Bool := A.nonneg ((G.nb u).foldl (fun s x => A.add s (A.scale (r x) (G.wt u x))) (r u))

end

/-! ### Proof -/

theorem arrays_eq {S : Nat} (h1 : 1 ≤ S) (h2 : S < 2 ^ 32) : arrays S = (S - 1) / 64 + 1 := by
  rw [arrays]; omega

theorem maxBit_iff {S a b : Nat} (h1 : 1 ≤ S) (h2 : S < 2 ^ 32) (ha : a < arrays S) (hb : b < 64) : b < maxBit S a ↔ a * 64 + b < S := by
  rw [maxBit]
  rw [arrays_eq h1 h2] at *
  split <;> omega

theorem maxBit_le (S a : Nat) : maxBit S a ≤ 64 := by rw [maxBit]; split <;> omega

/-- Every number is drawn, and only once. -/
theorem boxWrites_eq (num : Nat) : boxWrites num = List.range num := by
  have key : ∀ k, 2 * k ≤ num + 1 → (List.range k).flatMap (fun i => if 2 * i + 1 < num then [2 * i, 2 * i + 1] else [2 * i]) = List.range (min (2 * k) num) := by
    intro k
    induction k with
    | zero => intro _; simp
    | succ k ih =>
      intro hk
      rw [List.range_succ, List.flatMap_append, ih (by omega)]
      simp only [List.flatMap_cons, List.flatMap_nil, List.append_nil]
      split
      · rename_i h
        rw [show min (2 * k) num = 2 * k by omega, show min (2 * (k + 1)) num = 2 * k + 1 + 1 by omega, List.range_succ, List.range_succ, List.append_assoc]
        rfl
      · rw [show min (2 * k) num = 2 * k by omega, show min (2 * (k + 1)) num = 2 * k + 1 by omega, List.range_succ]
  rw [boxWrites, key _ (by omega), show min (2 * ((num + 1) / 2)) num = num by omega]

section
variable {F : Type} {A : Arith F} {G : WG} {hi : Nat → Bool} {S : Nat} {z : Nat → F}

theorem nflag_self {u : Nat} (hu : u < G.n) (h : flag G hi u = true) : nflag G hi u = true :=
  List.any_eq_true.2 ⟨u, List.mem_range.2 hu, by simp [h]⟩

theorem nflag_nb {u v : Nat} (hu : u < G.n) (h : flag G hi u = true) (hv : v ∈ G.nb u) : nflag G hi v = true :=
  List.any_eq_true.2 ⟨u, List.mem_range.2 hu, by simp [h, hv]⟩

theorem nIdx_lt {v : Nat} (hv : v < G.n) (h : nflag G hi v = true) : nIdx G hi v + 1 ≤ nIdx G hi G.n := by
  have h1 : nIdx G hi (v + 1) ≤ nIdx G hi G.n := exScan_mono _ (show v + 1 ≤ G.n by omega)
  have h2 : nIdx G hi (v + 1) = nIdx G hi v + if nflag G hi v then 1 else 0 := rfl
  rw [if_pos h] at h2
  omega

/-- With enough room, the place read is that of the number of the vertex and the hyperplane. -/
theorem rd_some (hs : nIdx G hi G.n * S < 2 ^ 32) {v a b : Nat} (hv : v < G.n) (h : nflag G hi v = true) (hab : a * 64 + b < S) :
    rd G hi S z (place G hi S v a b) = some (z (nIdx G hi v * S + (a * 64 + b))) := by
  have h1 := Nat.mul_le_mul_right S (nIdx_lt hv h)
  rw [Nat.add_mul, Nat.one_mul] at h1
  have hm : S * nIdx G hi v = nIdx G hi v * S := Nat.mul_comm _ _
  have hp : place G hi S v a b = nIdx G hi v * S + (a * 64 + b) := by
    rw [place, hm, Nat.mod_eq_of_lt (by omega)]; omega
  rw [rd, hp, nSize, Nat.mod_eq_of_lt hs, if_pos (by omega)]

theorem foldlM_some {α β : Type} (f : β → α → Option β) (g : β → α → β) (l : List α) (h : ∀ s, ∀ x ∈ l, f s x = some (g s x)) (s : β) :
    l.foldlM f s = some (l.foldl g s) := by
  induction l generalizing s with
  | nil => rfl
  | cons x l ih =>
    rw [List.foldlM_cons, h s x List.mem_cons_self, List.foldl_cons]
    exact ih (fun s y hy => h s y (List.mem_cons_of_mem _ hy)) _

theorem dot_some (hG : G.Ok) (hs : nIdx G hi G.n * S < 2 ^ 32) {u a b : Nat} (hu : u < G.n) (h : flag G hi u = true) (hab : a * 64 + b < S) :
    dot A G hi S z u a b = some ((G.nb u).foldl (fun s x => A.add s (A.scale (z (nIdx G hi x * S + (a * 64 + b))) (G.wt u x))) (z (nIdx G hi u * S + (a * 64 + b)))) := by
  rw [dot, rd_some hs hu (nflag_self hu h) hab, Option.bind_some]
  refine foldlM_some _ _ _ (fun s x hx => ?_) _
  rw [rd_some hs (hG.lt u x hx).2 (nflag_nb hu h hx) hab, Option.map_some]

theorem foldl_or (p : Nat → Bool) (m b : Nat) :
    ((List.range m).foldl (fun w b => if p b then w ||| 2 ^ b else w) 0).testBit b = (decide (b < m) && p b) := by
  induction m with
  | zero => simp
  | succ m ih =>
    rw [List.range_succ, List.foldl_append, List.foldl_cons, List.foldl_nil]
    by_cases hp : p m = true
    · rw [if_pos hp, Nat.testBit_or, ih, Nat.testBit_two_pow]
      by_cases hb : m = b
      · subst hb; simp [hp]
      · have : (b < m + 1) ↔ b < m := by omega
        simp [hb, this]
    · rw [if_neg hp, ih]
      by_cases hb : m = b
      · subst hb; simp [hp]
      · have : (b < m + 1) ↔ b < m := by omega
        simp [this]

/-- The bits of a fingerprint are the sides of the hyperplanes. -/
theorem bits_some (hG : G.Ok) (h1 : 1 ≤ S) (h2 : S < 2 ^ 32) (hs : nIdx G hi G.n * S < 2 ^ 32) {u a : Nat} (hu : u < G.n) (h : flag G hi u = true) (ha : a < arrays S) :
    ∃ w, bits A G hi S z u a = some w ∧ ∀ b, b < 64 → w.testBit b = (decide (a * 64 + b < S) && side A G (fun x => z (nIdx G hi x * S + (a * 64 + b))) u) := by
  refine ⟨_, foldlM_some _ (fun w b => if side A G (fun x => z (nIdx G hi x * S + (a * 64 + b))) u then w ||| 2 ^ b else w) _ (fun s b hb => ?_) _, fun b hb => ?_⟩
  · have hb := List.mem_range.1 hb
    have := maxBit_le S a
    rw [dot_some hG hs hu h ((maxBit_iff h1 h2 ha (by omega)).1 hb), Option.map_some]
    rfl
  · rw [foldl_or]
    congr 1
    exact decide_eq_decide.2 (maxBit_iff h1 h2 ha hb)

theorem foldl_last {α : Type} (ws : List (Nat × α)) (p : Nat) (x a : α) (h : ∀ w ∈ ws, w.1 = p → w.2 = x) (hm : a = x ∨ ∃ w ∈ ws, w.1 = p) :
    ws.foldl (fun a w => if w.1 = p then w.2 else a) a = x := by
  induction ws generalizing a with
  | nil => rcases hm with hm | ⟨w, hw, _⟩; exacts [hm, by cases hw]
  | cons w ws ih =>
    rw [List.foldl_cons]
    have h' : ∀ w ∈ ws, w.1 = p → w.2 = x := fun y hy => h y (List.mem_cons_of_mem _ hy)
    by_cases hw : w.1 = p
    · rw [if_pos hw]
      exact ih _ h' (.inl (h w List.mem_cons_self hw))
    · rw [if_neg hw]
      refine ih _ h' (hm.imp id fun ⟨y, hy, hp⟩ => ?_)
      rcases List.mem_cons.1 hy with rfl | hy
      · exact absurd hp hw
      · exact ⟨y, hy, hp⟩

theorem sOff_eq (hn : G.n ≤ UF.uMax) (h1 : 1 ≤ S) (h2 : S < 2 ^ 32) {u : Nat} (hu : u ≤ G.n) : sOff G hi S u = fpIdx G hi u * arrays S ∧ fpIdx G hi G.n * arrays S < 2 ^ 64 := by
  have hle : ∀ k, fpIdx G hi k ≤ k := by
    intro k
    induction k with
    | zero => exact Nat.le_refl _
    | succ k ih =>
      have : fpIdx G hi (k + 1) = fpIdx G hi k + if flag G hi k then 1 else 0 := rfl
      split at this <;> omega
  have ha : arrays S ≤ 2 ^ 32 := by rw [arrays_eq h1 h2]; omega
  have hN : fpIdx G hi G.n < 2 ^ 32 := by
    have := hle G.n
    have : UF.uMax < 2 ^ 32 := by decide
    omega
  have hb : fpIdx G hi G.n * arrays S < 2 ^ 64 := by
    have e1 := Nat.mul_le_mul_left (fpIdx G hi G.n) ha
    omega
  have hm : fpIdx G hi u ≤ fpIdx G hi G.n := exScan_mono _ hu
  exact ⟨Nat.mod_eq_of_lt (Nat.lt_of_le_of_lt (Nat.mul_le_mul_right _ hm) hb), hb⟩

theorem slot_inj' {T u v i j : Nat} (hu : flag G hi u = true) (hv : flag G hi v = true) (hi' : i < T) (hj : j < T)
    (h : fpIdx G hi u * T + i = fpIdx G hi v * T + j) : u = v ∧ i = j := by
  have h1 : fpIdx G hi u = fpIdx G hi v := by
    have e1 : (fpIdx G hi u * T + i) / T = fpIdx G hi u := by
      rw [Nat.mul_comm, Nat.mul_add_div (by omega), Nat.div_eq_of_lt hi', Nat.add_zero]
    have e2 : (fpIdx G hi v * T + j) / T = fpIdx G hi v := by
      rw [Nat.mul_comm, Nat.mul_add_div (by omega), Nat.div_eq_of_lt hj, Nat.add_zero]
    rw [← e1, ← e2, h]
  refine ⟨?_, by rw [h1] at h; omega⟩
  by_contra hne
  exact exScan_disjoint (fun u => if flag G hi u then 1 else 0) hne (a := 0) (b := 0) (by rw [if_pos hu]; omega) (by rw [if_pos hv]; omega) (by
    simpa [fpIdx] using h1)

theorem hash_spec (hn : G.n ≤ UF.uMax) (h1 : 1 ≤ S) (h2 : S < 2 ^ 32) {fp : Nat → Option Nat} (h : Hashes A G hi S z fp) {u a : Nat} (hu : u < G.n)
    (hf : flag G hi u = true) (ha : a < arrays S) : fp (sOff G hi S u + a) = bits A G hi S z u a := by
  obtain ⟨ws, hp, rfl⟩ := h
  refine foldl_last ws _ _ _ (fun w hw he => ?_) (.inr ⟨(sOff G hi S u + a, bits A G hi S z u a), hp.mem_iff.2 (List.mem_flatMap.2 ⟨u, List.mem_range.2 hu, ?_⟩), rfl⟩)
  · obtain ⟨v, hv, hw⟩ := List.mem_flatMap.1 (hp.mem_iff.1 hw)
    have hv := List.mem_range.1 hv
    rw [sWrites, needs_eq hv] at hw
    split at hw
    · rename_i hfv
      obtain ⟨c, hc, rfl⟩ := List.mem_map.1 hw
      dsimp only at he ⊢
      rw [(sOff_eq hn h1 h2 (by omega)).1, (sOff_eq hn h1 h2 (by omega)).1] at he
      obtain ⟨rfl, rfl⟩ := slot_inj' hfv hf (List.mem_range.1 hc) ha he
      rfl
    · cases hw
  · rw [sWrites, needs_eq hu, if_pos hf]
    exact List.mem_map.2 ⟨a, List.mem_range.2 ha, rfl⟩

/-- No write to `fingerprints` is out of bounds. -/
theorem hash_inb (hn : G.n ≤ UF.uMax) (h1 : 1 ≤ S) (h2 : S < 2 ^ 32) {u : Nat} (hu : u < G.n) {w : Nat × Option Nat} (hw : w ∈ sWrites A G hi S z u) : w.1 < sSize G hi S := by
  rw [sWrites, needs_eq hu] at hw
  split at hw
  · rename_i hf
    obtain ⟨c, hc, rfl⟩ := List.mem_map.1 hw
    have hc := List.mem_range.1 hc
    obtain ⟨e1, e2⟩ := sOff_eq (hi := hi) hn h1 h2 (show u ≤ G.n by omega)
    show sOff G hi S u + c < _
    rw [e1, sSize, Nat.mod_eq_of_lt e2]
    have h3 : fpIdx G hi (u + 1) ≤ fpIdx G hi G.n := exScan_mono _ (show u + 1 ≤ G.n by omega)
    have h4 : fpIdx G hi (u + 1) = fpIdx G hi u + if flag G hi u then 1 else 0 := rfl
    rw [if_pos hf] at h4
    have h5 := Nat.mul_le_mul_right (arrays S) h3
    rw [h4, Nat.add_mul, Nat.one_mul] at h5
    omega
  · cases hw

theorem count_blocks (p : Nat → Nat → Bool) (K : Nat) :
    ((List.range K).map fun a => (List.range 64).countP fun b => p a b).sum = (List.range (K * 64)).countP fun i => p (i / 64) (i % 64) := by
  induction K with
  | zero => simp
  | succ K ih =>
    rw [List.range_succ (n := K), List.map_append, List.sum_append, ih, Nat.add_mul, Nat.one_mul, List.range_add, List.countP_append, List.countP_map]
    congr 1
    simp only [List.map_cons, List.map_nil, List.sum_cons, List.sum_nil, Nat.add_zero]
    refine List.countP_congr fun b hb => ?_
    have hb := List.mem_range.1 hb
    simp only [Function.comp]
    rw [show (K * 64 + b) / 64 = K by omega, show (K * 64 + b) % 64 = b by omega]

theorem foldl_mod (l : List Nat) (g : Nat → Nat) (t : Nat) (h : t + (l.map g).sum < 2 ^ 32) : l.foldl (fun t i => (t + g i) % 2 ^ 32) t = t + (l.map g).sum := by
  induction l generalizing t with
  | nil => simp
  | cons x l ih =>
    rw [List.map_cons, List.sum_cons] at h ⊢
    rw [List.foldl_cons, Nat.mod_eq_of_lt (by omega), ih _ (by omega)]
    omega

/-- **C150.** There is a number for each vertex and each of the `S` hyperplanes, no number is used twice among the vertices that need them, and the distance
computed for neighbours of high degree is the number of hyperplanes that separate their neighbourhoods, for every order of the writes. In particular no
read is out of bounds. -/
theorem C150_distance (hG : G.Ok) (hn : G.n ≤ UF.uMax) (h1 : 1 ≤ S) (h2 : S < 2 ^ 32) (hs : nIdx G hi G.n * S < 2 ^ 32) :
    ∃ r : Nat → Nat → Nat,
      (∀ x y i j, nflag G hi x = true → nflag G hi y = true → i < S → j < S → r x i = r y j → x = y ∧ i = j) ∧
      ∀ (z : Nat → F) (fp : Nat → Option Nat), Hashes A G hi S z fp → ∀ u v, v ∈ G.nb u → hi u = true → hi v = true →
        distance G hi S fp u v = some ((range S).filter fun i => side A G (fun x => z (r x i)) u ≠ side A G (fun x => z (r x i)) v).card := by
  refine ⟨fun x i => nIdx G hi x * S + i, fun x y i j hx hy hi' hj h => ?_, fun z fp hfp u v hv hhu hhv => ?_⟩
  · have e : nIdx G hi x = nIdx G hi y := by
      have e1 : (nIdx G hi x * S + i) / S = nIdx G hi x := by
        rw [Nat.mul_comm, Nat.mul_add_div (by omega), Nat.div_eq_of_lt hi', Nat.add_zero]
      have e2 : (nIdx G hi y * S + j) / S = nIdx G hi y := by
        rw [Nat.mul_comm, Nat.mul_add_div (by omega), Nat.div_eq_of_lt hj, Nat.add_zero]
      rw [← e1, ← e2]
      exact congrArg (· / S) h
    refine ⟨?_, by dsimp only at h; rw [e] at h; omega⟩
    by_contra hne
    exact exScan_disjoint (fun u => if nflag G hi u then 1 else 0) hne (a := 0) (b := 0) (by rw [if_pos hx]; omega) (by rw [if_pos hy]; omega) (by
      simpa [nIdx] using e)
  have hun := (hG.lt u v hv).1
  have hvn := (hG.lt u v hv).2
  have hfu : flag G hi u = true := by rw [flag, hhu]; exact List.any_eq_true.2 ⟨v, hv, hhv⟩
  have hfv : flag G hi v = true := by rw [flag, hhv]; exact List.any_eq_true.2 ⟨u, (hG.symm u v hv).1, hhu⟩
  let sd := fun w i => side A G (fun x => z (nIdx G hi x * S + i)) w
  let dif := fun i => decide (i < S) && (sd u i != sd v i)
  have hstep : ∀ t, ∀ a ∈ List.range (arrays S), ((fp (sOff G hi S u + a)).bind fun x => (fp (sOff G hi S v + a)).map fun y => (t + popcount (x ^^^ y)) % 2 ^ 32) =
      some ((t + (List.range 64).countP fun b => dif (a * 64 + b)) % 2 ^ 32) := by
    intro t a ha
    have ha := List.mem_range.1 ha
    rw [hash_spec hn h1 h2 hfp hun hfu ha, hash_spec hn h1 h2 hfp hvn hfv ha]
    obtain ⟨x, hx, hx'⟩ := bits_some (A := A) (z := z) hG h1 h2 hs hun hfu ha
    obtain ⟨y, hy, hy'⟩ := bits_some (A := A) (z := z) hG h1 h2 hs hvn hfv ha
    rw [hx, hy, Option.bind_some, Option.map_some]
    congr 3
    refine List.countP_congr fun b hb => ?_
    have hb := List.mem_range.1 hb
    rw [Nat.testBit_xor, hx' b hb, hy' b hb]
    show _ ↔ (decide (a * 64 + b < S) && (sd u (a * 64 + b) != sd v (a * 64 + b))) = true
    by_cases hab : a * 64 + b < S <;> simp [hab, sd]
  have hcard : ∀ p : Nat → Bool, ((range S).filter fun i => p i = true).card = (List.range S).countP p := by
    intro p
    have : (range S).filter (fun i => p i = true) = ((List.range S).filter p).toFinset := by
      ext i
      simp
    rw [this, List.toFinset_card_of_nodup (List.nodup_range.filter _), List.countP_eq_length_filter]
  have hsum : ((List.range (arrays S)).map fun a => (List.range 64).countP fun b => dif (a * 64 + b)).sum = (List.range S).countP fun i => sd u i != sd v i := by
    rw [count_blocks fun a b => dif (a * 64 + b)]
    have hle : S ≤ arrays S * 64 := by rw [arrays_eq h1 h2]; omega
    obtain ⟨k, hk⟩ : ∃ k, arrays S * 64 = S + k := ⟨arrays S * 64 - S, by omega⟩
    rw [hk, List.range_add, List.countP_append, List.countP_map]
    have e1 : (List.range S).countP (fun i => dif (i / 64 * 64 + i % 64)) = (List.range S).countP fun i => sd u i != sd v i := by
      refine List.countP_congr fun i hi' => ?_
      have hi' := List.mem_range.1 hi'
      rw [show i / 64 * 64 + i % 64 = i by omega]
      simp [dif, hi']
    have e2 : (List.range k).countP ((fun i => dif (i / 64 * 64 + i % 64)) ∘ fun x => S + x) = 0 := by
      refine List.countP_eq_zero.2 fun i _ => ?_
      simp only [Function.comp]
      rw [show (S + i) / 64 * 64 + (S + i) % 64 = S + i by omega]
      simp [dif]
    rw [e1, e2, Nat.add_zero]
  have hlt : (List.range S).countP (fun i => sd u i != sd v i) < 2 ^ 32 := by
    have := List.countP_le_length (p := fun i => sd u i != sd v i) (l := List.range S)
    rw [List.length_range] at this
    omega
  rw [distance, foldlM_some _ _ _ hstep, foldl_mod _ _ _ (by rw [hsum]; omega), hsum, Nat.zero_add, ← hcard]
  congr 2
  ext i
  simp [sd]

end

/-! ### Exact arithmetic, and the arithmetic of `float` -/

section
variable {G : WG}

/-- Exact arithmetic without weights. -/
def exactArith : Arith Int := ⟨fun a b => a + b, fun a _ => a, fun a => decide (0 ≤ a)⟩

/-- In exact arithmetic the side is the sign of the sum over the closed neighbourhood. -/
theorem side_exact (hG : G.Ok) (r : Nat → Int) (u : Nat) : side exactArith G r u = decide (0 ≤ ∑ x ∈ G.C u, r x) := by
  have key : ∀ (l : List Nat) (s : Int), l.foldl (fun s x => s + r x) s = s + (l.map r).sum := by
    intro l
    induction l with
    | nil => intro s; simp
    | cons x l ih => intro s; rw [List.foldl_cons, ih, List.map_cons, List.sum_cons, Int.add_assoc]
  have hs : ∑ x ∈ G.C u, r x = r u + ((G.nb u).map r).sum := by
    rw [WG.C, Finset.sum_insert (by rw [WG.N, List.mem_toFinset]; exact hG.loop u), WG.N, List.sum_toFinset _ ((hG.srt u).imp Nat.ne_of_lt)]
  rw [hs, ← key]
  rfl

/-- **C150.** In exact arithmetic, neighbours of high degree with the same closed neighbourhood have distance 0, so their similarity is 1. -/
theorem C150_twins {hi : Nat → Bool} {S : Nat} (hG : G.Ok) (hn : G.n ≤ UF.uMax) (h1 : 1 ≤ S) (h2 : S < 2 ^ 32) (hs : nIdx G hi G.n * S < 2 ^ 32)
    {z : Nat → Int} {fp : Nat → Option Nat} (h : Hashes exactArith G hi S z fp) {u v : Nat} (hv : v ∈ G.nb u) (hhu : hi u = true) (hhv : hi v = true)
    (hC : G.C u = G.C v) : distance G hi S fp u v = some 0 := by
  obtain ⟨r, -, hr⟩ := C150_distance (A := exactArith) hG hn h1 h2 hs
  rw [hr z fp h u v hv hhu hhv]
  congr 1
  refine Finset.card_eq_zero.2 (Finset.filter_eq_empty_iff.2 fun i _ => ?_)
  rw [side_exact hG, side_exact hG, hC]
  exact fun h => h rfl

end

/-- With a fixed seed the distance does not depend on the schedule, nor on the direction of the edge. -/
theorem C150_unique {F : Type} {A : Arith F} {G : WG} {hi : Nat → Bool} {S : Nat} (hG : G.Ok) (hn : G.n ≤ UF.uMax) (h1 : 1 ≤ S) (h2 : S < 2 ^ 32)
    (hs : nIdx G hi G.n * S < 2 ^ 32) {z : Nat → F} {fp fp' : Nat → Option Nat} (h : Hashes A G hi S z fp) (h' : Hashes A G hi S z fp')
    {u v : Nat} (hv : v ∈ G.nb u) (hhu : hi u = true) (hhv : hi v = true) :
    distance G hi S fp u v = distance G hi S fp' v u ∧ ∃ d, distance G hi S fp u v = some d ∧ d ≤ S := by
  obtain ⟨r, -, hr⟩ := C150_distance (A := A) hG hn h1 h2 hs
  rw [hr z fp h u v hv hhu hhv, hr z fp' h' v u (hG.symm u v hv).1 hhv hhu]
  refine ⟨?_, _, rfl, ?_⟩
  · congr 2
    ext i
    simp only [Finset.mem_filter, ne_comm]
  · exact (Finset.card_filter_le _ _).trans_eq (Finset.card_range S)

/-- Rounding to 24 significant bits, to the nearest and on a tie to even. Finite values of `float` are the multiples of `2^-149` that this leaves unchanged, up to
an upper bound; here they are counted in such units. -/
def rnd24 (x : Int) : Int :=
  let m := x.natAbs
  let e := 2 ^ (m.log2 + 1 - 24)
  let q := m / e
  let c := 2 * (m % e)
  let k := if c < e then q else if e < c then q + 1 else q + q % 2
  if x < 0 then -((k * e : Nat) : Int) else (k * e : Nat)

/-- `float` without weights. -/
def floatArith : Arith Int := ⟨fun a b => rnd24 (a + b), fun a _ => a, fun a => decide (0 ≤ a)⟩

/-- A triangle. -/
def triW : WG where
  n := 3
  nb u := match u with | 0 => [1, 2] | 1 => [0, 2] | 2 => [0, 1] | _ => []
  wt _ _ := 1

theorem triW_nb {u v : Nat} (h : v ∈ triW.nb u) : u < 3 := by
  by_contra hc
  obtain ⟨k, rfl⟩ : ∃ k, u = k + 3 := ⟨u - 3, by omega⟩
  simp [triW] at h

theorem triW_ok : triW.Ok := by
  have h1 : ∀ u < 3, ∀ v ∈ triW.nb u, v < 3 ∧ u ∈ triW.nb v := by decide +kernel
  have h2 : ∀ u < 3, (triW.nb u).Pairwise (· < ·) := by decide +kernel
  have h3 : ∀ u < 3, u ∉ triW.nb u := by decide +kernel
  refine ⟨fun u v hv => ⟨triW_nb hv, (h1 u (triW_nb hv) v hv).1⟩, fun u => ?_, fun u v hv => ⟨(h1 u (triW_nb hv) v hv).2, rfl⟩, fun u hu => h3 u (triW_nb hu) hu⟩
  by_cases hu : u < 3
  · exact h2 u hu
  · obtain ⟨k, rfl⟩ : ∃ k, u = k + 3 := ⟨u - 3, by omega⟩
    exact List.Pairwise.nil

/-- The hypotheses are met: on the triangle with 70 samples, two arrays per fingerprint, and any threshold up to 2. -/
example : triW.Ok ∧ triW.n ≤ UF.uMax ∧ nIdx triW (fun _ => true) triW.n * 70 < 2 ^ 32 ∧ arrays 70 = 2 ∧ maxBit 70 1 = 6 ∧ 2 ∈ triW.nb 0 ∧ triW.C 0 = triW.C 2 ∧
    ∃ fp, Hashes exactArith triW (fun _ => true) 70 (fun i => (i : Int) - 100) fp :=
  ⟨triW_ok, by decide, by decide +kernel, by decide +kernel, by decide +kernel, by decide, by decide +kernel, _, _, .refl _, rfl⟩

/-- **C150, refuted in `float`.** The sums of a triangle's vertices are formed in different orders. If the numbers drawn are `2^25`, `-1` and `-2^25` (in any
unit), the first sum rounds to 0 and the last is negative: the vertices 0 and 2 have the same closed neighbourhood, but the one hyperplane separates
them, and the similarity is `max(cos(pi), 0) = 0`. -/
theorem C150_float_refuted {z : Nat → Int} (h0 : z 0 = 2 ^ 25) (h1 : z 1 = -1) (h2 : z 2 = -2 ^ 25) {fp : Nat → Option Nat}
    (h : Hashes floatArith triW (hiCos triW 1) 1 z fp) : triW.C 0 = triW.C 2 ∧ (∀ i < 3, rnd24 (z i) = z i) ∧ distance triW (hiCos triW 1) 1 fp 0 2 = some 1 := by
  have hz : ∀ i < 3, z i = [2 ^ 25, -1, -2 ^ 25].getD i 0 := by
    intro i hi
    match i, hi with
    | 0, _ => exact h0
    | 1, _ => exact h1
    | 2, _ => exact h2
  refine ⟨by decide +kernel, fun i hi => ?_, ?_⟩
  · rw [hz i hi]
    have : ∀ i < 3, rnd24 ([2 ^ 25, -1, -2 ^ 25].getD i 0) = [2 ^ 25, -1, -2 ^ 25].getD i 0 := by decide +kernel
    exact this i hi
  · have e : ∀ u < 3, fp (sOff triW (hiCos triW 1) 1 u + 0) = bits floatArith triW (hiCos triW 1) 1 z u 0 := fun u hu =>
      hash_spec (by decide) (by decide) (by decide) h hu ((by decide +kernel : ∀ u < 3, flag triW (hiCos triW 1) u = true) u hu) (by decide +kernel)
    have hd : ∀ u < 3, ∀ b < 1, dot floatArith triW (hiCos triW 1) 1 z u 0 b = dot floatArith triW (hiCos triW 1) 1 (fun i => [2 ^ 25, -1, -2 ^ 25].getD i 0) u 0 b := by
      intro u hu b hb
      have hr : ∀ p, rd triW (hiCos triW 1) 1 z p = rd triW (hiCos triW 1) 1 (fun i => [2 ^ 25, -1, -2 ^ 25].getD i 0) p := by
        intro p
        rw [rd, rd]
        split
        · rename_i hp
          have : nSize triW (hiCos triW 1) 1 = 3 := by decide +kernel
          rw [hz p (by omega)]
        · rfl
      simp only [dot, hr]
    have hb : ∀ u < 3, bits floatArith triW (hiCos triW 1) 1 z u 0 = bits floatArith triW (hiCos triW 1) 1 (fun i => [2 ^ 25, -1, -2 ^ 25].getD i 0) u 0 := by
      intro u hu
      rw [bits, bits, show List.range (maxBit 1 0) = [0] by decide +kernel]
      simp only [List.foldlM_cons, List.foldlM_nil, hd u hu 0 (by decide)]
    rw [distance, show List.range (arrays 1) = [0] by decide +kernel]
    simp only [List.foldlM_cons, List.foldlM_nil]
    rw [e 0 (by decide), e 2 (by decide), hb 0 (by decide), hb 2 (by decide)]
    decide +kernel

/-! ### Limits -/

/-- Without samples the number of arrays is `2^58`. -/
theorem C150_no_samples : arrays 0 = 2 ^ 58 := by decide +kernel

/-- Two adjacent vertices 0 and 1, both adjacent to all others. -/
def hubW (n : Nat) : WG where
  n := n
  nb u := if n ≤ u then [] else if u = 0 then (List.range n).filter (fun v => decide (v ≠ 0)) else if u = 1 then (List.range n).filter (fun v => decide (v ≠ 1)) else [0, 1]
  wt _ _ := 1

theorem hubW_mem {n u v : Nat} (hn : 2 ≤ n) : v ∈ (hubW n).nb u ↔ u < n ∧ v < n ∧ u ≠ v ∧ (u < 2 ∨ v < 2) := by
  dsimp only [hubW]
  split
  · simp; omega
  · split
    · rw [List.mem_filter, List.mem_range, decide_eq_true_eq]; omega
    · split
      · rw [List.mem_filter, List.mem_range, decide_eq_true_eq]; omega
      · simp; omega

theorem hubW_ok {n : Nat} (hn : 2 ≤ n) : (hubW n).Ok := by
  refine ⟨fun u v hv => ?_, fun u => ?_, fun u v hv => ⟨?_, rfl⟩, fun u hu => ?_⟩
  · have := (hubW_mem hn).1 hv
    exact ⟨this.1, this.2.1⟩
  · dsimp only [hubW]
    split
    · exact List.Pairwise.nil
    · split
      · exact List.pairwise_lt_range.filter _
      · split
        · exact List.pairwise_lt_range.filter _
        · decide
  · have := (hubW_mem hn).1 hv
    exact (hubW_mem hn).2 ⟨this.2.1, this.1, this.2.2.1.symm, this.2.2.2.symm⟩
  · exact ((hubW_mem hn).1 hu).2.2.1 rfl

/-- **C150, refuted for many samples.** `num_needs_normals * num_samples` is a product of 32 bits. With 131072 vertices and 32768 samples it is 0: the array of
random numbers is empty, and the first fingerprint reads outside of it. -/
theorem C150_wraps {F : Type} (A : Arith F) (z : Nat → F) :
    (hubW 131072).Ok ∧ hiCos (hubW 131072) 32768 0 = true ∧ hiCos (hubW 131072) 32768 1 = true ∧ 1 ∈ (hubW 131072).nb 0 ∧
    nSize (hubW 131072) (hiCos (hubW 131072) 32768) 32768 = 0 ∧ bits A (hubW 131072) (hiCos (hubW 131072) 32768) 32768 z 0 0 = none := by
  have hG : (hubW 131072).Ok := hubW_ok (by decide)
  have hlen : ∀ u, u < 2 → 131071 ≤ ((hubW 131072).nb u).length := by
    intro u hu
    have hsub : (Finset.range 131072).erase u ⊆ ((hubW 131072).nb u).toFinset := by
      intro v hv
      rw [Finset.mem_erase, Finset.mem_range] at hv
      exact List.mem_toFinset.2 ((hubW_mem (by decide)).2 ⟨by omega, hv.2, fun h => hv.1 h.symm, .inl hu⟩)
    have h1 := Finset.card_le_card hsub
    rw [Finset.card_erase_of_mem (Finset.mem_range.2 (by omega)), Finset.card_range] at h1
    exact h1.trans (List.toFinset_card_le _)
  have hh : ∀ u, u < 2 → hiCos (hubW 131072) 32768 u = true := fun u hu => decide_eq_true (by have := hlen u hu; omega)
  have hmem : 1 ∈ (hubW 131072).nb 0 := (hubW_mem (by decide)).2 (by decide)
  have hfl : flag (hubW 131072) (hiCos (hubW 131072) 32768) 0 = true := by
    rw [flag, hh 0 (by decide), Bool.true_and]
    exact List.any_eq_true.2 ⟨1, hmem, hh 1 (by decide)⟩
  have hnf : ∀ v, v < 131072 → nflag (hubW 131072) (hiCos (hubW 131072) 32768) v = true := by
    intro v hv
    by_cases h0 : v = 0
    · subst h0; exact nflag_self (show 0 < (hubW 131072).n from hv) hfl
    · exact nflag_nb (show 0 < (hubW 131072).n by show 0 < 131072; decide) hfl ((hubW_mem (by decide)).2 ⟨by decide, hv, fun h => h0 h.symm, .inl (by decide)⟩)
  have hidx : ∀ k, k ≤ 131072 → nIdx (hubW 131072) (hiCos (hubW 131072) 32768) k = k := by
    intro k
    induction k with
    | zero => intro _; rfl
    | succ k ih =>
      intro hk
      have h2 : nIdx (hubW 131072) (hiCos (hubW 131072) 32768) (k + 1) = nIdx (hubW 131072) (hiCos (hubW 131072) 32768) k +
        if nflag (hubW 131072) (hiCos (hubW 131072) 32768) k then 1 else 0 := rfl
      rw [h2, ih (by omega), if_pos (hnf k (by omega))]
  have hsz : nSize (hubW 131072) (hiCos (hubW 131072) 32768) 32768 = 0 := by
    have : nIdx (hubW 131072) (hiCos (hubW 131072) 32768) (hubW 131072).n = 131072 := hidx 131072 (Nat.le_refl _)
    rw [nSize, this]; decide +kernel
  refine ⟨hG, hh 0 (by decide), hh 1 (by decide), hmem, hsz, ?_⟩
  have hm : maxBit 32768 0 = 63 + 1 := by decide +kernel
  rw [bits, hm, List.range_succ_eq_map, List.foldlM_cons]
  have hd : dot A (hubW 131072) (hiCos (hubW 131072) 32768) 32768 z 0 0 0 = none := by
    rw [dot, rd, hsz, if_neg (by omega)]
    rfl
  rw [hd]
  rfl

end Gbbs.Scan
