/-
C109: the estimates of `ApproxJaccardSimilarity`, `benchmarks/SCAN/IndexBased/similarity_measure.h:583-665` and `:734-775`.
-/
import Verif.Scan.SimMain
import Mathlib.Data.Nat.Bitwise

namespace Gbbs.Scan

open Finset (range)

/-! ### Model -/

section
variable (G : WG) (hi : Nat → Bool) (perm : Nat → Nat) (L : Nat)

/-- `needs_fingerprint_seq`, `:619-636`: the vertex and one of its neighbours have a high degree. -/
def flag (u : Nat) : Bool := hi u && (G.nb u).any hi

/-- `fingerprint_indices`: the prefix sums, `:637-639`. -/
def fpIdx (u : Nat) : Nat := exScan (fun u => if flag G hi u then 1 else 0) u

/-- `needs_fingerprint`, `:645-648`. -/
def needs (u : Nat) : Bool :=
  if u + 1 = G.n then decide (fpIdx G hi u ≠ fpIdx G hi G.n) else decide (fpIdx G hi u ≠ fpIdx G hi (u + 1))

/-- `fingerprint_offset`: a product of two `uintE`, `:653`, `:711`, `:732`. `2^L` is `num_samples`. -/
def fpOff (u : Nat) : Nat := fpIdx G hi u * 2 ^ L % 2 ^ 32

/-- The length of `fingerprints`, also a product of two `uintE`, `:642`. -/
def fpSize : Nat := fpIdx G hi G.n * 2 ^ L % 2 ^ 32

/-- The calls of `write_min` for vertex `u`, `:653-664`: for the vertex itself and its neighbours. -/
def fpWrites (u : Nat) : List (Nat × Nat) :=
  if needs G hi u then (u :: G.nb u).map fun x => (fpOff G hi L u + (perm x &&& (2 ^ L - 1)), perm x >>> L) else []

/-- `fingerprints` after the calls of `write_min`, each one atomic (C10), in the order of any schedule; `kEmptyBucket` at the start. -/
def Prints (fp : Nat → Nat) : Prop :=
  ∃ ws : List (Nat × Nat), ws.Perm ((List.range G.n).flatMap (fpWrites G hi perm L)) ∧
    fp = fun p => ws.foldl (fun a w => if w.1 = p then min a w.2 else a) UF.uMax

/-- `fingerprint_matches` and the denominator, `:746-762`. -/
def estimate (fp : Nat → Nat) (u v : Nat) : Nat × Nat :=
  let a := fun i => fp (fpOff G hi L u + i)
  let b := fun i => fp (fpOff G hi L v + i)
  (((List.range (2 ^ L)).filter fun i => decide (a i ≠ UF.uMax) && decide (a i = b i)).length,
    2 ^ L - ((List.range (2 ^ L)).filter fun i => decide (a i = UF.uMax) && decide (b i = UF.uMax)).length)

/-! ### Specification -/

/-- The buckets that contain an element of a set. -/
def hit (A : Finset Nat) : Finset Nat := (range (2 ^ L)).filter fun b => ∃ x ∈ A, perm x % 2 ^ L = b

/-- The buckets whose least element of a set `A` (by `perm`) is in `B`. -/
def firstIn (A B : Finset Nat) : Finset Nat :=
  (range (2 ^ L)).filter fun b => ∃ x ∈ A, x ∈ B ∧ perm x % 2 ^ L = b ∧ ∀ y ∈ A, perm y % 2 ^ L = b → perm x ≤ perm y

end

/-! ### Proof -/

section
variable {G : WG} {hi : Nat → Bool} {perm : Nat → Nat} {L : Nat}

theorem needs_eq {u : Nat} (hu : u < G.n) : needs G hi u = flag G hi u := by
  have hs : fpIdx G hi (u + 1) = fpIdx G hi u + if flag G hi u then 1 else 0 := rfl
  have key : decide (fpIdx G hi u ≠ fpIdx G hi (u + 1)) = flag G hi u := by
    rw [hs]
    by_cases h : flag G hi u = true
    · rw [if_pos h, h]; simp
    · rw [if_neg h, Bool.eq_false_iff.2 h]; simp
  rw [needs]
  split
  · rename_i h; rw [← h]; exact key
  · exact key

theorem off_eq (hs : fpIdx G hi G.n * 2 ^ L < 2 ^ 32) {u : Nat} (hu : u ≤ G.n) : fpOff G hi L u = fpIdx G hi u * 2 ^ L := by
  have h1 : fpIdx G hi u ≤ fpIdx G hi G.n := exScan_mono _ hu
  exact Nat.mod_eq_of_lt (Nat.lt_of_le_of_lt (Nat.mul_le_mul_right _ h1) hs)

/-- Slots of different vertices do not overlap. -/
theorem slot_inj {u v i j : Nat} (hu : flag G hi u = true) (hv : flag G hi v = true) (hi' : i < 2 ^ L) (hj : j < 2 ^ L)
    (h : fpIdx G hi u * 2 ^ L + i = fpIdx G hi v * 2 ^ L + j) : u = v ∧ i = j := by
  have h1 : fpIdx G hi u = fpIdx G hi v := by
    have e1 : (fpIdx G hi u * 2 ^ L + i) / 2 ^ L = fpIdx G hi u := by
      rw [Nat.mul_comm, Nat.mul_add_div (by omega), Nat.div_eq_of_lt hi', Nat.add_zero]
    have e2 : (fpIdx G hi v * 2 ^ L + j) / 2 ^ L = fpIdx G hi v := by
      rw [Nat.mul_comm, Nat.mul_add_div (by omega), Nat.div_eq_of_lt hj, Nat.add_zero]
    rw [← e1, ← e2, h]
  refine ⟨?_, by rw [h1] at h; omega⟩
  by_contra hne
  exact exScan_disjoint (fun u => if flag G hi u then 1 else 0) hne (a := 0) (b := 0) (by rw [if_pos hu]; omega) (by rw [if_pos hv]; omega) (by
    simpa [fpIdx] using h1)

theorem foldl_min (ws : List (Nat × Nat)) (p a : Nat) :
    let r := ws.foldl (fun a w => if w.1 = p then min a w.2 else a) a
    (r = a ∨ (p, r) ∈ ws) ∧ r ≤ a ∧ ∀ w ∈ ws, w.1 = p → r ≤ w.2 := by
  induction ws generalizing a with
  | nil => exact ⟨.inl rfl, Nat.le_refl _, fun w hw => by cases hw⟩
  | cons w ws ih =>
    dsimp only at ih ⊢
    rw [List.foldl_cons]
    by_cases h : w.1 = p
    · rw [if_pos h]
      obtain ⟨h1, h2, h3⟩ := ih (min a w.2)
      refine ⟨?_, by omega, fun x hx hp => ?_⟩
      · rcases h1 with h1 | h1
        · rcases Nat.le_total a w.2 with hle | hle
          · left; omega
          · right
            rw [h1, Nat.min_eq_right hle, ← h]
            exact List.mem_cons_self
        · exact .inr (List.mem_cons_of_mem _ h1)
      · rcases List.mem_cons.1 hx with rfl | hx
        · omega
        · exact h3 x hx hp
    · rw [if_neg h]
      obtain ⟨h1, h2, h3⟩ := ih a
      refine ⟨h1.imp id (List.mem_cons_of_mem _), h2, fun x hx hp => ?_⟩
      rcases List.mem_cons.1 hx with rfl | hx
      · exact absurd hp h
      · exact h3 x hx hp

theorem mem_C {u x : Nat} : x ∈ G.C u ↔ x = u ∨ x ∈ G.nb u := by rw [WG.C, WG.N, Finset.mem_insert, List.mem_toFinset]

/-- An entry of the fingerprint: empty, or the value of the least element of the closed neighbourhood in the bucket. -/
theorem print_spec {fp : Nat → Nat} (hs : fpIdx G hi G.n * 2 ^ L < 2 ^ 32) (h : Prints G hi perm L fp) {u b : Nat} (hu : u < G.n) (hf : flag G hi u = true) (hb : b < 2 ^ L) :
    (fp (fpOff G hi L u + b) = UF.uMax ∨ ∃ x ∈ G.C u, perm x % 2 ^ L = b ∧ fp (fpOff G hi L u + b) = perm x / 2 ^ L) ∧
    ∀ x ∈ G.C u, perm x % 2 ^ L = b → fp (fpOff G hi L u + b) ≤ perm x / 2 ^ L := by
  obtain ⟨ws, hp, rfl⟩ := h
  have hmem : ∀ w, w ∈ ws ↔ ∃ v x, v < G.n ∧ flag G hi v = true ∧ x ∈ G.C v ∧ w = (fpOff G hi L v + perm x % 2 ^ L, perm x / 2 ^ L) := by
    intro w
    rw [hp.mem_iff, List.mem_flatMap]
    constructor
    · rintro ⟨v, hv, hw⟩
      have hv := List.mem_range.1 hv
      rw [fpWrites, needs_eq hv] at hw
      split at hw
      · rename_i hfv
        obtain ⟨x, hx, rfl⟩ := List.mem_map.1 hw
        refine ⟨v, x, hv, hfv, mem_C.2 (List.mem_cons.1 hx), ?_⟩
        rw [Nat.and_two_pow_sub_one_eq_mod, Nat.shiftRight_eq_div_pow]
      · cases hw
    · rintro ⟨v, x, hv, hfv, hx, rfl⟩
      refine ⟨v, List.mem_range.2 hv, ?_⟩
      rw [fpWrites, needs_eq hv, if_pos hfv]
      refine List.mem_map.2 ⟨x, List.mem_cons.2 (mem_C.1 hx), ?_⟩
      rw [Nat.and_two_pow_sub_one_eq_mod, Nat.shiftRight_eq_div_pow]
  obtain ⟨h1, -, h3⟩ := foldl_min ws (fpOff G hi L u + b) UF.uMax
  have hpos : 0 < 2 ^ L := Nat.two_pow_pos L
  refine ⟨h1.imp id fun hm => ?_, fun x hx hxb => h3 _ ((hmem _).2 ⟨u, x, hu, hf, hx, rfl⟩) (by rw [hxb])⟩
  obtain ⟨v, x, hv, hfv, hx, he⟩ := (hmem _).1 hm
  obtain ⟨e1, e2⟩ := Prod.mk.injEq .. ▸ he
  obtain ⟨rfl, e3⟩ := slot_inj hf hfv hb (Nat.mod_lt _ hpos) (by rwa [off_eq hs (by omega), off_eq hs (by omega)] at e1)
  exact ⟨x, hx, e3.symm, e2⟩

/-- C109: for neighbours of high degree, `ApproxJaccardSimilarity` divides the number of buckets whose least element of the union of the closed
neighbourhoods is in both by the number of buckets that the union meets. The denominator is not 0, and the quotient is at most 1. -/
theorem estimate_spec (hG : G.Ok) (hn : G.n ≤ UF.uMax) (hL : 1 ≤ L) (hperm : ∀ x y, x < G.n → y < G.n → perm x = perm y → x = y) (hplt : ∀ x, x < G.n → perm x < G.n)
    (hs : fpIdx G hi G.n * 2 ^ L < 2 ^ 32) {fp : Nat → Nat} (h : Prints G hi perm L fp) {u v : Nat} (hv : v ∈ G.nb u) (hhu : hi u = true) (hhv : hi v = true) :
    estimate G hi L fp u v = ((firstIn perm L (G.C u ∪ G.C v) (G.C u ∩ G.C v)).card, (hit perm L (G.C u ∪ G.C v)).card) ∧
    0 < (hit perm L (G.C u ∪ G.C v)).card ∧
    (firstIn perm L (G.C u ∪ G.C v) (G.C u ∩ G.C v)).card ≤ (hit perm L (G.C u ∪ G.C v)).card := by
  have hun := (hG.lt u v hv).1
  have hvn := (hG.lt u v hv).2
  have hfu : flag G hi u = true := by rw [flag, hhu]; exact List.any_eq_true.2 ⟨v, hv, hhv⟩
  have hfv : flag G hi v = true := by rw [flag, hhv]; exact List.any_eq_true.2 ⟨u, (hG.symm u v hv).1, hhu⟩
  have hlt : ∀ {w x}, w < G.n → x ∈ G.C w → x < G.n := fun {w x} hw hx => by
    rcases mem_C.1 hx with rfl | hx
    · exact hw
    · exact (hG.lt w x hx).2
  have h2 : 2 ≤ 2 ^ L := by
    have := Nat.pow_le_pow_right (n := 2) (by omega) hL
    omega
  have hval : ∀ {w x}, w < G.n → x ∈ G.C w → perm x / 2 ^ L < UF.uMax := fun {w x} hw hx => by
    have e1 := hplt x (hlt hw hx)
    have e2 := Nat.div_le_self (perm x) (2 ^ L)
    omega
  have hemp : ∀ {w b}, w < G.n → flag G hi w = true → b < 2 ^ L → (fp (fpOff G hi L w + b) = UF.uMax ↔ ¬ ∃ x ∈ G.C w, perm x % 2 ^ L = b) := by
    intro w b hw hf hb
    obtain ⟨e1, e2⟩ := print_spec hs h hw hf hb
    constructor
    · rintro he ⟨x, hx, hxb⟩
      have := e2 x hx hxb
      have := hval hw hx
      omega
    · intro hno
      exact e1.resolve_right fun ⟨x, hx, hxb, _⟩ => hno ⟨x, hx, hxb⟩
  have hdec : ∀ x y : Nat, x % 2 ^ L = y % 2 ^ L → (x / 2 ^ L ≤ y / 2 ^ L ↔ x ≤ y) := by
    intro x y he
    have e1 := Nat.div_add_mod x (2 ^ L)
    have e2 := Nat.div_add_mod y (2 ^ L)
    constructor
    · intro hle
      have := Nat.mul_le_mul_left (2 ^ L) hle
      omega
    · exact fun hle => Nat.div_le_div_right hle
  have hcount : ∀ (p : Nat → Bool) (s : Finset Nat), (∀ b, b ∈ s ↔ b < 2 ^ L ∧ p b = true) → ((List.range (2 ^ L)).filter p).length = s.card := by
    intro p s hs
    have : s = ((List.range (2 ^ L)).filter p).toFinset := by
      ext b
      rw [hs, List.mem_toFinset, List.mem_filter, List.mem_range]
    rw [this, List.toFinset_card_of_nodup (List.nodup_range.filter _)]
  -- the matches
  have hm : ∀ b, b < 2 ^ L → ((fp (fpOff G hi L u + b) ≠ UF.uMax ∧ fp (fpOff G hi L u + b) = fp (fpOff G hi L v + b)) ↔
      b ∈ firstIn perm L (G.C u ∪ G.C v) (G.C u ∩ G.C v)) := by
    intro b hb
    obtain ⟨u1, u2⟩ := print_spec hs h hun hfu hb
    obtain ⟨v1, v2⟩ := print_spec hs h hvn hfv hb
    rw [firstIn, Finset.mem_filter, Finset.mem_range]
    constructor
    · rintro ⟨e1, e2⟩
      obtain ⟨x, hx, hxb, hxe⟩ := u1.resolve_left e1
      obtain ⟨y, hy, hyb, hye⟩ := v1.resolve_left (e2 ▸ e1)
      have hxy : x = y := by
        refine hperm x y (hlt hun hx) (hlt hvn hy) ?_
        rw [← Nat.div_add_mod (perm x) (2 ^ L), ← Nat.div_add_mod (perm y) (2 ^ L), hxb, hyb, ← hxe, ← hye, e2]
      subst hxy
      refine ⟨hb, x, Finset.mem_union_left _ hx, Finset.mem_inter.2 ⟨hx, hy⟩, hxb, fun z hz hzb => ?_⟩
      rw [← hdec _ _ (by rw [hxb, hzb]), ← hxe]
      rcases Finset.mem_union.1 hz with hz | hz
      · exact u2 z hz hzb
      · rw [e2]; exact v2 z hz hzb
    · rintro ⟨-, x, -, hx, hxb, hmin⟩
      obtain ⟨hxu, hxv⟩ := Finset.mem_inter.1 hx
      have key : ∀ {w}, w < G.n → flag G hi w = true → x ∈ G.C w → (∀ y ∈ G.C w, y ∈ G.C u ∪ G.C v) → fp (fpOff G hi L w + b) = perm x / 2 ^ L := by
        intro w hw hf hxw hsub
        obtain ⟨e1, e2⟩ := print_spec hs h hw hf hb
        have e3 := e2 x hxw hxb
        rcases e1 with e1 | ⟨y, hy, hyb, hye⟩
        · have := hval hw hxw; omega
        · have := (hdec _ _ (by rw [hxb, hyb])).2 (hmin y (hsub y hy) hyb)
          omega
      have k1 := key hun hfu hxu fun y hy => Finset.mem_union_left _ hy
      have k2 := key hvn hfv hxv fun y hy => Finset.mem_union_right _ hy
      have := hval hun hxu
      exact ⟨by omega, by rw [k1, k2]⟩
  have hsub : firstIn perm L (G.C u ∪ G.C v) (G.C u ∩ G.C v) ⊆ hit perm L (G.C u ∪ G.C v) := by
    intro b hb
    rw [firstIn, Finset.mem_filter] at hb
    obtain ⟨h1, x, h2, -, h3, -⟩ := hb
    exact Finset.mem_filter.2 ⟨h1, x, h2, h3⟩
  refine ⟨Prod.ext ?_ ?_, Finset.card_pos.2 ⟨perm u % 2 ^ L, Finset.mem_filter.2 ⟨Finset.mem_range.2 (Nat.mod_lt _ (by omega)), u,
    Finset.mem_union_left _ (mem_C.2 (.inl rfl)), rfl⟩⟩, Finset.card_le_card hsub⟩
  · dsimp only [estimate]
    refine hcount (fun i => decide (fp (fpOff G hi L u + i) ≠ UF.uMax) && decide (fp (fpOff G hi L u + i) = fp (fpOff G hi L v + i)))
      (firstIn perm L (G.C u ∪ G.C v) (G.C u ∩ G.C v)) fun b => ?_
    constructor
    · intro hb
      have hb' := Finset.mem_range.1 (Finset.mem_filter.1 hb).1
      have := (hm b hb').2 hb
      exact ⟨hb', by simpa using this⟩
    · rintro ⟨hb, hp⟩
      exact (hm b hb).1 (by simpa using hp)
  · have hc := hcount (fun i => decide (fp (fpOff G hi L u + i) = UF.uMax) && decide (fp (fpOff G hi L v + i) = UF.uMax))
      ((range (2 ^ L)) \ hit perm L (G.C u ∪ G.C v)) (fun b => by
        rw [Finset.mem_sdiff, Finset.mem_range, Bool.and_eq_true, decide_eq_true_eq, decide_eq_true_eq]
        refine and_congr_right fun hb => ?_
        rw [hemp hun hfu hb, hemp hvn hfv hb, hit, Finset.mem_filter, Finset.mem_range]
        constructor
        · intro hno
          exact ⟨fun ⟨x, hx, hxb⟩ => hno ⟨hb, x, Finset.mem_union_left _ hx, hxb⟩, fun ⟨x, hx, hxb⟩ => hno ⟨hb, x, Finset.mem_union_right _ hx, hxb⟩⟩
        · rintro ⟨n1, n2⟩ ⟨-, x, hx, hxb⟩
          rcases Finset.mem_union.1 hx with hx | hx
          · exact n1 ⟨x, hx, hxb⟩
          · exact n2 ⟨x, hx, hxb⟩)
    have hsb : hit perm L (G.C u ∪ G.C v) ⊆ range (2 ^ L) := Finset.filter_subset _ _
    have hcard := Finset.card_sdiff_add_card_eq_card hsb
    rw [Finset.card_range] at hcard
    show 2 ^ L - _ = _
    rw [hc]
    omega

/-- Neighbours with the same closed neighbourhood get the estimate 1. -/
theorem estimate_same (hG : G.Ok) (hn : G.n ≤ UF.uMax) (hL : 1 ≤ L) (hperm : ∀ x y, x < G.n → y < G.n → perm x = perm y → x = y) (hplt : ∀ x, x < G.n → perm x < G.n)
    (hs : fpIdx G hi G.n * 2 ^ L < 2 ^ 32) {fp : Nat → Nat} (h : Prints G hi perm L fp) {u v : Nat} (hv : v ∈ G.nb u) (hhu : hi u = true) (hhv : hi v = true) (he : G.C u = G.C v) :
    (estimate G hi L fp u v).1 = (estimate G hi L fp u v).2 := by
  rw [(estimate_spec hG hn hL hperm hplt hs h hv hhu hhv).1, he, Finset.union_self, Finset.inter_self]
  dsimp only
  refine congrArg Finset.card (Finset.ext fun b => ?_)
  rw [firstIn, hit, Finset.mem_filter, Finset.mem_filter]
  refine and_congr_right fun _ => ⟨fun ⟨x, h1, _, h2, _⟩ => ⟨x, h1, h2⟩, fun ⟨x, h1, h2⟩ => ?_⟩
  obtain ⟨y, hy, hmin⟩ := Finset.exists_min_image ((G.C v).filter fun x => perm x % 2 ^ L = b) perm ⟨x, Finset.mem_filter.2 ⟨h1, h2⟩⟩
  obtain ⟨hy1, hy2⟩ := Finset.mem_filter.1 hy
  exact ⟨y, hy1, hy1, hy2, fun z hz hzb => hmin z (Finset.mem_filter.2 ⟨hz, hzb⟩)⟩

/-- No write is out of bounds. -/
theorem writes_inb (hs : fpIdx G hi G.n * 2 ^ L < 2 ^ 32) {u : Nat} (hu : u < G.n) {w : Nat × Nat} (hw : w ∈ fpWrites G hi perm L u) : w.1 < fpSize G hi L := by
  rw [fpWrites, needs_eq hu] at hw
  split at hw
  · rename_i hf
    obtain ⟨x, -, rfl⟩ := List.mem_map.1 hw
    show fpOff G hi L u + (perm x &&& (2 ^ L - 1)) < _
    rw [off_eq hs (by omega), Nat.and_two_pow_sub_one_eq_mod, show fpSize G hi L = fpIdx G hi G.n * 2 ^ L from Nat.mod_eq_of_lt hs]
    have h1 : fpIdx G hi (u + 1) ≤ fpIdx G hi G.n := exScan_mono _ (show u + 1 ≤ G.n by omega)
    have h2 : fpIdx G hi (u + 1) = fpIdx G hi u + if flag G hi u then 1 else 0 := rfl
    rw [if_pos hf] at h2
    have h3 := Nat.mul_le_mul_right (2 ^ L) h1
    rw [h2, Nat.add_mul, Nat.one_mul] at h3
    have := Nat.mod_lt (perm x) (Nat.two_pow_pos L)
    omega
  · cases hw

/-- With a fixed seed the fingerprints do not depend on the schedule. -/
theorem prints_unique {fp fp' : Nat → Nat} (h : Prints G hi perm L fp) (h' : Prints G hi perm L fp') : fp = fp' := by
  obtain ⟨ws, hp, rfl⟩ := h
  obtain ⟨ws', hp', rfl⟩ := h'
  funext p
  obtain ⟨a1, a2, a3⟩ := foldl_min ws p UF.uMax
  obtain ⟨b1, b2, b3⟩ := foldl_min ws' p UF.uMax
  have hm : ∀ w, w ∈ ws ↔ w ∈ ws' := fun w => by rw [hp.mem_iff, hp'.mem_iff]
  refine Nat.le_antisymm ?_ ?_
  · rcases b1 with b1 | b1
    · rw [b1]; exact a2
    · exact a3 _ ((hm _).2 b1) rfl
  · rcases a1 with a1 | a1
    · rw [a1]; exact b2
    · exact b3 _ ((hm _).1 a1) rfl

end

/-- Two adjacent vertices of high degree and `2^31` samples: the length of the array wraps to 0, and `write_min` is called. -/
theorem size_wraps (perm : Nat → Nat) : fpSize exW (fun u => decide (3 ≤ (exW.nb u).length)) 31 = 0 ∧
    fpWrites exW (fun u => decide (3 ≤ (exW.nb u).length)) perm 31 1 ≠ [] := by
  refine ⟨by decide +kernel, ?_⟩
  rw [fpWrites, if_pos (by decide +kernel)]
  exact List.cons_ne_nil _ _

/-- The hypotheses are met: the edge 1 2 of `exW` with two buckets. -/
example : exW.Ok ∧ (2 ∈ exW.nb 1) ∧ fpIdx exW (fun u => decide (3 ≤ (exW.nb u).length)) exW.n * 2 ^ 1 < 2 ^ 32 ∧ (∃ fp, Prints exW (fun u => decide (3 ≤ (exW.nb u).length)) (fun x => 4 - x) 1 fp) ∧
    (∀ x y, x < exW.n → y < exW.n → 4 - x = 4 - y → x = y) ∧ (∀ x, x < exW.n → 4 - x < exW.n) := by
  refine ⟨exW_ok, by decide, by decide +kernel, ⟨_, _, .refl _, rfl⟩, fun x y hx hy h => ?_, fun x hx => ?_⟩
  · change x < 5 at hx; change y < 5 at hy; omega
  · change 4 - x < 5; omega

end Gbbs.Scan
