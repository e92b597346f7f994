/-
C46: low-diameter decomposition, `benchmarks/LowDiameterDecomposition/MPX13/LowDiameterDecomposition.h`.
-/
import Verif.EdgeMap.Claim
import Verif.Common
import Mathlib.Data.Finset.Card
import Mathlib.Data.Finset.Range
import Mathlib.Analysis.SpecialFunctions.Log.Basic
import Mathlib.Algebra.Order.Floor.Semiring

namespace Gbbs.LDD

open Conc Conc.Prog Em
open Atomics (Steps)

variable {W : Type}

/-! ### Model -/

/-- `UINT_E_MAX`. -/
def none32 : Nat := 4294967295

/-- `LDD_F`, lines 97-122, on the array `cluster_ids`. `update` writes without a test of its own. -/
def lddF (orc : Nat → Nat → W → Bool) : Func W Nat Nat Unit where
  cond d := read d fun x => ret (x == none32)
  updA s d w := if orc s d w then read s fun x => cas d none32 x fun b => ret (if b then some () else none) else ret none
  upd s d w := if orc s d w then read s fun x => write d x (ret (some ())) else ret none

/-- `new_centers` of one round, lines 156-166: the unclaimed ones among the `k` vertices from position `added` of the permutation. -/
def centers (perm : Nat → Nat) (m : Nat → Nat) (added k : Nat) : List Nat :=
  ((List.range k).map fun i => perm (added + i)).filter fun v => decide (m v = none32)

/-- `cluster_ids` after lines 167-170. -/
def claimed (m : Nat → Nat) (cs : List Nat) (v : Nat) : Nat := if v ∈ cs then v else m v

/-- The loop of `LDD_impl`, lines 149-185, from `round`, `num_visited`, `num_added`, `cluster_ids` and the frontier; `sh` is `shifts`. The result
`none` stands for undefined behaviour: an index outside `shifts` or `vertex_perm`, or `end - start` wrapping around. Each `edgeMap` is in any
traversal and interleaving; `add_to_vsubset` appends (C17). -/
inductive Run (G : Gr W) (orc : Nat → Nat → W → Bool) (perm : Nat → Nat) (sh : List Nat) :
    Nat → Nat → Nat → (Nat → Nat) → List Nat → Option (Nat → Nat) → Prop
  | stop {r vis add m F} (h : ¬ vis < G.n) : Run G orc perm sh r vis add m F (some m)
  | range {r vis add m F} (h : vis < G.n) (ho : sh[r]? = none ∨ sh[r + 1]? = none) : Run G orc perm sh r vis add m F none
  | wrap {r vis add m F a b} (h : vis < G.n) (ha : sh[r]? = some a) (hb : sh[r + 1]? = some b) (hw : min b G.n < a) :
      Run G orc perm sh r vis add m F none
  | perm {r vis add m F a b} (h : vis < G.n) (ha : sh[r]? = some a) (hb : sh[r + 1]? = some b) (hw : a ≤ min b G.n)
      (hp : G.n < add + (min b G.n - a)) : Run G orc perm sh r vis add m F none
  | last {r vis add m F a b cs} (h : vis < G.n) (ha : sh[r]? = some a) (hb : sh[r + 1]? = some b) (hw : a ≤ min b G.n)
      (hp : ¬ G.n < add + (min b G.n - a)) (hcs : cs = centers perm m add (min b G.n - a)) (hv : G.n ≤ vis + (F ++ cs).length) :
      Run G orc perm sh r vis add m F (some (claimed m cs))
  | round {r vis add m F a b cs m' o res} (h : vis < G.n) (ha : sh[r]? = some a) (hb : sh[r + 1]? = some b) (hw : a ≤ min b G.n)
      (hp : ¬ G.n < add + (min b G.n - a)) (hcs : cs = centers perm m add (min b G.n - a)) (hv : ¬ G.n ≤ vis + (F ++ cs).length)
      (he : EdgeMap (lddF orc) G (fun v => decide (v ∈ F ++ cs)) (claimed m cs) m' o)
      (hr : Run G orc perm sh (r + 1) (vis + (F ++ cs).length) (add + (min b G.n - a)) m' (o.map Prod.fst) res) :
      Run G orc perm sh r vis add m F res

/-- `LDD_impl`, lines 124-188. -/
def Ldd (G : Gr W) (orc : Nat → Nat → W → Bool) (perm : Nat → Nat) (sh : List Nat) (res : Option (Nat → Nat)) : Prop :=
  Run G orc perm sh 0 0 0 (fun _ => none32) [] res

/-- `total_rounds`, lines 32-34, in real arithmetic. -/
noncomputable def totalRounds (n : Nat) (β : ℝ) : Nat := min (n + 1) (2 + ⌈Real.log n / β⌉₊)

/-- `generate_shifts`, lines 37-47: the exclusive scan of the floors of `exp(iβ)`. -/
noncomputable def genShifts (n : Nat) (β : ℝ) : List Nat :=
  (List.range (totalRounds n β + 1)).map (exScan fun i => ⌊Real.exp (i * β)⌋₊)

/-! ### Specification -/

/-- A walk of `k` edges accepted by the oracle from `c` to `v` inside the cluster `c`. -/
inductive ClWalk (G : Gr W) (orc : Nat → Nat → W → Bool) (m : Nat → Nat) (c : Nat) : Nat → Nat → Prop
  | nil (h : m c = c) : ClWalk G orc m c c 0
  | cons {u v k} (w : W) (h : ClWalk G orc m c u k) (he : (v, w) ∈ G.fwd u) (ho : orc u v w = true) (hm : m v = c) : ClWalk G orc m c v (k + 1)

/-- What the loop needs of the shifts: they start at 0, ascend and reach `n`. -/
structure Shifts (n : Nat) (sh : List Nat) : Prop where
  zero : sh[0]? = some 0
  asc : sh.Pairwise (· ≤ ·)
  cover : ∃ x ∈ sh, n ≤ x

/-! ### One round -/

section round
variable {p0 : Nat → Nat} {Ac Ac' : Edge W → Prop} {orc : Nat → Nat → W → Bool}

theorem read_old {g : CGh} {m : Nat → Nat} (hi : CInv none32 p0 Ac' (fun s _ _ => p0 s) g m) {s : Nat} (hs : p0 s ≠ none32) : m s = p0 s := by
  rw [hi.mem]
  cases h : g.own s with
  | none => exact hi.old s h
  | some i => exact absurd (hi.new s i h).1 hs

theorem ldd_spec (hs : ∀ e, Ac e → p0 e.s ≠ none32) (hAc' : ∀ e, Ac' e ↔ Ac e ∧ orc e.s e.d e.w = true) :
    FSpecC (crg none32 p0 Ac' fun s _ _ => p0 s) (lddF orc) Ac CT (fun g e => orc e.s e.d e.w = true → g.p e.d ≠ none32)
      (fun d g => g.p d = none32) where
  keep may i e := ⟨fun g g' hr h ho => by rw [hr.2.1 _ (h ho)]; exact h ho, fun g g' hr h ho => by rw [hr.2.1 _ (h ho)]; exact h ho⟩
  stable may i l g g' hr h := h.stable hr
  cond may i l g d hT := by
    intro g1 m1 hr1 hi1
    refine ⟨g1, crg_gu_refl _ _, hi1, ?_⟩
    intro g2 hr2
    have hm : m1 d = g1.p d := hi1.mem d
    refine ⟨(hT.stable hr1).stable hr2, fun hb e _ he _ => ?_, fun hb hx => ?_⟩
    · subst he
      have hne : g1.p e.d ≠ none32 := by rw [← hm]; simpa using hb
      rw [hr2.2.1 _ hne]; exact hne
    · rw [hr2.2.2 d hx, ← hm]; simpa using hb
  updA may i l g e he hm hT := by
    show Safe _ i _ (if orc e.s e.d e.w = true then _ else _) g
    by_cases ho : orc e.s e.d e.w = true
    · rw [if_pos ho]
      intro g1 m1 hr1 hi1
      refine ⟨g1, crg_gu_refl _ _, hi1, ?_⟩
      rw [read_old hi1 (hs e he)]
      intro g2 m2 hr2 hi2
      have hT2 := (hT.stable hr1).stable hr2
      refine ⟨fun hu => ?_, fun hu => ?_⟩
      · obtain ⟨h1, h2, h3, h4⟩ := claim_ok (fun e h => hs e ((hAc' e).1 h).1) hi2 ((hAc' e).2 ⟨he, ho⟩) hm hu hT2
        refine ⟨_, h1, h2, fun g3 hr3 => ⟨h3.stable hr3, fun _ => ?_⟩⟩
        rw [hr3.2.1 _ h4]; exact h4
      · refine ⟨g2, crg_gu_refl _ _, hi2, fun g3 hr3 => ⟨hT2.stable hr3, fun _ => ?_⟩⟩
        have hne : g2.p e.d ≠ none32 := by rw [← hi2.mem]; exact hu
        rw [hr3.2.1 _ hne]; exact hne
    · rw [if_neg ho]
      intro g' hr
      exact ⟨hT.stable hr, fun h => absurd h ho⟩
  upd may i l g e he hm hx hcn hT := by
    show Safe _ i _ (if orc e.s e.d e.w = true then _ else _) g
    by_cases ho : orc e.s e.d e.w = true
    · rw [if_pos ho]
      intro g1 m1 hr1 hi1
      refine ⟨g1, crg_gu_refl _ _, hi1, ?_⟩
      rw [read_old hi1 (hs e he)]
      intro g2 m2 hr2 hi2
      have hu : m2 e.d = none32 := by rw [hi2.mem, hr2.2.2 _ hx, hr1.2.2 _ hx]; exact hcn
      obtain ⟨h1, h2, h3, h4⟩ := claim_ok (fun e h => hs e ((hAc' e).1 h).1) hi2 ((hAc' e).2 ⟨he, ho⟩) hm hu ((hT.stable hr1).stable hr2)
      refine ⟨_, h1, h2, fun g3 hr3 => ⟨h3.stable hr3, fun _ => ?_⟩⟩
      rw [hr3.2.1 _ h4]; exact h4
    · rw [if_neg ho]
      intro g' hr
      exact ⟨hT.stable hr, fun h => absurd h ho⟩

/-- One `edgeMap`: every unclaimed destination of an accepted edge of the frontier is claimed for the cluster of one of these edges and
emitted once. -/
theorem ldd_round (G : Gr W) (hG : G.Ok) (inF : Nat → Bool) {m m' : Nat → Nat} (hs : ∀ v, inF v = true → m v ≠ none32)
    {o : List (Nat × Unit)} (hr : EdgeMap (lddF orc) G inF m m' o) :
    (o.map Prod.fst).Nodup ∧
    (∀ d, d ∈ o.map Prod.fst ↔ m d = none32 ∧ ∃ e, Active G inF e ∧ orc e.s e.d e.w = true ∧ e.d = d) ∧
    (∀ d, d ∈ o.map Prod.fst → ∃ e, Active G inF e ∧ orc e.s e.d e.w = true ∧ e.d = d ∧ m' d = m e.s) ∧
    ∀ d, d ∉ o.map Prod.fst → m' d = m d := by
  obtain ⟨g, out, hi, hdn, hT, hcol⟩ := edgeMap_soundC
    (ldd_spec (p0 := m) (Ac := Active G inF) (Ac' := fun e => Active G inF e ∧ orc e.s e.d e.w = true) (orc := orc)
      (fun e he => hs _ he.1) fun _ => Iff.rfl) G hG inF
    (fun _ h => h) (CInv none32 m (fun e => Active G inF e ∧ orc e.s e.d e.w = true) fun s _ _ => m s) (fun _ _ _ => Iff.rfl) ⟨m, fun _ => none⟩
    ⟨fun _ => rfl, fun _ _ => rfl, fun _ _ h => (by cases h)⟩
    (fun i => ⟨List.nodup_nil, fun d => ⟨fun h => (by cases h), fun h => (by cases h)⟩⟩) hr
  have hmem : ∀ d, d ∈ o.map Prod.fst ↔ ∃ i, g.own d = some i := by
    intro d
    constructor
    · intro h
      obtain ⟨⟨d', x⟩, h1, rfl⟩ := List.mem_map.1 h
      obtain ⟨i, hi'⟩ := hcol.sub _ h1
      exact ⟨i, ((hT i).2 _).1 (List.mem_map.2 ⟨_, hi', rfl⟩)⟩
    · rintro ⟨i, h⟩
      obtain ⟨⟨d', x⟩, h1, rfl⟩ := List.mem_map.1 (((hT i).2 d).2 h)
      obtain ⟨y, hy⟩ := hcol.all i _ _ h1
      exact List.mem_map.2 ⟨_, hy, rfl⟩
  refine ⟨?_, fun d => ?_, fun d hd => ?_, fun d hd => ?_⟩
  · refine hcol.nodup (fun i => (hT i).1) fun i j d x y h1 h2 => ?_
    have e1 := ((hT i).2 d).1 (List.mem_map.2 ⟨_, h1, rfl⟩)
    have e2 := ((hT j).2 d).1 (List.mem_map.2 ⟨_, h2, rfl⟩)
    exact Option.some.inj (e1.symm.trans e2)
  · rw [hmem]
    constructor
    · rintro ⟨i, h⟩
      obtain ⟨h1, e, h2, h3, _⟩ := hi.new d i h
      exact ⟨h1, e, h2.1, h2.2, h3⟩
    · rintro ⟨h1, e, h2, h3, rfl⟩
      cases h : g.own e.d with
      | none => exact absurd ((hi.old _ h).trans h1) (hdn e h2 h3)
      | some i => exact ⟨i, rfl⟩
  · obtain ⟨i, h⟩ := (hmem d).1 hd
    obtain ⟨_, e, h2, h3, h4⟩ := hi.new d i h
    exact ⟨e, h2.1, h2.2, h3, (hi.mem d).trans h4⟩
  · cases h : g.own d with
    | none => exact (hi.mem d).trans (hi.old d h)
    | some i => exact absurd ((hmem d).2 ⟨i, h⟩) hd

end round

/-! ### The loop -/

section loop
variable {G : Gr W} {orc : Nat → Nat → W → Bool} {perm : Nat → Nat} {sh : List Nat}

/-- The claimed vertices. -/
def seen (n : Nat) (m : Nat → Nat) : Finset Nat := (Finset.range n).filter fun v => m v ≠ none32

/-- State at line 150 or before the visit of the frontier. -/
structure Inv (G : Gr W) (orc : Nat → Nat → W → Bool) (perm : Nat → Nat) (r vis add : Nat) (m : Nat → Nat) (F : List Nat) : Prop where
  nodup : F.Nodup
  sub : ∀ v ∈ F, v < G.n ∧ m v ≠ none32
  count : vis + F.length = (seen G.n m).card
  added : ∀ i, i < add → m (perm i) ≠ none32
  walk : ∀ v, m v ≠ none32 → v < G.n ∧ ∃ k, k ≤ r ∧ ClWalk G orc m (m v) v k

theorem ClWalk.mono {m m' : Nat → Nat} {c v k : Nat} (h : ClWalk G orc m c v k) (hc : c ≠ none32) (hm : ∀ x, m x ≠ none32 → m' x = m x) :
    ClWalk G orc m' c v k := by
  induction h with
  | nil h => exact .nil ((hm c (h.trans_ne hc)).trans h)
  | cons w h he ho hv ih => exact .cons w ih he ho ((hm _ (hv.trans_ne hc)).trans hv)

theorem mem_centers {m : Nat → Nat} {add k v : Nat} : v ∈ centers perm m add k ↔ (∃ i, i < k ∧ perm (add + i) = v) ∧ m v = none32 := by
  rw [centers, List.mem_filter, List.mem_map, decide_eq_true_eq]
  constructor
  · rintro ⟨⟨i, hi, rfl⟩, h⟩; exact ⟨⟨i, List.mem_range.1 hi, rfl⟩, h⟩
  · rintro ⟨⟨i, hi, rfl⟩, h⟩; exact ⟨⟨i, List.mem_range.2 hi, rfl⟩, h⟩

theorem seen_grow {n : Nat} {m m' : Nat → Nat} {l : List Nat} (hl : l.Nodup) (h1 : ∀ v ∈ l, v < n ∧ m v = none32 ∧ m' v ≠ none32)
    (h2 : ∀ v, v ∉ l → m' v = m v) : (seen n m').card = (seen n m).card + l.length := by
  have : seen n m' = seen n m ∪ l.toFinset := by
    ext v
    simp only [seen, Finset.mem_filter, Finset.mem_union, Finset.mem_range, List.mem_toFinset]
    by_cases hv : v ∈ l
    · exact ⟨fun _ => Or.inr hv, fun _ => ⟨(h1 v hv).1, (h1 v hv).2.2⟩⟩
    · rw [h2 v hv]; tauto
  rw [this, Finset.card_union_of_disjoint, List.toFinset_card_of_nodup hl]
  rw [Finset.disjoint_left]
  intro v hv hv'
  exact (Finset.mem_filter.1 hv).2 (h1 v (List.mem_toFinset.1 hv')).2.1

/-- Adding the centers. -/
theorem Inv.centers {r vis add k : Nat} {m : Nat → Nat} {F : List Nat} (hn : G.n ≤ none32) (hp : ∀ i, i < G.n → perm i < G.n)
    (hj : ∀ i j, i < G.n → j < G.n → perm i = perm j → i = j) (hk : add + k ≤ G.n)
    (h : Inv G orc perm r vis add m F) :
    Inv G orc perm r vis (add + k) (claimed m (centers perm m add k)) (F ++ LDD.centers perm m add k) := by
  have hc : ∀ v, v ∈ LDD.centers perm m add k → v < G.n ∧ m v = none32 := fun v hv => by
    obtain ⟨⟨i, hi, rfl⟩, h2⟩ := mem_centers.1 hv
    exact ⟨hp _ (by omega), h2⟩
  have hnd : (LDD.centers perm m add k).Nodup := by
    refine List.Nodup.filter _ (List.Nodup.map_on ?_ List.nodup_range)
    intro i hi j hj' he
    rw [List.mem_range] at hi hj'
    have := hj _ _ (by omega) (by omega) he
    omega
  have hall : ∀ i, i < k → m (perm (add + i)) = none32 → perm (add + i) ∈ LDD.centers perm m add k := fun i hi hm => mem_centers.2 ⟨⟨i, hi, rfl⟩, hm⟩
  generalize LDD.centers perm m add k = cs at *
  have hold : ∀ v, v ∉ cs → claimed m cs v = m v := fun v hv => if_neg hv
  have hnew : ∀ v, v ∈ cs → claimed m cs v = v := fun v hv => if_pos hv
  have hkeep : ∀ v, m v ≠ none32 → claimed m cs v = m v := fun v hv => hold v fun hm => hv (hc v hm).2
  have hset : ∀ v, v < G.n → (v ∈ cs ∨ m v ≠ none32) → claimed m cs v ≠ none32 := fun v hv hor => by
    by_cases hm : v ∈ cs
    · rw [hnew v hm]; omega
    · rw [hold v hm]; exact hor.resolve_left hm
  refine ⟨?_, fun v hv => ?_, ?_, fun i hi => ?_, fun v hv => ?_⟩
  · rw [List.nodup_append]
    exact ⟨h.nodup, hnd, fun a ha b hb hab => (h.sub a ha).2 (hab ▸ (hc b hb).2)⟩
  · rcases List.mem_append.1 hv with hv | hv
    · exact ⟨(h.sub v hv).1, hset v (h.sub v hv).1 (Or.inr (h.sub v hv).2)⟩
    · exact ⟨(hc v hv).1, hset v (hc v hv).1 (Or.inl hv)⟩
  · rw [seen_grow hnd (fun v hv => ⟨(hc v hv).1, (hc v hv).2, hset v (hc v hv).1 (Or.inl hv)⟩) hold, List.length_append, ← h.count]
    omega
  · by_cases ha : i < add
    · exact hset _ (hp i (by omega)) (Or.inr (h.added i ha))
    · have hi' := hall (i - add) (by omega)
      rw [show add + (i - add) = i by omega] at hi'
      refine hset _ (hp i (by omega)) ?_
      by_cases hm : m (perm i) = none32
      · exact Or.inl (hi' hm)
      · exact Or.inr hm
  · by_cases hm : v ∈ cs
    · rw [hnew v hm]
      exact ⟨(hc v hm).1, 0, Nat.zero_le _, .nil (hnew v hm)⟩
    · rw [hold v hm] at hv ⊢
      obtain ⟨h1, k', h2, h3⟩ := h.walk v hv
      exact ⟨h1, k', h2, h3.mono hv hkeep⟩

/-- What one `edgeMap` does to `cluster_ids`, with the vertices it emits. -/
structure IsRound (G : Gr W) (orc : Nat → Nat → W → Bool) (inF : Nat → Bool) (m m' : Nat → Nat) (o : List Nat) : Prop where
  nodup : o.Nodup
  mem : ∀ d, d ∈ o ↔ m d = none32 ∧ ∃ e, Active G inF e ∧ orc e.s e.d e.w = true ∧ e.d = d
  new : ∀ d, d ∈ o → ∃ e, Active G inF e ∧ orc e.s e.d e.w = true ∧ e.d = d ∧ m' d = m e.s
  old : ∀ d, d ∉ o → m' d = m d

/-- One `edgeMap`. -/
theorem Inv.edges_of {r vis add : Nat} {m m' : Nat → Nat} {F : List Nat} {o : List Nat} (hG : G.Ok)
    (h : Inv G orc perm r vis add m F) (hr : IsRound G orc (fun v => decide (v ∈ F)) m m' o) :
    Inv G orc perm (r + 1) (vis + F.length) add m' o := by
  obtain ⟨h1, h2, h3, h4⟩ := hr
  have hF : ∀ e : Edge W, Active G (fun v => decide (v ∈ F)) e → e.s ∈ F := fun e he => by simpa using he.1
  have hnew : ∀ v, v ∈ o → v < G.n ∧ m v = none32 ∧ m' v ≠ none32 := fun v hv => by
    obtain ⟨e, ha, ho, hd, hm⟩ := h3 v hv
    refine ⟨?_, ((h2 v).1 hv).1, ?_⟩
    · rw [← hd]; exact (hG.bound _ _ _ ha.2).2
    · rw [hm]; exact (h.sub _ (hF e ha)).2
  have hkeep : ∀ v, m v ≠ none32 → m' v = m v := fun v hv => h4 v fun hc => hv (hnew v hc).2.1
  refine ⟨h1, fun v hv => ⟨(hnew v hv).1, (hnew v hv).2.2⟩, ?_, fun i hi => ?_, fun v hv => ?_⟩
  · rw [seen_grow h1 hnew h4, ← h.count]
  · rw [hkeep _ (h.added i hi)]; exact h.added i hi
  · by_cases hc : v ∈ o
    · obtain ⟨e, ha, ho, hd, hm⟩ := h3 v hc
      obtain ⟨_, k, hk, hw⟩ := h.walk e.s (h.sub _ (hF e ha)).2
      refine ⟨(hnew v hc).1, k + 1, by omega, ?_⟩
      rw [hm]
      subst hd
      exact .cons e.w (hw.mono (h.sub _ (hF e ha)).2 hkeep) ha.2 ho hm
    · rw [h4 v hc] at hv ⊢
      obtain ⟨h5, k, hk, hw⟩ := h.walk v hv
      exact ⟨h5, k, by omega, hw.mono hv hkeep⟩

theorem Inv.edges {r vis add : Nat} {m m' : Nat → Nat} {F : List Nat} {o : List (Nat × Unit)} (hG : G.Ok)
    (h : Inv G orc perm r vis add m F) (he : EdgeMap (lddF orc) G (fun v => decide (v ∈ F)) m m' o) :
    Inv G orc perm (r + 1) (vis + F.length) add m' (o.map Prod.fst) := by
  obtain ⟨h1, h2, h3, h4⟩ := ldd_round G hG _ (fun v hv => (h.sub v (by simpa using hv)).2) he
  exact h.edges_of hG ⟨h1, h2, h3, h4⟩

theorem seen_full {m : Nat → Nat} (h : G.n ≤ (seen G.n m).card) (v : Nat) (hv : v < G.n) : m v ≠ none32 := by
  have h1 : seen G.n m = Finset.range G.n := Finset.eq_of_subset_of_card_le (Finset.filter_subset _ _) (by rw [Finset.card_range]; exact h)
  have : v ∈ seen G.n m := by rw [h1]; exact Finset.mem_range.2 hv
  exact (Finset.mem_filter.1 this).2

theorem full_seen {m : Nat → Nat} (hs : ∀ v, v < G.n → ∃ i, i < G.n ∧ perm i = v) (h : ∀ i, i < G.n → m (perm i) ≠ none32) :
    (seen G.n m).card = G.n := by
  have : seen G.n m = Finset.range G.n := by
    ext v
    simp only [seen, Finset.mem_filter, Finset.mem_range]
    refine ⟨fun h => h.1, fun hv => ⟨hv, ?_⟩⟩
    obtain ⟨i, hi, rfl⟩ := hs v hv
    exact h i hi
  rw [this, Finset.card_range]

theorem shifts_step (hsh : Shifts G.n sh) {r a : Nat} (ha : sh[r]? = some a) (hlt : a < G.n) : ∃ b, sh[r + 1]? = some b ∧ a ≤ b := by
  obtain ⟨x, hx, hxn⟩ := hsh.cover
  obtain ⟨j, hj⟩ := List.mem_iff_getElem?.1 hx
  obtain ⟨hr, ha'⟩ := List.getElem?_eq_some_iff.1 ha
  obtain ⟨hjl, hx'⟩ := List.getElem?_eq_some_iff.1 hj
  have hrj : r < j := by
    by_contra hc
    rcases Nat.lt_or_ge j r with h | h
    · have := List.pairwise_iff_getElem.1 hsh.asc j r hjl hr h; omega
    · have hjr : j = r := by omega
      subst hjr; omega
  have hr1 : r + 1 < sh.length := by omega
  refine ⟨sh[r + 1], List.getElem?_eq_getElem hr1, ?_⟩
  have := List.pairwise_iff_getElem.1 hsh.asc r (r + 1) hr hr1 (by omega)
  omega

theorem run_ok (hG : G.Ok) (hn : G.n ≤ none32) (hp : ∀ i, i < G.n → perm i < G.n) (hj : ∀ i j, i < G.n → j < G.n → perm i = perm j → i = j)
    (hs : ∀ v, v < G.n → ∃ i, i < G.n ∧ perm i = v) (hsh : Shifts G.n sh)
    {r vis add : Nat} {m : Nat → Nat} {F : List Nat} {res : Option (Nat → Nat)} (hr : Run G orc perm sh r vis add m F res)
    (hi : Inv G orc perm r vis add m F) (hvis : vis < G.n) (ha : sh[r]? = some add) (hlt : add < G.n) :
    ∃ m' r' vis' add' F', res = some m' ∧ Inv G orc perm r' vis' add' m' F' ∧ r' + 1 < sh.length ∧ G.n ≤ vis' + F'.length := by
  obtain ⟨b0, hb0, hab0⟩ := shifts_step hsh ha hlt
  have hr1 : r + 1 < sh.length := (List.getElem?_eq_some_iff.1 hb0).1
  induction hr generalizing b0 with
  | stop h => exact absurd hvis h
  | range h ho => rcases ho with ho | ho <;> simp_all
  | wrap h ha' hb hw =>
    rw [ha] at ha'; rw [hb0] at hb
    obtain rfl := Option.some.inj ha'
    obtain rfl := Option.some.inj hb
    omega
  | perm h ha' hb hw hp' =>
    rw [ha] at ha'; rw [hb0] at hb
    obtain rfl := Option.some.inj ha'
    obtain rfl := Option.some.inj hb
    omega
  | @last r vis add m F a b cs h ha' hb hw hp' hcs hv =>
    refine ⟨_, r, vis, add + (min b G.n - a), _, rfl, ?_, hr1, hv⟩
    subst hcs
    exact hi.centers hn hp hj (by omega)
  | @round r vis add m F a b cs m' o res h ha' hb hw hp' hcs hv he hr ih =>
    rw [ha] at ha'; rw [hb0] at hb
    obtain rfl := Option.some.inj ha'
    obtain rfl := Option.some.inj hb
    subst hcs
    have h1 := hi.centers hn hp hj (k := min b0 G.n - add) (by omega)
    have hb : b0 < G.n := by
      by_contra hc
      have h2 : add + (min b0 G.n - add) = G.n := by omega
      have h3 := full_seen (m := claimed m (LDD.centers perm m add (min b0 G.n - add))) hs fun i hi => h1.added i (by omega)
      rw [← h1.count] at h3
      omega
    have hadd : add + (min b0 G.n - add) = b0 := by omega
    have h2 := h1.edges hG he
    obtain ⟨b1, hb1, hab1⟩ := shifts_step hsh hb0 hb
    rw [hadd] at ih h2
    exact ih h2 (by omega) hb0 hb b1 hb1 hab1 (List.getElem?_eq_some_iff.1 hb1).1

end loop

/-! ### Theorems -/

/-- C46: with shifts that start at 0, ascend and reach `n`, the program never indexes out of range or wraps around; every vertex
gets the id of a vertex of its own cluster, from which it is reached by a walk of accepted edges inside the cluster, shorter than the number of
rounds. -/
theorem ldd_correct {G : Gr W} (hG : G.Ok) (hn : G.n ≤ none32) {orc : Nat → Nat → W → Bool} {perm : Nat → Nat} (hp : ∀ i, i < G.n → perm i < G.n)
    (hj : ∀ i j, i < G.n → j < G.n → perm i = perm j → i = j) (hs : ∀ v, v < G.n → ∃ i, i < G.n ∧ perm i = v)
    {sh : List Nat} (hsh : Shifts G.n sh) {res : Option (Nat → Nat)} (hr : Ldd G orc perm sh res) :
    ∃ m, res = some m ∧ ∀ v, v < G.n → m v < G.n ∧ m (m v) = m v ∧ ∃ k, k + 1 < sh.length ∧ ClWalk G orc m (m v) v k := by
  by_cases h0 : 0 < G.n
  · have hi : Inv G orc perm 0 0 0 (fun _ => none32) [] := by
      refine ⟨List.nodup_nil, fun v hv => (by cases hv), ?_, fun i hi => (by omega), fun v hv => absurd rfl hv⟩
      simp [seen]
    obtain ⟨m, r', vis', add', F', h1, h2, h3, h4⟩ := run_ok hG hn hp hj hs hsh hr hi h0 hsh.zero h0
    refine ⟨m, h1, fun v hv => ?_⟩
    have hset := seen_full (m := m) (by rw [← h2.count]; exact h4) v hv
    obtain ⟨_, k, hk, hw⟩ := h2.walk v hset
    have hroot : ∀ {c v k}, ClWalk G orc m c v k → m c = c := fun h => by
      induction h with
      | nil h => exact h
      | cons _ _ _ _ _ ih => exact ih
    have hc : m (m v) = m v := hroot hw
    exact ⟨(h2.walk (m v) (by rw [hc]; exact hset)).1, hc, k, by omega, hw⟩
  · cases hr with
    | stop h => exact ⟨_, rfl, fun v hv => by omega⟩
    | range h => exact absurd h h0
    | wrap h => exact absurd h h0
    | perm h => exact absurd h h0
    | last h => exact absurd h h0
    | round h => exact absurd h h0

/-- C46: without an oracle, on a symmetric graph, each cluster induces a connected subgraph. -/
theorem ldd_connected {G : Gr W} (hG : G.Ok) (hsym : ∀ u v w, (v, w) ∈ G.fwd u → (u, w) ∈ G.fwd v) (hn : G.n ≤ none32) {perm : Nat → Nat}
    (hp : ∀ i, i < G.n → perm i < G.n)
    (hj : ∀ i j, i < G.n → j < G.n → perm i = perm j → i = j) (hs : ∀ v, v < G.n → ∃ i, i < G.n ∧ perm i = v)
    {sh : List Nat} (hsh : Shifts G.n sh) {m : Nat → Nat} (hr : Ldd G (fun _ _ _ => true) perm sh (some m)) (u v : Nat) (hu : u < G.n) (hv : v < G.n)
    (h : m u = m v) : Relation.ReflTransGen (fun x y => m x = m u ∧ m y = m u ∧ ∃ w, (y, w) ∈ G.fwd x) u v := by
  obtain ⟨m', h1, h2⟩ := ldd_correct hG hn hp hj hs hsh hr
  obtain rfl := Option.some.inj h1
  have key : ∀ c x k, ClWalk G (fun _ _ _ => true) m c x k →
      (m x = c ∧ Relation.ReflTransGen (fun x y => m x = c ∧ m y = c ∧ ∃ w, (y, w) ∈ G.fwd x) c x) ∧
      Relation.ReflTransGen (fun x y => m x = c ∧ m y = c ∧ ∃ w, (y, w) ∈ G.fwd x) x c := by
    intro c x k hw
    induction hw with
    | nil h => exact ⟨⟨h, .refl⟩, .refl⟩
    | cons w _ he _ hm ih =>
      exact ⟨⟨hm, ih.1.2.tail ⟨ih.1.1, hm, w, he⟩⟩, Relation.ReflTransGen.head ⟨hm, ih.1.1, w, hsym _ _ _ he⟩ ih.2⟩
  obtain ⟨_, _, k, _, hwu⟩ := h2 u hu
  obtain ⟨_, _, k', _, hwv⟩ := h2 v hv
  rw [← h] at hwv
  exact (key _ _ _ hwu).2.trans (key _ _ _ hwv).1.2

/-- The shifts of the program satisfy the condition, for every positive `beta` (in real arithmetic). -/
theorem genShifts_ok (n : Nat) {β : ℝ} (hβ : 0 < β) : Shifts n (genShifts n β) := by
  have hpos : ∀ i : Nat, 1 ≤ ⌊Real.exp (i * β)⌋₊ := fun i => by
    rw [Nat.one_le_floor_iff]
    exact Real.one_le_exp (by positivity)
  refine ⟨?_, ?_, ?_⟩
  · rw [genShifts, List.getElem?_map, List.getElem?_range (Nat.succ_pos _)]; rfl
  · rw [genShifts, List.pairwise_map]
    exact List.pairwise_lt_range.imp fun h => exScan_mono _ (Nat.le_of_lt h)
  · refine ⟨_, List.mem_map_of_mem (List.mem_range.2 (Nat.lt_succ_self _)), ?_⟩
    have hlin : ∀ k, k ≤ exScan (fun i : Nat => ⌊Real.exp (i * β)⌋₊) k := fun k => by
      induction k with
      | zero => exact Nat.zero_le _
      | succ k ih => have := hpos k; rw [exScan]; omega
    by_cases hc : n + 1 ≤ 2 + ⌈Real.log n / β⌉₊
    · rw [totalRounds, Nat.min_eq_left hc]
      exact Nat.le_trans (Nat.le_succ n) (hlin _)
    · rw [totalRounds, Nat.min_eq_right (by omega)]
      have h1 : (n : ℝ) ≤ Real.exp ((⌈Real.log n / β⌉₊ : ℕ) * β) := by
        rcases Nat.eq_zero_or_pos n with h | h
        · rw [h]; simp only [Nat.cast_zero]; exact (Real.exp_pos _).le
        · rw [← Real.log_le_iff_le_exp (by exact_mod_cast h)]
          have := Nat.le_ceil (Real.log n / β)
          rwa [div_le_iff₀ hβ] at this
      have h2 := Nat.le_floor h1
      have h3 : exScan (fun i : Nat => ⌊Real.exp (i * β)⌋₊) (⌈Real.log n / β⌉₊ + 1) ≤ exScan (fun i : Nat => ⌊Real.exp (i * β)⌋₊) (2 + ⌈Real.log n / β⌉₊) :=
        exScan_mono _ (by omega)
      rw [exScan] at h3
      omega

/-! ### Example -/

/-- The path 0 - 1 - 2 - 3. -/
def exG : Gr Unit := .ofLists [[(1, ())], [(0, ()), (2, ())], [(1, ()), (3, ())], [(2, ())]] [[(1, ())], [(0, ()), (2, ())], [(1, ()), (3, ())], [(2, ())]]

theorem exG_ok : exG.Ok := Gr.ofLists_ok (by decide)

theorem exSh : Shifts exG.n [0, 1, 3, 6] := ⟨rfl, by decide, 6, by decide, by decide⟩

/-- A run with two clusters; it meets the conditions of the theorems. -/
example : ∃ m, Ldd exG (fun _ _ _ => true) id [0, 1, 3, 6] (some m) ∧ m 0 = 0 ∧ m 1 = 0 ∧ m 2 = 2 ∧ m 3 = 2 := by
  refine ⟨_, .round (by decide) rfl rfl (by decide) (by decide) rfl (by decide) (edgeMap_seq (activeEdges exG _) (mem_activeEdges exG_ok) rfl)
    (.round (by decide) rfl rfl (by decide) (by decide) rfl (by decide) (edgeMap_seq (activeEdges exG _) (mem_activeEdges exG_ok) rfl)
    (.last (by decide) rfl rfl (by decide) (by decide) rfl (by decide))), ?_, ?_, ?_, ?_⟩ <;> decide

example {res : Option (Nat → Nat)} (h : Ldd exG (fun _ _ _ => true) id [0, 1, 3, 6] res) :
    ∃ m, res = some m ∧ ∀ v, v < exG.n → m v < exG.n ∧ m (m v) = m v ∧ ∃ k, k + 1 < 4 ∧ ClWalk exG (fun _ _ _ => true) m (m v) v k :=
  ldd_correct exG_ok (by decide) (fun _ h => h) (fun _ _ _ _ h => h) (fun v hv => ⟨v, hv, rfl⟩) exSh h

end Gbbs.LDD
