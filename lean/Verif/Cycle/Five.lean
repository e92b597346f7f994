/-
C112: the five-cycle counters, `benchmarks/CycleCounting/Parallel5Cycle/FiveCycle.h`: Kowalik's algorithm.
-/
import Verif.Cycle.Tuples
import Mathlib.Data.List.Sort
import Mathlib.Data.List.Count
import Mathlib.Algebra.Order.BigOperators.Group.List

namespace Gbbs.Cyc

open Finset (univ)

/-! ### Model -/

/-- A graph without weights (`symmetric_graph<symmetric_vertex, empty>`). -/
structure CG where
  n : Nat
  nb : Nat → List Nat

/-- `relabel_graph`, `FiveCycle.h:135-198`: vertex `i` of the new graph is `order_to_vertex[i]`; every list is sorted in descending order. The number of edges
is stored in a `uintE` before the array of the edges is allocated with it (`:155`, `:162`); `none` if the array is too short. -/
def relabel (G : CG) (o : List Nat) : Option CG :=
  let m := ((List.range G.n).map fun u => (G.nb u).length).sum
  if m % 2 ^ 32 < m then none
  else some ⟨G.n, fun i => match o[i]? with
    | some v => ((G.nb v).map fun x => o.idxOf x).mergeSort fun a b => decide (b ≤ a)
    | none => []⟩

/-- `orderNodesByDegree`, `:236-252`: an unstable sort by degree, highest first. -/
def DegOrder (G : CG) (o : List Nat) : Prop := o.Perm (List.range G.n) ∧ o.Pairwise fun u v => (G.nb v).length ≤ (G.nb u).length

/-- `filterGraph(GDO, direction)`, `:372-375` (C28: the lists are filtered in order). -/
def CG.dir (G : CG) (rank : Nat → Nat) (u : Nat) : List Nat := (G.nb u).filter fun v => decide (rank u < rank v)

/-- `U_FastReset`, `:68-101`, of a worker: the size of both arrays, `U`, and `distinct` up to `num_distinct`. -/
structure Wk where
  k : Nat
  U : Nat → Int
  D : List Nat

/-- After `alloc(n)`, `:73-82`: `calloc`. -/
def Wk.fresh (n : Nat) : Wk := ⟨n, fun _ => 0, []⟩

/-- `reset`, `:84-90`. -/
def Wk.reset (s : Wk) : Wk := ⟨s.k, fun x => if x ∈ s.D then 0 else s.U x, []⟩

/-- `:308-312`: registers `w` if it is new, and increases `U[w]`. `none` for an access outside of an array. -/
def Wk.bump (s : Wk) (w : Nat) : Option Wk :=
  if w < s.k then
    if s.U w = 0 then
      if s.D.length < s.k then some ⟨s.k, fun x => if x = w then (s.U x + 1) % 2 ^ 32 else s.U x, s.D ++ [w]⟩ else none
    else some ⟨s.k, fun x => if x = w then (s.U x + 1) % 2 ^ 32 else s.U x, s.D⟩
  else none

/-- `U[w] += d`, `:321`, `:351`. -/
def Wk.add (d : Int) (s : Wk) (w : Nat) : Option Wk :=
  if w < s.k then some ⟨s.k, fun x => if x = w then (s.U x + d) % 2 ^ 32 else s.U x, s.D⟩ else none

/-- `_binary_search`, `:103-126`, with `_linear_search` on the last 16 entries. -/
def binSearch (l : List Nat) (less : Nat → Bool) (start fin : Nat) : Nat :=
  if h : 16 < fin - start then
    if !less (l.getD (start + (fin - start) / 2) 0) then binSearch l less start (start + (fin - start) / 2)
    else binSearch l less (start + (fin - start) / 2 + 1) fin
  else start + ((l.drop start).take (fin - start)).findIdx fun x => !less x
termination_by fin - start
decreasing_by all_goals omega

/-- `w_vi_neighbors`, `:326-341`. -/
def isNgb (l : List Nat) (w : Nat) : Bool :=
  let j := binSearch l (fun x => decide (w < x)) 0 l.length
  decide (j < l.length) && l.getD j 0 == w

/-- The entries visited by a loop `for (k = 0; (k < degree) && ((w = nghs[k]) > i); k++)`. -/
def up (i : Nat) (l : List Nat) : List Nat := l.takeWhile fun u => decide (i < u)

/-- `:343-347`. -/
def tally (a : Wk) (nw : Bool) (u : Nat) (t : Int) (x : Nat) : Option Int :=
  if x = u then some t
  else if x < a.k then some ((t + (a.U x - if nw then 1 else 0) % 2 ^ 32) % 2 ^ 64) else none

/-- The body of the second loop of `Count5CycleVertex`, `:316-353`. -/
def sweep (gd dg : Nat → List Nat) (i : Nat) (p : Wk × Int) (u : Nat) : Option (Wk × Int) :=
  ((up i (gd u)).foldlM (Wk.add (-1)) p.1).bind fun a =>
  ((up i (gd u)).foldlM (fun t w => (up i (dg w)).foldlM (tally a (isNgb (gd i) w) u) t) p.2).bind fun t =>
  ((up i (gd u)).foldlM (Wk.add 1) a).map fun c => (c, t)

/-- `Count5CycleVertex`, `:284-357`. -/
def countVertex (gd dg : Nat → List Nat) (s : Wk) (i : Nat) : Option (Wk × Int) :=
  if gd i = [] then some (s, 0)
  else (((up i (gd i)).foldlM (fun s u => (up i (gd u)).foldlM Wk.bump s) s).bind fun s1 => (up i (gd i)).foldlM (sweep gd dg i) (s1, 0)).map fun p => (p.1.reset, p.2)

/-- Several vertices with the memory of one worker; the counts are added to one counter (`ulong`), `:429-431`, `:525-528`. -/
def countList (gd dg : Nat → List Nat) (s : Wk) (l : List Nat) : Option (Wk × Int) :=
  l.foldlM (fun p i => (countVertex gd dg p.1 i).map fun r => (r.1, (p.2 + r.2) % 2 ^ 64)) (s, 0)

/-- `Count5Cycle_serial`, `:481-533`, after the preprocessing (`:491-514`). -/
def countSerial (H : CG) (rank : Nat → Nat) : Option Int := (countList H.nb (H.dir rank) (Wk.fresh H.n) (List.range H.n)).map Prod.snd

/-- The parallel loops, `:449-459` and `:570-577`. `sched` lists the blocks in the order in which they are executed, each with its worker; workers share no memory except for
the counters, of which each block has its own. `parallel_for_alloc` (`gbbs/bridge.h:81-93`) keeps the memory of a worker in a `static thread_local` variable. The sum is `parlay::reduce`. -/
def countPar (gd dg : Nat → List Nat) (blk : Nat → List Nat) (sched : List (Nat × Nat)) (st : Nat → Wk) : Option ((Nat → Wk) × Int) :=
  sched.foldlM (fun p b => (countList gd dg (p.1 b.2) (blk b.1)).map fun r => (fun j => if j = b.2 then r.1 else p.1 j, (p.2 + r.2) % 2 ^ 64)) (st, 0)

/-- `parallel_work` after the scan, `:382-393`, `:407`: for each vertex, the sum of the degrees of the neighbours of the vertices before it. -/
def work (H : CG) (i : Nat) : Nat := ((List.range i).map fun v => ((H.nb v).map fun x => (H.nb x).length).sum).sum

/-- The number of blocks and the work per block, `:409-413` with `block_size` 5000000, `:963-966` with 50000; `none` for a division by zero. -/
def plan (size total : Nat) : Option (Nat × Nat) :=
  let w := total / (total / size + 1)
  if w = 0 then none else some (total / w + 1, w)

/-- The vertices of a block, `:453-458`: `parlay::binary_search` returns the number of entries below its argument. -/
def block (H : CG) (w b : Nat) : List Nat :=
  let s := (List.range H.n).countP fun i => decide (work H i < b * w)
  let e := (List.range H.n).countP fun i => decide (work H i < (b + 1) * w)
  (List.range (e - s)).map (· + s)

/-! ### Specification -/

/-- Symmetric, in range, without self-loops and parallel edges. -/
structure CG.Ok (G : CG) : Prop where
  lt : ∀ u v, v ∈ G.nb u → u < G.n ∧ v < G.n
  nodup : ∀ u, (G.nb u).Nodup
  symm : ∀ u v, v ∈ G.nb u → u ∈ G.nb v
  loop : ∀ u, u ∉ G.nb u

/-- The number of five-cycles: each is given by ten tuples. -/
def CG.cycles (G : CG) : Nat := tuples (fun a b => b ∈ G.nb a) G.n / 10

/-! ### Proof: relabelling -/

theorem tuples_map {n : Nat} {adj adj' : Nat → Nat → Prop} [∀ a b, Decidable (adj a b)] [∀ a b, Decidable (adj' a b)] (e : Fin n ≃ Fin n)
    (h : ∀ a b : Fin n, adj' a b ↔ adj (e a) (e b)) : tuples adj' n = tuples adj n := by
  unfold tuples
  refine Finset.card_equiv (e.prodCongr (e.prodCongr (e.prodCongr (e.prodCongr e)))) fun t => ?_
  rw [Finset.mem_filter, Finset.mem_filter]
  simp only [Finset.mem_univ, true_and, Equiv.prodCongr_apply, Prod.map_fst, Prod.map_snd, IsCycle, ← h]
  have hn : ∀ a b : Fin n, ((e a : Fin n) : Nat) ≠ e b ↔ (a : Nat) ≠ b := fun a b =>
    not_congr ⟨fun h => by rw [e.injective (Fin.ext h)], fun h => by rw [Fin.ext h]⟩
  simp only [hn]

/-- The graph after relabelling: lists in descending order. -/
structure CG.Sorted (H : CG) : Prop extends CG.Ok H where
  desc : ∀ u, (H.nb u).Pairwise (· > ·)

theorem relabel_spec {G H : CG} (hG : G.Ok) {o : List Nat} (ho : o.Perm (List.range G.n)) (h : relabel G o = some H) :
    H.Sorted ∧ H.n = G.n ∧ H.cycles = G.cycles ∧ ((∃ u v, v ∈ G.nb u) → ∃ a b, b ∈ H.nb a) := by
  have hnd : o.Nodup := ho.nodup_iff.2 List.nodup_range
  have hlen : o.length = G.n := by rw [ho.length_eq, List.length_range]
  have hmem : ∀ v, v ∈ o ↔ v < G.n := fun v => by rw [ho.mem_iff, List.mem_range]
  have hinj : ∀ a b, a < G.n → b < G.n → o.idxOf a = o.idxOf b → a = b := fun a b ha hb h => (List.idxOf_inj ((hmem a).2 ha)).1 h
  unfold relabel at h
  dsimp only at h
  split at h
  · cases h
  injection h with h
  subst h
  have hnb : ∀ a b : Nat, b ∈ (match o[a]? with
      | some v => ((G.nb v).map fun x => o.idxOf x).mergeSort fun a b => decide (b ≤ a)
      | none => []) ↔ ∃ u v, o[a]? = some u ∧ o[b]? = some v ∧ v ∈ G.nb u := by
    intro a b
    cases hu : o[a]? with
    | none => simp
    | some u =>
      simp only [(List.mergeSort_perm _ _).mem_iff, List.mem_map]
      constructor
      · rintro ⟨v, hv, rfl⟩
        exact ⟨u, v, rfl, by
          have : o.idxOf v < o.length := List.idxOf_lt_length_iff.2 ((hmem v).2 (hG.lt u v hv).2)
          rw [List.getElem?_eq_getElem this, List.getElem_idxOf], hv⟩
      · rintro ⟨u', v, h1, h2, h3⟩
        injection h1 with h1
        subst h1
        refine ⟨v, h3, ?_⟩
        obtain ⟨hb, e⟩ := List.getElem?_eq_some_iff.1 h2
        rw [← e]
        exact hnd.idxOf_getElem b hb
  have hget : ∀ {a u : Nat}, o[a]? = some u → a < G.n ∧ u < G.n := fun {a u} h => by
    obtain ⟨ha, e⟩ := List.getElem?_eq_some_iff.1 h
    exact ⟨hlen ▸ ha, (hmem u).1 (e ▸ List.getElem_mem ha)⟩
  have hsame : ∀ {a b u : Nat}, o[a]? = some u → o[b]? = some u → a = b := fun {a b u} h1 h2 => by
    obtain ⟨ha, e1⟩ := List.getElem?_eq_some_iff.1 h1
    obtain ⟨hb, e2⟩ := List.getElem?_eq_some_iff.1 h2
    exact (hnd.getElem_inj_iff).1 (e1.trans e2.symm)
  refine ⟨⟨⟨fun u v hv => ?_, fun u => ?_, fun u v hv => ?_, fun u hu => ?_⟩, fun u => ?_⟩, rfl, ?_, ?_⟩
  · obtain ⟨a, b, h1, h2, -⟩ := (hnb u v).1 hv
    exact ⟨(hget h1).1, (hget h2).1⟩
  · dsimp only
    split
    · rename_i v hv
      refine (List.mergeSort_perm _ _).nodup_iff.2 (List.Nodup.map_on (fun a ha b hb => hinj a b (hG.lt _ _ ha).2 (hG.lt _ _ hb).2) (hG.nodup v))
    · exact List.nodup_nil
  · obtain ⟨a, b, h1, h2, h3⟩ := (hnb u v).1 hv
    exact (hnb v u).2 ⟨b, a, h2, h1, hG.symm _ _ h3⟩
  · obtain ⟨a, b, h1, h2, h3⟩ := (hnb u u).1 hu
    rw [h1] at h2
    injection h2 with h2
    subst h2
    exact hG.loop _ h3
  · dsimp only
    split
    · rename_i v hv
      have h1 : (((G.nb v).map fun x => o.idxOf x).mergeSort fun a b => decide (b ≤ a)).Pairwise (fun a b => b ≤ a) :=
        (List.pairwise_mergeSort (fun a b c => by simpa using fun h1 h2 => Nat.le_trans h2 h1) (fun a b => by simpa using Nat.le_total b a) _).imp (by simp)
      have h2 : (((G.nb v).map fun x => o.idxOf x).mergeSort fun a b => decide (b ≤ a)).Nodup :=
        (List.mergeSort_perm _ _).nodup_iff.2 (List.Nodup.map_on (fun a ha b hb => hinj a b (hG.lt _ _ ha).2 (hG.lt _ _ hb).2) (hG.nodup v))
      exact h1.imp₂ (fun a b h1 h2 => Nat.lt_of_le_of_ne h1 (Ne.symm h2)) h2
    · exact List.Pairwise.nil
  · unfold CG.cycles
    dsimp only
    congr 1
    have hf : ∀ i : Fin G.n, o[i.1]'(by rw [hlen]; exact i.2) < G.n := fun i => (hmem _).1 (List.getElem_mem _)
    let e : Fin G.n ≃ Fin G.n := Equiv.ofBijective (fun i => ⟨o[i.1]'(by rw [hlen]; exact i.2), hf i⟩)
      (Finite.injective_iff_bijective.1 fun a b h => Fin.ext ((hnd.getElem_inj_iff).1 (Fin.mk.inj h)))
    refine tuples_map e fun a b => ?_
    rw [hnb]
    have h1 : ∀ i : Fin G.n, o[i.1]? = some (e i).1 := fun i => List.getElem?_eq_getElem (by rw [hlen]; exact i.2)
    rw [h1, h1]
    constructor
    · rintro ⟨u, v, h2, h3, h4⟩
      injection h2 with h2
      injection h3 with h3
      subst h2 h3
      exact h4
    · exact fun h => ⟨_, _, rfl, rfl, h⟩
  · rintro ⟨u, v, huv⟩
    obtain ⟨a, ha⟩ := List.mem_iff_getElem?.1 ((hmem u).2 (hG.lt _ _ huv).1)
    obtain ⟨b, hb⟩ := List.mem_iff_getElem?.1 ((hmem v).2 (hG.lt _ _ huv).2)
    exact ⟨a, b, (hnb a b).2 ⟨u, v, ha, hb, huv⟩⟩

/-! ### Proof: lists -/

theorem mem_up {i x : Nat} {l : List Nat} (h : l.Pairwise (· > ·)) : x ∈ up i l ↔ x ∈ l ∧ i < x := by
  induction l with
  | nil => simp [up]
  | cons a l ih =>
    obtain ⟨h1, h2⟩ := List.pairwise_cons.1 h
    unfold up at ih ⊢
    rw [List.takeWhile_cons]
    by_cases ha : i < a
    · rw [if_pos (by simpa using ha), List.mem_cons, ih h2, List.mem_cons]
      constructor
      · rintro (rfl | h)
        · exact ⟨.inl rfl, ha⟩
        · exact ⟨.inr h.1, h.2⟩
      · rintro ⟨rfl | h, h'⟩
        · exact .inl rfl
        · exact .inr ⟨h, h'⟩
    · rw [if_neg (by simpa using ha)]
      constructor
      · intro h; cases h
      · rintro ⟨h, h'⟩
        rcases List.mem_cons.1 h with rfl | h
        · exact absurd h' ha
        · have := h1 x h; omega

theorem up_nodup {i : Nat} {l : List Nat} (h : l.Nodup) : (up i l).Nodup := h.sublist (List.takeWhile_sublist _)

/-- The search returns the first position at which `less` fails. -/
theorem binSearch_eq {l : List Nat} {less : Nat → Bool} {p : Nat} (h : ∀ j, j < l.length → (less (l.getD j 0) = true ↔ j < p)) (start fin : Nat)
    (h1 : start ≤ p) (h2 : p ≤ fin) (h3 : fin ≤ l.length) : binSearch l less start fin = p := by
  induction hd : fin - start using Nat.strong_induction_on generalizing start fin with
  | _ d ih =>
    unfold binSearch
    split
    · rename_i hlt
      have hm := h (start + (fin - start) / 2) (by omega)
      by_cases hc : less (l.getD (start + (fin - start) / 2) 0) = true
      · rw [if_neg (by simp only [hc]; decide)]
        have := hm.1 hc
        exact ih _ (by omega) _ _ (by omega) h2 h3 rfl
      · rw [if_pos (by simp only [Bool.not_eq_true] at hc; rw [hc]; rfl)]
        have : ¬ _ := mt hm.2 hc
        exact ih _ (by omega) _ _ h1 (by omega) (by omega) rfl
    · suffices hs : ((l.drop start).take (fin - start)).findIdx (fun x => !less x) = p - start by omega
      have hlen : ((l.drop start).take (fin - start)).length = fin - start := by rw [List.length_take, List.length_drop]; omega
      have hg : ∀ j, (hj : j < fin - start) → (((l.drop start).take (fin - start))[j]'(by omega)) = l.getD (start + j) 0 := by
        intro j hj
        rw [List.getElem_take, List.getElem_drop, List.getD_eq_getElem?_getD, List.getElem?_eq_getElem (by omega)]
        rfl
      by_cases he : p = fin
      · rw [List.findIdx_eq_length.2, hlen, he]
        intro x hx
        obtain ⟨j, hj, rfl⟩ := List.mem_iff_getElem.1 hx
        rw [hg j (by omega), (h (start + j) (by omega)).2 (by omega)]
        rfl
      · refine (List.findIdx_eq (by omega)).2 ⟨?_, fun j hj => ?_⟩
        · rw [hg _ (by omega)]
          have : ¬ (less (l.getD (start + (p - start)) 0) = true) := mt (h _ (by omega)).1 (by omega)
          rw [Bool.not_eq_true] at this
          rw [this]; rfl
        · rw [hg _ (by omega), (h (start + j) (by omega)).2 (by omega)]
          rfl

theorem isNgb_iff {l : List Nat} (h : l.Pairwise (· > ·)) (w : Nat) : isNgb l w = decide (w ∈ l) := by
  have hp : ∃ p, p ≤ l.length ∧ ∀ j, j < l.length → (decide (w < l.getD j 0) = true ↔ j < p) := by
    refine ⟨(up w l).length, (List.takeWhile_sublist _).length_le, fun j hj => ?_⟩
    have hg : l.getD j 0 = l[j] := by rw [List.getD_eq_getElem?_getD, List.getElem?_eq_getElem hj]; rfl
    rw [hg, decide_eq_true_iff]
    constructor
    · intro hlt
      by_contra hc
      have hm : l[j] ∈ up w l := (mem_up h).2 ⟨List.getElem_mem hj, hlt⟩
      obtain ⟨k, hk, e⟩ := List.mem_iff_getElem.1 hm
      have hpre := List.takeWhile_prefix (l := l) fun u => decide (w < u)
      have hk' : k < l.length := Nat.lt_of_lt_of_le hk hpre.length_le
      have e2 : (up w l)[k] = l[k] := hpre.getElem hk
      have := (List.pairwise_iff_getElem.1 h) k j hk' hj (by omega)
      rw [e2] at e
      omega
    · intro hlt
      have hpre := List.takeWhile_prefix (l := l) fun u => decide (w < u)
      have e2 : (up w l)[j] = l[j] := hpre.getElem hlt
      rw [← e2]
      exact ((mem_up h).1 (List.getElem_mem hlt)).2
  obtain ⟨p, hp1, hp2⟩ := hp
  unfold isNgb
  rw [binSearch_eq hp2 0 l.length (Nat.zero_le _) hp1 (Nat.le_refl _)]
  dsimp only
  rw [Bool.eq_iff_iff, Bool.and_eq_true, decide_eq_true_iff, beq_iff_eq, decide_eq_true_iff]
  constructor
  · rintro ⟨h1, h2⟩
    rw [← h2, List.getD_eq_getElem?_getD, List.getElem?_eq_getElem h1]
    exact List.getElem_mem h1
  · intro hw
    obtain ⟨j, hj, e⟩ := List.mem_iff_getElem.1 hw
    have hg : l.getD j 0 = w := by rw [List.getD_eq_getElem?_getD, List.getElem?_eq_getElem hj]; exact e
    have h1 : p ≤ j := by
      by_contra hc
      have := (hp2 j hj).2 (by omega)
      rw [hg, decide_eq_true_iff] at this
      omega
    have h2 : j ≤ p := by
      by_contra hc
      have h3 := (List.pairwise_iff_getElem.1 h) p j (by omega) hj (by omega)
      have h4 := (hp2 p (by omega)).1
      rw [decide_eq_true_iff, List.getD_eq_getElem?_getD, List.getElem?_eq_getElem (by omega)] at h4
      have : p < p := h4 (by simp only [Option.getD_some]; omega)
      omega
    have : j = p := by omega
    subst this
    exact ⟨hj, hg⟩

theorem countP_ne {p : Nat → Prop} [DecidablePred p] {l : List Nat} (h : l.Nodup) (a : Nat) :
    l.countP (fun y => decide (p y)) = l.countP (fun y => decide (p y ∧ y ≠ a)) + if a ∈ l ∧ p a then 1 else 0 := by
  induction l with
  | nil => simp
  | cons b l ih =>
    obtain ⟨h1, h2⟩ := List.nodup_cons.1 h
    rw [List.countP_cons, List.countP_cons, ih h2]
    by_cases hb : b = a
    · subst hb
      by_cases hp : p b
      · simp [hp, h1]
      · simp [hp]
    · have hb' : a ≠ b := Ne.symm hb
      simp only [ne_eq, hb, not_false_eq_true, and_true, List.mem_cons, hb', false_or]
      omega

theorem list_sum {n : Nat} {l : List Nat} (h : l.Nodup) (hl : ∀ x ∈ l, x < n) (f : Nat → Nat) : (l.map f).sum = ∑ v : Fin n, if (v : Nat) ∈ l then f v else 0 := by
  rw [Fin.sum_univ_eq_sum_range (fun v => if v ∈ l then f v else 0) n, ← Finset.sum_filter]
  rw [← List.sum_toFinset _ h]
  refine Finset.sum_congr ?_ fun _ _ => rfl
  ext x
  simp only [List.mem_toFinset, Finset.mem_filter, Finset.mem_range]
  exact ⟨fun hx => ⟨hl x hx, hx⟩, fun hx => hx.2⟩

theorem list_count {n : Nat} {l : List Nat} (h : l.Nodup) (hl : ∀ x ∈ l, x < n) (p : Nat → Prop) [DecidablePred p] :
    l.countP (fun y => decide (p y)) = ∑ v : Fin n, if (v : Nat) ∈ l ∧ p v then 1 else 0 := by
  have e : ∀ l : List Nat, l.length = (l.map fun _ => 1).sum := fun l => by simp
  rw [List.countP_eq_length_filter, e, list_sum (h.filter _) (fun x hx => hl x (List.mem_filter.1 hx).1)]
  refine Finset.sum_congr rfl fun v _ => ?_
  simp [List.mem_filter]

/-! ### Proof: folds -/

theorem foldlM_flat {α β γ : Type} (f : γ → β → Option γ) (g : α → List β) (l : List α) (s : γ) :
    l.foldlM (fun s a => (g a).foldlM f s) s = (l.flatMap g).foldlM f s := by
  induction l generalizing s with
  | nil => rfl
  | cons a l ih =>
    rw [List.foldlM_cons, List.flatMap_cons, List.foldlM_append]
    congr 1
    funext s'
    exact ih s'

theorem fold_sum {α σ : Type} {M : Int} {step : σ × Int → α → Option (σ × Int)} {s : σ} {g : α → Nat} {l : List α}
    (h : ∀ x ∈ l, ∀ t : Int, t % M = t → step (s, t) x = some (s, (t + g x) % M)) {t : Int} (ht : t % M = t) :
    l.foldlM step (s, t) = some (s, (t + (l.map g).sum) % M) := by
  induction l generalizing t with
  | nil => simp [ht]
  | cons a l ih =>
    rw [List.foldlM_cons, h a List.mem_cons_self t ht]
    show l.foldlM step (s, (t + g a) % M) = _
    rw [ih (fun x hx => h x (List.mem_cons_of_mem _ hx)) (Int.emod_emod_of_dvd _ (dvd_refl M)), List.map_cons, List.sum_cons, Nat.cast_add, ← add_assoc, Int.emod_add_emod]

theorem fold_sum' {α : Type} {M : Int} {step : Int → α → Option Int} {g : α → Nat} {l : List α}
    (h : ∀ x ∈ l, ∀ t : Int, t % M = t → step t x = some ((t + g x) % M)) {t : Int} (ht : t % M = t) :
    l.foldlM step t = some ((t + (l.map g).sum) % M) := by
  induction l generalizing t with
  | nil => simp [ht]
  | cons a l ih =>
    rw [List.foldlM_cons, h a List.mem_cons_self t ht]
    show l.foldlM step ((t + g a) % M) = _
    rw [ih (fun x hx => h x (List.mem_cons_of_mem _ hx)) (Int.emod_emod_of_dvd _ (dvd_refl M)), List.map_cons, List.sum_cons, Nat.cast_add, ← add_assoc, Int.emod_add_emod]

theorem add_all (d : Int) (l : List Nat) (s : Wk) (hl : ∀ x ∈ l, x < s.k) (hU : ∀ x, s.U x % 2 ^ 32 = s.U x) :
    l.foldlM (Wk.add d) s = some ⟨s.k, fun x => (s.U x + d * l.count x) % 2 ^ 32, s.D⟩ := by
  induction l generalizing s with
  | nil =>
    obtain ⟨k, U, D⟩ := s
    simp only [List.foldlM_nil, List.count_nil, Nat.cast_zero, mul_zero, add_zero]
    simp only at hU
    rw [funext hU]; rfl
  | cons a l ih =>
    rw [List.foldlM_cons]
    have h1 : Wk.add d s a = some ⟨s.k, fun x => if x = a then (s.U x + d) % 2 ^ 32 else s.U x, s.D⟩ := if_pos (hl a List.mem_cons_self)
    rw [h1]
    show l.foldlM (Wk.add d) _ = _
    rw [ih ⟨s.k, fun x => if x = a then (s.U x + d) % 2 ^ 32 else s.U x, s.D⟩ (fun x hx => hl x (List.mem_cons_of_mem _ hx)) (fun x => by
      dsimp only
      split
      · exact Int.emod_emod_of_dvd _ (dvd_refl _)
      · exact hU x)]
    congr 2
    funext x
    dsimp only
    by_cases hx : x = a
    · subst hx
      rw [if_pos rfl, List.count_cons_self, Nat.cast_add, Nat.cast_one, Int.emod_add_emod]
      congr 1
      ring
    · rw [if_neg hx, List.count_cons_of_ne (Ne.symm hx)]

theorem bump_all {n : Nat} (L : List Nat) (base : List Nat) (s : Wk) (hk : n ≤ s.k) (hU : ∀ x, s.U x = base.count x) (hD : s.D.Nodup) (hm : ∀ x, x ∈ s.D ↔ x ∈ base)
    (hb : ∀ x ∈ base, x < n) (hL : ∀ x ∈ L, x < n) (hc : ∀ x, (base ++ L).count x < 2 ^ 32) :
    ∃ D', L.foldlM Wk.bump s = some ⟨s.k, fun x => (base ++ L).count x, D'⟩ ∧ ∀ x, x ∈ D' ↔ x ∈ base ++ L := by
  induction L generalizing base s with
  | nil =>
    obtain ⟨k, U, D⟩ := s
    refine ⟨D, ?_, by simpa using hm⟩
    simp only [List.append_nil]
    rw [← funext hU]; rfl
  | cons a L ih =>
    have ha := hL a List.mem_cons_self
    have hnext : ∀ x, (if x = a then (s.U x + 1) % 2 ^ 32 else s.U x) = ((base ++ [a]).count x : Nat) := by
      intro x
      by_cases hx : x = a
      · subst hx
        rw [if_pos rfl, hU, List.count_append, List.count_singleton_self]
        have := hc x
        rw [List.count_append, List.count_cons_self] at this
        rw [Int.emod_eq_of_lt (by omega) (by omega)]
        rfl
      · rw [if_neg hx, hU, List.count_append, List.count_singleton]
        have : ¬ (a == x) = true := by simpa using Ne.symm hx
        simp [this]
    have step : ∃ D1, Wk.bump s a = some ⟨s.k, fun x => if x = a then (s.U x + 1) % 2 ^ 32 else s.U x, D1⟩ ∧ D1.Nodup ∧ ∀ x, x ∈ D1 ↔ x ∈ base ++ [a] := by
      unfold Wk.bump
      rw [if_pos (Nat.lt_of_lt_of_le ha hk)]
      by_cases h0 : s.U a = 0
      · have hnb : a ∉ base := by
          rw [hU] at h0
          exact List.count_eq_zero.1 (by omega)
        have hnd : a ∉ s.D := fun h => hnb ((hm a).1 h)
        have hnd' : (s.D ++ [a]).Nodup := by
          rw [List.nodup_append]
          exact ⟨hD, List.nodup_singleton a, fun x hx y hy => by rw [List.mem_singleton] at hy; subst hy; exact fun e => hnd (e ▸ hx)⟩
        have hlen : (s.D ++ [a]).length ≤ n := by
          have hsub : (s.D ++ [a]) ⊆ List.range n := fun x hx => by
            rw [List.mem_range]
            rcases List.mem_append.1 hx with h | h
            · exact hb x ((hm x).1 h)
            · rw [List.mem_singleton] at h; subst h; exact ha
          simpa using (hnd'.subperm hsub).length_le
        rw [if_pos h0, if_pos (by rw [List.length_append, List.length_singleton] at hlen; omega)]
        exact ⟨_, rfl, hnd', fun x => by rw [List.mem_append, List.mem_append, hm]⟩
      · rw [if_neg h0]
        refine ⟨_, rfl, hD, fun x => ?_⟩
        rw [hm, List.mem_append, List.mem_singleton]
        refine ⟨.inl, fun h => h.elim id fun e => ?_⟩
        subst e
        by_contra hc'
        rw [hU, List.count_eq_zero.2 hc'] at h0
        exact h0 rfl
    obtain ⟨D1, h1, h2, h3⟩ := step
    rw [List.foldlM_cons, h1]
    obtain ⟨D', h4, h5⟩ := ih (base ++ [a]) ⟨s.k, fun x => if x = a then (s.U x + 1) % 2 ^ 32 else s.U x, D1⟩ hk hnext h2 h3
      (fun x hx => by
        rcases List.mem_append.1 hx with h | h
        · exact hb x h
        · rw [List.mem_singleton] at h; subst h; exact ha) (fun x hx => hL x (List.mem_cons_of_mem _ hx)) (by simpa using hc)
    rw [List.append_assoc, List.singleton_append] at h4 h5
    exact ⟨D', h4, h5⟩

/-! ### Proof: one vertex -/

/-- No entry of `U` is set. -/
def Wk.Clean (n : Nat) (s : Wk) : Prop := n ≤ s.k ∧ s.U = (fun _ => 0) ∧ s.D = []

/-- What is counted at `i`. -/
def countAt (H : CG) (rank : Nat → Nat) (i : Nat) : Nat :=
  ((up i (H.nb i)).map fun u => ((up i (H.nb u)).map fun w => ((up i (H.dir rank w)).map fun x =>
    if x = u then 0 else (up i (H.nb i)).countP fun y => decide ((x ∈ H.nb y ∧ y ≠ u) ∧ y ≠ w)).sum).sum).sum

section
variable {H : CG} {rank : Nat → Nat}

theorem dir_desc (hH : H.Sorted) (w : Nat) : (H.dir rank w).Pairwise (· > ·) := (hH.desc w).filter _

theorem mem_dir {w x : Nat} : x ∈ H.dir rank w ↔ x ∈ H.nb w ∧ rank w < rank x := by simp [CG.dir]

/-- The ends of the paths of two edges from `i` through larger vertices, with multiplicity. -/
def paths (H : CG) (i : Nat) : List Nat := (up i (H.nb i)).flatMap fun u => up i (H.nb u)

theorem paths_lt (hH : H.Sorted) {i x : Nat} (hx : x ∈ paths H i) : x < H.n := by
  obtain ⟨u, -, hx⟩ := List.mem_flatMap.1 hx
  exact (hH.lt _ _ ((mem_up (hH.desc u)).1 hx).1).2

theorem paths_count (hH : H.Sorted) (i x : Nat) : (paths H i).count x = (up i (H.nb i)).countP fun y => decide (x ∈ up i (H.nb y)) := by
  rw [paths, List.count_flatMap]
  generalize up i (H.nb i) = l
  induction l with
  | nil => rfl
  | cons a l ih =>
    rw [List.map_cons, List.sum_cons, List.countP_cons, ih, Nat.add_comm]
    congr 1
    show List.count x (up i (H.nb a)) = _
    by_cases hx : x ∈ up i (H.nb a)
    · rw [List.count_eq_one_of_mem (up_nodup (hH.nodup a)) hx, if_pos (by simpa using hx)]
    · rw [List.count_eq_zero.2 hx, if_neg (by simpa using hx)]

theorem up_length (hH : H.Sorted) (i : Nat) : (up i (H.nb i)).length ≤ H.n := by
  have : up i (H.nb i) ⊆ List.range H.n := fun x hx => List.mem_range.2 (hH.lt _ _ ((mem_up (hH.desc i)).1 hx).1).2
  simpa using ((up_nodup (hH.nodup i)).subperm this).length_le

theorem paths_count_le (hH : H.Sorted) (i x : Nat) : (paths H i).count x ≤ H.n := by
  rw [paths_count hH]; exact Nat.le_trans List.countP_le_length (up_length hH i)

/-- The second loop of `Count5CycleVertex`, after the first. -/
theorem sweep_all (hH : H.Sorted) (hn : H.n < 2 ^ 32) {k : Nat} (hk : H.n ≤ k) (D' : List Nat) (i : Nat) {t0 : Int} (ht0 : t0 % 2 ^ 64 = t0) :
    (up i (H.nb i)).foldlM (sweep H.nb (H.dir rank) i) ((⟨k, fun x => ((paths H i).count x : Int), D'⟩ : Wk), t0) =
      some (⟨k, fun x => ((paths H i).count x : Int), D'⟩, (t0 + countAt H rank i : Int) % 2 ^ 64) := by
  have husN : (up i (H.nb i)).Nodup := up_nodup (hH.nodup i)
  have hus : ∀ u, u ∈ up i (H.nb i) ↔ u ∈ H.nb i ∧ i < u := fun u => mem_up (hH.desc i)
  have hws : ∀ u w, w ∈ up i (H.nb u) ↔ w ∈ H.nb u ∧ i < w := fun u w => mem_up (hH.desc u)
  have hlen := up_length hH i
  have hcnt := paths_count hH i
  have hcb := paths_count_le hH i
  generalize paths H i = L at hcnt hcb
  have hmod : ∀ x, ((L.count x : Nat) : Int) % 2 ^ 32 = L.count x := fun x => by
    have := hcb x
    exact Int.emod_eq_of_lt (by omega) (by omega)
  have hsweep : ∀ u ∈ up i (H.nb i), ∀ t : Int, t % 2 ^ 64 = t → sweep H.nb (H.dir rank) i ((⟨k, fun x => (L.count x : Int), D'⟩ : Wk), t) u =
      some ((⟨k, fun x => (L.count x : Int), D'⟩ : Wk), (t + (((up i (H.nb u)).map fun w => ((up i (H.dir rank w)).map fun x =>
        if x = u then 0 else (up i (H.nb i)).countP fun y => decide ((x ∈ H.nb y ∧ y ≠ u) ∧ y ≠ w)).sum).sum : Nat)) % 2 ^ 64) := by
    intro u hu t ht
    have hwk : ∀ x ∈ up i (H.nb u), x < k := fun x hx => Nat.lt_of_lt_of_le (hH.lt _ _ ((hws u x).1 hx).1).2 hk
    unfold sweep
    rw [add_all (-1) _ ⟨k, fun x => (L.count x : Int), D'⟩ hwk hmod, Option.bind_some]
    have hone : ∀ x, (((L.count x : Nat) : Int) + -1 * ((up i (H.nb u)).count x : Nat)) % 2 ^ 32 =
        ((up i (H.nb i)).countP (fun y => decide (x ∈ up i (H.nb y) ∧ y ≠ u)) : Nat) := by
      intro x
      have e := countP_ne (p := fun y => x ∈ up i (H.nb y)) husN u
      rw [← hcnt] at e
      have hx : (up i (H.nb u)).count x = if u ∈ up i (H.nb i) ∧ x ∈ up i (H.nb u) then 1 else 0 := by
        by_cases hx : x ∈ up i (H.nb u)
        · rw [List.count_eq_one_of_mem (up_nodup (hH.nodup u)) hx, if_pos ⟨hu, hx⟩]
        · rw [List.count_eq_zero.2 hx, if_neg fun h => hx h.2]
      rw [hx]
      have := hcb x
      rw [Int.emod_eq_of_lt (by omega) (by omega)]
      omega
    rw [fold_sum' (g := fun w => ((up i (H.dir rank w)).map fun x =>
        if x = u then 0 else (up i (H.nb i)).countP fun y => decide ((x ∈ H.nb y ∧ y ≠ u) ∧ y ≠ w)).sum) ?_ ht, Option.bind_some]
    · rw [add_all 1 _ ⟨k, fun x => ((L.count x : Int) + -1 * ((up i (H.nb u)).count x : Nat)) % 2 ^ 32, D'⟩ hwk (fun x => Int.emod_emod_of_dvd _ (dvd_refl _))]
      simp only [Option.map_some]
      congr 3
      funext x
      rw [Int.emod_add_emod]
      rw [show ((L.count x : Nat) : Int) + -1 * ((up i (H.nb u)).count x : Nat) + 1 * ((up i (H.nb u)).count x : Nat) = L.count x by ring]
      exact hmod x
    · intro w hw t ht
      refine fold_sum' (fun x hx t ht => ?_) ht
      obtain ⟨hw1, hw2⟩ := (hws u w).1 hw
      have hx' := (mem_up (dir_desc hH w)).1 hx
      have hxw := (mem_dir.1 hx'.1).1
      unfold tally
      by_cases hxu : x = u
      · rw [if_pos hxu, if_pos hxu, Nat.cast_zero, add_zero, ht]
      · rw [if_neg hxu, if_neg hxu, if_pos (Nat.lt_of_lt_of_le (hH.lt _ _ hxw).2 hk)]
        dsimp only
        rw [hone x, isNgb_iff (hH.desc i)]
        have e := countP_ne (p := fun y => x ∈ up i (H.nb y) ∧ y ≠ u) husN w
        have hwu : w ≠ u := fun e => hH.loop u (e ▸ hw1)
        have hiff : (w ∈ up i (H.nb i) ∧ x ∈ up i (H.nb w) ∧ w ≠ u) ↔ w ∈ H.nb i :=
          ⟨fun h => ((hus w).1 h.1).1, fun h => ⟨(hus w).2 ⟨h, hw2⟩, (hws w x).2 ⟨hxw, hx'.2⟩, hwu⟩⟩
        simp only [hiff] at e
        have hf : (up i (H.nb i)).countP (fun y => decide ((x ∈ up i (H.nb y) ∧ y ≠ u) ∧ y ≠ w)) =
            (up i (H.nb i)).countP (fun y => decide ((x ∈ H.nb y ∧ y ≠ u) ∧ y ≠ w)) :=
          List.countP_congr fun y _ => by simp only [hws y x, hx'.2, and_true]
        rw [hf] at e
        have hle : (up i (H.nb i)).countP (fun y => decide (x ∈ up i (H.nb y) ∧ y ≠ u)) ≤ H.n := Nat.le_trans List.countP_le_length hlen
        have : (((up i (H.nb i)).countP (fun y => decide (x ∈ up i (H.nb y) ∧ y ≠ u)) : Nat) : Int) - (if decide (w ∈ H.nb i) = true then 1 else 0) =
            ((up i (H.nb i)).countP (fun y => decide ((x ∈ H.nb y ∧ y ≠ u) ∧ y ≠ w)) : Nat) := by
          rw [e]
          by_cases hwi : w ∈ H.nb i
          · simp [hwi]
          · simp [hwi]
        rw [this, Int.emod_eq_of_lt (b := 2 ^ 32) (by omega) (by omega)]
  rw [fold_sum hsweep ht0]
  rfl

theorem countVertex_spec (hH : H.Sorted) (hn : H.n < 2 ^ 32) {s : Wk} (hs : s.Clean H.n) (i : Nat) :
    countVertex H.nb (H.dir rank) s i = some (s, (countAt H rank i : Int) % 2 ^ 64) := by
  obtain ⟨hk, hU, hD⟩ := hs
  unfold countVertex
  by_cases h0 : H.nb i = []
  · rw [if_pos h0, countAt, h0]
    rfl
  rw [if_neg h0, foldlM_flat]
  show ((((paths H i).foldlM Wk.bump s).bind _).map _) = _
  obtain ⟨D', h1, h2⟩ := bump_all (n := H.n) (paths H i) [] s hk (fun x => by rw [hU]; rfl) (by rw [hD]; exact List.nodup_nil) (fun x => by rw [hD])
    (fun x hx => by cases hx) (fun x hx => paths_lt hH hx) (fun x => by rw [List.nil_append]; have := paths_count_le hH i x; omega)
  rw [h1]
  simp only [List.nil_append] at h2 ⊢
  rw [Option.bind_some, sweep_all hH hn hk _ _ (by decide), Option.map_some, zero_add]
  refine congrArg some (Prod.ext ?_ ?_)
  · obtain ⟨k, U, D⟩ := s
    simp only at hU hD
    subst hU hD
    simp only [Wk.reset]
    congr 1
    funext x
    split
    · rfl
    · rename_i hx
      rw [h2] at hx
      rw [List.count_eq_zero.2 hx]; rfl
  · rfl

theorem countList_spec (hH : H.Sorted) (hn : H.n < 2 ^ 32) {s : Wk} (hs : s.Clean H.n) (l : List Nat) :
    countList H.nb (H.dir rank) s l = some (s, (((l.map (countAt H rank)).sum : Nat) : Int) % 2 ^ 64) := by
  unfold countList
  rw [fold_sum (M := 2 ^ 64) (g := countAt H rank) (fun i _ t ht => by
    dsimp only
    rw [countVertex_spec hH hn hs, Option.map_some]
    simp only [Int.add_emod_emod]) (by decide)]
  simp

/-- Every tuple counted is the Kowalik representative of a cycle. -/
theorem countAt_sum (hH : H.Sorted) : ((List.range H.n).map (countAt H rank)).sum =
    ∑ t : Tup H.n, (if IsCycle (fun a b => b ∈ H.nb a) t.1 t.2.1 t.2.2.1 t.2.2.2.1 t.2.2.2.2 ∧ (t.1 < t.2.1 ∧ t.1 < t.2.2.1 ∧ t.1 < t.2.2.2.1 ∧ t.1 < t.2.2.2.2) ∧
      rank t.2.2.1 < rank t.2.2.2.1 then 1 else 0) := by
  have hup : ∀ i u, ∀ x ∈ up i (H.nb u), x < H.n := fun i u x hx => (hH.lt _ _ ((mem_up (hH.desc u)).1 hx).1).2
  rw [list_sum List.nodup_range (fun x hx => List.mem_range.1 hx)]
  simp only [Fintype.sum_prod_type]
  refine Finset.sum_congr rfl fun i _ => ?_
  rw [if_pos (List.mem_range.2 i.2), countAt, list_sum (up_nodup (hH.nodup _)) (hup _ _)]
  refine Finset.sum_congr rfl fun u _ => ?_
  rw [list_sum (up_nodup (hH.nodup _)) (hup _ _)]
  by_cases hu : (u : Nat) ∈ up i (H.nb i)
  swap
  · rw [if_neg hu]
    symm
    refine Finset.sum_eq_zero fun w _ => Finset.sum_eq_zero fun x _ => Finset.sum_eq_zero fun y _ => if_neg ?_
    rintro ⟨h1, h2, -⟩
    exact hu ((mem_up (hH.desc _)).2 ⟨h1.1.1, h2.1⟩)
  rw [if_pos hu]
  refine Finset.sum_congr rfl fun w _ => ?_
  by_cases hw : (w : Nat) ∈ up i (H.nb u)
  swap
  · rw [if_neg hw]
    symm
    refine Finset.sum_eq_zero fun x _ => Finset.sum_eq_zero fun y _ => if_neg ?_
    rintro ⟨h1, h2, -⟩
    exact hw ((mem_up (hH.desc _)).2 ⟨h1.1.2.1, h2.2.1⟩)
  rw [if_pos hw, list_sum (up_nodup (show (H.dir rank w).Nodup from (hH.nodup _).filter _)) (fun x hx => (hH.lt _ _ (mem_dir.1 ((mem_up (dir_desc hH _)).1 hx).1).1).2)]
  refine Finset.sum_congr rfl fun x _ => ?_
  by_cases hx : (x : Nat) ∈ up i (H.dir rank w)
  swap
  · rw [if_neg hx]
    symm
    refine Finset.sum_eq_zero fun y _ => if_neg ?_
    rintro ⟨h1, h2, h3⟩
    exact hx ((mem_up (dir_desc hH _)).2 ⟨mem_dir.2 ⟨h1.1.2.2.1, h3⟩, h2.2.2.1⟩)
  rw [if_pos hx]
  obtain ⟨hu1, hu2⟩ := (mem_up (hH.desc _)).1 hu
  obtain ⟨hw1, hw2⟩ := (mem_up (hH.desc _)).1 hw
  obtain ⟨hx1, hx2⟩ := (mem_up (dir_desc hH _)).1 hx
  obtain ⟨hx3, hx4⟩ := mem_dir.1 hx1
  have ne : ∀ {a b : Nat}, b ∈ H.nb a → a ≠ b := fun {a b} h e => hH.loop a (e ▸ h)
  by_cases hxu : (x : Nat) = u
  · rw [if_pos hxu]
    symm
    refine Finset.sum_eq_zero fun y _ => if_neg ?_
    rintro ⟨h1, -⟩
    exact h1.2.2.1.2.1 hxu.symm
  rw [if_neg hxu, list_count (up_nodup (hH.nodup _)) (hup _ _)]
  refine Finset.sum_congr rfl fun y _ => ?_
  refine if_congr ?_ rfl rfl
  rw [mem_up (hH.desc _)]
  constructor
  · rintro ⟨⟨h1, h2⟩, ⟨h3, h4⟩, h5⟩
    exact ⟨⟨⟨hu1, hw1, hx3, hH.symm _ _ h3, hH.symm _ _ h1⟩, ⟨by omega, by omega, by omega, by omega⟩, ⟨ne hw1, fun e => hxu e.symm, fun e => h4 e.symm⟩,
      ⟨ne hx3, fun e => h5 e.symm⟩, (ne h3).symm⟩, ⟨hu2, hw2, hx2, h2⟩, hx4⟩
  · rintro ⟨⟨h1, h2, h3, h4, h5⟩, ⟨-, -, -, h6⟩, -⟩
    exact ⟨⟨hH.symm _ _ h1.2.2.2.2, h6⟩, ⟨hH.symm _ _ h1.2.2.2.1, fun e => h3.2.2 e.symm⟩, fun e => h4.2 e.symm⟩

/-- The counts add up to the number of five-cycles. -/
theorem countAt_total (hH : H.Sorted) (hr : ∀ a b, b ∈ H.nb a → rank a ≠ rank b) : ((List.range H.n).map (countAt H rank)).sum = H.cycles ∧
    10 * H.cycles = tuples (fun a b => b ∈ H.nb a) H.n := by
  have := kowalik_unique (adj := fun a b => b ∈ H.nb a) (fun a b h => hH.symm _ _ h) H.n rank (fun a b h => hr a b h)
  rw [← countAt_sum hH] at this
  unfold CG.cycles
  omega

end

end Gbbs.Cyc
