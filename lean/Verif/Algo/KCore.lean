/-
C37: k-core decomposition, `benchmarks/KCore/JulienneDBS17/KCore.h:31-76`.
-/
import Verif.Algo.UGraph
import Verif.Buckets.Reach

namespace Gbbs.KCore

open Buckets

/-! ### Specification -/

/-- All vertices of `S` have at least `k` neighbours in `S`. -/
def IsCoreSet (G : UG) (S : Nat → Bool) (k : Nat) : Prop := ∀ u, S u → u < G.n ∧ k ≤ (G.nb u).countP S

/-- `k` is the coreness of `v`: the greatest minimum degree of a subgraph with `v`. -/
def IsCoreness (G : UG) (v k : Nat) : Prop :=
  (∃ S, S v ∧ IsCoreSet G S k) ∧ ∀ S j, S v → IsCoreSet G S j → j ≤ k

/-! ### Model -/

/-- `UINT_E_MAX`, the null bucket. -/
def null : Nat := 4294967295

/-- `make_vertex_buckets(n, D, increasing, num_buckets)`, `KCore.h:39`; `opn = num_buckets - 1`. -/
def cfg (opn : Nat) : Cfg := ⟨true, opn, null⟩

/-- `D` initially, `KCore.h:34-35`; identifiers past `n` do not exist. -/
def deg0 (G : UG) (v : Nat) : Nat := if v < G.n then (G.nb v).length else null

/-- `a - b` for `uintE`. -/
def sub32 (a b : Nat) : Nat := if b ≤ a then a - b else a + 4294967296 - b

/-- `apply_f`, `KCore.h:52-62`, on the pairs of the histogram. Each pair reads and writes its own `D[v]`. -/
def moves (k : Nat) (D : Nat → Nat) (h : List (Nat × Nat)) : List (Nat × Nat) :=
  h.filterMap fun p => if D p.1 > k then some (p.1, max (sub32 (D p.1) p.2) k) else none

/-- One iteration of the loop, `KCore.h:43-73`. `nghCount` with `no_dense` is `edgeMapCount_sparse`
(`edge_map_reduce.h:98-123`): a histogram, in any order, of the neighbours of the extracted vertices. -/
inductive Step (c : Cfg) (G : UG) : (Nat → Nat) → BS → Nat → (Nat → Nat) → BS → Nat → Prop
  | mk {D st fin fuel k ids st1 h st2} (hf : fin ≠ G.n) (hn : nextBucket c D fuel st = some (k, ids, st1))
      (hh : IsHist (ids.flatMap G.nb) h) (hu : moveTo1 c st1 (moves k D h) = some st2) :
      Step c G D st fin (setAll D (moves k D h)) st2 (fin + ids.length)

/-- Iterations, `KCore.h:43-73`, counted. -/
inductive Run (c : Cfg) (G : UG) : Nat → (Nat → Nat) → BS → Nat → (Nat → Nat) → BS → Nat → Prop
  | nil {D st fin} : Run c G 0 D st fin D st fin
  | cons {j D st fin D' st' fin' D'' st'' fin''} (h : Run c G j D st fin D' st' fin')
      (hs : Step c G D' st' fin' D'' st'' fin'') : Run c G (j + 1) D st fin D'' st'' fin''

/-- The state after `j` iterations. -/
def After (opn : Nat) (G : UG) (j : Nat) (D : Nat → Nat) (st : BS) (fin : Nat) : Prop :=
  ∃ st0, create (cfg opn) G.n (deg0 G) = some st0 ∧ Run (cfg opn) G j (deg0 G) st0 0 D st fin

/-- `KCore(G, opn + 1)`, `KCore.h:31-76`: returns `D`. -/
def KCore (opn : Nat) (G : UG) (D : Nat → Nat) : Prop := ∃ j st, After opn G j D st G.n

/-! ### Peeling -/

section
open Classical

/-- Degree in the remaining graph. -/
noncomputable def rdeg (G : UG) (P : Nat → Prop) (v : Nat) : Nat := (G.nb v).countP (fun u => decide (P u))

/-- `P`: the remaining vertices, `lb`: the last value of `k`. -/
structure Peel (G : UG) (P : Nat → Prop) (D : Nat → Nat) (lb : Nat) : Prop where
  bound : ∀ v, P v → v < G.n
  val : ∀ v, P v → D v = max (rdeg G P v) lb
  lo : ∃ S, IsCoreSet G S lb ∧ ∀ v, P v → S v
  hi : ∀ S j, lb < j → IsCoreSet G S j → ∀ v, S v → P v
  done : ∀ v, v < G.n → ¬ P v → IsCoreness G v (D v) ∧ D v ≤ lb

theorem Peel.step {G : UG} {P P' : Nat → Prop} {D D' : Nat → Nat} {lb k : Nat} (h : Peel G P D lb)
    (hne : ∃ v, P v ∧ D v = k) (hmin : ∀ v, P v → k ≤ D v) (hP' : ∀ v, P' v ↔ P v ∧ D v ≠ k)
    (hval : ∀ v, P' v → D' v = max (rdeg G P' v) k) (hold : ∀ v, ¬ P' v → D' v = D v) : Peel G P' D' k := by
  obtain ⟨v0, hv0, hk0⟩ := hne
  have hlb : lb ≤ k := by rw [← hk0, h.val v0 hv0]; exact Nat.le_max_right _ _
  -- a set in which all remaining vertices have degree at least `k`
  have hlo : ∃ S, IsCoreSet G S k ∧ ∀ v, P v → S v := by
    by_cases he : k = lb
    · rw [he]; exact h.lo
    · refine ⟨fun v => decide (P v), fun u hu => ?_, fun v hv => by simpa using hv⟩
      have hu : P u := by simpa using hu
      refine ⟨h.bound u hu, ?_⟩
      have h1 := hmin u hu
      rw [h.val u hu] at h1
      have : k ≤ rdeg G P u := by omega
      exact this
  have hhi : ∀ S j, k < j → IsCoreSet G S j → ∀ v, S v → P' v := by
    intro S j hj hS v hv
    have hin : ∀ u, S u → P u := h.hi S j (by omega) hS
    rw [hP']
    refine ⟨hin v hv, fun hd => ?_⟩
    have h1 := h.val v (hin v hv)
    have h2 := (hS v hv).2
    have h3 : (G.nb v).countP S ≤ rdeg G P v := by
      refine List.countP_mono_left fun u _ hu => ?_
      simpa using hin u hu
    omega
  obtain ⟨S, hS, hPS⟩ := hlo
  refine ⟨fun v hv => h.bound v ((hP' v).1 hv).1, hval, ⟨S, hS, fun v hv => hPS v ((hP' v).1 hv).1⟩, hhi, ?_⟩
  intro v hvn hv
  rw [hold v hv]
  by_cases hP : P v
  · have hd : D v = k := by
      by_contra hc; exact hv ((hP' v).2 ⟨hP, hc⟩)
    rw [hd]
    refine ⟨⟨⟨S, hPS v hP, hS⟩, fun S' j hj hS' => ?_⟩, Nat.le_refl _⟩
    by_contra hc
    exact hv (hhi S' j (by omega) hS' v hj)
  · obtain ⟨h1, h2⟩ := h.done v hvn hP
    exact ⟨h1, by omega⟩

/-- Removing `ids` lowers the degrees by the numbers in the histogram. -/
theorem rdeg_remove {G : UG} (hG : G.Sym) {P P' : Nat → Prop} {ids : List Nat} (hnd : ids.Nodup)
    (h1 : ∀ v, P v ↔ P' v ∨ v ∈ ids) (h2 : ∀ v, P' v → v ∉ ids) (v : Nat) :
    rdeg G P v = rdeg G P' v + (ids.flatMap G.nb).count v := by
  rw [count_flatMap G hG hnd, rdeg, rdeg]
  refine countP_split (fun u => ?_) (fun u hu => ?_)
  · rw [show decide (P u) = decide (P' u ∨ u ∈ ids) from by simp [h1 u]]
    simp
  · simp only [decide_eq_true_eq] at hu
    exact h2 u hu.1 hu.2

/-- The state of the loop. -/
structure Inv (G : UG) (c : Cfg) (D : Nat → Nat) (P : Nat → Prop) (lb : Nat) (st : BS) (fin : Nat) : Prop where
  reach : Reach c .earlier G.n D P lb st
  peel : Peel G P D lb
  cnt : fin = ((Finset.range G.n).filter fun v => ¬ P v).card

variable {G : UG} {opn : Nat}

theorem mem_moves {k : Nat} {D : Nat → Nat} {h : List (Nat × Nat)} {mv : Nat × Nat} :
    mv ∈ moves k D h ↔ ∃ c, (mv.1, c) ∈ h ∧ k < D mv.1 ∧ mv.2 = max (sub32 (D mv.1) c) k := by
  obtain ⟨v, x⟩ := mv
  rw [moves, List.mem_filterMap]
  constructor
  · rintro ⟨⟨v', c⟩, h1, h2⟩
    simp only at h2
    split at h2
    · simp only [Option.some.injEq, Prod.mk.injEq] at h2
      obtain ⟨rfl, rfl⟩ := h2
      rename_i hk
      exact ⟨c, h1, hk, rfl⟩
    · cases h2
  · rintro ⟨c, h1, h2, h3⟩
    refine ⟨(v, c), h1, ?_⟩
    simp only at h2 h3 ⊢
    rw [if_pos h2, h3]

theorem moves_nodup {k : Nat} {D : Nat → Nat} {h : List (Nat × Nat)} (hn : (h.map Prod.fst).Nodup) :
    ((moves k D h).map Prod.fst).Nodup := by
  have hsub : ((moves k D h).map Prod.fst).Sublist (h.map Prod.fst) := by
    clear hn
    induction h with
    | nil => exact List.Sublist.refl _
    | cons p h ih =>
      unfold moves at ih ⊢
      rw [List.filterMap_cons, List.map_cons]
      by_cases hk : D p.1 > k
      · simp only [hk, if_true, List.map_cons]
        exact ih.cons_cons _
      · simp only [hk, if_false]
        exact ih.cons _
  exact hn.sublist hsub

theorem Inv.stepX (hG : G.Sym) {D : Nat → Nat} {P : Nat → Prop} {lb : Nat}
    {st st1 : BS} {fin fuel k : Nat} {ids : List Nat} {hist : List (Nat × Nat)}
    (h : Inv G (cfg opn) D P lb st fin) (hf : fin ≠ G.n)
    (hn : nextBucket (cfg opn) D fuel st = some (k, ids, st1)) (hh : IsHist (ids.flatMap G.nb) hist) :
    k ≠ null ∧ ids ≠ [] ∧ ids.Nodup ∧ lb ≤ k ∧ (∀ v, v ∈ ids ↔ P v ∧ D v = k) ∧ (∀ v, ¬ (P v ∧ D v ≠ k) → setAll D (moves k D hist) v = D v) ∧
      ∃ st2, moveTo1 (cfg opn) st1 (moves k D hist) = some st2 ∧
      Inv G (cfg opn) (setAll D (moves k D hist)) (fun v => P v ∧ D v ≠ k) k st2 (fin + ids.length) := by
  have hk : k ≠ (cfg opn).null := by
    intro hk
    have hP := (next_bucket_increasing rfl h.reach hn).1 hk
    refine hf ?_
    rw [h.cnt, Finset.filter_true_of_mem (fun v _ => hP v), Finset.card_range]
  obtain ⟨⟨v0, hv0, hk0⟩, hfirst, hids⟩ := (next_bucket_increasing rfl h.reach hn).2 hk
  have hnd : ids.Nodup := ((next_bucket_correct h.reach).2 _ _ _ _ hn).2 (by decide)
  have hlb : lb ≤ k := by rw [← hk0, h.peel.val v0 hv0]; exact Nat.le_max_right _ _
  have hdlt : ∀ v, P v → D v < null ∧ v < G.n := fun v hv => by
    have h1 := h.reach.good
    refine ⟨?_, h.peel.bound v hv⟩
    obtain ⟨K, hg⟩ := h1
    have h2 := (hg.inv.pres v hv).1
    have h3 := hg.inv.bound v
    have h2 : D v ≠ null := h2
    have h3 : D v ≤ null := h3
    omega
  -- remaining vertices
  have hrem : ∀ v, rdeg G P v = rdeg G (fun v => P v ∧ D v ≠ k) v + (ids.flatMap G.nb).count v :=
    rdeg_remove hG hnd (fun v => by
      rw [hids]
      constructor
      · intro hv
        by_cases hd : D v = k
        · exact Or.inr ⟨hv, hd⟩
        · exact Or.inl ⟨hv, hd⟩
      · rintro (hv | hv)
        · exact hv.1
        · exact hv.1) (fun v hv hc => hv.2 ((hids v).1 hc).2)
  have hmv : ∀ mv ∈ moves k D hist, (P mv.1 ∧ D mv.1 ≠ k) ∧
      mv.2 = max (rdeg G (fun v => P v ∧ D v ≠ k) mv.1) k ∧ mv.2 < D mv.1 := by
    intro mv hmv
    obtain ⟨c, h1, h2, h3⟩ := mem_moves.1 hmv
    obtain ⟨h4, h5⟩ := (hh.2 _ _).1 h1
    have hc : 0 < c := by rw [h5]; exact List.count_pos_iff.2 h4
    have hvn : mv.1 < G.n := by
      obtain ⟨a, _, h7⟩ := List.mem_flatMap.1 h4
      exact (hG.bound _ _ h7).2
    have hP : P mv.1 := by
      by_contra hP
      have := (h.peel.done _ hvn hP).2
      omega
    have hD := h.peel.val _ hP
    have hlt := (hdlt _ hP).1
    have := hrem mv.1
    have hs : sub32 (D mv.1) c = D mv.1 - c := by
      rw [sub32, if_pos (by omega)]
    rw [hs] at h3
    exact ⟨⟨hP, by omega⟩, by omega, by omega⟩
  have hr1 := Reach.next _ _ _ _ fuel k ids st1 h.reach hn hk
  have hm1 := moves_nodup (k := k) (D := D) hh.1
  have hm2 : ∀ mv ∈ moves k D hist, mv.2 = (cfg opn).null ∨ (mv.2 < (cfg opn).null ∧ notAfter (cfg opn) k mv.2) := by
    intro mv hm
    obtain ⟨h1, h2, h3⟩ := hmv mv hm
    have := (hdlt _ h1.1).1
    refine Or.inr ⟨by show mv.2 < null; omega, ?_⟩
    show k ≤ mv.2
    omega
  have hm3 : ∀ mv ∈ moves k D hist, MoveOK (cfg opn) .earlier D (fun v => P v ∧ D v ≠ k) k mv := by
    intro mv hm
    obtain ⟨h1, h2, h3⟩ := hmv mv hm
    have := (hdlt _ h1.1).1
    refine ⟨by show mv.2 ≠ null; omega, Or.inr (Or.inl ?_)⟩
    show ¬ D mv.1 ≤ mv.2
    omega
  have hm5 : (cfg opn).inc = true → ∀ mv ∈ moves k D hist, mv.2 ≠ (cfg opn).null →
      (P mv.1 ∧ D mv.1 ≠ k) ∧ mv.2 ≤ D mv.1 := by
    intro _ mv hm _
    obtain ⟨h1, h2, h3⟩ := hmv mv hm
    exact ⟨h1, by omega⟩
  obtain ⟨st2, hst2⟩ := move1_ok hr1 _ hm1 hm2 hm3 hm5 (fun _ => rfl)
  have hr2 := Reach.move1 _ _ _ _ st2 _ hr1 hm1 hm2 hm3 hm5 (fun _ => rfl) hst2
  have hpa : presentAfter (cfg opn) D (fun v => P v ∧ D v ≠ k) (moves k D hist) = fun v => P v ∧ D v ≠ k := by
    funext v
    refine propext ?_
    rw [presentAfter]
    by_cases hv : v ∈ (moves k D hist).map Prod.fst
    · rw [if_pos hv]
      obtain ⟨mv, hm, rfl⟩ := List.mem_map.1 hv
      obtain ⟨h1, h2, h3⟩ := hmv mv hm
      have := (hdlt _ h1.1).1
      rw [setAll_of_mem _ _ hm1 hm]
      refine ⟨fun _ => h1, fun _ => ?_⟩
      show mv.2 ≠ null
      omega
    · rw [if_neg hv]
  rw [hpa] at hr2
  have hkeep : ∀ v, ¬ (P v ∧ D v ≠ k) → setAll D (moves k D hist) v = D v := fun v hv => by
    rw [setAll_of_not_mem]
    intro hin
    obtain ⟨mv, hm, rfl⟩ := List.mem_map.1 hin
    exact hv (hmv mv hm).1
  refine ⟨hk, List.ne_nil_of_mem ((hids v0).2 ⟨hv0, hk0⟩), hnd, hlb, hids, hkeep, st2, hst2, hr2,
    h.peel.step ⟨v0, hv0, hk0⟩ hfirst (fun _ => Iff.rfl) (fun v hv => ?_) hkeep, ?_⟩
  · by_cases hin : v ∈ (moves k D hist).map Prod.fst
    · obtain ⟨mv, hm, rfl⟩ := List.mem_map.1 hin
      rw [setAll_of_mem _ _ hm1 hm]
      exact (hmv mv hm).2.1
    · rw [setAll_of_not_mem _ _ hin]
      have h1 := h.peel.val v hv.1
      have h2 := hfirst v hv.1
      have h3 := hrem v
      have h4 : (ids.flatMap G.nb).count v = 0 := by
        by_contra hc
        refine hin (List.mem_map.2 ⟨(v, max (sub32 (D v) ((ids.flatMap G.nb).count v)) k), mem_moves.2 ⟨_, ?_, ?_, rfl⟩, rfl⟩)
        · exact (hh.2 _ _).2 ⟨List.count_pos_iff.1 (Nat.pos_of_ne_zero hc), rfl⟩
        · exact Nat.lt_of_le_of_ne h2 (Ne.symm hv.2)
      have := hv.2
      omega
  · rw [h.cnt, ← List.toFinset_card_of_nodup hnd, ← Finset.card_union_of_disjoint]
    · congr 1
      ext v
      simp only [Finset.mem_union, Finset.mem_filter, Finset.mem_range, List.mem_toFinset, hids]
      constructor
      · rintro (⟨h1, h2⟩ | ⟨h1, h2⟩)
        · exact ⟨h1, fun hc => h2 hc.1⟩
        · exact ⟨h.peel.bound v h1, fun hc => hc.2 h2⟩
      · rintro ⟨h1, h2⟩
        by_cases hP : P v
        · refine Or.inr ⟨hP, ?_⟩
          by_contra hc; exact h2 ⟨hP, hc⟩
        · exact Or.inl ⟨h1, hP⟩
    · rw [Finset.disjoint_left]
      intro v h1 h2
      simp only [Finset.mem_filter, List.mem_toFinset, hids] at h1 h2
      exact h1.2 h2.1

theorem Inv.step (hG : G.Sym) {D : Nat → Nat} {P : Nat → Prop} {lb : Nat}
    {st st1 : BS} {fin fuel k : Nat} {ids : List Nat} {hist : List (Nat × Nat)}
    (h : Inv G (cfg opn) D P lb st fin) (hf : fin ≠ G.n)
    (hn : nextBucket (cfg opn) D fuel st = some (k, ids, st1)) (hh : IsHist (ids.flatMap G.nb) hist) :
    k ≠ null ∧ ids ≠ [] ∧ ∃ st2, moveTo1 (cfg opn) st1 (moves k D hist) = some st2 ∧
      ∃ P', Inv G (cfg opn) (setAll D (moves k D hist)) P' k st2 (fin + ids.length) := by
  obtain ⟨h1, h2, _, _, _, _, st2, h3, h4⟩ := h.stepX hG hf hn hh
  exact ⟨h1, h2, st2, h3, _, h4⟩

theorem card_none {n : Nat} {P : Nat → Prop} (h : ∀ v, v < n → P v) :
    ((Finset.range n).filter fun v => ¬ P v).card = 0 := by
  refine Finset.card_eq_zero.2 (Finset.eq_empty_of_forall_notMem fun v hv => ?_)
  have h1 := Finset.mem_filter.1 hv
  exact h1.2 (h v (Finset.mem_range.1 h1.1))

theorem inv_init (hG : G.Sym) (hopn : 0 < opn) (hopn' : opn < null) (hdeg : ∀ v, (G.nb v).length < null) :
    ∃ st, create (cfg opn) G.n (deg0 G) = some st ∧ ∃ P lb, Inv G (cfg opn) (deg0 G) P lb st 0 := by
  have h3 : ∀ v, deg0 G v ≤ (cfg opn).null := fun v => by
    show _ ≤ null
    have := hdeg v
    rw [deg0]; split <;> omega
  have h4 : ∀ v, G.n ≤ v → deg0 G v = (cfg opn).null := fun v hv => by
    rw [deg0, if_neg (by omega)]; rfl
  obtain ⟨st, hst⟩ := create_ok (c := cfg opn) (n := G.n) hopn hopn' h3 h4 (fun h => by cases h)
  have hr := Reach.init (mode := .earlier) _ st hopn hopn' h3 h4 (fun h => by cases h) hst
  have hP : (fun v => deg0 G v ≠ (cfg opn).null) = fun v => v < G.n := by
    funext v
    refine propext ?_
    show deg0 G v ≠ null ↔ _
    have := hdeg v
    rw [deg0]
    by_cases h : v < G.n
    · rw [if_pos h]; exact ⟨fun _ => h, fun _ => by omega⟩
    · rw [if_neg h]; exact ⟨fun h' => absurd rfl h', fun h' => absurd h' h⟩
  rw [hP] at hr
  have hrd : ∀ v, rdeg G (fun v => v < G.n) v = (G.nb v).length := by
    intro v
    rw [rdeg, List.countP_eq_length]
    intro u hu
    simpa using (hG.bound _ _ hu).2
  have hmin : ∀ v, v < G.n → firstBkt (cfg opn) G.n (deg0 G) ≤ (G.nb v).length := by
    intro v hv
    have := (minOf_spec (cfg opn).null ((List.range G.n).map (deg0 G))).2 (deg0 G v)
      (List.mem_cons_of_mem _ (List.mem_map.2 ⟨v, List.mem_range.2 hv, rfl⟩))
    rw [show deg0 G v = (G.nb v).length from if_pos hv] at this
    exact this
  refine ⟨st, hst, _, _, hr, ⟨fun v hv => hv, fun v hv => ?_, ⟨fun v => decide (v < G.n), fun u hu => ?_, fun v hv => by simpa using hv⟩,
    fun S j _ hS v hv => (hS v hv).1, fun v hv hn => absurd hv hn⟩, ?_⟩
  · have := hmin v hv
    rw [hrd, show deg0 G v = (G.nb v).length from if_pos hv]
    omega
  · have hu : u < G.n := by simpa using hu
    refine ⟨hu, ?_⟩
    have h1 := hmin u hu
    rw [← hrd u, rdeg] at h1
    convert h1
  · exact (card_none fun _ hv => hv).symm

theorem after_ok (hG : G.Sym) (hopn : 0 < opn) (hopn' : opn < null) (hdeg : ∀ v, (G.nb v).length < null)
    {j : Nat} {D : Nat → Nat} {st : BS} {fin : Nat} (h : After opn G j D st fin) :
    j ≤ fin ∧ ∃ P lb, Inv G (cfg opn) D P lb st fin := by
  obtain ⟨st0, h0, hrun⟩ := h
  obtain ⟨st0', h0', P, lb, hi⟩ := inv_init hG hopn hopn' hdeg
  rw [h0, Option.some.injEq] at h0'
  subst h0'
  clear h0
  generalize deg0 G = D0 at hrun hi
  generalize (0 : Nat) = f0 at hrun hi
  induction hrun with
  | nil => exact ⟨Nat.zero_le _, P, lb, hi⟩
  | cons _ hstep ih =>
    obtain ⟨hle, P', lb', hi'⟩ := ih hi
    cases hstep with
    | mk hf hn hh hu =>
      obtain ⟨_, hne, st2, e1, P2, hi2⟩ := hi'.step hG hf hn hh
      rw [hu, Option.some.injEq] at e1
      subst e1
      have := List.length_pos_of_ne_nil hne
      exact ⟨by omega, P2, _, hi2⟩

end

/-! ### Theorems -/

/-- A histogram. -/
def canon (keys : List Nat) : List (Nat × Nat) := keys.dedup.map fun v => (v, keys.count v)

theorem canon_isHist (keys : List Nat) : IsHist keys (canon keys) := by
  refine ⟨?_, fun v c => ?_⟩
  · rw [canon, List.map_map]
    have : (Prod.fst ∘ fun v => (v, keys.count v)) = id := rfl
    rw [this, List.map_id]
    exact List.nodup_dedup _
  · simp only [canon, List.mem_map, List.mem_dedup, Prod.mk.injEq]
    constructor
    · rintro ⟨a, h1, rfl, rfl⟩; exact ⟨h1, rfl⟩
    · rintro ⟨h1, rfl⟩; exact ⟨v, h1, rfl, rfl⟩

/-- C37: `KCore` returns the coreness of every vertex. -/
theorem kcore_correct {G : UG} (hG : G.Sym) {opn : Nat} (hopn : 0 < opn) (hopn' : opn < null)
    (hdeg : ∀ v, (G.nb v).length < null) {D : Nat → Nat} (h : KCore opn G D) :
    ∀ v, v < G.n → IsCoreness G v (D v) := by
  obtain ⟨j, st, ha⟩ := h
  obtain ⟨_, P, lb, hi⟩ := after_ok hG hopn hopn' hdeg ha
  classical
  intro v hv
  refine (hi.peel.done v hv ?_).1
  have h1 := hi.cnt.symm.trans (Finset.card_range _).symm
  rw [Finset.card_filter_eq_iff] at h1
  exact h1 v (Finset.mem_range.2 hv)

/-- C37: the loop ends after at most `n` iterations, and no iteration fails: as long as not all vertices are
finished, `next_bucket` returns a non-empty bucket and the moves can be inserted. -/
theorem kcore_progress {G : UG} (hG : G.Sym) {opn : Nat} (hopn : 0 < opn) (hopn' : opn < null)
    (hdeg : ∀ v, (G.nb v).length < null) {j : Nat} {D : Nat → Nat} {st : BS} {fin : Nat} (h : After opn G j D st fin) :
    j ≤ G.n ∧ fin ≤ G.n ∧ (fin ≠ G.n → ∃ fuel k ids st1, nextBucket (cfg opn) D fuel st = some (k, ids, st1) ∧
      k ≠ null ∧ ids ≠ [] ∧ ∀ hist, IsHist (ids.flatMap G.nb) hist →
        ∃ st2, moveTo1 (cfg opn) st1 (moves k D hist) = some st2) := by
  obtain ⟨hj, P, lb, hi⟩ := after_ok hG hopn hopn' hdeg h
  have hle : fin ≤ G.n := by
    classical
    rw [hi.cnt]
    exact (Finset.card_filter_le _ _).trans (by rw [Finset.card_range])
  refine ⟨by omega, hle, fun hf => ?_⟩
  obtain ⟨fuel, ⟨k, ids, st1⟩, hr⟩ := (next_bucket_correct hi.reach).1
  obtain ⟨h1, h2, _⟩ := hi.step hG hf hr (canon_isHist _)
  refine ⟨fuel, k, ids, st1, hr, h1, h2, fun hist hh => ?_⟩
  obtain ⟨_, _, st2, h3, _⟩ := hi.step hG hf hr hh
  exact ⟨st2, h3⟩

/-! ### Example -/

/-- One execution. -/
def exec (c : Cfg) (G : UG) : Nat → (Nat → Nat) → BS → Nat → Option (Nat → Nat)
  | 0, _, _, _ => none
  | j + 1, D, st, fin => if fin = G.n then some D else
    match nextBucket c D 20 st with
    | none => none
    | some (k, ids, st1) =>
      match moveTo1 c st1 (moves k D (canon (ids.flatMap G.nb))) with
      | none => none
      | some st2 => exec c G j (setAll D (moves k D (canon (ids.flatMap G.nb)))) st2 (fin + ids.length)

theorem exec_sound {c : Cfg} {G : UG} {D0 : Nat → Nat} {s0 : BS} {f0 : Nat} (j : Nat) :
    ∀ (i : Nat) (D : Nat → Nat) (st : BS) (fin : Nat) (D' : Nat → Nat), Run c G i D0 s0 f0 D st fin →
      exec c G j D st fin = some D' → ∃ i' st', Run c G i' D0 s0 f0 D' st' G.n := by
  induction j with
  | zero => intro i D st fin D' _ h; cases h
  | succ j ih =>
    intro i D st fin D' hr h
    rw [exec] at h
    by_cases hf : fin = G.n
    · rw [if_pos hf, Option.some.injEq] at h
      subst h; subst hf
      exact ⟨_, _, hr⟩
    · rw [if_neg hf] at h
      rcases hn : nextBucket c D 20 st with _ | ⟨k, ids, st1⟩
      · rw [hn] at h; cases h
      · rw [hn] at h
        simp only at h
        rcases hm : moveTo1 c st1 (moves k D (canon (ids.flatMap G.nb))) with _ | st2
        · rw [hm] at h; cases h
        · rw [hm] at h
          exact ih _ _ _ _ _ (.cons hr (.mk hf hn (canon_isHist _) hm)) h

/-- The result of `exec` on all vertices. -/
def execAll (opn : Nat) (G : UG) : Option (List Nat) :=
  match create (cfg opn) G.n (deg0 G) with
  | none => none
  | some st => (exec (cfg opn) G (G.n + 1) (deg0 G) st 0).map fun D => (List.range G.n).map D

theorem execAll_sound {opn : Nat} {G : UG} {l : List Nat} (h : execAll opn G = some l) :
    ∃ D, KCore opn G D ∧ (List.range G.n).map D = l := by
  rw [execAll] at h
  rcases hc : create (cfg opn) G.n (deg0 G) with _ | st
  · rw [hc] at h; cases h
  · rw [hc] at h
    obtain ⟨D, h1, h2⟩ := Option.map_eq_some_iff.1 h
    obtain ⟨i, st', hr⟩ := exec_sound _ _ _ _ _ _ .nil h1
    exact ⟨D, ⟨i, st', st, hc, hr⟩, h2⟩

/-- A triangle 0, 1, 2 with a path 2 - 3 - 4. -/
def exG : UG := .ofLists [[1, 2], [0, 2], [0, 1, 3], [2, 4], [3]]

theorem exG_sym : exG.Sym := UG.ofLists_sym (by decide)

example : ∃ D, KCore 15 exG D ∧ (List.range 5).map D = [2, 2, 2, 1, 1] :=
  execAll_sound (by decide +kernel)

end Gbbs.KCore
