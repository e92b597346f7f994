/-
C38: k-core with fetch-and-add, `benchmarks/KCore/JulienneDBS17/KCore.h:78-144`.
-/
import Verif.Algo.KCore

namespace Gbbs.KCoreFA

open Buckets KCore

/-! ### Model -/

/-- `x + 1` for `uintE`. -/
def inc32 (x : Nat) : Nat := if x + 1 < 4294967296 then x + 1 else 0

/-- One call of the client of `edgeMapData` for an edge with destination `d`, `kcore_fetch_add`
(`KCore.h:78-100`): `updateAtomic` if `atomic`, else `update`. The state: `er` and the emitted vertices. -/
def fetchAdd (D : Nat → Nat) (k : Nat) (atomic : Nat → Bool) (s : (Nat → Nat) × List Nat) (d : Nat) :
    (Nat → Nat) × List Nat :=
  if D d > k then
    (upd s.1 d (inc32 (s.1 d)),
      if (if atomic d then decide (s.1 d = 1) else decide (inc32 (s.1 d) = 1)) then d :: s.2 else s.2)
  else s

/-- Which function `edgeMapData` calls for the edges to `d`: sparse and dense-forward traversals call
`updateAtomic`; the dense traversal calls `update`, except for in-neighbourhoods traversed in parallel
(`edge_map_data.h:46-84`, `vertex.h:263-300`). -/
inductive Mode (G : UG) : (Nat → Bool) → Prop
  | sparse : Mode G fun _ => true
  | dense (par : Bool) : Mode G fun v => par && !decide ((G.nb v).length < 1000)

/-- `apply_f`, `KCore.h:122-129`, on the emitted vertices: the new `D[v]`. -/
def moves (k : Nat) (D er : Nat → Nat) (o : List Nat) : List (Nat × Nat) :=
  o.map fun v => (v, max (sub32 (D v) (er v)) k)

/-- `ER[v] = 0` (`KCore.h:125`) on the emitted vertices. -/
def reset (er : Nat → Nat) (o : List Nat) (v : Nat) : Nat := if v ∈ o then 0 else er v

/-- One iteration of the loop, `KCore.h:115-141`. The accesses to `er[d]` are atomic (or made by one thread), so a
traversal is a sequence of calls, one per edge leaving the extracted vertices, in any order (`ds`); `M`: the
modes considered; `o`: the emitted vertices, in any order. -/
inductive Step (c : Cfg) (G : UG) (M : (Nat → Bool) → Prop) :
    (Nat → Nat) → (Nat → Nat) → BS → Nat → (Nat → Nat) → (Nat → Nat) → BS → Nat → Prop
  | mk {D er st fin fuel k ids st1 atomic st2} {ds o : List Nat} {s : (Nat → Nat) × List Nat} (hf : fin ≠ G.n)
      (hn : nextBucket c D fuel st = some (k, ids, st1)) (hM : M atomic) (hds : ds.Perm (ids.flatMap G.nb))
      (hs : ds.foldl (fetchAdd D k atomic) (er, []) = s) (ho : o.Perm s.2)
      (hu : moveTo2 c D st1 (moves k D s.1 o) = some st2) :
      Step c G M D er st fin (setAll D (moves k D s.1 o)) (reset s.1 o) st2 (fin + ids.length)

/-- Iterations, counted. -/
inductive Run (c : Cfg) (G : UG) (M : (Nat → Bool) → Prop) :
    Nat → (Nat → Nat) → (Nat → Nat) → BS → Nat → (Nat → Nat) → (Nat → Nat) → BS → Nat → Prop
  | nil {D er st fin} : Run c G M 0 D er st fin D er st fin
  | cons {j D er st fin D' er' st' fin' D'' er'' st'' fin''} (h : Run c G M j D er st fin D' er' st' fin')
      (hs : Step c G M D' er' st' fin' D'' er'' st'' fin'') : Run c G M (j + 1) D er st fin D'' er'' st'' fin''

/-- The state after `j` iterations. -/
def After (opn : Nat) (G : UG) (M : (Nat → Bool) → Prop) (j : Nat) (D er : Nat → Nat) (st : BS) (fin : Nat) : Prop :=
  ∃ st0, create (cfg opn) G.n (deg0 G) = some st0 ∧ Run (cfg opn) G M j (deg0 G) (fun _ => 0) st0 0 D er st fin

/-- `KCore_FA(G, opn + 1)`, `KCore.h:102-144`: returns `D`. -/
def KCoreFA (opn : Nat) (G : UG) (D : Nat → Nat) : Prop := ∃ j er st, After opn G (Mode G) j D er st G.n

/-! ### One round -/

/-- The calls for one round in closed form. -/
theorem fold_spec {D : Nat → Nat} {k : Nat} {atomic : Nat → Bool} (ds : List Nat) :
    ∀ (er : Nat → Nat) (l : List Nat), (∀ d, k < D d → 0 < ds.count d → er d + ds.count d < 4294967296) →
      (∀ d, (ds.foldl (fetchAdd D k atomic) (er, l)).1 d = if k < D d then er d + ds.count d else er d) ∧
      ∀ d, (ds.foldl (fetchAdd D k atomic) (er, l)).2.count d = l.count d +
        if k < D d ∧ (if atomic d then er d ≤ 1 ∧ 2 ≤ er d + ds.count d else er d = 0 ∧ 0 < ds.count d) then 1 else 0 := by
  induction ds with
  | nil =>
    intro er l _
    refine ⟨fun d => by simp, fun d => ?_⟩
    rw [if_neg, List.foldl_nil]
    · rfl
    · rintro ⟨_, h⟩
      split at h
      · simp only [List.count_nil] at h; omega
      · simp only [List.count_nil] at h; omega
  | cons a ds ih =>
    intro er l hb
    rw [List.foldl_cons]
    by_cases ha : k < D a
    · have hb1 := hb a ha (by rw [List.count_cons_self]; omega)
      rw [List.count_cons_self] at hb1
      have hinc : inc32 (er a) = er a + 1 := if_pos (by omega)
      rw [fetchAdd, if_pos ha, hinc]
      simp only
      have hub : ∀ d, upd er a (er a + 1) d = if d = a then er a + 1 else er d := fun d => rfl
      obtain ⟨h1, h2⟩ := ih (upd er a (er a + 1))
        (if (if atomic a then decide (er a = 1) else decide (er a + 1 = 1)) then a :: l else l) (fun d hd hc => by
          have := hb d hd
          rw [hub]
          by_cases hda : d = a
          · subst hda; rw [if_pos rfl]; omega
          · rw [if_neg hda]; rw [List.count_cons_of_ne (Ne.symm hda)] at this; exact this hc)
      refine ⟨fun d => ?_, fun d => ?_⟩
      · rw [h1, hub]
        by_cases hda : d = a
        · subst hda; rw [if_pos ha, if_pos rfl, if_pos ha, List.count_cons_self]; omega
        · rw [if_neg hda, List.count_cons_of_ne (Ne.symm hda)]
      · rw [h2, hub]
        by_cases hda : d = a
        · subst hda
          rw [if_pos rfl, List.count_cons_self]
          by_cases hat : atomic d = true
          · simp only [hat, if_true, ha, true_and, decide_eq_true_eq]
            by_cases he : er d = 1
            · rw [if_pos he, List.count_cons_self, if_neg (by omega), if_pos (by omega)]
            · rw [if_neg he]
              by_cases h0 : er d = 0
              · by_cases hc : 1 ≤ ds.count d
                · rw [if_pos (by omega), if_pos (by omega)]
                · rw [if_neg (by omega), if_neg (by omega)]
              · rw [if_neg (by omega), if_neg (by omega)]
          · simp only [hat, ha, true_and]
            by_cases he : er d = 0
            · simp [he]
            · simp [he]
        · have hcons : (if (if atomic a then decide (er a = 1) else decide (er a + 1 = 1)) = true then a :: l else l).count d = l.count d := by
            by_cases hq : (if atomic a then decide (er a = 1) else decide (er a + 1 = 1)) = true
            · rw [if_pos hq, List.count_cons_of_ne (Ne.symm hda)]
            · rw [if_neg hq]
          rw [hcons, if_neg hda, List.count_cons_of_ne (Ne.symm hda)]
    · rw [fetchAdd, if_neg ha]
      obtain ⟨h1, h2⟩ := ih er l (fun d hd hc => by
        have := hb d hd
        rw [List.count_cons] at this
        have := this (by omega)
        omega)
      refine ⟨fun d => ?_, fun d => ?_⟩
      · rw [h1]
        by_cases hda : d = a
        · subst hda; rw [if_neg ha, if_neg ha]
        · rw [List.count_cons_of_ne (Ne.symm hda)]
      · rw [h2]
        by_cases hda : d = a
        · subst hda; rw [if_neg (fun h => ha h.1), if_neg (fun h => ha h.1)]
        · rw [List.count_cons_of_ne (Ne.symm hda)]

/-- Emitted exactly once. -/
theorem emitted {D er : Nat → Nat} {k : Nat} {atomic : Nat → Bool} {ds o : List Nat} {s : (Nat → Nat) × List Nat}
    (hb : ∀ d, k < D d → 0 < ds.count d → er d + ds.count d < 4294967296) (hs : ds.foldl (fetchAdd D k atomic) (er, []) = s)
    (ho : o.Perm s.2) : o.Nodup ∧ (∀ d, s.1 d = if k < D d then er d + ds.count d else er d) ∧
      ∀ d, d ∈ o ↔ k < D d ∧ (if atomic d then er d ≤ 1 ∧ 2 ≤ er d + ds.count d else er d = 0 ∧ 0 < ds.count d) := by
  obtain ⟨h1, h2⟩ := fold_spec (atomic := atomic) ds er [] hb
  rw [hs] at h1 h2
  have h3 : ∀ (q : Prop) [Decidable q], (0 + if q then 1 else 0) ≤ 1 := fun q _ => by split <;> omega
  have h4 : ∀ (q : Prop) [Decidable q], (0 < 0 + if q then 1 else 0) ↔ q := fun q _ => by
    by_cases hq : q <;> simp [hq]
  refine ⟨List.nodup_iff_count_le_one.2 fun d => ?_, h1, fun d => ?_⟩
  · rw [ho.count_eq, h2, List.count_nil]
    exact h3 _
  · rw [← List.count_pos_iff, ho.count_eq, h2, List.count_nil]
    exact h4 _

/-! ### Invariant -/

section
open Classical

structure Inv (G : UG) (c : Cfg) (D er : Nat → Nat) (P : Nat → Prop) (lb : Nat) (st : BS) (fin : Nat) : Prop where
  reach : Reach c .earlier G.n D P lb st
  bound : ∀ v, P v → v < G.n
  le : ∀ v, D v ≤ deg0 G v
  lbd : ∀ v, P v → lb ≤ D v
  up : ∀ v, P v → rdeg G P v + er v ≤ D v
  hi : ∀ S j, lb < j → IsCoreSet G S j → ∀ v, S v → P v
  done : ∀ v, v < G.n → ¬ P v → D v ≤ lb ∧ ∀ S j, S v → IsCoreSet G S j → j ≤ D v
  cnt : fin = ((Finset.range G.n).filter fun v => ¬ P v).card

variable {G : UG} {opn : Nat}

/-- The facts about the next bucket. -/
theorem Inv.next {D er : Nat → Nat} {P : Nat → Prop} {lb : Nat}
    {st st1 : BS} {fin fuel k : Nat} {ids : List Nat}
    (h : Inv G (cfg opn) D er P lb st fin) (hf : fin ≠ G.n)
    (hn : nextBucket (cfg opn) D fuel st = some (k, ids, st1)) :
    k ≠ null ∧ (∃ v, P v ∧ D v = k) ∧ (∀ v, P v → k ≤ D v) ∧ (∀ v, v ∈ ids ↔ P v ∧ D v = k) ∧ ids.Nodup ∧
      lb ≤ k ∧ ∀ v, P v → D v < null := by
  have hk : k ≠ (cfg opn).null := by
    intro hk
    have hP := (next_bucket_increasing rfl h.reach hn).1 hk
    refine hf ?_
    rw [h.cnt, Finset.filter_true_of_mem (fun v _ => hP v), Finset.card_range]
  obtain ⟨⟨v0, hv0, hk0⟩, hfirst, hids⟩ := (next_bucket_increasing rfl h.reach hn).2 hk
  refine ⟨hk, ⟨v0, hv0, hk0⟩, hfirst, hids, ((next_bucket_correct h.reach).2 _ _ _ _ hn).2 (by decide),
    hk0 ▸ h.lbd v0 hv0, fun v hv => ?_⟩
  obtain ⟨K, hg⟩ := h.reach.good
  have h2 : D v ≠ null := (hg.inv.pres v hv).1
  have h3 : D v ≤ null := hg.inv.bound v
  omega

theorem Inv.step (hG : G.Sym) {D er : Nat → Nat} {P : Nat → Prop} {lb : Nat}
    {st st1 : BS} {fin fuel k : Nat} {ids ds o : List Nat} {atomic : Nat → Bool} {s : (Nat → Nat) × List Nat}
    (h : Inv G (cfg opn) D er P lb st fin) (hf : fin ≠ G.n)
    (hn : nextBucket (cfg opn) D fuel st = some (k, ids, st1)) (hds : ds.Perm (ids.flatMap G.nb))
    (hs : ds.foldl (fetchAdd D k atomic) (er, []) = s) (ho : o.Perm s.2) :
    k ≠ null ∧ ids ≠ [] ∧ ∃ st2, moveTo2 (cfg opn) D st1 (moves k D s.1 o) = some st2 ∧
      Inv G (cfg opn) (setAll D (moves k D s.1 o)) (reset s.1 o) (fun v => P v ∧ D v ≠ k) k st2 (fin + ids.length) ∧
      (atomic = (fun _ => false) → (∀ v, er v = 0) → Peel G P D lb →
        (∀ v, reset s.1 o v = 0) ∧ Peel G (fun v => P v ∧ D v ≠ k) (setAll D (moves k D s.1 o)) k) := by
  obtain ⟨hk, ⟨v0, hv0, hk0⟩, hfirst, hids, hnd, hlb, hlt⟩ := h.next hf hn
  have hrem : ∀ v, rdeg G P v = rdeg G (fun v => P v ∧ D v ≠ k) v + (ids.flatMap G.nb).count v :=
    rdeg_remove hG hnd (fun v => by
      rw [hids]
      constructor
      · intro hv
        by_cases hd : D v = k
        · exact Or.inr ⟨hv, hd⟩
        · exact Or.inl ⟨hv, hd⟩
      · rintro (hv | hv)
        · exact hv.1
        · exact hv.1) (fun v hv hc => hv.2 ((hids v).1 hc).2)
  have hout : ∀ v, v ∈ ids.flatMap G.nb → v < G.n := fun v hv => by
    obtain ⟨a, _, h7⟩ := List.mem_flatMap.1 hv
    exact (hG.bound _ _ h7).2
  have hcount : ∀ v, ds.count v = (ids.flatMap G.nb).count v := fun v => hds.count_eq v
  have hpres : ∀ v, k < D v → 0 < ds.count v → P v := by
    intro v hv hc
    by_contra hP
    rw [hcount] at hc
    have := (h.done v (hout v (List.count_pos_iff.1 hc)) hP).1
    omega
  have hsum : ∀ v, P v → rdeg G (fun v => P v ∧ D v ≠ k) v + (er v + ds.count v) ≤ D v := by
    intro v hv
    have := h.up v hv
    have := hrem v
    have := hcount v
    omega
  -- no overflow for the counters of vertices in the structure; the others are not touched
  have hb : ∀ d, k < D d → 0 < ds.count d → er d + ds.count d < 4294967296 := fun d hd hc => by
    have h1 := hsum d (hpres d hd hc)
    have h2 := hlt d (hpres d hd hc)
    simp only [null] at h2
    omega
  obtain ⟨hnd', her, hem⟩ := emitted hb hs ho
  have hmfst : (moves k D s.1 o).map Prod.fst = o := by
    rw [moves, List.map_map]
    exact List.map_id _
  -- the moves
  have hmv : ∀ mv ∈ moves k D s.1 o, (P mv.1 ∧ D mv.1 ≠ k) ∧ mv.1 ∈ o ∧ k < D mv.1 ∧
      mv.2 = max (D mv.1 - (er mv.1 + ds.count mv.1)) k ∧ mv.2 < D mv.1 ∧ s.1 mv.1 = er mv.1 + ds.count mv.1 := by
    intro mv hm
    obtain ⟨v, hv, rfl⟩ := List.mem_map.1 hm
    obtain ⟨h1, h2⟩ := (hem v).1 hv
    have hpos : 0 < er v + ds.count v := by split at h2 <;> omega
    have hP : P v := by
      by_cases hc : 0 < ds.count v
      · exact hpres v h1 hc
      · split at h2
        · omega
        · omega
    have hsv : s.1 v = er v + ds.count v := by rw [her, if_pos h1]
    have hsm := hsum v hP
    have h3 : sub32 (D v) (s.1 v) = D v - (er v + ds.count v) := by rw [hsv, sub32, if_pos (by omega)]
    simp only
    rw [h3]
    exact ⟨⟨hP, by omega⟩, hv, h1, rfl, by omega, hsv⟩
  have hm1 : ((moves k D s.1 o).map Prod.fst).Nodup := by rw [hmfst]; exact hnd'
  have hr1 := Reach.next _ _ _ _ fuel k ids st1 h.reach hn hk
  have hm2 : ∀ mv ∈ moves k D s.1 o, mv.2 = (cfg opn).null ∨ (mv.2 < (cfg opn).null ∧ notAfter (cfg opn) k mv.2) := by
    intro mv hm
    obtain ⟨h1, _, _, h2, h3, _⟩ := hmv mv hm
    have := hlt _ h1.1
    refine Or.inr ⟨by show mv.2 < null; omega, ?_⟩
    show k ≤ mv.2
    omega
  have hm3 : ∀ mv ∈ moves k D s.1 o, MoveOK (cfg opn) .earlier D (fun v => P v ∧ D v ≠ k) k mv := by
    intro mv hm
    obtain ⟨h1, _, _, h2, h3, _⟩ := hmv mv hm
    have := hlt _ h1.1
    refine ⟨by show mv.2 ≠ null; omega, Or.inr (Or.inl ?_)⟩
    show ¬ D mv.1 ≤ mv.2
    omega
  obtain ⟨st2, hst2⟩ := move2_ok hr1 _ hm1 hm2 hm3
  have hr2 := Reach.move2 _ _ _ _ st2 _ hr1 hm1 hm2 hm3 hst2
  have hpa : presentAfter (cfg opn) D (fun v => P v ∧ D v ≠ k) (moves k D s.1 o) = fun v => P v ∧ D v ≠ k := by
    funext v
    refine propext ?_
    rw [presentAfter]
    by_cases hv : v ∈ (moves k D s.1 o).map Prod.fst
    · rw [if_pos hv]
      obtain ⟨mv, hm, rfl⟩ := List.mem_map.1 hv
      obtain ⟨h1, _, _, h2, h3, _⟩ := hmv mv hm
      have := hlt _ h1.1
      rw [setAll_of_mem _ _ hm1 hm]
      refine ⟨fun _ => h1, fun _ => ?_⟩
      show mv.2 ≠ null
      omega
    · rw [if_neg hv]
  rw [hpa] at hr2
  -- the new arrays
  have hDin : ∀ v, v ∈ o → (P v ∧ D v ≠ k) ∧ setAll D (moves k D s.1 o) v = max (D v - (er v + ds.count v)) k := by
    intro v hv
    rw [← hmfst] at hv
    obtain ⟨mv, hm, rfl⟩ := List.mem_map.1 hv
    obtain ⟨h1, _, _, h2, _⟩ := hmv mv hm
    rw [setAll_of_mem _ _ hm1 hm]
    exact ⟨h1, h2⟩
  have hDout : ∀ v, v ∉ o → setAll D (moves k D s.1 o) v = D v := by
    intro v hv
    rw [← hmfst] at hv
    exact setAll_of_not_mem _ _ hv
  have hlow : ∀ v, ¬ (P v ∧ D v ≠ k) → setAll D (moves k D s.1 o) v = D v := by
    intro v hv
    exact hDout v fun hc => hv (hDin v hc).1
  have hhi : ∀ S j, k < j → IsCoreSet G S j → ∀ v, S v → (P v ∧ D v ≠ k) := by
    intro S j hj hS v hv
    have hin : ∀ u, S u → P u := h.hi S j (by omega) hS
    refine ⟨hin v hv, fun hd => ?_⟩
    have h1 := h.up v (hin v hv)
    have h2 := (hS v hv).2
    have h3 : (G.nb v).countP S ≤ rdeg G P v := by
      refine List.countP_mono_left fun u _ hu => ?_
      simpa using hin u hu
    omega
  refine ⟨hk, List.ne_nil_of_mem ((hids v0).2 ⟨hv0, hk0⟩), st2, hst2, ⟨hr2, fun v hv => h.bound v hv.1,
    fun v => ?_, fun v hv => ?_, fun v hv => ?_, hhi, fun v hvn hv => ?_, ?_⟩, fun hat her0 hpeel => ⟨fun v => ?_, ?_⟩⟩
  · have h1 := h.le v
    by_cases hvo : v ∈ o
    · have h2 := ((hem v).1 hvo).1
      rw [(hDin v hvo).2]; omega
    · rw [hDout v hvo]; exact h1
  · by_cases hvo : v ∈ o
    · rw [(hDin v hvo).2]; omega
    · rw [hDout v hvo]; exact hfirst v hv.1
  · have hsm := hsum v hv.1
    by_cases hvo : v ∈ o
    · rw [(hDin v hvo).2, reset, if_pos hvo]; omega
    · have h1 := her v
      have h2 := hfirst v hv.1
      rw [hDout v hvo, reset, if_neg hvo, h1, if_pos (Nat.lt_of_le_of_ne h2 (Ne.symm hv.2))]
      exact hsm
  · rw [hlow v hv]
    by_cases hP : P v
    · have hd : D v = k := by
        by_contra hc; exact hv ⟨hP, hc⟩
      refine ⟨by omega, fun S' j hj hS' => ?_⟩
      by_contra hc
      exact hv (hhi S' j (by omega) hS' v hj)
    · obtain ⟨h1, h2⟩ := h.done v hvn hP
      exact ⟨by omega, h2⟩
  · rw [h.cnt, ← List.toFinset_card_of_nodup hnd, ← Finset.card_union_of_disjoint]
    · congr 1
      ext v
      simp only [Finset.mem_union, Finset.mem_filter, Finset.mem_range, List.mem_toFinset, hids]
      constructor
      · rintro (⟨h1, h2⟩ | ⟨h1, h2⟩)
        · exact ⟨h1, fun hc => h2 hc.1⟩
        · exact ⟨h.bound v h1, fun hc => hc.2 h2⟩
      · rintro ⟨h1, h2⟩
        by_cases hP : P v
        · refine Or.inr ⟨hP, ?_⟩
          by_contra hc; exact h2 ⟨hP, hc⟩
        · exact Or.inl ⟨h1, hP⟩
    · rw [Finset.disjoint_left]
      intro v h1 h2
      simp only [Finset.mem_filter, List.mem_toFinset, hids] at h1 h2
      exact h1.2 h2.1
  · rw [reset]
    by_cases hvo : v ∈ o
    · rw [if_pos hvo]
    · rw [if_neg hvo, her v]
      have := her0 v
      by_cases hkd : k < D v
      · rw [if_pos hkd]
        have h1 := mt (hem v).2 hvo
        rw [hat] at h1
        simp only [hkd, true_and, this] at h1
        simp only [Bool.false_eq_true, if_false, true_and] at h1
        omega
      · rw [if_neg hkd]; exact this
  · refine hpeel.step ⟨v0, hv0, hk0⟩ hfirst (fun _ => Iff.rfl) (fun v hv => ?_) hlow
    have h1 := hpeel.val v hv.1
    have h2 := hfirst v hv.1
    have h3 := hrem v
    have h4 := hcount v
    have h5 := her0 v
    have h6 : k < D v := Nat.lt_of_le_of_ne h2 (Ne.symm hv.2)
    by_cases hvo : v ∈ o
    · rw [(hDin v hvo).2]; omega
    · rw [hDout v hvo]
      have h7 := mt (hem v).2 hvo
      rw [hat] at h7
      simp only [h6, true_and, h5] at h7
      have h8 : ds.count v = 0 := by
        simp only [Bool.false_eq_true, if_false, true_and] at h7
        omega
      omega

theorem inv_init (hG : G.Sym) (hopn : 0 < opn) (hopn' : opn < null) (hdeg : ∀ v, (G.nb v).length < null) :
    ∃ st, create (cfg opn) G.n (deg0 G) = some st ∧ ∃ P lb, Inv G (cfg opn) (deg0 G) (fun _ => 0) P lb st 0 ∧
      Peel G P (deg0 G) lb := by
  obtain ⟨st, h1, P, lb, hi⟩ := KCore.inv_init hG hopn hopn' hdeg
  refine ⟨st, h1, P, lb, ⟨hi.reach, hi.peel.bound, fun _ => Nat.le_refl _, fun v hv => ?_, fun v hv => ?_, hi.peel.hi, fun v hvn hv => ?_, hi.cnt⟩, hi.peel⟩
  · rw [hi.peel.val v hv]; exact Nat.le_max_right _ _
  · rw [hi.peel.val v hv]; exact Nat.le_max_left _ _
  · obtain ⟨h2, h3⟩ := hi.peel.done v hvn hv
    exact ⟨h3, h2.2⟩

theorem after_ok (hG : G.Sym) (hopn : 0 < opn) (hopn' : opn < null) (hdeg : ∀ v, (G.nb v).length < null)
    {M : (Nat → Bool) → Prop} {j : Nat} {D er : Nat → Nat} {st : BS} {fin : Nat} (h : After opn G M j D er st fin) :
    j ≤ fin ∧ ∃ P lb, Inv G (cfg opn) D er P lb st fin ∧
      ((∀ a, M a → a = fun _ => false) → (∀ v, er v = 0) ∧ Peel G P D lb) := by
  obtain ⟨st0, h0, hrun⟩ := h
  obtain ⟨st0', h0', P, lb, hi, hp⟩ := inv_init hG hopn hopn' hdeg
  rw [h0, Option.some.injEq] at h0'
  subst h0'
  clear h0
  have key : ∀ (D0 e0 : Nat → Nat) (f0 : Nat), Run (cfg opn) G M j D0 e0 st0 f0 D er st fin →
      Inv G (cfg opn) D0 e0 P lb st0 f0 → (∀ v, e0 v = 0) → Peel G P D0 lb →
      j ≤ fin ∧ ∃ P lb, Inv G (cfg opn) D er P lb st fin ∧
        ((∀ a, M a → a = fun _ => false) → (∀ v, er v = 0) ∧ Peel G P D lb) := by
    clear hrun hi hp
    intro D0 e0 f0 hrun hi hz hp
    induction hrun with
    | nil => exact ⟨Nat.zero_le _, P, lb, hi, fun _ => ⟨hz, hp⟩⟩
    | cons _ hstep ih =>
      obtain ⟨hle, P', lb', hi', hp'⟩ := ih hi hz hp
      cases hstep with
      | mk hf hn hM hds hs ho hu =>
        obtain ⟨_, hne, st2, e1, hi2, hp2⟩ := hi'.step hG hf hn hds hs ho
        rw [hu, Option.some.injEq] at e1
        subst e1
        have := List.length_pos_of_ne_nil hne
        exact ⟨by omega, _, _, hi2, fun hall => hp2 (hall _ hM) (hp' hall).1 (hp' hall).2⟩
  exact key _ _ _ hrun hi (fun _ => rfl) hp

theorem all_done {n : Nat} {P : Nat → Prop} (h : n = ((Finset.range n).filter fun v => ¬ P v).card) {v : Nat}
    (hv : v < n) : ¬ P v := by
  have h1 := h.symm.trans (Finset.card_range _).symm
  rw [Finset.card_filter_eq_iff] at h1
  exact h1 v (Finset.mem_range.2 hv)

end

/-! ### Theorems -/

/-- C38, the part that holds: the values returned by `KCore_FA` are at least the coreness. -/
theorem kcoreFA_ge_partial {G : UG} (hG : G.Sym) {opn : Nat} (hopn : 0 < opn) (hopn' : opn < null)
    (hdeg : ∀ v, (G.nb v).length < null) {D : Nat → Nat} (h : KCoreFA opn G D) {v k : Nat} (hv : v < G.n)
    (hk : IsCoreness G v k) : k ≤ D v ∧ D v ≤ (G.nb v).length := by
  obtain ⟨j, er, st, ha⟩ := h
  obtain ⟨_, P, lb, hi, _⟩ := after_ok hG hopn hopn' hdeg ha
  obtain ⟨⟨S, h1, h2⟩, _⟩ := hk
  have h3 := hi.le v
  rw [deg0, if_pos hv] at h3
  exact ⟨(hi.done v hv (all_done hi.cnt hv)).2 S k h1 h2, h3⟩

/-- C38, the part that holds: `KCore_FA` returns the coreness if every round uses `update` (dense traversals with
sequential in-neighbourhoods). -/
theorem kcoreFA_exact_partial {G : UG} (hG : G.Sym) {opn : Nat} (hopn : 0 < opn) (hopn' : opn < null)
    (hdeg : ∀ v, (G.nb v).length < null) {j : Nat} {D er : Nat → Nat} {st : BS}
    (h : After opn G (fun a => a = fun _ => false) j D er st G.n) : ∀ v, v < G.n → IsCoreness G v (D v) := by
  obtain ⟨_, P, lb, hi, hp⟩ := after_ok hG hopn hopn' hdeg h
  intro v hv
  exact (((hp fun a ha => ha).2).done v hv (all_done hi.cnt hv)).1

/-- C38, the part that holds: the loop ends after at most `n` iterations, and no iteration fails. -/
theorem kcoreFA_progress_partial {G : UG} (hG : G.Sym) {opn : Nat} (hopn : 0 < opn) (hopn' : opn < null)
    (hdeg : ∀ v, (G.nb v).length < null) {M : (Nat → Bool) → Prop} {j : Nat} {D er : Nat → Nat} {st : BS} {fin : Nat}
    (h : After opn G M j D er st fin) :
    j ≤ G.n ∧ fin ≤ G.n ∧ (fin ≠ G.n → ∃ fuel k ids st1, nextBucket (cfg opn) D fuel st = some (k, ids, st1) ∧
      k ≠ null ∧ ids ≠ [] ∧ ∀ (atomic : Nat → Bool) (ds o : List Nat), ds.Perm (ids.flatMap G.nb) →
        o.Perm (ds.foldl (fetchAdd D k atomic) (er, [])).2 →
        ∃ st2, moveTo2 (cfg opn) D st1 (moves k D (ds.foldl (fetchAdd D k atomic) (er, [])).1 o) = some st2) := by
  obtain ⟨hj, P, lb, hi, _⟩ := after_ok hG hopn hopn' hdeg h
  have hle : fin ≤ G.n := by
    classical
    rw [hi.cnt]
    exact (Finset.card_filter_le _ _).trans (by rw [Finset.card_range])
  refine ⟨by omega, hle, fun hf => ?_⟩
  obtain ⟨fuel, ⟨k, ids, st1⟩, hr⟩ := (next_bucket_correct hi.reach).1
  obtain ⟨h1, h2, _⟩ := hi.step hG hf hr (List.Perm.refl _) (atomic := fun _ => true) rfl (List.Perm.refl _)
  refine ⟨fuel, k, ids, st1, hr, h1, h2, fun atomic ds o hds ho => ?_⟩
  obtain ⟨_, _, st2, h3, _⟩ := hi.step hG hf hr hds (atomic := atomic) rfl ho
  exact ⟨st2, h3⟩

/-! ### Examples -/

/-- One execution with all rounds in mode `atomic`. -/
def exec (c : Cfg) (G : UG) (atomic : Nat → Bool) : Nat → (Nat → Nat) → (Nat → Nat) → BS → Nat → Option (Nat → Nat)
  | 0, _, _, _, _ => none
  | j + 1, D, er, st, fin => if fin = G.n then some D else
    match nextBucket c D 20 st with
    | none => none
    | some (k, ids, st1) =>
      let s := (ids.flatMap G.nb).foldl (fetchAdd D k atomic) (er, [])
      match moveTo2 c D st1 (moves k D s.1 s.2) with
      | none => none
      | some st2 => exec c G atomic j (setAll D (moves k D s.1 s.2)) (reset s.1 s.2) st2 (fin + ids.length)

theorem exec_sound {c : Cfg} {G : UG} {M : (Nat → Bool) → Prop} {atomic : Nat → Bool} (hM : M atomic)
    {D0 e0 : Nat → Nat} {s0 : BS} {f0 : Nat} (j : Nat) :
    ∀ (i : Nat) (D er : Nat → Nat) (st : BS) (fin : Nat) (D' : Nat → Nat), Run c G M i D0 e0 s0 f0 D er st fin →
      exec c G atomic j D er st fin = some D' → ∃ i' er' st', Run c G M i' D0 e0 s0 f0 D' er' st' G.n := by
  induction j with
  | zero => intro i D er st fin D' _ h; cases h
  | succ j ih =>
    intro i D er st fin D' hr h
    rw [exec] at h
    by_cases hf : fin = G.n
    · rw [if_pos hf, Option.some.injEq] at h
      subst h; subst hf
      exact ⟨_, _, _, hr⟩
    · rw [if_neg hf] at h
      rcases hn : nextBucket c D 20 st with _ | ⟨k, ids, st1⟩
      · rw [hn] at h; cases h
      · rw [hn] at h
        simp only at h
        split at h
        · cases h
        · rename_i st2 hm
          exact ih _ _ _ _ _ _ (.cons hr (.mk hf hn hM (List.Perm.refl _) rfl (List.Perm.refl _) hm)) h

/-- The result of `exec` on all vertices. -/
def execAll (opn : Nat) (G : UG) (atomic : Nat → Bool) : Option (List Nat) :=
  match create (cfg opn) G.n (deg0 G) with
  | none => none
  | some st => (exec (cfg opn) G atomic (G.n + 1) (deg0 G) (fun _ => 0) st 0).map fun D => (List.range G.n).map D

theorem execAll_sound {opn : Nat} {G : UG} {M : (Nat → Bool) → Prop} {atomic : Nat → Bool} (hM : M atomic) {l : List Nat}
    (h : execAll opn G atomic = some l) :
    ∃ D, (∃ j er st, After opn G M j D er st G.n) ∧ (List.range G.n).map D = l := by
  rw [execAll] at h
  rcases hc : create (cfg opn) G.n (deg0 G) with _ | st
  · rw [hc] at h; cases h
  · rw [hc] at h
    obtain ⟨D, h1, h2⟩ := Option.map_eq_some_iff.1 h
    obtain ⟨i, er', st', hr⟩ := exec_sound hM _ _ _ _ _ _ _ .nil h1
    exact ⟨D, ⟨i, er', st', st, hc, hr⟩, h2⟩

/-- With `updateAtomic`: the complete graph on 4 vertices. -/
example : ∃ D, KCoreFA 15 (.ofLists [[1, 2, 3], [0, 2, 3], [0, 1, 3], [0, 1, 2]]) D ∧
    (List.range 4).map D = [3, 3, 3, 3] :=
  execAll_sound (M := Mode _) .sparse (by decide +kernel)

/-- With `update`. -/
example : ∃ D, (∃ j er st, After 15 exG (fun a => a = fun _ => false) j D er st 5) ∧
    (List.range 5).map D = [2, 2, 2, 1, 1] :=
  execAll_sound (opn := 15) (G := exG) (M := fun a => a = fun _ => false) (atomic := fun _ => false) (l := [2, 2, 2, 1, 1]) rfl (by decide +kernel)

/-- The path 0 - 1 - 2 - 3. -/
def pathG : UG := .ofLists [[1], [0, 2], [1, 3], [2]]

theorem pathG_sym : pathG.Sym := UG.ofLists_sym (by decide)

/-- C38 is false: on the path 0 - 1 - 2 - 3 the inner vertices have coreness 1, and `KCore_FA` returns 2, since
`updateAtomic` emits a vertex only when its second edge is removed. -/
theorem kcoreFA_wrong : ∃ D, KCoreFA 15 pathG D ∧ D 1 = 2 ∧ IsCoreness pathG 1 1 := by
  obtain ⟨D, h1, h2⟩ := execAll_sound (opn := 15) (G := pathG) (M := Mode _) .sparse (l := [1, 2, 2, 1]) (by decide +kernel)
  refine ⟨D, h1, ?_, ?_⟩
  · have := congrArg (fun l => l[1]?) h2
    simpa [pathG, UG.ofLists] using this
  · obtain ⟨D', h3, h4⟩ := KCore.execAll_sound (opn := 15) (G := pathG) (l := [1, 1, 1, 1]) (by decide +kernel)
    have h5 := kcore_correct pathG_sym (by decide) (by decide) (fun v => by
      by_cases hv : v < 4
      · have : v = 0 ∨ v = 1 ∨ v = 2 ∨ v = 3 := by omega
        rcases this with rfl | rfl | rfl | rfl <;> decide
      · show (List.getD _ v []).length < null
        rw [List.getD_eq_getElem?_getD, List.getElem?_eq_none (by simpa using hv)]
        decide) h3 1 (by decide)
    have h6 : D' 1 = 1 := by
      have := congrArg (fun l => l[1]?) h4
      simpa [pathG, UG.ofLists] using this
    rwa [h6] at h5

end Gbbs.KCoreFA
