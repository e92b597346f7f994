/-
C105: preorder numbers, `preorder_number` of `benchmarks/Biconnectivity/TarjanVishkin/Biconnectivity.h:195-251`.
-/
import Verif.Bicc.Number
import Verif.Bicc.Tree
import Verif.Common

namespace Gbbs.Bicc

open Relation

/-! ### Model -/

/-- The loop over the children, `:226-231`. -/
def kidLoop (sz : Nat → Int) : List Nat → Int → (Nat → Int) → (Nat → Int)
  | [], _, pn => pn
  | c :: cs, p, pn => kidLoop sz cs (p + sz c) (upd pn c p)

/-- Vertices with many children, `:233-245`: `A` holds the prefix sums of the sizes, the children are numbered in the order `ord`. -/
def kidScan (sz : Nat → Int) (cs : List Nat) (p : Int) (ord : List Nat) (pn : Nat → Int) : Nat → Int :=
  ord.foldl (fun pn j => upd pn (cs.getD j 0) (p + ((cs.take j).map sz).sum)) pn

/-- The body of the parallel loop for `v`, `:214-246`. -/
def NumV (n : Nat) (par : Nat → Nat) (sz : Nat → Int) (pn : Nat → Int) (v : Nat) (pn' : Nat → Int) : Prop :=
  if (kids n par v).length < 4000 then pn' = kidLoop sz (kids n par v) (pn v + 1) pn
  else ∃ ord, Sched (kids n par v).length ord ∧ pn' = kidScan sz (kids n par v) (pn v + 1) ord pn

/-- The bodies for the vertices of the list, one after the other. -/
inductive NumAll (n : Nat) (par : Nat → Nat) (sz : Nat → Int) : List Nat → (Nat → Int) → (Nat → Int) → Prop
  | nil (pn) : NumAll n par sz [] pn pn
  | cons {v vs pn pn1 pn'} (h : NumV n par sz pn v pn1) (hs : NumAll n par sz vs pn1 pn') : NumAll n par sz (v :: vs) pn pn'

/-- The loop, `:205-251`. The bodies of a round take effect in some order: they write different cells and read cells not written in the round.
`next_vs` is filled at the offsets given by the degrees. -/
inductive NumLoop (n : Nat) (par : Nat → Nat) (sz : Nat → Int) : List Nat → (Nat → Int) → (Nat → Int) → Prop
  | done (pn) : NumLoop n par sz [] pn pn
  | round {vs us pn pn1 pn'} (hv : vs ≠ []) (hp : us.Perm vs) (h : NumAll n par sz us pn pn1)
      (hl : NumLoop n par sz (vs.flatMap (kids n par)) pn1 pn') : NumLoop n par sz vs pn pn'

/-- The numbering from the sources, `:195-251`; the cells of `PN` are not initialised otherwise (`pn0`). -/
def Numbering (n : Nat) (par : Nat → Nat) (sz : Nat → Int) (S : List Nat) (pn' : Nat → Int) : Prop :=
  ∃ pn0 : Nat → Int, NumLoop n par sz S (fun v => if v ∈ S then 0 else pn0 v) pn'

/-! ### Verification -/

/-- The sizes before `c`. -/
def bef (sz : Nat → Int) (cs : List Nat) (c : Nat) : Int := ((cs.takeWhile fun x => decide (x ≠ c)).map sz).sum

variable {n : Nat} {par dp : Nat → Nat} {sz : Nat → Int}

theorem kidLoop_eq (cs : List Nat) (hn : cs.Nodup) (p : Int) (pn : Nat → Int) (x : Nat) :
    kidLoop sz cs p pn x = if x ∈ cs then p + bef sz cs x else pn x := by
  induction cs generalizing p pn with
  | nil => rfl
  | cons c cs ih =>
    rw [List.nodup_cons] at hn
    rw [kidLoop, ih hn.2]
    by_cases hx : x = c
    · subst hx
      rw [if_neg hn.1, upd_same, if_pos List.mem_cons_self]
      simp [bef]
    · have hb : bef sz (c :: cs) x = sz c + bef sz cs x := by
        unfold bef
        rw [List.takeWhile_cons_of_pos (by simpa using Ne.symm hx)]
        simp
      by_cases hm : x ∈ cs
      · rw [if_pos hm, if_pos (List.mem_cons_of_mem _ hm), hb]; omega
      · rw [if_neg hm, if_neg (by simp [hx, hm]), upd_of_ne _ _ hx]

theorem bef_take (cs : List Nat) (hn : cs.Nodup) (j : Nat) (hj : j < cs.length) : bef sz cs cs[j] = ((cs.take j).map sz).sum := by
  induction cs generalizing j with
  | nil => cases hj
  | cons c cs ih =>
    rw [List.nodup_cons] at hn
    cases j with
    | zero => simp [bef]
    | succ j =>
      have hj' : j < cs.length := by simpa using hj
      have hne : c ≠ cs[j] := fun h => hn.1 (h ▸ List.getElem_mem _)
      have := ih hn.2 j hj'
      unfold bef at this ⊢
      rw [List.getElem_cons_succ, List.takeWhile_cons_of_pos (by simpa using hne), List.map_cons, List.sum_cons, this]
      simp

theorem getD_get {l : List Nat} {j d : Nat} (h : j < l.length) : l.getD j d = l[j] := by
  simp [List.getD, h]

theorem kidScan_eq (cs : List Nat) (hn : cs.Nodup) (p : Int) {ord : List Nat} (hs : Sched cs.length ord) (pn : Nat → Int) (x : Nat) :
    kidScan sz cs p ord pn x = if x ∈ cs then p + bef sz cs x else pn x := by
  have aux : ∀ (ord : List Nat) (pn : Nat → Int), (∀ j ∈ ord, j < cs.length) →
      kidScan sz cs p ord pn x = if ∃ j ∈ ord, cs.getD j 0 = x then p + bef sz cs x else pn x := by
    intro ord
    induction ord with
    | nil => intro pn _; simp [kidScan]
    | cons j ord ih =>
      intro pn hj
      have h1 : kidScan sz cs p (j :: ord) pn x = kidScan sz cs p ord (upd pn (cs.getD j 0) (p + ((cs.take j).map sz).sum)) x := rfl
      rw [h1, ih _ fun i hi => hj i (List.mem_cons_of_mem _ hi)]
      by_cases h2 : ∃ i ∈ ord, cs.getD i 0 = x
      · obtain ⟨i, hi, he⟩ := h2
        rw [if_pos ⟨i, hi, he⟩, if_pos ⟨i, List.mem_cons_of_mem _ hi, he⟩]
      · rw [if_neg h2]
        have hjl := hj j List.mem_cons_self
        by_cases h3 : cs.getD j 0 = x
        · rw [if_pos ⟨j, List.mem_cons_self, h3⟩, ← h3, upd_same, getD_get hjl, bef_take cs hn j hjl]
        · rw [upd_of_ne _ _ (Ne.symm h3), if_neg]
          rintro ⟨i, hi, he⟩
          rcases List.mem_cons.1 hi with rfl | hi
          · exact h3 he
          · exact h2 ⟨i, hi, he⟩
  rw [aux ord pn fun j hj => (hs.2 j).1 hj]
  have : (∃ j ∈ ord, cs.getD j 0 = x) ↔ x ∈ cs := by
    rw [List.mem_iff_getElem]
    constructor
    · rintro ⟨j, hj, he⟩
      have hjl := (hs.2 j).1 hj
      exact ⟨j, hjl, by rw [← he, getD_get hjl]⟩
    · rintro ⟨j, hj, he⟩
      exact ⟨j, (hs.2 j).2 hj, by rw [getD_get hj, he]⟩
  by_cases hx : x ∈ cs
  · rw [if_pos hx, if_pos (this.2 hx)]
  · rw [if_neg hx, if_neg fun h => hx (this.1 h)]

theorem numV_eq {pn pn' : Nat → Int} {v : Nat} (h : NumV n par sz pn v pn') (x : Nat) :
    pn' x = if x ∈ kids n par v then pn v + 1 + bef sz (kids n par v) x else pn x := by
  unfold NumV at h
  by_cases hl : (kids n par v).length < 4000
  · rw [if_pos hl] at h; rw [h]; exact kidLoop_eq _ (kids_nodup v) _ _ _
  · rw [if_neg hl] at h
    obtain ⟨ord, hs, rfl⟩ := h
    exact kidScan_eq _ (kids_nodup v) _ hs _ _

/-- A round: `vs` are vertices of one depth. -/
theorem numAll_eq (T : Tr n par dp) {t : Nat} {vs : List Nat} {pn pn' : Nat → Int} (h : NumAll n par sz vs pn pn') (hv : ∀ v ∈ vs, dp v = t) (x : Nat) :
    pn' x = if ∃ v ∈ vs, x ∈ kids n par v then pn (par x) + 1 + bef sz (kids n par (par x)) x else pn x := by
  induction h with
  | nil pn => simp
  | @cons v vs pn pn1 pn' h1 h2 ih =>
    have ih := ih fun v hv' => hv v (List.mem_cons_of_mem _ hv')
    have hkeep : ∀ y, dp y = t → pn1 y = pn y := by
      intro y hy
      rw [numV_eq h1, if_neg]
      intro hc
      have := (T.kid hc).1
      have := hv v List.mem_cons_self
      omega
    rw [ih]
    by_cases hx : ∃ v ∈ vs, x ∈ kids n par v
    · obtain ⟨u, hu, hux⟩ := hx
      rw [if_pos ⟨u, hu, hux⟩, if_pos ⟨u, List.mem_cons_of_mem _ hu, hux⟩, hkeep]
      rw [(mem_kids.1 hux).2.2]; exact hv u (List.mem_cons_of_mem _ hu)
    · rw [if_neg hx, numV_eq h1]
      by_cases hxv : x ∈ kids n par v
      · rw [if_pos hxv, if_pos ⟨v, List.mem_cons_self, hxv⟩, (mem_kids.1 hxv).2.2]
      · rw [if_neg hxv, if_neg]
        rintro ⟨u, hu, hux⟩
        rcases List.mem_cons.1 hu with rfl | hu
        · exact hxv hux
        · exact hx ⟨u, hu, hux⟩

/-- Preorder numbers of a forest with the given sizes. -/
structure IsPN (n : Nat) (par dp : Nat → Nat) (sz PN : Nat → Int) : Prop where
  root : ∀ v < n, dp v = 0 → PN v = 0
  kid : ∀ v c, c ∈ kids n par v → PN c = PN v + 1 + bef sz (kids n par v) c

theorem numLoop_inv (T : Tr n par dp) {vs : List Nat} {pn pn' : Nat → Int} (h : NumLoop n par sz vs pn pn') {t : Nat}
    (hv : ∀ v, v ∈ vs ↔ v < n ∧ dp v = t) (h0 : ∀ v < n, dp v = 0 → pn v = 0)
    (hk : ∀ v c, c ∈ kids n par v → dp c ≤ t → pn c = pn v + 1 + bef sz (kids n par v) c) : IsPN n par dp sz pn' := by
  induction h generalizing t with
  | done pn =>
    refine ⟨h0, fun v c hc => hk v c hc ?_⟩
    -- no vertex has depth `t`, so none is deeper
    have hno : ∀ j x, x < n → dp x ≠ t + j := by
      intro j
      induction j with
      | zero => intro x hx hd; cases (hv x).2 ⟨hx, hd⟩
      | succ j ih => intro x hx hd; exact ih (par x) (T.lt x hx) (by have := T.step x hx (by omega); omega)
    by_contra hlt
    exact hno (dp c - t) c (mem_kids.1 hc).1 (by omega)
  | @round vs us pn pn1 pn' _ hp hr _ ih =>
    have hus : ∀ v ∈ us, dp v = t := fun v hv' => ((hv v).1 (hp.mem_iff.1 hv')).2
    have heq := numAll_eq T hr hus
    have hin : ∀ x, (∃ v ∈ us, x ∈ kids n par v) ↔ x < n ∧ dp x = t + 1 := by
      intro x
      constructor
      · rintro ⟨v, hv', hx⟩
        have h1 := (T.kid hx).1
        rw [hus v hv'] at h1
        exact ⟨(mem_kids.1 hx).1, h1.symm⟩
      · rintro ⟨hx, hd⟩
        have h1 := T.step x hx (by omega)
        exact ⟨par x, hp.mem_iff.2 ((hv _).2 ⟨T.lt x hx, by omega⟩), mem_kids.2 ⟨hx, fun hc => by rw [hc] at h1; omega, rfl⟩⟩
    refine ih (t := t + 1) (fun x => ?_) (fun v hv' hd => ?_) fun v c hc hd => ?_
    · rw [List.mem_flatMap, ← hin]
      exact ⟨fun ⟨v, h1, h2⟩ => ⟨v, hp.mem_iff.2 h1, h2⟩, fun ⟨v, h1, h2⟩ => ⟨v, hp.mem_iff.1 h1, h2⟩⟩
    · rw [heq, if_neg fun h => by have := ((hin v).1 h).2; omega]
      exact h0 v hv' hd
    · have hkd := (T.kid hc).1
      have hv1 : pn1 v = pn v := by rw [heq, if_neg fun h => by have := ((hin v).1 h).2; omega]
      by_cases hd' : dp c = t + 1
      · rw [heq c, if_pos ((hin c).2 ⟨(mem_kids.1 hc).1, hd'⟩), (mem_kids.1 hc).2.2, hv1]
      · rw [heq c, if_neg fun h => hd' ((hin c).1 h).2, hv1]
        exact hk v c hc (by omega)

theorem numbering_isPN (T : Tr n par dp) {S : List Nat} (hS : ∀ v, v ∈ S ↔ v < n ∧ dp v = 0) {PN : Nat → Int} (h : Numbering n par sz S PN) :
    IsPN n par dp sz PN := by
  obtain ⟨pn0, hl⟩ := h
  refine numLoop_inv T hl (t := 0) hS (fun v hv hd => if_pos ((hS v).2 ⟨hv, hd⟩)) fun v c hc hd => ?_
  have := (T.kid hc).1
  omega

/-! ### Intervals -/

theorem bef_le (hs : ∀ c, 1 ≤ sz c) {cs : List Nat} {c : Nat} (h : c ∈ cs) : 0 ≤ bef sz cs c ∧ bef sz cs c + sz c ≤ (cs.map sz).sum := by
  have hsum : ∀ l : List Nat, 0 ≤ (l.map sz).sum := by
    intro l
    induction l with
    | nil => simp
    | cons a l ih => rw [List.map_cons, List.sum_cons]; have := hs a; omega
  refine ⟨hsum _, ?_⟩
  induction cs with
  | nil => cases h
  | cons a cs ih =>
    rw [List.map_cons, List.sum_cons]
    by_cases hc : a = c
    · subst hc
      have := hsum cs
      simp only [bef, ne_eq, not_true_eq_false, decide_false, Bool.false_eq_true, not_false_eq_true, List.takeWhile_cons_of_neg, List.map_nil, List.sum_nil]
      omega
    · have := ih ((List.mem_cons.1 h).resolve_left (Ne.symm hc))
      unfold bef at this ⊢
      rw [List.takeWhile_cons_of_pos (by simpa using hc), List.map_cons, List.sum_cons]
      omega

theorem bef_disj (hs : ∀ c, 1 ≤ sz c) {cs : List Nat} {c d : Nat} (hc : c ∈ cs) (hd : d ∈ cs) (hne : c ≠ d) :
    bef sz cs c + sz c ≤ bef sz cs d ∨ bef sz cs d + sz d ≤ bef sz cs c := by
  have key : ∀ (cs : List Nat) (a d : Nat), a ≠ d → d ∈ cs → bef sz (a :: cs) a = 0 ∧ bef sz (a :: cs) d = sz a + bef sz cs d := by
    intro cs a d h _
    unfold bef
    rw [List.takeWhile_cons_of_pos (a := a) (p := fun x => decide (x ≠ d)) (by simpa using h)]
    simp
  induction cs with
  | nil => cases hc
  | cons a cs ih =>
    by_cases hac : a = c
    · subst hac
      have hd' := (List.mem_cons.1 hd).resolve_left (Ne.symm hne)
      obtain ⟨h1, h2⟩ := key cs a d hne hd'
      have := (bef_le hs hd').1
      left; omega
    · by_cases had : a = d
      · subst had
        have hc' := (List.mem_cons.1 hc).resolve_left hne
        obtain ⟨h1, h2⟩ := key cs a c hac hc'
        have := (bef_le hs hc').1
        right; omega
      · have hc' := (List.mem_cons.1 hc).resolve_left (Ne.symm hac)
        have hd' := (List.mem_cons.1 hd).resolve_left (Ne.symm had)
        have := ih hc' hd'
        have h1 := (key cs a c hac hc').2
        have h2 := (key cs a d had hd').2
        omega

/-- Sizes of the subtrees. -/
def IsSize (n : Nat) (par : Nat → Nat) (sz : Nat → Int) : Prop := ∀ v, sz v = 1 + ((kids n par v).map sz).sum

theorem size_pos (T : Tr n par dp) (h : IsSize n par sz) (v : Nat) : 1 ≤ sz v := by
  obtain ⟨D, hD⟩ := bounded dp n
  have hsum : ∀ l : List Nat, (∀ c ∈ l, 1 ≤ sz c) → 0 ≤ (l.map sz).sum := by
    intro l
    induction l with
    | nil => intro _; simp
    | cons a l ih => intro hl; rw [List.map_cons, List.sum_cons]; have := hl a List.mem_cons_self; have := ih fun c hc => hl c (List.mem_cons_of_mem _ hc); omega
  have main : ∀ d v, v < n → D - dp v = d → 1 ≤ sz v := by
    intro d
    induction d using Nat.strongRecOn with
    | _ d ih =>
      intro v hv hd
      rw [h v]
      have := hsum (kids n par v) fun c hc => by
        have h1 := (mem_kids.1 hc).1
        have h2 := (T.kid hc).1
        have h3 := hD c h1
        exact ih (D - dp c) (by omega) c h1 rfl
      omega
  rw [h v]
  have := hsum (kids n par v) fun c hc => main _ c (mem_kids.1 hc).1 rfl
  omega

variable {E : Nat → Nat → Prop} {PN : Nat → Int}

theorem pn_kid (hs : ∀ c, 1 ≤ sz c) (hz : IsSize n par sz) (hp : IsPN n par dp sz PN) {v c : Nat} (h : c ∈ kids n par v) :
    PN v < PN c ∧ PN c + sz c ≤ PN v + sz v := by
  have h1 := hp.kid v c h
  have h2 := bef_le hs h
  have h3 := hz v
  omega

theorem anc_lt (hb : ∀ v < n, par v < n) {a x : Nat} (hx : x < n) (h : Anc par a x) : a < n := by
  obtain ⟨k, rfl⟩ := h
  induction k generalizing x with
  | zero => exact hx
  | succ k ih => exact ih (hb x hx)

theorem anc_kid {a x : Nat} (hb : ∀ v < n, par v < n) (hx : x < n) (h : Anc par a x) (hne : a ≠ x) : ∃ c ∈ kids n par a, Anc par c x := by
  obtain ⟨k, hk⟩ := h
  induction k generalizing a with
  | zero => exact absurd hk.symm hne
  | succ k ih =>
    rw [Function.iterate_succ_apply'] at hk
    have hl : par^[k] x < n := anc_lt hb hx ⟨k, rfl⟩
    by_cases hc : par^[k] x = a
    · exact ih hne hc
    · exact ⟨par^[k] x, mem_kids.2 ⟨hl, fun h => hc (h.symm.trans hk), hk⟩, k, rfl⟩

/-- Subtrees are intervals of preorder numbers. -/
theorem pn_interval (B : BfsTree E par dp) (T : Tr n par dp) (hz : IsSize n par sz) (hp : IsPN n par dp sz PN) {a x : Nat} (ha : a < n) (hx : x < n)
    (hc : EqvGen E a x) : Anc par a x ↔ PN a ≤ PN x ∧ PN x < PN a + sz a := by
  have hs := size_pos T hz
  have fwd : ∀ k a, a = par^[k] x → PN a ≤ PN x ∧ PN x + sz x ≤ PN a + sz a := by
    intro k
    induction k with
    | zero => rintro a rfl; exact ⟨Int.le_refl _, Int.le_refl _⟩
    | succ k ih =>
      rintro a rfl
      rw [Function.iterate_succ_apply']
      have h1 := ih _ rfl
      by_cases hr : par (par^[k] x) = par^[k] x
      · rw [hr]; exact h1
      · have := pn_kid hs hz hp (mem_kids.2 ⟨anc_lt T.lt hx ⟨k, rfl⟩, hr, rfl⟩)
        omega
  constructor
  · rintro ⟨k, hk⟩
    have := fwd k a hk.symm
    have := hs x
    omega
  · generalize hd : dp a = d
    induction d using Nat.strongRecOn generalizing a with
    | _ d ih =>
      rintro ⟨h1, h2⟩
      by_cases h0 : dp a = 0
      · obtain ⟨r, hr, hrx⟩ := B.has_root x
        exact B.one a r h0 hr (hc.trans _ _ _ (B.conn hrx)) ▸ hrx
      · have hE := (B.step a h0).1
        have hak : a ∈ kids n par (par a) := mem_kids.2 ⟨ha, B.par_ne h0, rfl⟩
        have hpk := pn_kid hs hz hp hak
        have hpx : Anc par (par a) x := ih (dp (par a)) (by have := (B.step a h0).2; omega) (T.lt a ha) (.trans _ _ _ (.rel _ _ hE) hc) rfl ⟨by omega, by omega⟩
        by_cases hne : par a = x
        · subst hne; omega
        · obtain ⟨c, hck, hcx⟩ := anc_kid T.lt hx hpx hne
          by_cases hca : c = a
          · exact hca ▸ hcx
          · obtain ⟨k, hk⟩ := hcx
            have h3 := fwd k c hk.symm
            have h4 := bef_disj hs hck hak hca
            have h5 := hp.kid _ _ hck
            have h6 := hp.kid _ _ hak
            have := hs x
            omega

end Gbbs.Bicc
