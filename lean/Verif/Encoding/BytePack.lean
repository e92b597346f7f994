import Verif.Encoding.ByteList

/-! # In-place packing of `byte` lists -/

namespace Gbbs.Byte

open Gbbs EncSpec

variable {W : Type} {c : WCodec W} {ok : W → Prop}

theorem encSigned_length (x : Int) :
    (encSigned x).length = 1 + (encEdge (x.natAbs / 64)).length := by
  simp [encSigned, Nat.add_comm]

/-- Skipping entries never makes the first-entry code longer than what was skipped. -/
theorem encSigned_length_add (x : Int) (d : Nat) (hd : 0 < d) :
    (encSigned (x + d)).length ≤ (encSigned x).length + (encEdge d).length := by
  rw [encSigned_length, encSigned_length]
  have h1 : (x + d).natAbs / 64 ≤ x.natAbs / 64 + d := by omega
  have h2 := encEdge_length_mono h1
  have h3 := encEdge_length_add (x.natAbs / 64) d
  omega

/-- Last neighbour of a list, or the default. -/
def lastOr (p : Nat) : List (Nat × W) → Nat
  | [] => p
  | (n, _) :: r => lastOr n r

theorem encRest_append (L : Lawful c ok) (p : Nat) (K : List (Nat × W)) (n : Nat) (w : W) :
    encRest L p (K ++ [(n, w)]) = encRest L p K ++ (encEdge (n - lastOr p K) ++ L.enc w) := by
  induction K generalizing p with
  | nil => simp [encRest, lastOr]
  | cons e r ih =>
    obtain ⟨a, b⟩ := e
    simp only [List.cons_append, encRest, lastOr, ih, List.append_assoc]

theorem encList_append (L : Lawful c ok) (src : Nat) (K : List (Nat × W)) (hK : K ≠ [])
    (n : Nat) (w : W) :
    encList L src (K ++ [(n, w)]) =
      encList L src K ++ (encEdge (n - lastOr 0 K) ++ L.enc w) := by
  cases K with
  | nil => exact absurd rfl hK
  | cons e r =>
    obtain ⟨a, b⟩ := e
    simp only [List.cons_append, encList, lastOr, encRest_append, List.append_assoc]

theorem lastOr_append (p : Nat) (K : List (Nat × W)) (n : Nat) (w : W) :
    lastOr p (K ++ [(n, w)]) = n := by
  induction K generalizing p with
  | nil => rfl
  | cons e r ih => obtain ⟨a, b⟩ := e; simpa [lastOr] using ih a

/-- The invariant of the packing loop: `K` are the entries kept so far, `R` those still
to be read. -/
structure PackInv (L : Lawful c ok) (base src : Nat) (m0 : Mem) (K R : List (Nat × W))
    (s : PackState) : Prop where
  written : s.mem.Has base (encList L src K)
  offset : s.offset = (encList L src K).length
  newDeg : s.newDeg = K.length
  last : K ≠ [] → s.lastNgh = lastOr 0 K ∧ s.lastNgh ≤ s.ngh
  unread : s.mem.Has s.finger (encRest L s.ngh R)
  chain : Chain ok s.ngh R
  bound : s.ngh < uintEMod
  spaceFirst : K = [] → base + (encSigned ((s.ngh : Int) - src)).length ≤ s.finger
  spaceRest : K ≠ [] → base + s.offset + (encEdge (s.ngh - s.lastNgh)).length ≤ s.finger
  frame : ∀ i, i < base ∨ s.finger ≤ i → s.mem i = m0 i

/-- Writing an accepted entry right after it was read. `room` is the space needed. -/
theorem packWrite_inv (L : Lawful c ok) {base src : Nat} {m0 : Mem} {K R : List (Nat × W)}
    {s : PackState} {w : W} (hw : ok w) (hsrc : src < uintEMod)
    (h1 : s.mem.Has base (encList L src K)) (h2 : s.offset = (encList L src K).length)
    (h3 : s.newDeg = K.length) (h4 : K ≠ [] → s.lastNgh = lastOr 0 K ∧ s.lastNgh < s.ngh)
    (h5 : s.mem.Has s.finger (encRest L s.ngh R)) (h6 : Chain ok s.ngh R)
    (h7 : s.ngh < uintEMod)
    (h8 : K = [] → base + (encSigned ((s.ngh : Int) - src)).length + (L.enc w).length ≤ s.finger)
    (h9 : K ≠ [] → base + s.offset + (encEdge (s.ngh - s.lastNgh)).length + (L.enc w).length
      ≤ s.finger)
    (h10 : ∀ i, i < base ∨ s.finger ≤ i → s.mem i = m0 i) :
    PackInv L base src m0 (K ++ [(s.ngh, w)]) R (packWrite c base src w s) := by
  by_cases hK : K = []
  · subst hK
    have hn0 : s.newDeg = 0 := by simpa using h3
    have ho : s.offset = 0 := by simpa [encList] using h2
    have h8 := h8 rfl
    have hpw : packWrite c base src w s =
        { s with
          mem := s.mem.write base (encList L src [(s.ngh, w)])
          offset := (encList L src [(s.ngh, w)]).length
          lastNgh := s.ngh
          newDeg := 1 } := by
      simp only [packWrite, hn0, if_true, ho, Nat.add_zero]
      rw [compressFirstEdge_eq _ _ _ _ (by simp only [uintEMod] at *; omega)]
      simp only [L.compress_eq _ _ _ hw, encList, encRest, List.append_nil, Mem.write_append,
        List.length_append]
      congr 1
      omega
    rw [hpw]
    have hlen : base + (encList L src [(s.ngh, w)]).length ≤ s.finger := by
      simp only [encList, encRest, List.append_nil, List.length_append]; omega
    refine ⟨Mem.write_has _ _ _, rfl, rfl, fun _ => ⟨rfl, Nat.le_refl _⟩, ?_, h6, h7,
      fun h => by simp at h, fun _ => ?_, fun i hi => ?_⟩
    · refine Mem.has_of_agree (fun i hi _ => (Mem.write_outside _ _ _ _ (Or.inr ?_)).symm) h5
      have hi : s.finger ≤ i := hi
      omega
    · simp [encEdge_zero]; exact hlen
    · have hi : i < base ∨ s.finger ≤ i := hi
      show Mem.write _ _ _ i = _
      rw [Mem.write_outside _ _ _ _ (by omega)]
      exact h10 i hi
  · have hn0 : s.newDeg ≠ 0 := by
      rw [h3]; intro h; exact hK (List.length_eq_zero_iff.1 h)
    obtain ⟨hl1, hl2⟩ := h4 hK
    have h9 := h9 hK
    have hpw : packWrite c base src w s =
        { s with
          mem := s.mem.write (base + s.offset) (encEdge (s.ngh - s.lastNgh) ++ L.enc w)
          offset := (encList L src (K ++ [(s.ngh, w)])).length
          lastNgh := s.ngh
          newDeg := s.newDeg + 1 } := by
      simp only [packWrite, hn0, if_false, diff_eq hl2 h7, compressEdge_eq,
        L.compress_eq _ _ _ hw, Mem.write_append]
      congr 1
      rw [encList_append L src K hK, ← hl1]
      simp only [List.length_append]
      omega
    rw [hpw]
    have hlen : base + (encList L src (K ++ [(s.ngh, w)])).length ≤ s.finger := by
      rw [encList_append L src K hK, ← hl1]
      simp only [List.length_append]; omega
    refine ⟨?_, rfl, by simp [h3], fun _ => ⟨(lastOr_append 0 K s.ngh w).symm, Nat.le_refl _⟩, ?_,
      h6, h7, fun h => by simp at h, fun _ => ?_, fun i hi => ?_⟩
    · rw [encList_append L src K hK, Mem.has_append]
      refine ⟨?_, ?_⟩
      · exact Mem.has_of_agree
          (fun i _ hi => (Mem.write_outside _ _ _ _ (Or.inl (by omega))).symm) h1
      · rw [← hl1, ← h2]; exact Mem.write_has _ _ _
    · refine Mem.has_of_agree (fun i hi _ => (Mem.write_outside _ _ _ _ (Or.inr ?_)).symm) h5
      have hi : s.finger ≤ i := hi
      simp only [List.length_append]; omega
    · simp [encEdge_zero]; simpa using hlen
    · have hi : i < base ∨ s.finger ≤ i := hi
      show Mem.write _ _ _ i = _
      rw [Mem.write_outside _ _ _ _ (by simp only [List.length_append]; omega)]
      exact h10 i hi

theorem packLoop_inv (L : Lawful c ok) (pred : Nat → Nat → W → Bool) {base src : Nat} {m0 : Mem}
    (hsrc : src < uintEMod) (R K : List (Nat × W)) (s : PackState)
    (h : PackInv L base src m0 K R s) :
    ∃ s', packLoop c pred base src R.length s = some s' ∧
      PackInv L base src m0 (K ++ R.filter (fun e => pred src e.1 e.2)) [] s' ∧
      s'.finger = s.finger + (encRest L s.ngh R).length := by
  induction R generalizing K s with
  | nil => exact ⟨s, rfl, by simpa using h, by simp [encRest]⟩
  | cons e rest ih =>
    obtain ⟨ngh, w⟩ := e
    obtain ⟨e1, e2, e3, e4⟩ := eat_step L h.chain h.unread
    obtain ⟨c1, c2, c3, c4⟩ := h.chain
    simp only [List.length_cons, packLoop, e1, e2, e3]
    have hfirst : K = [] → base + (encSigned ((ngh : Int) - src)).length + (L.enc w).length ≤
        s.finger + (encEdge (ngh - s.ngh)).length + (L.enc w).length := by
      intro hK
      have a := h.spaceFirst hK
      have b := encSigned_length_add ((s.ngh : Int) - src) (ngh - s.ngh) (by omega)
      rw [show (s.ngh : Int) - src + ((ngh - s.ngh : Nat) : Int) = (ngh : Int) - src by omega] at b
      omega
    have hrest : K ≠ [] → base + s.offset + (encEdge (ngh - s.lastNgh)).length + (L.enc w).length ≤
        s.finger + (encEdge (ngh - s.ngh)).length + (L.enc w).length := by
      intro hK
      have a := h.spaceRest hK
      have a2 := (h.last hK).2
      have b := encEdge_length_add (s.ngh - s.lastNgh) (ngh - s.ngh)
      rw [show s.ngh - s.lastNgh + (ngh - s.ngh) = ngh - s.lastNgh by omega] at b
      omega
    by_cases hp : pred src ngh w
    · simp only [hp, if_true]
      have hinv := packWrite_inv L (base := base) (src := src) (m0 := m0) (K := K) (R := rest)
        (s := { s with finger := s.finger + (encEdge (ngh - s.ngh)).length + (L.enc w).length,
                       ngh := ngh }) (w := w) c3 hsrc h.written h.offset h.newDeg
        (fun hK => ⟨(h.last hK).1, Nat.lt_of_le_of_lt (h.last hK).2 c1⟩) e4 c4 c2 hfirst hrest
        (fun i hi => h.frame i (by simp only at hi; omega))
      obtain ⟨s', g1, g2, g3⟩ := ih _ _ hinv
      refine ⟨s', g1, ?_, ?_⟩
      · simpa [hp] using g2
      · rw [g3]
        simp only [packWrite, encRest, List.length_append]
        omega
    · simp only [hp]
      have hinv : PackInv L base src m0 K rest
          { s with finger := s.finger + (encEdge (ngh - s.ngh)).length + (L.enc w).length,
                   ngh := ngh } := by
        refine ⟨h.written, h.offset, h.newDeg, fun hK => ⟨(h.last hK).1, ?_⟩, e4, c4, c2,
          fun hK => ?_, fun hK => ?_, fun i hi => h.frame i (by simp only at hi; omega)⟩
        · have := (h.last hK).2
          simp only; omega
        · have := hfirst hK
          simp only; omega
        · have := hrest hK
          simp only; omega
      obtain ⟨s', g1, g2, g3⟩ := ih _ _ hinv
      refine ⟨s', g1, ?_, ?_⟩
      · simpa [hp] using g2
      · rw [g3]
        simp only [encRest, List.length_append]
        omega

theorem pack_eq (L : Lawful c ok) (pred : Nat → Nat → W → Bool) (m : Mem) (src base : Nat)
    (edges : List (Nat × W)) (hsrc : src < uintEMod)
    (h : ValidList edges) (hok : ∀ e ∈ edges, ok e.2) (hm : m.Has base (encList L src edges)) :
    ∃ m', pack c pred m base src edges.length =
        some (m', (edges.filter (fun e => pred src e.1 e.2)).length) ∧
      m'.Has base (encList L src (edges.filter (fun e => pred src e.1 e.2))) ∧
      ∀ i, i < base ∨ base + (encList L src edges).length ≤ i → m' i = m i := by
  cases edges with
  | nil => exact ⟨m, rfl, trivial, fun _ _ => rfl⟩
  | cons e rest =>
    obtain ⟨ngh, w⟩ := e
    have hn : ngh < uintEMod := h.bounded _ (List.mem_cons_self ..)
    have hc : Chain ok ngh rest := chain_of_valid h (fun e he => hok e (List.mem_cons_of_mem _ he))
    have hw : ok w := hok (ngh, w) (by simp)
    obtain ⟨e1, e2, e3⟩ := eat_first L hsrc hn hw hm
    simp only [List.length_cons, pack, e1, e2]
    by_cases hp : pred src ngh w
    · simp only [hp, if_true]
      have hinv := packWrite_inv L (base := base) (src := src) (m0 := m) (K := []) (R := rest)
        (s := ⟨m, base + (encSigned ((ngh : Int) - src)).length + (L.enc w).length, ngh, 0, 0, 0⟩)
        (w := w) hw hsrc trivial rfl rfl (fun h => absurd rfl h) e3 hc hn (fun _ => by simp)
        (fun h => absurd rfl h) (fun _ _ => rfl)
      obtain ⟨s', g1, g2, g3⟩ := packLoop_inv L pred hsrc _ _ _ hinv
      rw [g1]
      refine ⟨s'.mem, ?_, ?_, fun i hi => g2.frame i ?_⟩
      · simp only [g2.newDeg, hp, List.filter_cons]
        simp [Nat.add_comm]
      · simpa [hp] using g2.written
      · rw [g3]
        simp only [packWrite, encList, List.length_append] at *
        omega
    · simp only [hp]
      have hinv : PackInv L base src m [] rest
          ⟨m, base + (encSigned ((ngh : Int) - src)).length + (L.enc w).length, ngh, 0, 0, 0⟩ :=
        ⟨trivial, rfl, rfl, fun h => absurd rfl h, e3, hc, hn, fun _ => by simp,
          fun h => absurd rfl h, fun _ _ => rfl⟩
      obtain ⟨s', g1, g2, g3⟩ := packLoop_inv L pred hsrc _ _ _ hinv
      refine ⟨s'.mem, ?_, ?_, fun i hi => g2.frame i ?_⟩
      · simp only [Bool.false_eq_true, if_false, g1, g2.newDeg, hp, List.filter_cons]
        simp
      · simpa [hp] using g2.written
      · rw [g3]
        simp only [encList, List.length_append] at *
        omega

end Gbbs.Byte
