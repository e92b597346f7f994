/-
C105: every graph has a run of `Biconnectivity`.
-/
import Verif.Bicc.Main
import Mathlib.Data.List.FinRange

namespace Gbbs.Bicc

open Em Relation Conc Conc.Prog
open BFSSF (Adj none32)
open Atomics (Steps)

set_option linter.unusedSectionVars false

variable {W : Type}

/-! ### Threads one after the other -/

section
variable {L V α : Type} [DecidableEq L] [DecidableEq V]

theorem steps_append {ι : Type} [DecidableEq ι] {c c' c'' : Conf ι L V α} (h1 : Steps Step c c') (h2 : Steps Step c' c'') : Steps Step c c'' := by
  induction h2 with
  | refl => exact h1
  | tail _ h ih => exact ih.tail h

theorem all_run {n : Nat} (th : Fin n → Prog L V α) (I : (L → V) → Prop) (h : ∀ i m, I m → ∃ a m', exec (th i) m = some (a, m') ∧ I m') {m : L → V} (hm : I m) :
    ∃ c : Conf (Fin n) L V α, Steps Step ⟨m, th⟩ c ∧ (∀ i, ∃ a, c.th i = ret a) ∧ I c.mem := by
  have aux : ∀ l : List (Fin n), l.Nodup → ∃ c : Conf (Fin n) L V α, Steps Step ⟨m, th⟩ c ∧ (∀ i ∈ l, ∃ a, c.th i = ret a) ∧ (∀ i ∉ l, c.th i = th i) ∧ I c.mem := by
    intro l
    induction l with
    | nil => intro _; exact ⟨_, .refl _, fun i hi => (by cases hi), fun _ _ => rfl, hm⟩
    | cons i l ih =>
      intro hn
      rw [List.nodup_cons] at hn
      obtain ⟨c, h1, h2, h3, h4⟩ := ih hn.2
      obtain ⟨a, m', h5, h6⟩ := h i c.mem h4
      have h7 := exec_steps (th i) i c.th h5
      have e : (⟨c.mem, fun j => if j = i then th i else c.th j⟩ : Conf (Fin n) L V α) = c := by
        cases c with
        | mk cm ct =>
          congr 1
          funext j
          by_cases hj : j = i
          · rw [if_pos hj, hj]; exact (h3 i hn.1).symm
          · rw [if_neg hj]
      rw [e] at h7
      refine ⟨_, steps_append h1 h7, fun j hj => ?_, fun j hj => ?_, h6⟩
      · by_cases hji : j = i
        · exact ⟨a, if_pos hji⟩
        · obtain ⟨b, hb⟩ := h2 j ((List.mem_cons.1 hj).resolve_left hji)
          exact ⟨b, by dsimp only; rw [if_neg hji, hb]⟩
      · have hji : j ≠ i := fun e => hj (e ▸ List.mem_cons_self)
        dsimp only
        rw [if_neg hji]
        exact h3 j fun hl => hj (List.mem_cons_of_mem _ hl)
  obtain ⟨c, h1, h2, -, h4⟩ := aux (List.finRange n) (List.nodup_finRange n)
  exact ⟨c, h1, fun i => h2 i (List.mem_finRange i), h4⟩

end

/-! ### Union-find -/

section
open UF

/-- Parents are smaller. -/
def Desc (m : UF.Loc → Nat) : Prop := ∀ x, m (.par x) ≤ x

def Chain (m : UF.Loc → Nat) (i j : Nat) : Prop := ∃ k, (fun x => m (.par x))^[k] i = j

theorem chain_root {m : UF.Loc → Nat} {i j : Nat} (h : Chain m i j) (hi : m (.par i) = i) : j = i := by
  obtain ⟨k, rfl⟩ := h
  exact Function.iterate_fixed hi k

theorem chain_next {m : UF.Loc → Nat} {i j : Nat} (h : Chain m i j) (hne : i ≠ j) : Chain m (m (.par i)) j := by
  obtain ⟨k, hk⟩ := h
  cases k with
  | zero => exact absurd hk hne
  | succ k => exact ⟨k, hk⟩

theorem chain_put {m : UF.Loc → Nat} (hD : Desc m) {t j i v : Nat} (h : Chain m t j) (hlt : t < i) : Chain (put m (.par i) v) t j := by
  obtain ⟨k, hk⟩ := h
  induction k generalizing t with
  | zero => exact ⟨0, hk⟩
  | succ k ih =>
    obtain ⟨k', hk'⟩ := ih (t := m (.par t)) (Nat.lt_of_le_of_lt (hD t) hlt) hk
    refine ⟨k' + 1, ?_⟩
    rw [Function.iterate_succ_apply]
    rw [put_ne _ _ (by intro e; injection e; omega)]
    exact hk'

theorem climb_ok {m : UF.Loc → Nat} (hD : Desc m) (f j : Nat) (hj : j < f) : ∃ r, exec (climb f j) m = some (r, m) ∧ m (.par r) = r ∧ r ≤ j ∧ Chain m j r := by
  induction f generalizing j with
  | zero => omega
  | succ f ih =>
    have h1 := hD j
    show ∃ r, exec (if m (.par (m (.par j))) ≠ m (.par j) then climb f (m (.par j)) else ret (m (.par j))) m = _ ∧ _
    by_cases h : m (.par (m (.par j))) ≠ m (.par j)
    · rw [if_pos h]
      have h2 : m (.par j) ≠ j := fun e => h (by rw [e, e])
      obtain ⟨r, h3, h4, h5, k, hk⟩ := ih (m (.par j)) (by omega)
      exact ⟨r, h3, h4, by omega, k + 1, hk⟩
    · rw [if_neg h]
      exact ⟨_, rfl, by simpa using h, h1, 1, rfl⟩

theorem compress_ok (f : Nat) (i j : Nat) (hi : i < f) (m : UF.Loc → Nat) (hD : Desc m) (hj : m (.par j) = j) (hc : Chain m i j) :
    ∃ m', exec (compressLoop f i j) m = some ((), m') ∧ Desc m' ∧ ∀ r, m (.par r) = r → m' (.par r) = r := by
  induction f generalizing i m with
  | zero => omega
  | succ f ih =>
    show ∃ m', exec (if m (.par i) > j then write (.par i) j (compressLoop f (m (.par i)) j) else ret ()) m = _ ∧ _
    by_cases h : m (.par i) > j
    · rw [if_pos h]
      have h1 := hD i
      have hne : m (.par i) ≠ i := fun e => by have := chain_root hc e; omega
      have hij : i ≠ j := fun e => by subst e; exact hne hj
      have hr : ∀ r, m (.par r) = r → put m (.par i) j (.par r) = r := by
        intro r h2
        rw [put_ne _ _ (by intro e; injection e with e; subst e; exact hne h2), h2]
      obtain ⟨m', h2, h3, h4⟩ := ih (m (.par i)) (by omega) (put m (.par i) j) (fun x => by
        by_cases hx : x = i
        · subst hx; rw [put_same]; omega
        · rw [put_ne _ _ (by intro e; injection e; omega)]; exact hD x) (hr j hj) (chain_put hD (chain_next hc hij) (by omega))
      exact ⟨m', h2, h3, fun r h5 => h4 r (hr r h5)⟩
    · rw [if_neg h]
      exact ⟨m, rfl, hD, fun _ h => h⟩

theorem find_ok (f i : Nat) (hi : i < f) (m : UF.Loc → Nat) (hD : Desc m) :
    ∃ r m', exec (findCompress f i) m = some (r, m') ∧ Desc m' ∧ m' (.par r) = r ∧ ∀ r, m (.par r) = r → m' (.par r) = r := by
  show ∃ r m', exec (if m (.par i) = i then ret i else (climb f i).bind fun j => (compressLoop f i j).bind fun _ => ret j) m = _ ∧ _
  by_cases h : m (.par i) = i
  · rw [if_pos h]; exact ⟨i, m, rfl, hD, h, fun _ h => h⟩
  · rw [if_neg h]
    obtain ⟨r, h1, h2, h3, h4⟩ := climb_ok hD f i hi
    obtain ⟨m', h5, h6, h7⟩ := compress_ok f i r hi m hD h2 h4
    refine ⟨r, m', ?_, h6, h7 r h2, h7⟩
    rw [exec_bind, h1]
    show exec ((compressLoop f i r).bind fun _ => ret r) m = _
    rw [exec_bind, h5]; rfl

theorem unite_ok (f u v : Nat) (hu : u < f) (hv : v < f) (m : UF.Loc → Nat) (hD : Desc m) :
    ∃ a m', exec (uniteImpl (findCompress f) 2 u v) m = some (a, m') ∧ Desc m' := by
  rw [uniteImpl]
  by_cases h : u = v
  · rw [if_pos h]; exact ⟨_, _, rfl, hD⟩
  · rw [if_neg h]
    obtain ⟨r, m1, h1, h2, h3, h4⟩ := find_ok f u hu m hD
    obtain ⟨s, m2, h5, h6, h7, h8⟩ := find_ok f v hv m1 h2
    have hr := h8 r h3
    rw [exec_bind, h1]
    show ∃ a m', exec ((findCompress f v).bind fun v => _) m1 = some (a, m') ∧ _
    rw [exec_bind, h5]
    show ∃ a m', exec (if r > s then _ else if s > r then _ else uniteImpl (findCompress f) 1 r s) m2 = some (a, m') ∧ _
    have put_desc : ∀ a b, b < a → Desc (put m2 (.par a) b) := by
      intro a b hab x
      by_cases hx : x = a
      · subst hx; rw [put_same]; omega
      · rw [put_ne _ _ (by intro e; injection e; omega)]; exact h6 x
    by_cases c1 : r > s
    · rw [if_pos c1]
      refine ⟨some r, put m2 (.par r) s, ?_, put_desc r s c1⟩
      simp only [exec]
      rw [if_pos hr]
      simp only [exec]
      rw [if_pos hr]
      rfl
    · rw [if_neg c1]
      by_cases c2 : s > r
      · rw [if_pos c2]
        refine ⟨some s, put m2 (.par s) r, ?_, put_desc s r c2⟩
        simp only [exec]
        rw [if_pos h7]
        simp only [exec]
        rw [if_pos h7]
        rfl
      · rw [if_neg c2]
        refine ⟨none, m2, ?_, h6⟩
        rw [uniteImpl, if_pos (by omega)]; rfl

/-- Some execution of `SimpleUnionAsync` returns. -/
theorem simpleUnion_exists (l : List (Nat × Nat)) (n : Nat) : ∃ p, SimpleUnion (callOf l) n p := by
  obtain ⟨c1, h1, h2, h3⟩ := all_run (fun i => uniteImpl (findCompress ((callOf l i).1 + (callOf l i).2 + 1)) 2 (callOf l i).1 (callOf l i).2) Desc
    (fun i m hm => unite_ok _ _ _ (by omega) (by omega) m hm) (m := mem0 0) (fun x => Nat.le_refl _)
  obtain ⟨c2, h4, h5, h6⟩ := all_run (fun i : Fin n => finishStep (i + 1) i) Desc
    (fun i m hm => by obtain ⟨r, m', h, h', -⟩ := find_ok (i + 1) i (by omega) m hm; exact ⟨r, m', h, h'⟩) (m := c1.mem) h3
  exact ⟨_, fun _ => 2, fun i => (callOf l i).1 + (callOf l i).2 + 1, fun i => i + 1, c1, c2, h1, h2, h4, h5, rfl⟩

end

/-! ### The loops of `preorder_number` -/

theorem addTo_total (f : Nat) (a : Loc) (b : Int) : Total (addTo (f + 1) a b) := by
  intro m
  rw [addTo]; simp only [exec, if_true]
  exact ⟨_, rfl⟩

theorem writeMax_total (f : Nat) (a : Loc) (b : Int) : Total (writeMax (f + 1) a b) := by
  intro m
  rw [writeMax]; simp only [exec]
  split
  · simp only [exec, if_true]; exact ⟨_, rfl⟩
  · exact ⟨_, rfl⟩

theorem writeMin_total (f : Nat) (a : Loc) (b : Int) : Total (Relax.writeMin (f + 1) a b) := by
  intro m
  rw [Relax.writeMin]; simp only [exec]
  split
  · simp only [exec, if_true]; exact ⟨_, rfl⟩
  · exact ⟨_, rfl⟩

theorem read_total {L V α : Type} [DecidableEq L] [DecidableEq V] (x : L) {k : V → Prog L V α} (h : ∀ v, Total (k v)) : Total (read x k) := fun m => h (m x) m

theorem aug_total (f s d : Nat) (w : Unit) : Total ((augF (f + 1)).updA s d w) :=
  read_total _ fun _ => total_bind (addTo_total _ _ _) fun _ => total_bind (addTo_total _ _ _) fun _ => total_ret _

theorem mm_total (f s d : Nat) (w : Unit) : Total ((mmF (f + 1)).updA s d w) := by
  refine read_total _ fun low => read_total _ fun high => read_total _ fun x => total_bind ?_ fun _ => read_total _ fun y => total_bind ?_ fun _ =>
    total_bind (addTo_total _ _ _) fun _ => total_ret _
  · split
    · exact total_bind (writeMin_total _ _ _) fun _ => total_ret _
    · exact total_ret _
  · split
    · exact total_bind (writeMax_total _ _ _) fun _ => total_ret _
    · exact total_ret _

variable {n : Nat} {par dp : Nat → Nat}

theorem rounds_exists (T : Tr n par dp) {K : List Kd} (hc : Kd.ct ∈ K) {m0 : Loc → Int} (hct : ∀ v, m0 (.ct, v) = ((kids n par v).length : Int)) {F : Func Unit Loc Int Unit}
    (hF : ∀ m, ∀ acts : List Ed, acts.Nodup → Enough acts m → SepE acts → XSpec (lrg acts K m) F (· ∈ acts) (fun _ => True) LT (LDn K))
    (hcd : ∀ d, Total (F.cond d)) (hu : ∀ s d w, Total (F.updA s d w)) {X : Nat → Prop} {Fr : List Nat} {m : Loc → Int} (h : RInv n par K m0 X Fr m) :
    ∃ k m', Rounds F (up n par) k m Fr m' := by
  classical
  generalize hcn : ((List.range n).filter fun v => decide (¬ X v)).length = c
  induction c using Nat.strongRecOn generalizing X Fr m with
  | _ c ih =>
    by_cases hFr : Fr = []
    · subst hFr; exact ⟨0, m, .done m⟩
    · obtain ⟨⟨o, m1⟩, hs⟩ := sparseRun_total hcd hu (activeEdges (up n par) fun v => decide (v ∈ Fr)) [] m
      have hr := edgeMapX_seq _ (mem_activeEdges (up_ok T)) (activeEdges_nodup up_once _) hs
      have h2 := h.next T hc hct (hF m) hr
      obtain ⟨v, hv⟩ := List.exists_mem_of_ne_nil _ hFr
      have hvn : v < n := ((h.rdy v).1 (Or.inr hv)).1
      have hvX : ¬ X v := fun hx => h.disj v hx hv
      obtain ⟨k, m', hk⟩ := ih _ (by
        rw [← hcn, ← List.countP_eq_length_filter, ← List.countP_eq_length_filter]
        have : ∀ l : List Nat, v ∈ l → l.countP (fun v => decide (¬ (X v ∨ v ∈ Fr))) < l.countP (fun v => decide (¬ X v)) := by
          have hle : ∀ l : List Nat, l.countP (fun v => decide (¬ (X v ∨ v ∈ Fr))) ≤ l.countP (fun v => decide (¬ X v)) := fun l =>
            List.countP_mono_left fun a _ ha => by simp only [decide_eq_true_eq] at ha ⊢; exact fun hx => ha (Or.inl hx)
          intro l
          induction l with
          | nil => intro h; cases h
          | cons a l ih =>
            intro hm
            rw [List.countP_cons, List.countP_cons]
            rcases List.mem_cons.1 hm with rfl | hm
            · have := hle l
              rw [if_neg (by simp [hv]), if_pos (by simpa using hvX)]; omega
            · have h1 := ih hm
              by_cases hx : X a
              · rw [if_neg (by simp [hx]), if_neg (by simp [hx])]; omega
              · have : (if decide (¬ (X a ∨ a ∈ Fr)) = true then 1 else 0) ≤ 1 := by split <;> omega
                rw [if_pos (by simpa using hx) (c := decide (¬ X a) = true)]; omega
        convert this _ (List.mem_range.2 hvn)) h2 rfl
      exact ⟨k + 1, m', .round hFr hr hk⟩

theorem leaffix_exists (T : Tr n par dp) {K : List Kd} (hc : Kd.ct ∈ K) {F : Func Unit Loc Int Unit}
    (hF : ∀ m, ∀ acts : List Ed, acts.Nodup → Enough acts m → SepE acts → XSpec (lrg acts K m) F (· ∈ acts) (fun _ => True) LT (LDn K))
    (hcd : ∀ d, Total (F.cond d)) (hu : ∀ s d w, Total (F.updA s d w)) (m : Loc → Int) : ∃ m', Leaffix F n par m m' := by
  obtain ⟨k, m', h⟩ := rounds_exists T hc (fun v => by simp) hF hcd hu (start_inv m)
  exact ⟨m', k, h⟩

theorem numAll_exists (sz : Nat → Int) (vs : List Nat) (pn : Nat → Int) : ∃ pn', NumAll n par sz vs pn pn' := by
  induction vs generalizing pn with
  | nil => exact ⟨pn, .nil pn⟩
  | cons v vs ih =>
    have : ∃ pn1, NumV n par sz pn v pn1 := by
      unfold NumV
      split
      · exact ⟨_, rfl⟩
      · exact ⟨_, List.range _, ⟨List.nodup_range, fun i => List.mem_range⟩, rfl⟩
    obtain ⟨pn1, h1⟩ := this
    obtain ⟨pn', h2⟩ := ih pn1
    exact ⟨pn', .cons h1 h2⟩

theorem numLoop_exists (T : Tr n par dp) (sz : Nat → Int) {D : Nat} (hD : ∀ v < n, dp v ≤ D) (j : Nat) : ∀ (vs : List Nat) (t : Nat) (pn : Nat → Int),
    D + 1 - t = j → (∀ v ∈ vs, v < n ∧ dp v = t) → ∃ pn', NumLoop n par sz vs pn pn' := by
  induction j with
  | zero =>
    intro vs t pn hj hv
    have : vs = [] := List.eq_nil_iff_forall_not_mem.2 fun v h => by
      obtain ⟨h1, h2⟩ := hv v h
      have := hD v h1
      omega
    subst this
    exact ⟨pn, .done pn⟩
  | succ j ih =>
    intro vs t pn hj hv
    by_cases h0 : vs = []
    · subst h0; exact ⟨pn, .done pn⟩
    · obtain ⟨pn1, h1⟩ := numAll_exists (n := n) (par := par) sz vs pn
      obtain ⟨pn', h2⟩ := ih (vs.flatMap (kids n par)) (t + 1) pn1 (by omega) fun c hc => by
        obtain ⟨v, h3, h4⟩ := List.mem_flatMap.1 hc
        have h5 := T.kid h4
        have h6 := (hv v h3).2
        have h7 := (mem_kids.1 h4).1
        exact ⟨h7, by omega⟩
      exact ⟨pn', .round h0 (List.Perm.refl _) h1 h2⟩

theorem touch_total (f v : Nat) (p : Int) : Total (touch (f + 1) v p) := by
  refine read_total _ fun x => ?_
  split
  · exact total_bind (writeMin_total _ _ _) fun _ => total_ret _
  · refine read_total _ fun y => ?_
    split
    · exact total_bind (writeMax_total _ _ _) fun _ => total_ret _
    · exact total_ret _

theorem mapEdges_exists (l : List (Nat × Nat)) (PN : Nat → Int) (m : Loc → Int) : ∃ m', MapEdges (callOf l) par PN m m' := by
  obtain ⟨c, h1, h2, -⟩ := all_run (fun i => mapF 1 par PN (callOf l i).1 (callOf l i).2) (fun _ => True) (fun i m _ => by
    have : Total (mapF 1 par PN (callOf l i).1 (callOf l i).2) := by
      unfold mapF
      split
      · split
        · exact total_ret _
        · exact total_bind (touch_total _ _ _) fun _ => touch_total _ _ _
      · exact total_ret _
    obtain ⟨⟨a, m'⟩, h⟩ := this m
    exact ⟨a, m', h, trivial⟩) (m := m) trivial
  exact ⟨c.mem, fun _ => 1, c, h1, fun i => (h2 i).choose_spec, rfl⟩

/-- Every symmetric graph has a run. -/
theorem run_exists {G : Gr W} (hG : G.Ok) (hN : G.n ≤ none32) (hsym : ∀ u v, Adj G u v → Adj G v u) : Nonempty (Run G) := by
  obtain ⟨lab, hlab⟩ := simpleUnion_exists (arcs G) G.n
  have hl := UF.simpleUnion_correct hlab
  have hIss : UF.Issued (callOf (arcs G)) = Adj G := by
    funext a b; exact propext (callOf_iff.trans (mem_arcs hG))
  rw [hIss] at hl
  have hs : Sched G.n (List.range G.n) := ⟨List.nodup_range, fun i => List.mem_range⟩
  have hS := sources_one hN hl (fun v hv => Nat.lt_of_le_of_lt ((hl v hv).2 v (.refl v)) hv) hs
  obtain ⟨k, p, hp⟩ := BFSSF.loop_exists hG hN (start (sources G.n lab (List.range G.n))) (sources G.n lab (List.range G.n))
  obtain ⟨dp, B, hlt, hdn, hdS⟩ := multiBfs_forest hG hN hsym hS ⟨k, hp⟩
  have hpar : ∀ v < G.n, (if v < G.n then p v else v) = p v := fun v hv => if_pos hv
  have T : Tr G.n p dp := by
    refine ⟨hlt, fun v hv h => ?_, fun v hv h => ?_⟩
    · have := B.root v h; rwa [hpar v hv] at this
    · have := (B.step v h).2; rwa [hpar v hv] at this
  obtain ⟨m1, h1⟩ := leaffix_exists T (K := [.sz, .ct]) (by simp) (fun m acts a b c => aug_spec 1 a b c) (fun d => total_ret _) (aug_total 0) (mem1 fun _ => 0)
  obtain ⟨D, hD⟩ := bounded dp G.n
  obtain ⟨PN, hPN⟩ := numLoop_exists T (fun v => m1 (.sz, v)) hD _ (sources G.n lab (List.range G.n)) 0
    (fun v => if v ∈ sources G.n lab (List.range G.n) then 0 else 0) rfl fun v hv => ⟨hS.lt v hv, (hdS v (hS.lt v hv)).2 hv⟩
  obtain ⟨m3, h3⟩ := mapEdges_exists (par := p) (arcs G) PN (mem2 PN m1)
  obtain ⟨m4, h4⟩ := leaffix_exists T (K := [.lo, .hi, .ct]) (by simp) (fun m acts a b c => mm_spec 1 a b c) (fun d => total_ret _) (mm_total 0) m3
  obtain ⟨cc, hcc⟩ := simpleUnion_exists
    ((arcs G).filter fun e => notCrit (mark p (fun v => m4 (.lo, v)) (fun v => m4 (.hi, v)) PN (fun v => m4 (.sz, v))) e.1 e.2) G.n
  exact ⟨⟨lab, hlab, _, hs, p, ⟨k, hp⟩, _, 1, m1, h1, PN, ⟨fun _ => 0, hPN⟩, m3, h3, 1, m4, h4, cc, hcc⟩⟩

/-! ### A triangle with a pendant edge -/

/-- The edges 0-1, 1-2, 0-2 and 2-3. -/
def exAdj (v : Nat) : List (Nat × Unit) := match v with
  | 0 => [(1, ()), (2, ())]
  | 1 => [(0, ()), (2, ())]
  | 2 => [(0, ()), (1, ()), (3, ())]
  | 3 => [(2, ())]
  | _ => []

def exG : Gr Unit := ⟨4, exAdj, exAdj⟩

theorem exG_edges {u v : Nat} : Adj exG u v ↔ (u, v) ∈ [(0, 1), (0, 2), (1, 0), (1, 2), (2, 0), (2, 1), (2, 3), (3, 2)] := by
  match u with
  | 0 => simp [Adj, exG, exAdj]
  | 1 => simp [Adj, exG, exAdj]
  | 2 => simp [Adj, exG, exAdj]
  | 3 => simp [Adj, exG, exAdj]
  | n + 4 => simp [Adj, exG, exAdj]

theorem exG_sym : ∀ u v, Adj exG u v → Adj exG v u := by
  intro u v h
  rw [exG_edges] at h ⊢
  simp only [List.mem_cons, Prod.mk.injEq, List.not_mem_nil, or_false] at h ⊢
  omega

theorem exG_ok : exG.Ok := by
  refine ⟨fun s d w => ?_, fun s d w h => ?_⟩
  · have h : ∀ s d, (d, w) ∈ exAdj s → (s, w) ∈ exAdj d := fun s d h => by
      obtain ⟨w', h'⟩ := exG_sym s d ⟨w, h⟩
      exact h'
    exact ⟨h s d, h d s⟩
  · have h' := exG_edges.1 ⟨w, h⟩
    simp only [List.mem_cons, Prod.mk.injEq, List.not_mem_nil, or_false] at h'
    show s < 4 ∧ d < 4
    omega

/-- The hypotheses of the theorem are met, and the labels tell the triangle from the pendant edge. -/
example : ∃ R : Run exG, R.edgeLabel (0, 1) = R.edgeLabel (2, 1) ∧ R.edgeLabel (0, 1) ≠ R.edgeLabel (2, 3) := by
  obtain ⟨R⟩ := run_exists exG_ok (by decide) exG_sym
  refine ⟨R, (R.correct exG_ok exG_sym (by decide) (exG_edges.2 (by simp)) (exG_edges.2 (by simp)) (by simp) (by simp)).2 fun w => ?_, fun h => ?_⟩
  · by_cases h1 : w = 1
    · subst h1
      exact ⟨0, 2, Or.inl rfl, Or.inl rfl, by decide, by decide, .single ⟨exG_edges.2 (by simp), by decide, by decide⟩⟩
    · exact ⟨1, 1, Or.inr rfl, Or.inr rfl, fun h => h1 h.symm, fun h => h1 h.symm, .refl⟩
  · have h := (R.correct exG_ok exG_sym (by decide) (exG_edges.2 (by simp)) (exG_edges.2 (by simp)) (by simp) (by simp)).1 h
    obtain ⟨x, y, hx, hy, h1, h2, h3⟩ := h 2
    have hx : x < 2 := by rcases hx with rfl | rfl <;> decide
    have hy : y = 3 := by rcases hy with rfl | rfl; exact absurd rfl h2; rfl
    have : ∀ y, Relation.ReflTransGen (fun a b => Adj exG a b ∧ a ≠ 2 ∧ b ≠ 2) x y → y < 2 := by
      intro y h
      induction h with
      | refl => exact hx
      | tail _ hs ih =>
        obtain ⟨ha, -, hb⟩ := hs
        have := exG_edges.1 ha
        simp only [List.mem_cons, Prod.mk.injEq, List.not_mem_nil, or_false] at this
        omega
    have := this y h3
    omega

/-! ### Names above `2^31` -/

/-- A star with two edges: centre `2^31`, leaves `2^31 + 1` and `2^31 + 2`. -/
def bigAdj (v : Nat) : List (Nat × Unit) :=
  if v = 2 ^ 31 then [(2 ^ 31 + 1, ()), (2 ^ 31 + 2, ())] else if v = 2 ^ 31 + 1 ∨ v = 2 ^ 31 + 2 then [(2 ^ 31, ())] else []

def bigG : Gr Unit := ⟨2 ^ 31 + 3, bigAdj, bigAdj⟩

theorem bigG_edges {u v : Nat} : Adj bigG u v ↔ u = 2 ^ 31 ∧ (v = 2 ^ 31 + 1 ∨ v = 2 ^ 31 + 2) ∨ (u = 2 ^ 31 + 1 ∨ u = 2 ^ 31 + 2) ∧ v = 2 ^ 31 := by
  show (∃ w, (v, w) ∈ bigAdj u) ↔ _
  unfold bigAdj
  by_cases h1 : u = 2 ^ 31
  · rw [if_pos h1]; simp only [List.mem_cons, Prod.mk.injEq, List.not_mem_nil, or_false, and_true, exists_const]; omega
  · rw [if_neg h1]
    by_cases h2 : u = 2 ^ 31 + 1 ∨ u = 2 ^ 31 + 2
    · rw [if_pos h2]; simp only [List.mem_cons, Prod.mk.injEq, List.not_mem_nil, or_false, and_true, exists_const]; omega
    · rw [if_neg h2]; simp only [List.not_mem_nil, exists_false, false_iff]; omega

theorem bigG_sym : ∀ u v, Adj bigG u v → Adj bigG v u := by
  intro u v h
  rw [bigG_edges] at h ⊢
  omega

theorem bigG_ok : bigG.Ok := by
  refine ⟨fun s d w => ?_, fun s d w h => ?_⟩
  · have h : ∀ s d, (d, w) ∈ bigAdj s → (s, w) ∈ bigAdj d := fun s d h => by
      obtain ⟨w', h'⟩ := bigG_sym s d ⟨w, h⟩
      exact h'
    exact ⟨h s d, h d s⟩
  · have h' := bigG_edges.1 ⟨w, h⟩
    show s < 2 ^ 31 + 3 ∧ d < 2 ^ 31 + 3
    omega

/-- With names from `2^31` on, the mark is part of the name: in every run the two edges of the star have the same label, and so have
their ends, though they are two components. -/
theorem big_wrong (R : Run bigG) : R.edgeLabel (2 ^ 31 + 1, 2 ^ 31) = R.edgeLabel (2 ^ 31 + 2, 2 ^ 31) ∧
    R.cc (2 ^ 31 + 1) = R.cc (2 ^ 31) ∧ R.cc (2 ^ 31 + 2) = R.cc (2 ^ 31) ∧ ¬ SameBlock (Adj bigG) (2 ^ 31 + 1, 2 ^ 31) (2 ^ 31 + 2, 2 ^ 31) := by
  have hN : bigG.n ≤ none32 := by decide
  obtain ⟨-, -, -, -, -, -, hcc⟩ := R.core bigG_ok bigG_sym hN
  -- no name is masked to a vertex of the star
  have hsm : ∀ v, R.parents v &&& valMask < 2 ^ 31 := by
    intro v
    rw [valMask, Nat.and_two_pow_sub_one_eq_mod]
    exact Nat.mod_lt _ (by decide)
  have hun : ∀ u v, Adj bigG u v → R.cc u = R.cc v := by
    intro u v h
    obtain ⟨hu, hv⟩ := bigG_ok.bound _ _ _ h.choose_spec
    refine (hcc u v hu hv).2 (.rel _ _ ⟨h, ?_⟩)
    have h0 := bigG_edges.1 h
    have h1 := hsm u
    have h2 := hsm v
    unfold notCrit
    rw [if_neg (by omega), if_neg (by omega)]
  refine ⟨?_, hun _ _ (bigG_edges.2 (by omega)), hun _ _ (bigG_edges.2 (by omega)), ?_⟩
  · have h1 : R.edgeLabel (2 ^ 31 + 1, 2 ^ 31) = R.cc (2 ^ 31) := by
      unfold Run.edgeLabel
      rw [if_neg]
      have := hsm (2 ^ 31 + 1)
      show ¬ R.parents (2 ^ 31 + 1) &&& valMask = 2 ^ 31
      omega
    have h2 : R.edgeLabel (2 ^ 31 + 2, 2 ^ 31) = R.cc (2 ^ 31) := by
      unfold Run.edgeLabel
      rw [if_neg]
      have := hsm (2 ^ 31 + 2)
      show ¬ R.parents (2 ^ 31 + 2) &&& valMask = 2 ^ 31
      omega
    rw [h1, h2]
  · intro h
    obtain ⟨x, y, hx, hy, h1, h2, h3⟩ := h (2 ^ 31)
    have hx : x = 2 ^ 31 + 1 := hx.resolve_right h1
    have hy : y = 2 ^ 31 + 2 := hy.resolve_right h2
    have : ∀ y, Relation.ReflTransGen (fun a b => Adj bigG a b ∧ a ≠ 2 ^ 31 ∧ b ≠ 2 ^ 31) x y → y = x := by
      intro y h
      induction h with
      | refl => rfl
      | tail _ hs ih =>
        obtain ⟨ha, h4, h5⟩ := hs
        have := bigG_edges.1 ha
        omega
    have := this y h3
    omega

example : Nonempty (Run bigG) := run_exists bigG_ok (by decide) bigG_sym

end Gbbs.Bicc
