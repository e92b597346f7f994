/-
C75: work-efficient connectivity, `benchmarks/Connectivity/WorkEfficientSDB14/Connectivity.h`.
-/
import Verif.Graph.Contract
import Verif.Algo.LDD
import Verif.EdgeMap.Total
import Verif.Algo.Components
import Mathlib.Analysis.Complex.ExponentialBounds

namespace Gbbs.SDB14

open Conc Conc.Prog Em Comp
open Atomics (Steps)
open Contract (Adj QAdj Touch IsContraction)

variable {W : Type}

/-! ### Model -/

/-- The contracted graph as an argument of `LDD` and `contract`; it is symmetric, so in- and out-neighbours are the same lists. -/
def toGr (GC : Csr.Graph Unit) : Gr Unit :=
  ⟨GC.n, fun v => if v < GC.n then GC.nbrs v else [], fun v => if v < GC.n then GC.nbrs v else []⟩

/-- A permutation of the vertices; what `LDD` uses is the identity unless `permute` (`LowDiameterDecomposition.h:131-134`). -/
structure IsPerm (n : Nat) (permute : Bool) (perm : Nat → Nat) : Prop where
  lt : ∀ i, i < n → perm i < n
  inj : ∀ i j, i < n → j < n → perm i = perm j → i = j
  onto : ∀ v, v < n → ∃ i, i < n ∧ perm i = v
  id : permute = false → ∀ i, i < n → perm i = i

/-- `clusters` after line 63: a new label for the vertices whose cluster is not a singleton. Each iteration accesses its own entry. -/
def relabel (cl flags mapping nl : Nat → Nat) (i : Nat) : Nat :=
  if flags (cl i) ≠ flags (cl i + 1) then mapping (nl (flags (cl i))) else cl i

/-- Lines 38-54: `clusters` after `LDD` and `RelabelIds` (C29), `num_clusters`, and what `contract` returns. -/
def Level (sh : Nat → List Nat) (permute : Bool) (G : Gr W) (cl : Nat → Nat) (nc : Nat) (GC : Csr.Graph Unit)
    (flags mapping : Nat → Nat) : Prop :=
  ∃ (perm m : Nat → Nat) (c : Relabel.Conf) (order : List Nat), IsPerm G.n permute perm ∧
    LDD.Ldd G (fun _ _ _ => true) perm (sh G.n) (some m) ∧
    Steps (Relabel.Step G.n m) Relabel.init c ∧ (∀ i, i < G.n → c.pc i = .done) ∧ Sched G.n order ∧
    cl = (Relabel.finish G.n c.flag order m).1 ∧ nc = (Relabel.finish G.n c.flag order m).2 ∧
    Contract.Contract G cl nc GC flags mapping

/-- `CC_impl` (lines 34-70), with the number of levels; `sh n` are the shifts generated for `n` vertices (`LDD.genShifts n beta`). The result `none`
stands for undefined behaviour: that of `LDD` (see `LDD.Run`), or an index outside `mapping`. -/
inductive CC (sh : Nat → List Nat) : Nat → Bool → (W : Type) → Gr W → Option (Nat → Nat) → Prop
  | ldd {permute W} {G : Gr W} {perm : Nat → Nat} (hp : IsPerm G.n permute perm)
      (hl : LDD.Ldd G (fun _ _ _ => true) perm (sh G.n) none) : CC sh 1 permute W G none
  | last {permute W} {G : Gr W} {cl nc GC flags mapping} (h : Level sh permute G cl nc GC flags mapping) (hm : GC.m = 0) :
      CC sh 1 permute W G (some cl)
  | next {permute W} {G : Gr W} {cl nc GC flags mapping k} {nl : Nat → Nat} (h : Level sh permute G cl nc GC flags mapping) (hm : GC.m ≠ 0)
      (hr : CC sh k true Unit (toGr GC) (some nl)) (hi : ∀ x, x < GC.n → nl x < GC.n) :
      CC sh (k + 1) permute W G (some (relabel cl flags mapping nl))
  | oob {permute W} {G : Gr W} {cl nc GC flags mapping k} {nl : Nat → Nat} (h : Level sh permute G cl nc GC flags mapping) (hm : GC.m ≠ 0)
      (hr : CC sh k true Unit (toGr GC) (some nl)) (hi : ∃ x, x < GC.n ∧ ¬ nl x < GC.n) : CC sh (k + 1) permute W G none
  | sub {permute W} {G : Gr W} {cl nc GC flags mapping k} (h : Level sh permute G cl nc GC flags mapping) (hm : GC.m ≠ 0)
      (hr : CC sh k true Unit (toGr GC) none) : CC sh (k + 1) permute W G none

/-! ### One level -/

/-- What one level establishes. -/
structure LevelOk (G : Gr W) (cl : Nat → Nat) (nc : Nat) : Prop where
  le : nc ≤ G.n
  lt : ∀ v, v < G.n → cl v < nc
  onto : ∀ a, a < nc → ∃ v, v < G.n ∧ cl v = a
  conn : ∀ u v, u < G.n → v < G.n → cl u = cl v → Conn (Adj G) u v

theorem walk_conn {G : Gr W} {orc : Nat → Nat → W → Bool} {m : Nat → Nat} {c v k : Nat} (h : LDD.ClWalk G orc m c v k) : Conn (Adj G) c v := by
  induction h with
  | nil _ => exact (conn_equiv _).refl _
  | cons w _ he _ _ ih => exact (conn_equiv _).trans ih (.rel _ _ ⟨w, he⟩)

theorem level_ok {sh : Nat → List Nat} (hsh : ∀ n, LDD.Shifts n (sh n)) {permute : Bool} {G : Gr W} (hG : G.Ok) (hn : G.n ≤ LDD.none32)
    (hsym : ∀ u v, Adj G u v → Adj G v u) {cl flags mapping : Nat → Nat} {nc : Nat} {GC : Csr.Graph Unit}
    (h : Level sh permute G cl nc GC flags mapping) : LevelOk G cl nc ∧ IsContraction G cl nc GC flags mapping := by
  obtain ⟨perm, m, c, order, hp, hl, hs, hd, ho, rfl, rfl, hc⟩ := h
  obtain ⟨m', h1, h2⟩ := LDD.ldd_correct hG hn hp.lt hp.inj hp.onto (hsh _) hl
  obtain rfl := Option.some.inj h1
  have hr := Relabel.relabel_correct G.n m (fun i hi => (h2 i hi).1) c hs hd order ho
  refine ⟨⟨?_, hr.range, hr.onto, fun u v hu hv he => ?_⟩, Contract.contract_partial hG hsym hr.range hc⟩
  · rw [hr.count]
    exact Finset.card_image_le.trans (by simp)
  · have he := (hr.eq_iff u v hu hv).1 he
    obtain ⟨-, -, k, -, hw⟩ := h2 u hu
    obtain ⟨-, -, k', -, hw'⟩ := h2 v hv
    rw [← he] at hw'
    exact (conn_equiv _).trans ((conn_equiv _).symm (walk_conn hw)) (walk_conn hw')

theorem sum_zero {l : List Nat} (h : l.sum = 0) {x : Nat} (hx : x ∈ l) : x = 0 := by
  induction l with
  | nil => cases hx
  | cons a l ih =>
    rw [List.sum_cons] at h
    rcases List.mem_cons.1 hx with rfl | hx
    · omega
    · exact ih (by omega) hx

section level
variable {G : Gr W} {cl flags mapping : Nat → Nat} {nc : Nat} {GC : Csr.Graph Unit}

theorem adj_toGr {x y : Nat} : Adj (toGr GC) x y ↔ x < GC.n ∧ y ∈ (GC.nbrs x).map Prod.fst := by
  simp only [Adj, toGr]
  split
  · rename_i hx
    simp only [List.mem_map, hx, true_and]
    exact ⟨fun ⟨w, h⟩ => ⟨_, h, rfl⟩, fun ⟨p, h, he⟩ => ⟨p.2, he ▸ h⟩⟩
  · rename_i hx
    simp [hx]

theorem adj_iff (h : IsContraction G cl nc GC flags mapping) {x y : Nat} :
    Adj (toGr GC) x y ↔ x < GC.n ∧ y < GC.n ∧ QAdj G cl (mapping x) (mapping y) := by
  rw [adj_toGr]
  constructor
  · rintro ⟨hx, hy⟩
    have hy' := h.bound x y hx hy
    exact ⟨hx, hy', (h.nbr x y hx hy').1 hy⟩
  · rintro ⟨hx, hy, hq⟩
    exact ⟨hx, (h.nbr x y hx hy).2 hq⟩

theorem qadj_symm (hsym : ∀ u v, Adj G u v → Adj G v u) {a b : Nat} (h : QAdj G cl a b) : QAdj G cl b a := by
  obtain ⟨hne, u, v, ha, h1, h2⟩ := h
  exact ⟨hne.symm, v, u, hsym _ _ ha, h2, h1⟩

theorem toGr_sym (hsym : ∀ u v, Adj G u v → Adj G v u) (h : IsContraction G cl nc GC flags mapping) (x y : Nat)
    (ha : Adj (toGr GC) x y) : Adj (toGr GC) y x := by
  rw [adj_iff h] at ha ⊢
  exact ⟨ha.2.1, ha.1, qadj_symm hsym ha.2.2⟩

theorem toGr_ok (hsym : ∀ u v, Adj G u v → Adj G v u) (h : IsContraction G cl nc GC flags mapping) : (toGr GC).Ok := by
  have key : ∀ s d w, (d, w) ∈ (toGr GC).fwd s ↔ Adj (toGr GC) s d := fun s d w => ⟨fun h => ⟨w, h⟩, fun ⟨_, h⟩ => h⟩
  refine ⟨fun s d w => ?_, fun s d w hw => ?_⟩
  · show _ ↔ (s, w) ∈ (toGr GC).fwd d
    rw [key, key]
    exact ⟨toGr_sym hsym h s d, toGr_sym hsym h d s⟩
  · have := (adj_iff h).1 ((key _ _ _).1 hw)
    exact ⟨this.1, this.2.1⟩

theorem size_le (h : IsContraction G cl nc GC flags mapping) : GC.n ≤ nc := by
  have hinj : Set.InjOn mapping (Finset.range GC.n) := by
    intro x hx y hy he
    have hx : x < GC.n := by simpa using hx
    have hy : y < GC.n := by simpa using hy
    rw [← (h.inv x hx).2.2, ← (h.inv y hy).2.2, he]
  have := Finset.card_le_card_of_injOn (s := Finset.range GC.n) (t := Finset.range nc) mapping
    (fun x hx => by have hx : x < GC.n := by simpa using hx
                    simpa using (h.inv x hx).1) hinj
  simpa using this

/-- Edges join vertices of equal or adjacent clusters. -/
theorem adj_cl {u v : Nat} (h : Adj G u v) : cl u = cl v ∨ QAdj G cl (cl u) (cl v) := by
  by_cases he : cl u = cl v
  · exact .inl he
  · exact .inr ⟨he, u, v, h, rfl, rfl⟩

theorem adj_lt (hG : G.Ok) {u v : Nat} (h : Adj G u v) : u < G.n ∧ v < G.n := by
  obtain ⟨w, hw⟩ := h
  exact hG.bound _ _ _ hw

/-- Adjacent clusters are adjacent in the contracted graph. -/
theorem qadj_gc (hsym : ∀ u v, Adj G u v → Adj G v u) (h : IsContraction G cl nc GC flags mapping) {a b : Nat} (ha : a < nc) (hb : b < nc)
    (hq : QAdj G cl a b) : Adj (toGr GC) (flags a) (flags b) := by
  have ta : Touch G cl a := ⟨b, hq⟩
  have tb : Touch G cl b := ⟨a, qadj_symm hsym hq⟩
  rw [adj_iff h, h.map a ha ta, h.map b hb tb]
  exact ⟨h.lt a ha ta, h.lt b hb tb, hq⟩

/-- Labels that are constant along edges and equal only within components are right. -/
theorem isCC_of {lab : Nat → Nat} (h1 : ∀ u v, Adj G u v → lab u = lab v)
    (h2 : ∀ u v, u < G.n → v < G.n → lab u = lab v → Conn (Adj G) u v) : IsCC G.n (Adj G) lab := fun u v hu hv =>
  ⟨h2 u v hu hv, fun h => conn_le (s := fun x y => lab x = lab y) ⟨fun _ => rfl, Eq.symm, Eq.trans⟩ h1 h⟩

/-- Without edges between clusters, the clusters are the components. -/
theorem last_ok (hG : G.Ok) (hsym : ∀ u v, Adj G u v → Adj G v u) (hl : LevelOk G cl nc) (h : IsContraction G cl nc GC flags mapping)
    (hm : GC.m = 0) : IsCC G.n (Adj G) cl := by
  refine isCC_of (fun u v ha => ?_) hl.conn
  refine (adj_cl ha).resolve_right fun hq => ?_
  obtain ⟨hu, hv⟩ := adj_lt hG ha
  obtain ⟨hx, hy⟩ := adj_toGr.1 (qadj_gc hsym h (hl.lt _ hu) (hl.lt _ hv) hq)
  have h0 : GC.deg (flags (cl u)) = 0 := sum_zero (h.edges.trans hm) (List.mem_map.2 ⟨_, List.mem_range.2 hx, rfl⟩)
  simp [Csr.Graph.nbrs, h0] at hy

/-- Components of the contracted graph come from components of the graph. -/
theorem conn_gc (hG : G.Ok) (hl : LevelOk G cl nc) (h : IsContraction G cl nc GC flags mapping) {x y : Nat}
    (hc : Conn (Adj (toGr GC)) x y) : x = y ∨ x < GC.n ∧ y < GC.n ∧ ∀ u v, u < G.n → v < G.n → cl u = mapping x → cl v = mapping y → Conn (Adj G) u v := by
  refine conn_le (s := fun x y => x = y ∨ x < GC.n ∧ y < GC.n ∧ ∀ u v, u < G.n → v < G.n → cl u = mapping x → cl v = mapping y → Conn (Adj G) u v)
    ⟨fun _ => .inl rfl, ?_, ?_⟩ ?_ hc
  · rintro x y (rfl | ⟨h1, h2, h3⟩)
    · exact .inl rfl
    · exact .inr ⟨h2, h1, fun u v hu hv e1 e2 => (conn_equiv _).symm (h3 v u hv hu e2 e1)⟩
  · rintro x y z (rfl | ⟨h1, h2, h3⟩) h'
    · exact h'
    · rcases h' with rfl | ⟨h4, h5, h6⟩
      · exact .inr ⟨h1, h2, h3⟩
      · refine .inr ⟨h1, h5, fun u v hu hv e1 e2 => ?_⟩
        obtain ⟨w, hw, hw'⟩ := hl.onto _ (h.inv y h2).1
        exact (conn_equiv _).trans (h3 u w hu hw e1 hw') (h6 w v hw hv hw' e2)
  · intro x y ha
    obtain ⟨hx, hy, -, u, v, hadj, e1, e2⟩ := (adj_iff h).1 ha
    refine .inr ⟨hx, hy, fun u' v' hu' hv' e1' e2' => ?_⟩
    obtain ⟨hu, hv⟩ := adj_lt hG hadj
    exact (conn_equiv _).trans (hl.conn _ _ hu' hu (e1'.trans e1.symm)) ((conn_equiv _).trans (.rel _ _ hadj) (hl.conn _ _ hv hv' (e2.trans e2'.symm)))

theorem next_ok (hG : G.Ok) (hsym : ∀ u v, Adj G u v → Adj G v u) (hl : LevelOk G cl nc) (h : IsContraction G cl nc GC flags mapping)
    {nl : Nat → Nat} (hlt : ∀ x, x < GC.n → nl x < GC.n) (hcc : IsCC GC.n (Adj (toGr GC)) nl) :
    IsCC G.n (Adj G) (relabel cl flags mapping nl) ∧ ∀ v, v < G.n → relabel cl flags mapping nl v < G.n := by
  have ht : ∀ v, v < G.n → Touch G cl (cl v) → relabel cl flags mapping nl v = mapping (nl (flags (cl v))) := by
    intro v hv t
    exact if_pos fun he => (h.single _ (hl.lt v hv)).1 he t
  have hs : ∀ v, v < G.n → ¬ Touch G cl (cl v) → relabel cl flags mapping nl v = cl v := by
    intro v hv t
    exact if_neg fun he => he ((h.single _ (hl.lt v hv)).2 t)
  have hin : ∀ v, v < G.n → Touch G cl (cl v) → nl (flags (cl v)) < GC.n := fun v hv t => hlt _ (h.lt _ (hl.lt v hv) t)
  have hne : ∀ u v, u < G.n → v < G.n → Touch G cl (cl u) → ¬ Touch G cl (cl v) → relabel cl flags mapping nl u ≠ relabel cl flags mapping nl v := by
    intro u v hu hv tu tv he
    rw [ht u hu tu, hs v hv tv] at he
    exact tv (he ▸ (h.inv _ (hin u hu tu)).2.1)
  refine ⟨isCC_of (fun u v ha => ?_) fun u v hu hv he => ?_, fun v hv => ?_⟩
  · obtain ⟨hu, hv⟩ := adj_lt hG ha
    rcases adj_cl (cl := cl) ha with he | hq
    · simp only [relabel, he]
    · have tu : Touch G cl (cl u) := ⟨_, hq⟩
      have tv : Touch G cl (cl v) := ⟨_, qadj_symm hsym hq⟩
      rw [ht u hu tu, ht v hv tv]
      congr 1
      exact (hcc _ _ (h.lt _ (hl.lt u hu) tu) (h.lt _ (hl.lt v hv) tv)).2 (.rel _ _ (qadj_gc hsym h (hl.lt u hu) (hl.lt v hv) hq))
  · by_cases tu : Touch G cl (cl u)
    · by_cases tv : Touch G cl (cl v)
      · rw [ht u hu tu, ht v hv tv] at he
        have h1 := (h.inv _ (hin u hu tu)).2.2
        rw [he, (h.inv _ (hin v hv tv)).2.2] at h1
        have fu := h.lt _ (hl.lt u hu) tu
        have fv := h.lt _ (hl.lt v hv) tv
        rcases conn_gc hG hl h ((hcc _ _ fu fv).1 h1.symm) with hq | ⟨-, -, hq⟩
        · have h2 := h.map _ (hl.lt u hu) tu
          rw [hq, h.map _ (hl.lt v hv) tv] at h2
          exact hl.conn u v hu hv h2.symm
        · exact hq u v hu hv (h.map _ (hl.lt u hu) tu).symm (h.map _ (hl.lt v hv) tv).symm
      · exact absurd he (hne u v hu hv tu tv)
    · by_cases tv : Touch G cl (cl v)
      · exact absurd he.symm (hne v u hv hu tv tu)
      · rw [hs u hu tu, hs v hv tv] at he
        exact hl.conn u v hu hv he
  · have := hl.le
    by_cases tv : Touch G cl (cl v)
    · rw [ht v hv tv]
      have := (h.inv _ (hin v hv tv)).1
      omega
    · rw [hs v hv tv]
      have := hl.lt v hv
      omega

end level

/-! ### Theorems -/

/-- C75 (`_partial`: if it ends): on a symmetric graph there is no undefined behaviour, and the labels are vertices, equal exactly within
components. -/
theorem cc_partial {sh : Nat → List Nat} (hsh : ∀ n, LDD.Shifts n (sh n)) {k : Nat} {permute : Bool} {G : Gr W} (hG : G.Ok)
    (hn : G.n ≤ LDD.none32) (hsym : ∀ u v, Adj G u v → Adj G v u) {res : Option (Nat → Nat)} (h : CC sh k permute W G res) :
    ∃ lab, res = some lab ∧ IsCC G.n (Adj G) lab ∧ ∀ v, v < G.n → lab v < G.n := by
  induction h with
  | ldd hp hl =>
    obtain ⟨m, h1, -⟩ := LDD.ldd_correct hG hn hp.lt hp.inj hp.onto (hsh _) hl
    cases h1
  | last h hm =>
    obtain ⟨hl, hc⟩ := level_ok hsh hG hn hsym h
    refine ⟨_, rfl, last_ok hG hsym hl hc hm, fun v hv => ?_⟩
    have := hl.lt v hv
    have := hl.le
    omega
  | next h hm hr hi ih =>
    obtain ⟨hl, hc⟩ := level_ok hsh hG hn hsym h
    have h1 := size_le hc
    have h2 := hl.le
    obtain ⟨lab, he, h3, h4⟩ := ih (toGr_ok hsym hc) (by show _ ≤ _; simp only [toGr]; omega) (toGr_sym hsym hc)
    cases he
    exact ⟨_, rfl, next_ok hG hsym hl hc hi h3⟩
  | oob h hm hr hi ih =>
    obtain ⟨hl, hc⟩ := level_ok hsh hG hn hsym h
    have h1 := size_le hc
    have h2 := hl.le
    obtain ⟨lab, he, h3, h4⟩ := ih (toGr_ok hsym hc) (by simp only [toGr]; omega) (toGr_sym hsym hc)
    cases he
    obtain ⟨x, hx, hx'⟩ := hi
    exact absurd (h4 x hx) hx'
  | sub h hm hr ih =>
    obtain ⟨hl, hc⟩ := level_ok hsh hG hn hsym h
    have h1 := size_le hc
    have h2 := hl.le
    obtain ⟨lab, he, -⟩ := ih (toGr_ok hsym hc) (by simp only [toGr]; omega) (toGr_sym hsym hc)
    cases he

/-! ### Levels -/

/-- The rounds of `LDD_impl` keep what is claimed. -/
theorem run_keep {G : Gr W} (hG : G.Ok) (hn : G.n ≤ LDD.none32) {orc : Nat → Nat → W → Bool} {perm : Nat → Nat} {sh : List Nat}
    (hp : ∀ i, i < G.n → perm i < G.n) {r vis add : Nat} {m : Nat → Nat} {F : List Nat} {res : Option (Nat → Nat)}
    (h : LDD.Run G orc perm sh r vis add m F res) : (∀ v ∈ F, m v ≠ LDD.none32) → ∀ m', res = some m' →
    ∀ v, m v ≠ LDD.none32 → m' v = m v := by
  induction h with
  | stop h => intro _ m' he v _; cases he; rfl
  | range => intro _ m' he; cases he
  | wrap => intro _ m' he; cases he
  | perm => intro _ m' he; cases he
  | last h ha hb hw hp' hcs hv =>
    intro _ m' he v hv'
    cases he
    subst hcs
    exact if_neg fun hc => hv' (LDD.mem_centers.1 hc).2
  | @round r vis add m F a b cs m1 o res h ha hb hw hp' hcs hv he hr ih =>
    intro hF m' hres v hv'
    have hcl : LDD.claimed m cs v = m v := by
      subst hcs
      exact if_neg fun hc => hv' (LDD.mem_centers.1 hc).2
    have hfr : ∀ v, decide (v ∈ F ++ cs) = true → LDD.claimed m cs v ≠ LDD.none32 := by
      intro v hv
      simp only [LDD.claimed]
      split
      · rename_i hc
        subst hcs
        obtain ⟨⟨i, hi, rfl⟩, -⟩ := LDD.mem_centers.1 hc
        have := hp (add + i) (by omega)
        omega
      · rename_i hc
        exact hF v ((List.mem_append.1 (of_decide_eq_true hv)).resolve_right hc)
    obtain ⟨-, h2, h3, h4⟩ := LDD.ldd_round G hG _ hfr he
    have hv1 : m1 v = m v := by
      rw [h4 v fun hc => hv' (hcl ▸ ((h2 v).1 hc).1), hcl]
    rw [ih (fun d hd => ?_) m' hres v (by rw [hv1]; exact hv'), hv1]
    obtain ⟨e, hact, -, -, hm⟩ := h3 d hd
    rw [hm]
    exact hfr _ hact.1

/-- If the first round has one centre, its neighbours end in its cluster. -/
theorem first_claims {G : Gr W} (hG : G.Ok) (hn : G.n ≤ LDD.none32) {perm : Nat → Nat} {sh : List Nat}
    (hp : ∀ i, i < G.n → perm i < G.n) (h0 : sh[0]? = some 0) (h1 : sh[1]? = some 1) {m : Nat → Nat}
    (h : LDD.Ldd G (fun _ _ _ => true) perm sh (some m)) {d : Nat} (hd : Adj G (perm 0) d) (hne : d ≠ perm 0) : m d = perm 0 := by
  obtain ⟨w, hw⟩ := hd
  obtain ⟨b1, b2⟩ := hG.bound _ _ _ hw
  have hn2 : 2 ≤ G.n := by omega
  cases h with
  | stop h => omega
  | last h ha hb hw' hp' hcs hv =>
    rw [h0] at ha; rw [h1] at hb
    cases ha; cases hb
    subst hcs
    have hlen : (LDD.centers perm (fun _ => LDD.none32) 0 (min 1 G.n - 0)).length ≤ 1 :=
      (List.length_filter_le _ _).trans (by simp)
    simp only [List.nil_append] at hv
    omega
  | @round _ _ _ _ _ a b cs m1 o _ h ha hb hw' hp' hcs hv he hr =>
    rw [h0] at ha; rw [h1] at hb
    cases ha; cases hb
    have hcs' : cs = [perm 0] := by
      rw [hcs, show min 1 G.n - 0 = 1 by omega]
      simp [LDD.centers]
    have hmem : ∀ v, v ∈ [] ++ cs ↔ v = perm 0 := by simp [hcs']
    have hclaim : ∀ v, LDD.claimed (fun _ => LDD.none32) cs v = if v = perm 0 then v else LDD.none32 := by
      intro v; simp [LDD.claimed, hcs']
    have hlt : perm 0 ≠ LDD.none32 := by omega
    have hfr : ∀ v, decide (v ∈ [] ++ cs) = true → LDD.claimed (fun _ => LDD.none32) cs v ≠ LDD.none32 := by
      intro v hv
      have hv := (hmem v).1 (of_decide_eq_true hv)
      rw [hclaim, if_pos hv, hv]
      exact hlt
    obtain ⟨-, h2, h3, h4⟩ := LDD.ldd_round G hG _ hfr he
    have hdo : d ∈ o.map Prod.fst := (h2 d).2 ⟨by rw [hclaim, if_neg hne], ⟨perm 0, d, w⟩, ⟨decide_eq_true ((hmem _).2 rfl), hw⟩, rfl, rfl⟩
    have hm1 : m1 d = perm 0 := by
      obtain ⟨e, hact, -, -, hm⟩ := h3 d hdo
      have hes := (hmem _).1 (of_decide_eq_true hact.1)
      rw [hm, hclaim, if_pos hes, hes]
    rw [run_keep hG hn hp hr (fun x hx => ?_) m rfl d (by rw [hm1]; exact hlt), hm1]
    obtain ⟨e, hact, -, -, hm⟩ := h3 x hx
    rw [hm]
    exact hfr _ hact.1

/-- Every vertex has an edge to another vertex. -/
def NoIso (G : Gr W) : Prop := ∀ v, v < G.n → ∃ d, d ≠ v ∧ Adj G v d

/-- C75: every level of the recursion has fewer vertices than the one before: on a graph without isolated vertices `contract` returns a smaller
graph, again without isolated vertices. -/
theorem level_shrinks {sh : Nat → List Nat} (hsh : ∀ n, LDD.Shifts n (sh n)) (h1 : ∀ n, 2 ≤ n → (sh n)[1]? = some 1) {permute : Bool}
    {G : Gr W} (hG : G.Ok) (hn : G.n ≤ LDD.none32) (hsym : ∀ u v, Adj G u v → Adj G v u) {cl flags mapping : Nat → Nat} {nc : Nat}
    {GC : Csr.Graph Unit} (h : Level sh permute G cl nc GC flags mapping) :
    GC.n ≤ G.n ∧ NoIso (toGr GC) ∧ (NoIso G → 0 < G.n → GC.n < G.n) := by
  obtain ⟨hl, hc⟩ := level_ok hsh hG hn hsym h
  have hsz := size_le hc
  have hle := hl.le
  refine ⟨by omega, fun x hx => ?_, fun hni h0 => ?_⟩
  · obtain ⟨i1, ⟨b, hq⟩, i3⟩ := hc.inv x hx
    obtain ⟨hne, u, v, hadj, e1, e2⟩ := hq
    have hb : b < nc := e2 ▸ hl.lt v (adj_lt hG hadj).2
    have hq : QAdj G cl (mapping x) b := ⟨hne, u, v, hadj, e1, e2⟩
    have ha := qadj_gc hsym hc i1 hb hq
    rw [i3] at ha
    refine ⟨_, fun he => hne ?_, ha⟩
    have tb : Touch G cl b := ⟨_, qadj_symm hsym hq⟩
    rw [← hc.map b hb tb, he]
  · obtain ⟨perm, m, c, order, hp, hldd, hs, hd, ho, rfl, rfl, -⟩ := h
    obtain ⟨m', e1, e2⟩ := LDD.ldd_correct hG hn hp.lt hp.inj hp.onto (hsh _) hldd
    obtain rfl := Option.some.inj e1
    have hr := Relabel.relabel_correct G.n m (fun i hi => (e2 i hi).1) c hs hd order ho
    obtain ⟨d, hdne, hda⟩ := hni _ (hp.lt 0 h0)
    have hdlt := (adj_lt hG hda).2
    have hplt := hp.lt 0 h0
    have hmd := first_claims hG hn hp.lt (hsh _).zero (h1 _ (by omega)) hldd hda hdne
    have hlt : (Relabel.finish G.n c.flag order m).2 < G.n := by
      rw [hr.count]
      have hsub : (Finset.range G.n).image m ⊆ (Finset.range G.n).erase d := by
        intro y hy
        obtain ⟨u, hu, rfl⟩ := Finset.mem_image.1 hy
        have hu : u < G.n := by simpa using hu
        obtain ⟨q1, q2, -⟩ := e2 u hu
        rw [Finset.mem_erase, Finset.mem_range]
        refine ⟨fun he => hdne ?_, q1⟩
        rw [he, hmd] at q2
        exact q2.symm
      have := Finset.card_le_card hsub
      rw [Finset.card_erase_of_mem (by simpa using hdlt), Finset.card_range] at this
      omega
    omega

/-- C75: the recursion has at most `n + 1` levels. -/
theorem cc_levels {sh : Nat → List Nat} (hsh : ∀ n, LDD.Shifts n (sh n)) (h1 : ∀ n, 2 ≤ n → (sh n)[1]? = some 1) {k : Nat} {permute : Bool}
    {G : Gr W} (hG : G.Ok) (hn : G.n ≤ LDD.none32) (hsym : ∀ u v, Adj G u v → Adj G v u) {res : Option (Nat → Nat)}
    (h : CC sh k permute W G res) : k ≤ G.n + 1 := by
  have step : ∀ {W : Type} {G : Gr W} (hG : G.Ok) (hn : G.n ≤ LDD.none32) (hsym : ∀ u v, Adj G u v → Adj G v u) {permute : Bool}
      {cl flags mapping : Nat → Nat} {nc : Nat} {GC : Csr.Graph Unit} {k : Nat}, Level sh permute G cl nc GC flags mapping → GC.m ≠ 0 →
      (∀ (_ : (toGr GC).Ok) (_ : (toGr GC).n ≤ LDD.none32) (_ : ∀ u v, Adj (toGr GC) u v → Adj (toGr GC) v u),
        k ≤ (toGr GC).n + 1 ∧ (NoIso (toGr GC) → 0 < (toGr GC).n → k ≤ (toGr GC).n)) →
      k + 1 ≤ G.n + 1 ∧ (NoIso G → 0 < G.n → k + 1 ≤ G.n) := by
    intro W G hG hn hsym permute cl flags mapping nc GC k hl hm ih
    obtain ⟨s1, s2, s3⟩ := level_shrinks hsh h1 hG hn hsym hl
    obtain ⟨-, hc⟩ := level_ok hsh hG hn hsym hl
    obtain ⟨-, i2⟩ := ih (toGr_ok hsym hc) (by simp only [toGr]; omega) (toGr_sym hsym hc)
    have h0 : 0 < GC.n := by
      by_contra h0
      have h0 : GC.n = 0 := by omega
      have := hc.edges
      rw [h0] at this
      exact hm this.symm
    have i2 : k ≤ GC.n := i2 s2 h0
    exact ⟨by omega, fun a b => by have := s3 a b; omega⟩
  have key : k ≤ G.n + 1 ∧ (NoIso G → 0 < G.n → k ≤ G.n) := by
    induction h with
    | ldd => exact ⟨by omega, fun _ _ => by omega⟩
    | last => exact ⟨by omega, fun _ _ => by omega⟩
    | next h hm hr hi ih => exact step hG hn hsym h hm fun a b c => ih a b c
    | oob h hm hr hi ih => exact step hG hn hsym h hm fun a b c => ih a b c
    | sub h hm hr ih => exact step hG hn hsym h hm fun a b c => ih a b c
  exact key.1

/-! ### A graph on which it does not end -/

/-- If the vertices below `sh[r0]` are isolated and the others are added in one round, every vertex is its own cluster. -/
theorem run_identity {G : Gr W} (hG : G.Ok) (hn : G.n ≤ LDD.none32) {perm : Nat → Nat} {sh : List Nat}
    (hp : ∀ i, i < G.n → perm i = i) (hsh : LDD.Shifts G.n sh) {r0 N b0 : Nat} (hN : sh[r0]? = some N) (hb : sh[r0 + 1]? = some b0)
    (hb0 : G.n ≤ b0) (hNn : N < G.n) (hiso : ∀ u, u < N → G.fwd u = []) {orc : Nat → Nat → W → Bool} {r vis add : Nat} {m : Nat → Nat}
    {F : List Nat} {res : Option (Nat → Nat)} (h : LDD.Run G orc perm sh r vis add m F res) : r ≤ r0 → sh[r]? = some vis → vis = add → F = [] →
    (∀ v, m v = if v < vis then v else LDD.none32) → ∀ m', res = some m' → ∀ v, v < G.n → m' v = v := by
  have asc : ∀ i j a b : Nat, i ≤ j → sh[i]? = some a → sh[j]? = some b → a ≤ b := by
    intro i j a b hij hi hj
    obtain ⟨hi', rfl⟩ := List.getElem?_eq_some_iff.1 hi
    obtain ⟨hj', rfl⟩ := List.getElem?_eq_some_iff.1 hj
    rcases Nat.lt_or_eq_of_le hij with hlt | rfl
    · exact List.pairwise_iff_getElem.1 hsh.asc i j hi' hj' hlt
    · exact Nat.le_refl _
  have mem : ∀ (m : Nat → Nat) (vis k : Nat), vis + k ≤ G.n → (∀ v, m v = if v < vis then v else LDD.none32) →
      LDD.centers perm m vis k = (List.range k).map fun i => vis + i := by
    intro m vis k hk hm
    unfold LDD.centers
    rw [List.filter_eq_self.2]
    · exact List.map_congr_left fun i hi => hp _ (by rw [List.mem_range] at hi; omega)
    · intro v hv
      obtain ⟨i, hi, rfl⟩ := List.mem_map.1 hv
      rw [List.mem_range] at hi
      rw [hp _ (by omega), hm, if_neg (by omega)]
      simp
  induction h with
  | @stop r vis add m F h =>
    intro h1 h2 h3 h4 hm m' he v hv
    have := asc r r0 vis N h1 h2 hN
    omega
  | range => intro _ _ _ _ _ m' he; cases he
  | wrap => intro _ _ _ _ _ m' he; cases he
  | perm => intro _ _ _ _ _ m' he; cases he
  | @last r vis add m F a b cs h ha hb' hw hp' hcs hv =>
    intro h1 h2 h3 h4 hm m' he v hvn
    rw [h2] at ha
    cases ha
    subst h3 h4
    cases he
    rw [mem m vis _ (by omega) hm] at hcs
    subst hcs
    simp only [List.nil_append, List.length_map, List.length_range] at hv
    have hle : G.n ≤ b := by omega
    simp only [LDD.claimed, hm]
    split
    · rfl
    · rename_i hnm
      rw [if_pos]
      by_contra hge
      exact hnm (List.mem_map.2 ⟨v - vis, List.mem_range.2 (by omega), by omega⟩)
  | @round r vis add m F a b cs m1 o res h ha hb' hw hp' hcs hv he hr ih =>
    intro h1 h2 h3 h4 hm m' hres v hvn
    rw [h2] at ha
    cases ha
    subst h3 h4
    rw [mem m vis _ (by omega) hm] at hcs
    subst hcs
    simp only [List.nil_append, List.length_map, List.length_range] at hv
    have hbn : b < G.n := by omega
    have hmin : min b G.n = b := by omega
    have hr0 : r + 1 ≤ r0 := by
      by_contra hc
      have : r = r0 := by omega
      subst this
      rw [hb] at hb'
      cases hb'
      omega
    have hbN := asc (r + 1) r0 b N hr0 hb' hN
    have hcl : ∀ v, LDD.claimed m ((List.range (min b G.n - vis)).map fun i => vis + i) v = if v < b then v else LDD.none32 := by
      intro v
      simp only [LDD.claimed, hm]
      by_cases hvb : v < b
      · rw [if_pos hvb]
        split
        · rfl
        · rename_i hnm
          rw [if_pos]
          by_contra hge
          exact hnm (List.mem_map.2 ⟨v - vis, List.mem_range.2 (by omega), by omega⟩)
      · rw [if_neg hvb, if_neg, if_neg (by omega)]
        intro hc
        obtain ⟨i, hi, rfl⟩ := List.mem_map.1 hc
        rw [List.mem_range] at hi
        omega
    have hact : ∀ e : Edge W, Active G (fun v => decide (v ∈ [] ++ (List.range (min b G.n - vis)).map fun i => vis + i)) e → False := by
      rintro e ⟨h5, h6⟩
      have h5 := of_decide_eq_true h5
      rw [List.nil_append] at h5
      obtain ⟨i, hi, hie⟩ := List.mem_map.1 h5
      rw [List.mem_range] at hi
      rw [hiso e.s (by omega)] at h6
      cases h6
    obtain ⟨-, q2, -, q4⟩ := LDD.ldd_round G hG _ (fun v hv => by
      have hv := of_decide_eq_true hv
      rw [List.nil_append] at hv
      obtain ⟨i, hi, rfl⟩ := List.mem_map.1 hv
      rw [List.mem_range] at hi
      rw [hcl, if_pos (by omega)]
      omega) he
    have ho : o = [] := by
      cases o with
      | nil => rfl
      | cons x o =>
        obtain ⟨-, e, he', -⟩ := (q2 x.1).1 (by simp)
        exact (hact e he').elim
    subst ho
    refine ih (by omega) ?_ ?_ rfl (fun v => ?_) m' hres v hvn
    · rw [hb']
      simp only [List.nil_append, List.length_map, List.length_range]
      congr 1
      omega
    · simp only [List.nil_append, List.length_map, List.length_range]
    · rw [q4 v (by simp), hcl]
      simp only [List.nil_append, List.length_map, List.length_range]
      rw [show vis + (min b G.n - vis) = b by omega]

/-- `N` isolated vertices and the complete bipartite graph on 65 + 65 vertices. -/
def bip (N : Nat) : Gr Unit :=
  let f := fun u => if u < N then [] else if u < N + 65 then (List.range 65).map fun i => (N + 65 + i, ())
    else if u < N + 130 then (List.range 65).map fun i => (N + i, ()) else []
  ⟨N + 130, f, f⟩

theorem mem_bip (N u v : Nat) (w : Unit) : (v, w) ∈ (bip N).fwd u ↔
    (N ≤ u ∧ u < N + 65 ∧ N + 65 ≤ v ∧ v < N + 130) ∨ (N + 65 ≤ u ∧ u < N + 130 ∧ N ≤ v ∧ v < N + 65) := by
  simp only [bip]
  split
  · simp only [List.not_mem_nil, false_iff]; omega
  · split
    · simp only [List.mem_map, List.mem_range, Prod.mk.injEq]
      constructor
      · rintro ⟨i, hi, rfl, -⟩; omega
      · intro h; exact ⟨v - (N + 65), by omega, by omega, trivial⟩
    · split
      · simp only [List.mem_map, List.mem_range, Prod.mk.injEq]
        constructor
        · rintro ⟨i, hi, rfl, -⟩; omega
        · intro h; exact ⟨v - N, by omega, by omega, trivial⟩
      · simp only [List.not_mem_nil, false_iff]; omega

theorem bip_ok (N : Nat) : (bip N).Ok := by
  refine ⟨fun s d w => ?_, fun s d w h => ?_⟩
  · show (d, w) ∈ (bip N).fwd s ↔ (s, w) ∈ (bip N).fwd d
    rw [mem_bip, mem_bip]; omega
  · have := (mem_bip _ _ _ _).1 h
    show s < N + 130 ∧ d < N + 130
    omega

theorem bip_sym (N u v : Nat) (h : Adj (bip N) u v) : Adj (bip N) v u := by
  obtain ⟨w, h⟩ := h
  refine ⟨w, ?_⟩
  rw [mem_bip] at h ⊢
  omega

/-- With shifts that add all of the bipartite graph in one round, `CC` does not end. -/
theorem bip_hangs {sh : Nat → List Nat} (hsh : ∀ n, LDD.Shifts n (sh n)) {N r0 b0 : Nat} (hN : (sh (N + 130))[r0]? = some N)
    (hb : (sh (N + 130))[r0 + 1]? = some b0) (hb0 : N + 130 ≤ b0) (hlt : N + 130 < 2048) (k : Nat) (res : Option (Nat → Nat)) :
    ¬ CC sh k false Unit (bip N) res := by
  have hn : (bip N).n ≤ LDD.none32 := by show N + 130 ≤ 4294967295; omega
  have key : ∀ {cl flags mapping nc GC}, ¬ Level sh false (bip N) cl nc GC flags mapping := by
    rintro cl flags mapping nc GC ⟨perm, m, c, order, hp, hldd, hs, hd, ho, rfl, rfl, hc⟩
    have hid : ∀ v, v < N + 130 → m v = v := run_identity (bip_ok N) hn (hp.id rfl) (hsh _) hN hb hb0 (by show N < N + 130; omega)
      (fun u hu => by simp [bip, hu]) hldd (Nat.zero_le _) (hsh _).zero rfl rfl (fun v => rfl) m rfl
    have hr := Relabel.relabel_correct (bip N).n m (fun i hi => by rw [hid i hi]; exact hi) c hs hd order ho
    generalize (Relabel.finish (bip N).n c.flag order m).1 = cl at *
    generalize (Relabel.finish (bip N).n c.flag order m).2 = nc at *
    have hnc : nc < 2048 := by
      have := hr.count.le.trans (Finset.card_image_le (s := Finset.range (bip N).n) (f := m))
      rw [Finset.card_range] at this
      have : nc ≤ N + 130 := this
      omega
    refine Contract.contract_hangs hnc (L := (List.range 4225).map fun k => (cl (N + k / 65), cl (N + 65 + k % 65))) ?_ (fun p hp' => ?_) (by simp) _ _ _ hc
    · refine (List.nodup_map_iff_inj_on List.nodup_range).2 fun a ha b hb hab => ?_
      rw [List.mem_range] at ha hb
      simp only [Prod.mk.injEq] at hab
      have e1 := (hr.eq_iff _ _ (show N + a / 65 < N + 130 by omega) (show N + b / 65 < N + 130 by omega)).1 hab.1
      have e2 := (hr.eq_iff _ _ (show N + 65 + a % 65 < N + 130 by omega) (show N + 65 + b % 65 < N + 130 by omega)).1 hab.2
      rw [hid _ (by omega), hid _ (by omega)] at e1 e2
      omega
    · obtain ⟨j, hj, rfl⟩ := List.mem_map.1 hp'
      rw [List.mem_range] at hj
      rw [Contract.mem_inter (bip_ok N)]
      refine ⟨(hr.lt_iff _ _ (show N + j / 65 < N + 130 by omega) (show N + 65 + j % 65 < N + 130 by omega)).2 ?_, _, _, ⟨(), ?_⟩, rfl, rfl⟩
      · rw [hid _ (by omega), hid _ (by omega)]; omega
      · rw [mem_bip]; omega
  intro h
  cases h with
  | ldd hp hl =>
    obtain ⟨m, h1, -⟩ := LDD.ldd_correct (bip_ok N) hn hp.lt hp.inj hp.onto (hsh _) hl
    cases h1
  | last h hm => exact key h
  | next h => exact key h
  | oob h => exact key h
  | sub h => exact key h

/-- The number of centres after 25 rounds with `beta = 0.2`. -/
noncomputable def N25 : Nat := exScan (fun i => ⌊Real.exp (i * (1 / 5 : ℝ))⌋₊) 25

theorem exp_pow (k : Nat) : Real.exp k = Real.exp 1 ^ k := by
  rw [← Real.exp_nat_mul]; simp

theorem floor_le {i k B : Nat} (h : i ≤ 5 * k) (hB : (2.7182818286 : ℝ) ^ k < B + 1) : ⌊Real.exp (i * (1 / 5 : ℝ))⌋₊ ≤ B := by
  have h1 : Real.exp (i * (1 / 5 : ℝ)) ≤ Real.exp k := by
    apply Real.exp_le_exp.2
    have : (i : ℝ) ≤ 5 * k := by exact_mod_cast h
    linarith
  have h2 : Real.exp k ≤ (2.7182818286 : ℝ) ^ k := by
    rw [exp_pow]
    exact pow_le_pow_left₀ (Real.exp_pos 1).le Real.exp_one_lt_d9.le k
  have h3 : ⌊Real.exp (i * (1 / 5 : ℝ))⌋₊ < B + 1 := by
    rw [Nat.floor_lt (Real.exp_pos _).le]
    push_cast
    linarith
  omega

theorem exScan_le {f g : Nat → Nat} {n : Nat} (h : ∀ i, i < n → f i ≤ g i) : exScan f n ≤ exScan g n := by
  induction n with
  | zero => exact Nat.le_refl _
  | succ n ih =>
    have h1 := ih fun i hi => h i (by omega)
    have h2 := h n (by omega)
    have e1 : exScan f (n + 1) = exScan f n + f n := rfl
    have e2 : exScan g (n + 1) = exScan g n + g n := rfl
    omega

theorem N25_le : N25 ≤ 1500 := by
  have : N25 ≤ exScan (fun i => if i ≤ 5 then 2 else if i ≤ 10 then 7 else if i ≤ 15 then 20 else if i ≤ 20 then 54 else 148) 25 := by
    refine exScan_le fun i hi => ?_
    split
    · exact floor_le (k := 1) (by omega) (by norm_num)
    · split
      · exact floor_le (k := 2) (by omega) (by norm_num)
      · split
        · exact floor_le (k := 3) (by omega) (by norm_num)
        · split
          · exact floor_le (k := 4) (by omega) (by norm_num)
          · exact floor_le (k := 5) (by omega) (by norm_num)
  refine this.trans ?_
  decide

theorem N25_ge : 25 ≤ N25 := by
  have : exScan (fun _ => 1) 25 ≤ N25 := by
    refine exScan_le fun i _ => ?_
    rw [Nat.one_le_floor_iff]
    exact Real.one_le_exp (by positivity)
  exact this

theorem floor_25 : 130 ≤ ⌊Real.exp ((25 : ℕ) * (1 / 5 : ℝ))⌋₊ := by
  apply Nat.le_floor
  have h1 : Real.exp ((25 : ℕ) * (1 / 5 : ℝ)) = Real.exp 1 ^ 5 := by
    rw [← exp_pow]; congr 1; norm_num
  rw [h1]
  have h2 : (2.7 : ℝ) ^ 5 ≤ Real.exp 1 ^ 5 := by
    apply pow_le_pow_left₀ (by norm_num)
    have := Real.exp_one_gt_d9
    linarith
  have : (130 : ℝ) ≤ 2.7 ^ 5 := by norm_num
  push_cast
  linarith

/-- C75 (negation): with the default parameters (`beta = 0.2`, no permutation) `CC` does not end on the graph of `N25` isolated vertices followed by
the complete bipartite graph on 65 + 65 vertices. -/
theorem cc_refuted : (bip N25).Ok ∧ (∀ u v, Adj (bip N25) u v → Adj (bip N25) v u) ∧ (bip N25).n < 2048 ∧
    ∀ k res, ¬ CC (fun n => LDD.genShifts n (1 / 5)) k false Unit (bip N25) res := by
  have hle := N25_le
  have hge := N25_ge
  refine ⟨bip_ok _, bip_sym _, by show N25 + 130 < 2048; omega, fun k res => ?_⟩
  have hrounds : 26 ≤ LDD.totalRounds (N25 + 130) (1 / 5) := by
    have h5 : (5 : ℝ) ≤ Real.log ((N25 + 130 : ℕ) : ℝ) := by
      rw [Real.le_log_iff_exp_le (by positivity)]
      have h1 : Real.exp 5 = Real.exp 1 ^ 5 := by rw [← exp_pow]; norm_num
      have h2 : Real.exp 1 ^ 5 ≤ (2.7182818286 : ℝ) ^ 5 := pow_le_pow_left₀ (Real.exp_pos 1).le Real.exp_one_lt_d9.le 5
      have h3 : (2.7182818286 : ℝ) ^ 5 ≤ 155 := by norm_num
      have h4 : (155 : ℝ) ≤ ((N25 + 130 : ℕ) : ℝ) := by exact_mod_cast (show 155 ≤ N25 + 130 by omega)
      linarith
    have h6 : 25 ≤ ⌈Real.log ((N25 + 130 : ℕ) : ℝ) / (1 / 5)⌉₊ := by
      have : ((25 : ℕ) : ℝ) ≤ Real.log ((N25 + 130 : ℕ) : ℝ) / (1 / 5) := by push_cast at *; linarith
      exact_mod_cast this.trans (Nat.le_ceil _)
    unfold LDD.totalRounds
    omega
  have hget : ∀ i, i ≤ 26 → (LDD.genShifts (N25 + 130) (1 / 5))[i]? = some (exScan (fun i => ⌊Real.exp (i * (1 / 5 : ℝ))⌋₊) i) := by
    intro i hi
    unfold LDD.genShifts
    rw [List.getElem?_map, List.getElem?_range (by omega)]
    rfl
  refine bip_hangs (fun n => LDD.genShifts_ok n (by norm_num)) (r0 := 25) (hget 25 (by omega)) (hget 26 (by omega)) ?_ (by omega) k res
  have h1 : exScan (fun i => ⌊Real.exp (i * (1 / 5 : ℝ))⌋₊) 26 = N25 + ⌊Real.exp ((25 : ℕ) * (1 / 5 : ℝ))⌋₊ := rfl
  have := floor_25
  omega

/-! ### Runs exist -/

theorem ldd_cond_total (orc : Nat → Nat → W → Bool) (d : Nat) : Total ((LDD.lddF orc).cond d) := fun _ => ⟨_, rfl⟩

theorem ldd_upd_total (orc : Nat → Nat → W → Bool) (s d : Nat) (w : W) : Total ((LDD.lddF orc).updA s d w) := by
  intro m
  simp only [LDD.lddF]
  split
  · simp only [exec]
    split <;> exact ⟨_, rfl⟩
  · exact ⟨_, rfl⟩

theorem run_exists {G : Gr W} (hG : G.Ok) (orc : Nat → Nat → W → Bool) (perm : Nat → Nat) (sh : List Nat) (f : Nat) :
    ∀ r vis add m F, sh.length ≤ r + f → ∃ res, LDD.Run G orc perm sh r vis add m F res := by
  induction f with
  | zero =>
    intro r vis add m F hf
    by_cases h : vis < G.n
    · exact ⟨_, .range h (.inl (List.getElem?_eq_none (by omega)))⟩
    · exact ⟨_, .stop h⟩
  | succ f ih =>
    intro r vis add m F hf
    by_cases h : vis < G.n
    · cases ha : sh[r]? with
      | none => exact ⟨_, .range h (.inl ha)⟩
      | some a =>
        cases hb : sh[r + 1]? with
        | none => exact ⟨_, .range h (.inr hb)⟩
        | some b =>
          by_cases hw : min b G.n < a
          · exact ⟨_, .wrap h ha hb hw⟩
          by_cases hp : G.n < add + (min b G.n - a)
          · exact ⟨_, .perm h ha hb (by omega) hp⟩
          by_cases hv : G.n ≤ vis + (F ++ LDD.centers perm m add (min b G.n - a)).length
          · exact ⟨_, .last h ha hb (by omega) hp rfl hv⟩
          obtain ⟨m', o, he⟩ := edgeMap_exists (ldd_cond_total orc) (ldd_upd_total orc) hG
            (fun v => decide (v ∈ F ++ LDD.centers perm m add (min b G.n - a))) (LDD.claimed m (LDD.centers perm m add (min b G.n - a)))
          obtain ⟨res, hr⟩ := ih (r + 1) (vis + (F ++ LDD.centers perm m add (min b G.n - a)).length) (add + (min b G.n - a)) m' (o.map Prod.fst) (by omega)
          exact ⟨res, .round h ha hb (by omega) hp rfl hv he hr⟩
    · exact ⟨_, .stop h⟩

theorem relabel_exists (n : Nat) (ids : Nat → Nat) (k : Nat) : k ≤ n → ∃ c, Steps (Relabel.Step n ids) Relabel.init c ∧
    (∀ i, i < k → c.pc i = .done) ∧ ∀ i, k ≤ i → c.pc i = .test := by
  induction k with
  | zero => exact fun _ => ⟨_, .refl _, fun i hi => (by omega), fun _ _ => rfl⟩
  | succ k ih =>
    intro hk
    obtain ⟨c, h1, h2, h3⟩ := ih (by omega)
    by_cases h0 : c.flag (ids k) = 0
    · refine ⟨_, (h1.tail (.enter hk (h3 k (Nat.le_refl _)) h0)).tail (.store (i := k) hk (by simp [upd])), fun i hi => ?_, fun i hi => ?_⟩
      · by_cases hik : i = k
        · simp [upd, hik]
        · simpa [upd, hik] using h2 i (by omega)
      · have hik : i ≠ k := by omega
        simpa [upd, hik] using h3 i (by omega)
    · refine ⟨_, h1.tail (.skip hk (h3 k (Nat.le_refl _)) h0), fun i hi => ?_, fun i hi => ?_⟩
      · by_cases hik : i = k
        · simp [upd, hik]
        · simpa [upd, hik] using h2 i (by omega)
      · have hik : i ≠ k := by omega
        simpa [upd, hik] using h3 i (by omega)

/-- The number of directed edges. -/
def numEdges (G : Gr W) : Nat := ((List.range G.n).map fun u => (G.fwd u).length).sum

theorem inter_le (G : Gr W) (cl : Nat → Nat) : (Contract.inter G cl).length ≤ numEdges G := by
  refine (List.length_filter_le _ _).trans ?_
  rw [List.length_flatMap]
  simp [numEdges]

theorem level_exists {sh : Nat → List Nat} (hsh : ∀ n, LDD.Shifts n (sh n)) {G : Gr W} (hG : G.Ok) (hn : G.n ≤ LDD.none32)
    (he : numEdges G < 4096) (permute : Bool) : ∃ cl nc GC flags mapping, Level sh permute G cl nc GC flags mapping := by
  have hp : IsPerm G.n permute fun i => i := ⟨fun _ h => h, fun _ _ _ _ h => h, fun v hv => ⟨v, hv, rfl⟩, fun _ _ _ => rfl⟩
  obtain ⟨res, hr⟩ := run_exists hG (fun _ _ _ => true) (fun i => i) (sh G.n) (sh G.n).length 0 0 0 (fun _ => LDD.none32) [] (by omega)
  obtain ⟨m, rfl, -⟩ := LDD.ldd_correct hG hn hp.lt hp.inj hp.onto (hsh _) hr
  obtain ⟨c, hc, hd, -⟩ := relabel_exists G.n m G.n (Nat.le_refl _)
  have hi := inter_le G (Relabel.finish G.n c.flag (List.range G.n) m).1
  obtain ⟨GC, flags, mapping, hk⟩ := Contract.contract_exists (G := G) (cl := (Relabel.finish G.n c.flag (List.range G.n) m).1)
    (nc := (Relabel.finish G.n c.flag (List.range G.n) m).2) (.inr (by omega))
  exact ⟨_, _, GC, flags, mapping, _, m, c, _, hp, hr, hc, hd, sched_range _, rfl, rfl, hk⟩

/-- The directed edges. -/
def edgeList (G : Gr W) : List (Nat × Nat) := (List.range G.n).flatMap fun u => (G.fwd u).map fun x => (u, x.1)

theorem edgeList_length (G : Gr W) : (edgeList G).length = numEdges G := by
  simp [edgeList, numEdges, List.length_flatMap]

theorem mem_edgeList {G : Gr W} (hG : G.Ok) {u v : Nat} : (u, v) ∈ edgeList G ↔ Adj G u v := by
  simp only [edgeList, List.mem_flatMap, List.mem_range, List.mem_map, Prod.mk.injEq, Adj]
  constructor
  · rintro ⟨u', -, x, hx, rfl, rfl⟩
    exact ⟨x.2, hx⟩
  · rintro ⟨w, hw⟩
    exact ⟨u, (hG.bound _ _ _ hw).1, (v, w), hw, rfl, rfl⟩

/-- Contraction does not add edges. -/
theorem edges_le {G : Gr W} (hG : G.Ok) (hsym : ∀ u v, Adj G u v → Adj G v u) {cl flags mapping : Nat → Nat} {nc : Nat} {GC : Csr.Graph Unit}
    (h : IsContraction G cl nc GC flags mapping) : numEdges (toGr GC) ≤ numEdges G := by
  rw [← edgeList_length, ← edgeList_length, ← List.length_map (as := edgeList G) (f := fun e : Nat × Nat => (flags (cl e.1), flags (cl e.2)))]
  refine List.Subperm.length_le (List.Nodup.subperm ?_ fun e he => ?_)
  · unfold edgeList
    rw [List.nodup_flatMap]
    refine ⟨fun x hx => ?_, List.nodup_range.imp_of_mem fun {a b} ha hb hab => ?_⟩
    · have hx : x < GC.n := by simpa [toGr] using hx
      have h1 := (h.asc x hx).imp fun hlt => Nat.ne_of_lt hlt
      have h2 : ((toGr GC).fwd x).map (fun y => (x, y.1)) = ((GC.nbrs x).map Prod.fst).map fun y => (x, y) := by
        simp [toGr, hx]
      rw [h2]
      exact List.Nodup.map (fun a b hab => (Prod.mk.inj hab).2) h1
    · intro e h1 h2
      obtain ⟨x1, -, rfl⟩ := List.mem_map.1 h1
      obtain ⟨x2, -, he⟩ := List.mem_map.1 h2
      exact hab (Prod.mk.inj he).1.symm
  · obtain ⟨x, y⟩ := e
    have ha := (mem_edgeList (toGr_ok hsym h)).1 he
    obtain ⟨hx, hy, -, u, v, hadj, e1, e2⟩ := (adj_iff h).1 ha
    refine List.mem_map.2 ⟨(u, v), (mem_edgeList hG).2 hadj, ?_⟩
    simp only [e1, e2, (h.inv x hx).2.2, (h.inv y hy).2.2]

/-- C75: with fewer than 4096 directed edges, there are runs that end (for any number of vertices, isolated ones included). -/
theorem cc_exists {sh : Nat → List Nat} (hsh : ∀ n, LDD.Shifts n (sh n)) (h1 : ∀ n, 2 ≤ n → (sh n)[1]? = some 1) {G : Gr W} (hG : G.Ok)
    (hn : G.n ≤ LDD.none32) (hsym : ∀ u v, Adj G u v → Adj G v u) (he : numEdges G < 4096) (permute : Bool) :
    ∃ k lab, CC sh k permute W G (some lab) := by
  have key : ∀ (b : Nat) (G : Gr Unit), G.n < b → G.Ok → G.n ≤ LDD.none32 → (∀ u v, Adj G u v → Adj G v u) → numEdges G < 4096 →
      NoIso G → 0 < G.n → ∃ k lab, CC sh k true Unit G (some lab) := by
    intro b
    induction b with
    | zero => intro G hb; omega
    | succ b ih =>
      intro G hb hG hn hsym he hni h0
      obtain ⟨cl, nc, GC, flags, mapping, hl⟩ := level_exists hsh hG hn he true
      obtain ⟨s1, s2, s3⟩ := level_shrinks hsh h1 hG hn hsym hl
      obtain ⟨-, hc⟩ := level_ok hsh hG hn hsym hl
      by_cases hm : GC.m = 0
      · exact ⟨_, _, .last hl hm⟩
      have h0' : 0 < GC.n := by
        by_contra h0
        have h0 : GC.n = 0 := by omega
        have := hc.edges
        rw [h0] at this
        exact hm this.symm
      have hlt := s3 hni h0
      obtain ⟨k, lab, hcc⟩ := ih (toGr GC) (show GC.n < b by omega) (toGr_ok hsym hc) (show GC.n ≤ _ by omega) (toGr_sym hsym hc)
        (Nat.lt_of_le_of_lt (edges_le hG hsym hc) he) s2 h0'
      obtain ⟨lab', e1, -, e3⟩ := cc_partial hsh (toGr_ok hsym hc) (show GC.n ≤ _ by omega) (toGr_sym hsym hc) hcc
      cases e1
      exact ⟨_, _, .next hl hm hcc e3⟩
  obtain ⟨cl, nc, GC, flags, mapping, hl⟩ := level_exists hsh hG hn he permute
  obtain ⟨s1, s2, -⟩ := level_shrinks hsh h1 hG hn hsym hl
  obtain ⟨-, hc⟩ := level_ok hsh hG hn hsym hl
  by_cases hm : GC.m = 0
  · exact ⟨_, _, .last hl hm⟩
  have h0' : 0 < GC.n := by
    by_contra h0
    have h0 : GC.n = 0 := by omega
    have := hc.edges
    rw [h0] at this
    exact hm this.symm
  obtain ⟨k, lab, hcc⟩ := key (GC.n + 1) (toGr GC) (Nat.lt_succ_self _) (toGr_ok hsym hc) (show GC.n ≤ _ by omega) (toGr_sym hsym hc)
    (Nat.lt_of_le_of_lt (edges_le hG hsym hc) he) s2 h0'
  obtain ⟨lab', e1, -, e3⟩ := cc_partial hsh (toGr_ok hsym hc) (show GC.n ≤ _ by omega) (toGr_sym hsym hc) hcc
  cases e1
  exact ⟨_, _, .next hl hm hcc e3⟩

/-- The shifts of the code meet the conditions. -/
theorem genShifts_one (n : Nat) {β : ℝ} (hn : 2 ≤ n) : (LDD.genShifts n β)[1]? = some 1 := by
  unfold LDD.genShifts
  have : 1 ≤ LDD.totalRounds n β := by unfold LDD.totalRounds; omega
  rw [List.getElem?_map, List.getElem?_range (by omega)]
  simp [exScan]

/-- The path 0 - 1 - 2 - 3 with the shifts of the code: there are runs, and their labels are right. -/
example : ∃ k lab, CC (fun n => LDD.genShifts n (1 / 5)) k false Unit LDD.exG (some lab) ∧ IsCC 4 (Adj LDD.exG) lab := by
  have hsh : ∀ n, LDD.Shifts n (LDD.genShifts n (1 / 5)) := fun n => LDD.genShifts_ok n (by norm_num)
  have hsym : ∀ u v, Adj LDD.exG u v → Adj LDD.exG v u := fun u v ⟨w, h⟩ => ⟨w, (LDD.exG_ok.same u v w).1 h⟩
  obtain ⟨k, lab, h⟩ := cc_exists hsh (fun n hn => genShifts_one n hn) LDD.exG_ok (by decide) hsym (by decide) false
  obtain ⟨lab', e, h', -⟩ := cc_partial hsh LDD.exG_ok (by decide) hsym h
  cases e
  exact ⟨k, lab, h, h'⟩

end Gbbs.SDB14
