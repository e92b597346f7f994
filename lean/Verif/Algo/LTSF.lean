/-
C91: the Liu-Tarjan spanning forest, `benchmarks/SpanningForest/LiuTarjan/SpanningForest.h` and `liu_tarjan_rules.h`.
-/
import Verif.Algo.LTShort
import Verif.Algo.SVSF

namespace Gbbs.LTSF

open Conc Conc.Prog Comp SF Gbbs.LT
open Atomics (Steps)
open LabelProp (big key key_inj lpLess lpLess_iff)
open SV (Adj Start)
open SVSF (empty edges mem_edges edges_eq FStart isSF_of_start start_id)

/-! ### Model -/

/-- `message`, `liu_tarjan_rules.h:44-57`: component and edge. The compare-and-swap on these 16 bytes is taken to be atomic. -/
def edgeMsg : Msg (Nat × (Nat × Nat)) := ⟨fun m => m.1, fun c e => (c, e), fun _ _ => rfl⟩

/-- The connect options, `liu_tarjan_rules.h:64-99`: `true` is `extended_connect`. As `LT.sends`, without the tests for
`largest_comp`. -/
def sendsF (ext : Bool) (P : Nat → Nat) (e : Nat × Nat) : List (Nat × Nat) :=
  let x := P e.1
  let y := P e.2
  if ext then
    if lpLess y x then [(e.1, y), (x, y)]
    else if ltGreater y x then [(y, x), (e.2, x)]
    else []
  else if ltMin x y ≠ ltMax x y then [(ltMax x y, ltMin x y)] else []

/-- One iteration of `while (parents_changed)`, `SpanningForest.h:111-147`, as `LT.Round`, with `Edges` before (`Ed`) and after
(`Ed1`): `root_update` (`liu_tarjan_rules.h:101-116`) records the edge of the message at a root that gets another parent. -/
structure Round (ext full : Bool) (n : Nat) (E : Nat × Nat → Prop) (P : Nat → Nat) (m : Nat → Nat × (Nat × Nat)) (Ed : Nat → Nat × Nat)
    (P1 P2 : Nat → Nat) (m1 : Nat → Nat × (Nat × Nat)) (Ed1 : Nat → Nat × Nat) (ch : Bool) : Prop where
  connect : ∃ (part : Nat → List (Nat × Nat)) (f : Nat) (c : Nat → Bool), (∀ e, (∃ i, e ∈ part i) ↔ E e) ∧
    Par (fun i => send edgeMsg f ((part i).flatMap fun e => (sendsF ext P e).map fun ab => (ab.1, ab.2, e)) false) m m1 c ∧
    (ch = true ↔ ∃ i, c i = true)
  updated : ∀ u, P1 u = if u < n then if u ≠ P u then P u else ltMin (P u) (m1 u).1 else P u
  recorded : ∀ u, Ed1 u = if u < n ∧ u = P u ∧ P u ≠ P1 u then (m1 u).2 else Ed u
  short : ∃ (f : Nat) (out : Nat → Option Unit),
    Par (fun u => if decide (u < n) then sc full f u else ret none) P1 P2 out ∧ ∀ u, u < n → out u = some ()

/-- The loop; the index counts the iterations. -/
inductive Loop (ext full : Bool) (G : UG) (frq : Option Nat) :
    Nat → (Nat → Nat) → (Nat → Nat × (Nat × Nat)) → (Nat → Nat × Nat) → (Nat → Nat) → (Nat → Nat × Nat) → Prop
  | last {P m Ed P1 P2 m1 Ed1} (h : Round ext full G.n (Proc G frq P) P m Ed P1 P2 m1 Ed1 false) : Loop ext full G frq 1 P m Ed P2 Ed1
  | more {k P m Ed P1 P2 m1 Ed1 P' Ed'} (h : Round ext full G.n (Proc G frq P) P m Ed P1 P2 m1 Ed1 true)
      (hl : Loop ext full G frq k P2 m1 Ed1 P' Ed') : Loop ext full G frq (k + 1) P m Ed P' Ed'

/-- `compute_spanning_forest<sampling_option>(P, Edges, frequent_comp)` after `initialize`, `SpanningForest.h:96-148`; `frq` is
`none` without sampling. -/
def Compute (ext full : Bool) (G : UG) (frq : Option Nat) (P0 : Nat → Nat) (Ed0 : Nat → Nat × Nat) (k : Nat) (par : Nat → Nat)
    (Ed : Nat → Nat × Nat) : Prop :=
  Loop ext full G frq k P0 (fun x => (x, empty)) Ed0 par Ed

/-- `SF_runner`, `SpanningForest.cc:42-63`, for any options: the filtered edges. The file uses `parent_connect` and
`full_shortcut`. -/
def SpanningForest (ext full : Bool) (G : UG) (k : Nat) (es : List (Nat × Nat)) : Prop :=
  ∃ par Ed, Compute ext full G none (fun x => x) (fun _ => empty) k par Ed ∧ es = edges G.n Ed

/-! ### Relation to the connectivity algorithm -/

def conOf (ext : Bool) : Con := if ext then .extended else .parent

theorem conOf_ne (ext : Bool) : conOf ext ≠ .simple := by cases ext <;> simp [conOf]

theorem sendsF_eq {ext : Bool} {P : Nat → Nat} {e : Nat × Nat} (h1 : e.1 ≠ big) (h2 : e.2 ≠ big) (h3 : P e.1 ≠ big) :
    sendsF ext P e = sends (conOf ext) P e := by
  have l1 : lab P e.1 = P e.1 := by unfold lab; rw [if_neg h1]
  have l2 : lab P e.2 = P e.2 := by unfold lab; rw [if_neg h2]
  cases ext with
  | false => simp [sendsF, conOf, sends, l1, l2]
  | true =>
    simp only [sendsF, conOf, sends, l1, l2, if_true]
    by_cases h : P e.1 = P e.2
    · rw [if_pos h, ← h, if_neg (by rw [lpLess_iff]; omega), if_neg]
      unfold ltGreater
      simp [h3]
    · rw [if_neg h]

theorem send_eq {ext : Bool} {n : Nat} (hn : n ≤ big) {E : Nat × Nat → Prop} {P : Nat → Nat} (hE : ∀ e, E e → e.1 < n ∧ e.2 < n)
    (hP : ∀ x, x < n → P x < n) {part : Nat → List (Nat × Nat)} (h1 : ∀ e, (∃ i, e ∈ part i) ↔ E e) (f : Nat) :
    (fun i => send edgeMsg f (mail (conOf ext) P (part i)) false) =
      fun i => send edgeMsg f ((part i).flatMap fun e => (sendsF ext P e).map fun ab => (ab.1, ab.2, e)) false := by
  funext i
  congr 1
  unfold mail
  rw [List.flatMap_def, List.flatMap_def]
  congr 1
  refine List.map_congr_left fun e he => ?_
  obtain ⟨k1, k2⟩ := hE e ((h1 e).1 ⟨i, he⟩)
  have := hP _ k1
  rw [sendsF_eq (by omega) (by omega) (by omega)]

theorem Round.toLT {ext full : Bool} {n : Nat} (hn : n ≤ big) {E : Nat × Nat → Prop} {P P1 P2 : Nat → Nat}
    {m m1 : Nat → Nat × (Nat × Nat)} {Ed Ed1 : Nat → Nat × Nat} {ch : Bool} (hE : ∀ e, E e → e.1 < n ∧ e.2 < n)
    (hP : ∀ x, x < n → P x < n) (h : Round ext full n E P m Ed P1 P2 m1 Ed1 ch) :
    LT.Round edgeMsg (conOf ext) .root full n E P m P1 P2 m1 ch := by
  obtain ⟨⟨part, f, c, h1, h2, h3⟩, h4, -, h6⟩ := h
  refine ⟨⟨part, f, c, h1, ?_, h3⟩, fun u => h4 u, h6⟩
  rw [send_eq hn hE hP h1]
  exact h2

/-! ### With `full_shortcut` -/

theorem forest_round {G : UG} (hG : G.Sym) (hn : G.n ≤ big) {ext : Bool} {frq : Option Nat} {P P1 P2 : Nat → Nat}
    {m m1 : Nat → Nat × (Nat × Nat)} {Ed Ed1 : Nat → Nat × Nat} {ch : Bool}
    (hi : LInv edgeMsg (Conn (Adj G)) .root G.n P m) (hF : FStart G P Ed)
    (hr : Round ext true G.n (Proc G frq P) P m Ed P1 P2 m1 Ed1 ch) :
    LInv edgeMsg (Conn (Adj G)) .root G.n P2 m1 ∧ FStart G P2 Ed1 ∧ (ch = false → P2 = P ∧ ∀ e, Proc G frq P e → P e.1 = P e.2) ∧
    (∀ x, key (m1 x).1 ≤ key (m x).1) ∧ (ch = true → ∃ x, key (m1 x).1 < key (m x).1) := by
  have hbd : ∀ e, Proc G frq P e → e.1 < G.n ∧ e.2 < G.n := fun e he => hG.bound _ _ he.2.2
  have hLT := hr.toLT hn hbd hF.start.lt
  obtain ⟨h1, hrt, h3, h4, h5, h6⟩ := round_inv (conn_equiv (Adj G)) hn hi (fun e he => .rel _ _ he.2.2)
    (fun e he => ⟨.inl (hF.start.lt _ (hbd e he).1), .inl (hF.start.lt _ (hbd e he).2)⟩) (fun h => absurd h (conOf_ne ext)) hLT
  refine ⟨h1, ?_, h4, h5, h6⟩
  -- a vertex with a new parent is a root that was hooked along the recorded edge
  have hnew : ∀ x, P1 x = P x ∨ x < G.n ∧ P x = x ∧ ∃ e, Proc G frq P e ∧ Ed1 x = e ∧ P1 x = ltMin (P e.1) (P e.2) ∧
      x = ltMax (P e.1) (P e.2) ∧ P1 x ≠ x := by
    intro x
    rcases h3 x with h | ⟨e, he, hne, hm, hx, hx1, -⟩
    · exact .inl h
    · by_cases hc : P1 x = P x
      · exact .inl hc
      · right
        have hu := hr.updated x
        by_cases hxn : x < G.n
        · rw [if_pos hxn] at hu
          by_cases hroot : x ≠ P x
          · rw [if_pos hroot] at hu; exact absurd hu hc
          · have hroot : x = P x := not_not.1 hroot
            have hEd := hr.recorded x
            rw [if_pos ⟨hxn, hroot, Ne.symm hc⟩, hm] at hEd
            refine ⟨hxn, hroot.symm, e, he, hEd, hx1, hroot.trans hx, fun h => hc (h.trans hroot)⟩
        · rw [if_neg hxn] at hu; exact absurd hu hc
  have hlt1 : ∀ x, x < G.n → P1 x < G.n := by
    intro x hx
    rcases hnew x with h | ⟨-, -, e, he, -, h, -⟩
    · rw [h]; exact hF.start.lt x hx
    · rw [h]
      rcases ltMin_max (P e.1) (P e.2) with h | h
      · rw [h.1]; exact hF.start.lt _ (hbd e he).1
      · rw [h.1]; exact hF.start.lt _ (hbd e he).2
  have hkeep : ∀ x, x < G.n → Ed x ≠ empty → Ed1 x = Ed x := by
    intro x hx hne
    rw [hr.recorded x, if_neg]
    rintro ⟨-, h, -⟩
    exact (hF.edge x hx hne).2 h.symm
  have hmono : ∀ e ∈ edges G.n Ed, e ∈ edges G.n Ed1 := by
    intro e he
    obtain ⟨k1, x, k2, rfl⟩ := mem_edges.1 he
    exact mem_edges.2 ⟨k1, x, k2, hkeep x k2 k1⟩
  have q := lconn_equiv (edges G.n Ed1)
  have hold : ∀ x, x < G.n → LConn (edges G.n Ed1) x (P x) := fun x hx => lconn_mono hmono (hF.conn x hx)
  have hne : ∀ e, Proc G frq P e → e ≠ empty := by
    rintro e he rfl
    have : 4294967295 < G.n := (hbd _ he).1
    exact absurd hn (Nat.not_le.2 this)
  have h1c : ∀ x, x < G.n → LConn (edges G.n Ed1) x (P1 x) := by
    intro x hx
    rcases hnew x with h | ⟨-, -, e, he, hEd, hl, hh, -⟩
    · rw [h]; exact hold x hx
    · have hed : LConn (edges G.n Ed1) e.1 e.2 := .rel _ _ (mem_edges.2 ⟨hne e he, x, hx, hEd⟩)
      have hpp : LConn (edges G.n Ed1) (P e.1) (P e.2) := q.trans (q.symm (hold _ (hbd e he).1)) (q.trans hed (hold _ (hbd e he).2))
      rw [hl, hh]
      rcases ltMin_max (P e.1) (P e.2) with h | h
      · rw [h.1, h.2]; exact q.symm hpp
      · rw [h.1, h.2]; exact hpp
  refine ⟨⟨fun x hx => ?_, h1.flat, h1.sound, h1.out⟩, fun x hx hex => ?_, fun x hx => ?_⟩
  · obtain ⟨k, hk⟩ := hrt.path x
    rw [hk]
    exact iter_inv (S := fun y => y < G.n) hlt1 hx k
  · have hroot : P2 x = x → P1 x = x := fun h => by
      have := hrt.root x
      rwa [h] at this
    rcases hnew x with h | ⟨-, -, e, he, hEd, -, -, h5⟩
    · have hEdx : Ed1 x = Ed x := by
        rw [hr.recorded x, if_neg]
        rintro ⟨-, -, h'⟩
        exact h' h.symm
      rw [hEdx] at hex ⊢
      exact ⟨(hF.edge x hx hex).1, fun hc => (hF.edge x hx hex).2 (h ▸ hroot hc)⟩
    · rw [hEd]
      exact ⟨he.2.2, fun hc => h5 (hroot hc)⟩
  · obtain ⟨k, hk⟩ := hrt.path x
    rw [hk]
    exact (iter_inv (S := fun y => y < G.n ∧ LConn (edges G.n Ed1) x y)
      (fun y hy => ⟨hlt1 y hy.1, q.trans hy.2 (h1c y hy.1)⟩) ⟨hx, q.refl x⟩ k).2

/-- The sum of the messages bounds the number of rounds. -/
def pot (n : Nat) (m : Nat → Nat × (Nat × Nat)) : Nat := (Finset.range n).sum fun x => key (m x).1

theorem forest_loop {G : UG} (hG : G.Sym) (hn : G.n ≤ big) {ext : Bool} {frq : Option Nat} {k : Nat} {P par : Nat → Nat}
    {m : Nat → Nat × (Nat × Nat)} {Ed Ed' : Nat → Nat × Nat} (h : Loop ext true G frq k P m Ed par Ed')
    (hi : LInv edgeMsg (Conn (Adj G)) .root G.n P m) (hF : FStart G P Ed) :
    FStart G par Ed' ∧ (∀ u v, Adj G u v → par u = par v) ∧ k ≤ pot G.n m + 1 := by
  induction h with
  | @last P m Ed P1 P2 m1 Ed1 hr =>
    obtain ⟨-, h2, h3, -⟩ := forest_round hG hn hi hF hr
    obtain ⟨rfl, h5⟩ := h3 rfl
    refine ⟨h2, fun u v huv => ?_, by omega⟩
    by_cases hu : ∀ c, frq = some c → P2 u ≠ c
    · exact h5 (u, v) ⟨(hG.bound u v huv).1, hu, huv⟩
    · by_cases hv : ∀ c, frq = some c → P2 v ≠ c
      · exact (h5 (v, u) ⟨(hG.bound u v huv).2, hv, SV.UG_symm hG huv⟩).symm
      · simp only [not_forall, not_not] at hu hv
        obtain ⟨c, rfl, h6⟩ := hu
        obtain ⟨_, h7, h8⟩ := hv
        cases h7
        rw [h6, h8]
  | @more k P m Ed P1 P2 m1 Ed1 P' Ed' hr _ ih =>
    obtain ⟨h1, h2, -, h4, h5⟩ := forest_round hG hn hi hF hr
    obtain ⟨h6, h7, h8⟩ := ih h1 h2
    obtain ⟨x, hx⟩ := h5 rfl
    have : pot G.n m1 < pot G.n m := by
      refine Finset.sum_lt_sum (fun x _ => h4 x) ⟨x, ?_, hx⟩
      rw [Finset.mem_range]
      by_contra hxn
      have e1 : (m x).1 = x := hi.mroot x (hi.out x (by omega))
      have e2 : (m1 x).1 = x := h1.mroot x (h1.out x (by omega))
      rw [e1, e2] at hx
      omega
    exact ⟨h6, h7, by omega⟩

/-- C91 with `full_shortcut`, with any sampling that meets `FStart`, any choice of the frequent component and both connect
options. -/
theorem lt_sf_sampled {G : UG} (hG : G.Sym) (hn : G.n ≤ big) {ext : Bool} {frq : Option Nat} {P0 par : Nat → Nat}
    {Ed0 Ed : Nat → Nat × Nat} (h0 : FStart G P0 Ed0) {k : Nat} (h : Compute ext true G frq P0 Ed0 k par Ed) :
    IsSF (Adj G) (edges G.n Ed) ∧ IsCC G.n (Adj G) par ∧ k ≤ G.n * G.n + 1 := by
  obtain ⟨h1, h2, h3⟩ := forest_loop hG hn h ⟨h0.start.flat, fun x hx => .inl (h0.start.lt x hx), h0.start.out, fun _ _ => rfl,
    fun _ => Nat.le_refl _, fun h => (by cases h), h0.start.sound, fun x => (conn_equiv _).refl x⟩ h0
  refine ⟨isSF_of_start hG h1 h2, isCC_of (fun u v _ _ he => ?_) h2, ?_⟩
  · have := h1.start.sound u
    rw [he] at this
    exact (conn_equiv _).trans this ((conn_equiv _).symm (h1.start.sound v))
  · have := pot_id (n := G.n)
    have h' : pot G.n (fun x => (x, empty)) = LT.pot G.n (fun x => x) := rfl
    omega

/-- C91: whatever the interleaving, the forest with `full_shortcut` is a spanning forest, after at most `n * n + 1` rounds. -/
theorem lt_sf {G : UG} (hG : G.Sym) (hn : G.n ≤ big) {ext : Bool} {k : Nat} {es : List (Nat × Nat)}
    (h : SpanningForest ext true G k es) : IsSF (Adj G) es ∧ k ≤ G.n * G.n + 1 := by
  obtain ⟨par, Ed, hc, rfl⟩ := h
  obtain ⟨h1, -, h3⟩ := lt_sf_sampled hG hn (start_id G) hc
  exact ⟨h1, h3⟩

/-! ### With a single `shortcut` -/

/-- `shortcut` keeps the trees. -/
theorem shortcut_safe {mu m0 rt : Nat → Nat} {act : Nat → Prop} (u : Nat) (hu : act u) (g0 : Nat → Nat) :
    Safe (coRG mu m0 rt act) u (fun _ _ => True) (shortcut u) g0 := by
  have gu : ∀ g, (coRG mu m0 rt act).Gu u g g := fun _ _ _ => rfl
  rintro g1 m1 - ⟨rfl, hi1⟩
  refine ⟨g1, gu _, ⟨rfl, hi1⟩, ?_⟩
  beta_reduce
  by_cases hb : g1 u = big
  · rw [if_pos hb]; exact fun _ _ => trivial
  · rw [if_neg hb]
    rintro g2 m2 (hr2 : g2 u = g1 u) ⟨rfl, hi2⟩
    refine ⟨g2, gu _, ⟨rfl, hi2⟩, ?_⟩
    beta_reduce
    by_cases hc : g1 u = g2 (g1 u)
    · rw [if_neg (not_not.2 hc)]; exact fun _ _ => trivial
    · rw [if_pos hc]
      rintro g3 m3 (hr3 : g3 u = g2 u) ⟨rfl, hi3⟩
      refine ⟨g3, gu _, ⟨rfl, hi3⟩, ?_⟩
      rintro g4 m4 (hr4 : g4 u = g3 u) ⟨rfl, hi4⟩
      have e4 : g4 u = g1 u := hr4.trans (hr3.trans hr2)
      generalize g1 u = p at *
      have hnr : ¬ m0 p = p := fun h => hc ((hi2.root p).2 h).symm
      have hlt : mu (g3 p) < mu p := by
        rcases hi3.dec p with h | h
        · exact absurd ((hi3.root p).1 h) hnr
        · exact h
      have hsame : rt (g3 p) = rt u := (hi3.same p).trans (by rw [← e4]; exact hi4.same u)
      generalize g3 p = q at *
      have hpu : p ≠ u := fun h => by
        subst h
        exact hnr ((hi4.root p).1 e4)
      have hpu2 : mu p < mu u := by
        rcases hi4.dec u with h | h
        · exact absurd (e4.symm.trans h) hpu
        · rwa [e4] at h
      have hqu : q ≠ u := fun h => by subst h; omega
      refine ⟨put g4 u q, fun j hj => put_ne _ _ hj, ⟨rfl, fun x => ?_, fun x => ?_, fun x => ?_, fun x hx => ?_⟩, fun _ _ => trivial⟩
      · by_cases hx : x = u
        · subst hx
          rw [put_same, ← hi4.root x, e4]
          exact ⟨fun h => absurd h hqu, fun h => absurd h hpu⟩
        · rw [put_ne _ _ hx]; exact hi4.root x
      · by_cases hx : x = u
        · subst hx; rw [put_same]; exact hsame
        · rw [put_ne _ _ hx]; exact hi4.same x
      · by_cases hx : x = u
        · subst hx; rw [put_same]; exact .inr (by omega)
        · rw [put_ne _ _ hx]; exact hi4.dec x
      · have : x ≠ u := fun h => hx (h ▸ hu)
        rw [put_ne _ _ this]; exact hi4.idle x hx

theorem sc_keeps {mu m0 rt : Nat → Nat} (hrk : Ranked mu m0) (h0 : IsRoot m0 rt) (hb : m0 big = big) {full : Bool} {n f : Nat}
    {m' : Nat → Nat} {out : Nat → Option Unit}
    (h : Par (fun u => if decide (u < n) then sc full f u else ret none) m0 m' out) : CoInv mu m0 rt (fun u => u < n) m' := by
  have hsafe : ∀ u, Safe (coRG mu m0 rt fun u => u < n) u (fun _ _ => True)
      (if decide (u < n) then sc full f u else ret none) m0 := fun u => by
    by_cases hu : u < n
    · rw [if_pos (by simpa using hu)]
      cases full with
      | false => exact shortcut_safe u hu m0
      | true =>
        rw [sc, if_pos rfl]
        rintro g m (hr : g u = m0 u) ⟨rfl, hi⟩
        refine ⟨g, fun _ _ => rfl, ⟨rfl, hi⟩, ?_⟩
        exact (rootLoop_safe h0 hb f u hu g (hi.same u)).weaken fun _ _ _ => trivial
    · rw [if_neg (by simpa using hu)]
      exact fun _ _ => trivial
  obtain ⟨g, ⟨rfl, hi⟩, -⟩ := safe_reach (coRG mu m0 rt fun u => u < n) _ h m0
    ⟨rfl, fun _ => Iff.rfl, h0.step, hrk, fun _ _ => rfl⟩ hsafe
  exact hi

/-- The state between the rounds without sampling. -/
structure NInv (G : UG) (P : Nat → Nat) (m : Nat → Nat × (Nat × Nat)) (Ed : Nat → Nat × Nat) : Prop where
  dec : ∀ x, P x = x ∨ P x < x
  out : ∀ x, G.n ≤ x → P x = x
  mroot : ∀ x, P x = x → (m x).1 = x
  edge : ∀ x, x < G.n → Ed x ≠ empty → Adj G (Ed x).1 (Ed x).2 ∧ P x ≠ x
  conn : ∀ x, x < G.n → LConn (edges G.n Ed) x (P x)
  same : ∀ rt, IsRoot P rt → ∀ e ∈ edges G.n Ed, rt e.1 = rt e.2

theorem sends_root {con : Con} (hcon : con ≠ .simple) {P : Nat → Nat} (hb : P big = big) {e : Nat × Nat} {a b : Nat} (ha : P a = a)
    (h : (a, b) ∈ sends con P e) : a = P e.1 ∧ b = P e.2 ∨ a = P e.2 ∧ b = P e.1 := by
  cases con with
  | simple => exact absurd rfl hcon
  | parent =>
    simp only [sends, lab_eq hb] at h
    split at h
    · have h : (a, b) = (ltMax (P e.1) (P e.2), ltMin (P e.1) (P e.2)) := by simpa using h
      cases h
      rcases ltMin_max (P e.1) (P e.2) with h | h
      · rw [h.1, h.2]; exact .inr ⟨rfl, rfl⟩
      · rw [h.1, h.2]; exact .inl ⟨rfl, rfl⟩
    · cases h
  | extended =>
    simp only [sends, lab_eq hb] at h
    split at h
    · cases h
    · split at h
      · simp only [List.mem_cons, Prod.mk.injEq, List.not_mem_nil, or_false] at h
        rcases h with ⟨rfl, rfl⟩ | ⟨rfl, rfl⟩
        · exact .inl ⟨ha.symm, rfl⟩
        · exact .inl ⟨rfl, rfl⟩
      · split at h
        · simp only [List.mem_cons, Prod.mk.injEq, List.not_mem_nil, or_false] at h
          rcases h with ⟨rfl, rfl⟩ | ⟨rfl, rfl⟩
          · exact .inr ⟨rfl, rfl⟩
          · exact .inr ⟨ha.symm, rfl⟩
        · cases h

theorem NInv.round {G : UG} (hG : G.Sym) (hn : G.n ≤ big) {ext full : Bool} {P P1 P2 : Nat → Nat} {m m1 : Nat → Nat × (Nat × Nat)}
    {Ed Ed1 : Nat → Nat × Nat} {ch : Bool} (hi : NInv G P m Ed)
    (hr : Round ext full G.n (Proc G none P) P m Ed P1 P2 m1 Ed1 ch) : NInv G P2 m1 Ed1 := by
  have hbd : ∀ e, Proc G none P e → e.1 < G.n ∧ e.2 < G.n := fun e he => hG.bound _ _ he.2.2
  have hlt : ∀ x, x < G.n → P x < G.n := fun x hx => by rcases hi.dec x with h | h <;> omega
  have hb : P big = big := hi.out _ hn
  have hLT := hr.toLT hn hbd hlt
  obtain ⟨⟨part, f, c, hpart, hpar, -⟩, -, f', out, hsc, -⟩ := hLT
  obtain ⟨hm, -⟩ := connect_raw hpart hpar
  -- the messages at the roots
  have hmr : ∀ x, P x = x → (m1 x = m x ∧ P1 x = x ∨
      ∃ e, Proc G none P e ∧ (m1 x).2 = e ∧ P1 x < x ∧ x < G.n ∧ (x = P e.1 ∧ P1 x = P e.2 ∨ x = P e.2 ∧ P1 x = P e.1)) := by
    intro x hx
    have hu := hr.updated x
    rcases hm x with h | ⟨b, e, he, hab, h1, h2⟩
    · left
      refine ⟨h, ?_⟩
      rw [h, hi.mroot x hx, hx] at hu
      rw [hu]
      simp [ltMin]
    · right
      rw [show edgeMsg.comp (m x) = x from hi.mroot x hx] at h2
      have hs := sends_root (conOf_ne ext) hb hx hab
      have hxn : x < G.n := by
        rcases hs with h | h
        · rw [h.1]; exact hlt _ (hbd e he).1
        · rw [h.1]; exact hlt _ (hbd e he).2
      have hbn : b < G.n := by
        rcases hs with h | h
        · rw [h.2]; exact hlt _ (hbd e he).2
        · rw [h.2]; exact hlt _ (hbd e he).1
      have hbx : b < x := by
        unfold key at h2
        rw [if_neg (by omega), if_neg (by omega)] at h2
        omega
      have hP1 : P1 x = b := by
        rw [hu, if_pos hxn, hx, if_neg (by simp), h1]
        show ltMin x b = b
        unfold ltMin
        rw [if_neg (by omega), if_neg (by omega)]; omega
      refine ⟨e, he, by rw [h1]; rfl, by omega, hxn, ?_⟩
      rw [hP1]
      exact hs
  have hnr : ∀ x, P x ≠ x → P1 x = P x := fun x hx => by
    rw [hr.updated x]
    split
    · rw [if_pos (Ne.symm hx)]
    · rfl
  have hroot : ∀ x, P1 x = x → P x = x ∧ m1 x = m x := by
    intro x hx
    by_cases h : P x = x
    · rcases hmr x h with h' | ⟨e, -, -, h', -⟩
      · exact ⟨h, h'.1⟩
      · omega
    · exact absurd ((hnr x h).symm.trans hx) h
  have hdec1 : ∀ x, P1 x = x ∨ P1 x < x := by
    intro x
    by_cases h : P x = x
    · rcases hmr x h with h' | ⟨e, -, -, h', -⟩
      · exact .inl h'.2
      · exact .inr h'
    · rw [hnr x h]; exact hi.dec x
  have hout1 : ∀ x, G.n ≤ x → P1 x = x := fun x hx => by
    rw [hr.updated x, if_neg (by omega)]; exact hi.out x hx
  obtain ⟨rt, h0⟩ := Ranked.isRoot (mu := fun x => x) (m := P1) hdec1
  have hco := sc_keeps (mu := fun x => x) (m0 := P1) hdec1 h0 (hout1 _ hn) hsc
  -- the edges
  have hEd : ∀ x, P1 x = P x → Ed1 x = Ed x := fun x hx => by
    rw [hr.recorded x, if_neg]
    rintro ⟨-, -, h⟩
    exact h hx.symm
  have hEd' : ∀ x, x < G.n → P x = x → P1 x ≠ x → Ed1 x = (m1 x).2 := fun x hx h1 h2 => by
    rw [hr.recorded x, if_pos ⟨hx, h1.symm, by rw [h1]; exact Ne.symm h2⟩]
  have hne : ∀ e, Proc G none P e → e ≠ empty := by
    rintro e he rfl
    have : 4294967295 < G.n := (hbd _ he).1
    exact absurd hn (Nat.not_le.2 this)
  have hmono : ∀ e ∈ edges G.n Ed, e ∈ edges G.n Ed1 := by
    intro e he
    obtain ⟨k1, x, k2, rfl⟩ := mem_edges.1 he
    exact mem_edges.2 ⟨k1, x, k2, hEd x (hnr x (hi.edge x k2 k1).2)⟩
  have q := lconn_equiv (edges G.n Ed1)
  have hold : ∀ x, x < G.n → LConn (edges G.n Ed1) x (P x) := fun x hx => lconn_mono hmono (hi.conn x hx)
  have h1c : ∀ x, x < G.n → LConn (edges G.n Ed1) x (P1 x) := by
    intro x hx
    by_cases h : P x = x
    · rcases hmr x h with h' | ⟨e, he, h1, h2, h3, h4⟩
      · rw [h'.2]; exact q.refl x
      · have hE := (hEd' x hx h (by omega)).trans h1
        have hed : LConn (edges G.n Ed1) e.1 e.2 := .rel _ _ (mem_edges.2 ⟨hne e he, x, hx, hE⟩)
        have hpp : LConn (edges G.n Ed1) (P e.1) (P e.2) := q.trans (q.symm (hold _ (hbd e he).1)) (q.trans hed (hold _ (hbd e he).2))
        rcases h4 with h | h
        · rw [h.2]
          generalize P1 x = y at *
          rw [h.1]; exact hpp
        · rw [h.2]
          generalize P1 x = y at *
          rw [h.1]; exact q.symm hpp
    · rw [hnr x h]; exact hold x hx
  have hlt1 : ∀ x, x < G.n → P1 x < G.n := fun x hx => by rcases hdec1 x with h | h <;> omega
  have hrc : ∀ x, x < G.n → LConn (edges G.n Ed1) x (rt x) := by
    intro x hx
    obtain ⟨k, hk⟩ := h0.path x
    rw [hk]
    exact (iter_inv (S := fun y => y < G.n ∧ LConn (edges G.n Ed1) x y)
      (fun y hy => ⟨hlt1 y hy.1, q.trans hy.2 (h1c y hy.1)⟩) ⟨hx, q.refl x⟩ k).2
  have hPrt : ∀ x, rt (P x) = rt x := by
    intro x
    by_cases h : P x = x
    · rw [h]
    · rw [← hnr x h]; exact h0.step x
  refine ⟨hco.dec, fun x hx => (hco.idle x (by omega)).trans (hout1 x hx), fun x hx => ?_, fun x hx hex => ?_, fun x hx => ?_, fun rt' hrt' e he => ?_⟩
  · obtain ⟨h1, h2⟩ := hroot x ((hco.root x).1 hx)
    rw [h2]; exact hi.mroot x h1
  · by_cases hc : P1 x = P x
    · have h1 := hEd x hc
      rw [h1] at hex ⊢
      refine ⟨(hi.edge x hx hex).1, fun h => (hi.edge x hx hex).2 ?_⟩
      rw [← hc]; exact (hco.root x).1 h
    · have hPx : P x = x := by
        by_contra h
        exact hc (hnr x h)
      rcases hmr x hPx with h' | ⟨e, he, h1, h2, h3, h4⟩
      · exact absurd (h'.2.trans hPx.symm) hc
      · rw [hEd' x hx hPx (by omega), h1]
        refine ⟨he.2.2, fun h => ?_⟩
        have := (hco.root x).1 h
        omega
  · have hx2 : P2 x < G.n := by
      rcases hco.dec x with h | h
      · omega
      · have : P2 x < x := h
        omega
    have := hrc _ hx2
    rw [hco.same x] at this
    exact q.trans (hrc x hx) (q.symm this)
  · have hrr : ∀ x, rt' x = rt x := by
      intro x
      obtain ⟨k, hk⟩ := hrt'.path x
      have h1 : rt (rt' x) = rt x := by
        rw [hk]
        exact iter_inv (S := fun y => rt y = rt x) (fun y hy => (hco.same y).trans hy) rfl k
      rw [← h1, h0.of_root ((hco.root _).1 (hrt'.root x))]
    rw [hrr, hrr]
    obtain ⟨k1, x, k2, rfl⟩ := mem_edges.1 he
    by_cases hc : P1 x = P x
    · rw [hEd x hc]
      obtain ⟨rP, hrP⟩ := Ranked.isRoot (mu := fun x => x) (m := P) hi.dec
      have hsim : ∀ y, rt (rP y) = rt y := by
        intro y
        obtain ⟨k, hk⟩ := hrP.path y
        rw [hk]
        exact iter_inv (S := fun z => rt z = rt y) (fun z hz => (hPrt z).trans hz) rfl k
      have hmem : Ed x ∈ edges G.n Ed := mem_edges.2 ⟨by rw [← hEd x hc]; exact k1, x, k2, rfl⟩
      rw [← hsim (Ed x).1, ← hsim (Ed x).2, hi.same rP hrP _ hmem]
    · have hPx : P x = x := by
        by_contra h
        exact hc (hnr x h)
      rcases hmr x hPx with h' | ⟨e, he, h1, h2, h3, h4⟩
      · exact absurd (h'.2.trans hPx.symm) hc
      · rw [hEd' x k2 hPx (by omega), h1, ← hPrt e.1, ← hPrt e.2]
        have hs := h0.step x
        rcases h4 with h | h
        · rw [← h.1, ← h.2]; exact hs.symm
        · rw [← h.1, ← h.2]; exact hs

theorem NInv.loop {G : UG} (hG : G.Sym) (hn : G.n ≤ big) {ext full : Bool} {k : Nat} {P par : Nat → Nat} {m : Nat → Nat × (Nat × Nat)}
    {Ed Ed' : Nat → Nat × Nat} (h : Loop ext full G none k P m Ed par Ed') (hi : NInv G P m Ed) : ∃ m', NInv G par m' Ed' := by
  induction h with
  | last hr => exact ⟨_, hi.round hG hn hr⟩
  | more hr _ ih => exact ih (hi.round hG hn hr)

/-- C91 for all options: the edges returned are edges of the graph and no cycle. That they span it is missing and fails, see
`lt_sf_short_refuted`. -/
theorem lt_sf_forest_partial {G : UG} (hG : G.Sym) (hn : G.n ≤ big) {ext full : Bool} {k : Nat} {es : List (Nat × Nat)}
    (h : SpanningForest ext full G k es) :
    (∀ e ∈ es, Adj G e.1 e.2) ∧ ∀ pre e post, es = pre ++ e :: post → ¬ LConn (pre ++ post) e.1 e.2 := by
  obtain ⟨par, Ed, hc, rfl⟩ := h
  obtain ⟨m', hi⟩ := NInv.loop hG hn hc ⟨fun _ => .inl rfl, fun _ _ => rfl, fun _ _ => rfl, fun _ _ h => absurd rfl h,
    fun x _ => (lconn_equiv _).refl x, fun _ _ e he => by
      obtain ⟨h1, x, -, h2⟩ := mem_edges.1 he
      exact absurd h2.symm h1⟩
  have hsub : ∀ e ∈ edges G.n Ed, Adj G e.1 e.2 := by
    intro e he
    obtain ⟨h1, x, h2, rfl⟩ := mem_edges.1 he
    exact (hi.edge x h2 h1).1
  obtain ⟨rt, h0⟩ := Ranked.isRoot (mu := fun x => x) (m := par) hi.dec
  have hlt : ∀ x, x < G.n → par x < G.n := fun x hx => by rcases hi.dec x with h | h <;> omega
  have hS : ∀ x, x < G.n → rt x < G.n ∧ LConn (edges G.n Ed) x (rt x) := by
    intro x hx
    obtain ⟨k, hk⟩ := h0.path x
    rw [hk]
    exact iter_inv (S := fun y => y < G.n ∧ LConn (edges G.n Ed) x y)
      (fun y hy => ⟨hlt y hy.1, (lconn_equiv _).trans hy.2 (hi.conn y hy.1)⟩) ⟨hx, (lconn_equiv _).refl x⟩ k
  refine ⟨hsub, (isSF_of_count (n := G.n) (adj := fun a b => (a, b) ∈ edges G.n Ed) (fun x y hxy => hG.bound x y (hsub _ hxy))
    (fun e he => he) rt (fun x hx => ⟨(hS x hx).1, h0.of_root (h0.root x)⟩) (fun x hx => (hS x hx).2)
    (fun x y hxy => hi.same rt h0 _ hxy) ?_).forest⟩
  rw [edges_eq]
  refine count_le _ rt fun x hx hne hrx => ?_
  by_cases hc : Ed x ≠ empty
  · refine (hi.edge x hx hc).2 ?_
    have := h0.root x
    rwa [hrx] at this
  · rw [if_neg hc] at hne; exact absurd rfl hne

/-! ### Executions -/

/-- The edges recorded. -/
def record (n : Nat) (P P1 : List Nat) (m1 : List (Nat × (Nat × Nat))) (Ed : List (Nat × Nat)) : List (Nat × Nat) :=
  (List.range n).map fun u => if u = tab (fun x => x) P u ∧ tab (fun x => x) P u ≠ tab (fun x => x) P1 u then
    (tab (fun x => (x, empty)) m1 u).2 else tab (fun _ => empty) Ed u

theorem round_of {ext full : Bool} {n : Nat} (hn : n ≤ big) {es : List (Nat × Nat)} {E : Nat × Nat → Prop} (hes : ∀ e, e ∈ es ↔ E e)
    (hE : ∀ e, E e → e.1 < n ∧ e.2 < n) {ord : List Nat} (hord : ord.Perm (List.range n)) {P P1 P2 : List Nat}
    {m m1 : List (Nat × (Nat × Nat))} {Ed : List (Nat × Nat)} {ch : Bool} (hP : P.length = n) (hEd : Ed.length = n) (hlt : ∀ x ∈ P, x < n)
    (h : LT.roundL edgeMsg (fun x => (x, empty)) (conOf ext) .root full n es ord P m = some (P1, P2, m1, ch)) :
    Round ext full n E (tab (fun x => x) P) (tab (fun x => (x, empty)) m) (tab (fun _ => empty) Ed) (tab (fun x => x) P1)
      (tab (fun x => x) P2) (tab (fun x => (x, empty)) m1) (tab (fun _ => empty) (record n P P1 m1 Ed)) ch := by
  obtain ⟨⟨part, f, c, h1, h2, h3⟩, h4, h5⟩ := LT.roundL_sound hes hord hP h
  have hP' : ∀ x, x < n → tab (fun x => x) P x < n := fun x hx => by
    unfold tab
    rw [List.getD_eq_getElem?_getD, List.getElem?_eq_getElem (by omega)]
    exact hlt _ (List.getElem_mem _)
  rw [send_eq hn hE hP' h1] at h2
  refine ⟨⟨part, f, c, h1, h2, h3⟩, h4, fun u => ?_, h5⟩
  by_cases hu : u < n
  · have : tab (fun _ => empty) (record n P P1 m1 Ed) u = if u = tab (fun x => x) P u ∧ tab (fun x => x) P u ≠ tab (fun x => x) P1 u then
        (tab (fun x => (x, empty)) m1 u).2 else tab (fun _ => empty) Ed u := by
      rw [tab, record, List.getD_eq_getElem?_getD, List.getElem?_map, List.getElem?_range hu]; rfl
    rw [this]
    exact if_congr (by simp [hu]) rfl rfl
  · rw [if_neg (fun h => hu h.1)]
    unfold tab
    rw [List.getD_eq_getElem?_getD, List.getD_eq_getElem?_getD, List.getElem?_eq_none (by simp [record]; omega),
      List.getElem?_eq_none (by omega)]

/-- Rounds until nothing changes, at most `f`. -/
def loopL (ext full : Bool) (n : Nat) (es : List (Nat × Nat)) (ord : List Nat) : Nat → List Nat → List (Nat × (Nat × Nat)) →
    List (Nat × Nat) → Option (Nat × List Nat × List (Nat × Nat))
  | 0, _, _, _ => none
  | f + 1, P, m, Ed => match LT.roundL edgeMsg (fun x => (x, empty)) (conOf ext) .root full n es ord P m with
    | none => none
    | some (P1, P2, m1, ch) =>
      if P2.length = n ∧ P2.all (fun x => decide (x < n)) = true then
        if ch then (loopL ext full n es ord f P2 m1 (record n P P1 m1 Ed)).map fun x => (x.1 + 1, x.2) else some (1, P2, record n P P1 m1 Ed)
      else none

theorem loopL_sound {ext full : Bool} {G : UG} (hG : G.Sym) (hn : G.n ≤ big) {es : List (Nat × Nat)}
    (hes : ∀ P e, e ∈ es ↔ Proc G none P e) {ord : List Nat} (hord : ord.Perm (List.range G.n)) (f : Nat) {P P' : List Nat}
    {m : List (Nat × (Nat × Nat))} {Ed Ed' : List (Nat × Nat)} {k : Nat} (hP : P.length = G.n) (hEd : Ed.length = G.n)
    (hlt : ∀ x ∈ P, x < G.n) (h : loopL ext full G.n es ord f P m Ed = some (k, P', Ed')) :
    Loop ext full G none k (tab (fun x => x) P) (tab (fun x => (x, empty)) m) (tab (fun _ => empty) Ed) (tab (fun x => x) P')
      (tab (fun _ => empty) Ed') := by
  induction f generalizing P m Ed k with
  | zero => cases h
  | succ f ih =>
    rw [loopL] at h
    split at h
    · cases h
    · rename_i P1 P2 m1 ch hr
      have h1 := round_of hn (hes (tab (fun x => x) P)) (fun e he => hG.bound _ _ he.2.2) hord hP hEd hlt hr
      split at h
      · rename_i hl
        split at h
        · rename_i hch
          subst hch
          rw [Option.map_eq_some_iff] at h
          obtain ⟨⟨k', P3, E3⟩, h2, h3⟩ := h
          cases h3
          exact .more h1 (ih hl.1 (by simp [record]) (fun x hx => by simpa using List.all_eq_true.1 hl.2 x hx) h2)
        · rename_i hch
          cases h
          have : ch = false := by simpa using hch
          subst this
          exact .last h1
      · cases h

/-- The edges of a graph in both directions. -/
def arcs (G : UG) : List (Nat × Nat) := (List.range G.n).flatMap fun u => (G.nb u).map fun v => (u, v)

theorem mem_arcs {G : UG} (P : Nat → Nat) (e : Nat × Nat) : e ∈ arcs G ↔ Proc G none P e := by
  unfold arcs Proc
  rw [List.mem_flatMap]
  constructor
  · rintro ⟨u, hu, h⟩
    obtain ⟨v, hv, rfl⟩ := List.mem_map.1 h
    exact ⟨List.mem_range.1 hu, fun c h => (by cases h), hv⟩
  · rintro ⟨h1, -, h3⟩
    exact ⟨e.1, List.mem_range.2 h1, List.mem_map.2 ⟨e.2, h3, rfl⟩⟩

theorem sf_of {ext full : Bool} {G : UG} (hG : G.Sym) (hn : G.n ≤ big) {ord : List Nat} (hord : ord.Perm (List.range G.n)) (f : Nat)
    {P' : List Nat} {Ed' : List (Nat × Nat)} {k : Nat}
    (h : loopL ext full G.n (arcs G) ord f (List.range G.n) ((List.range G.n).map fun x => (x, empty)) (List.replicate G.n empty) = some (k, P', Ed')) :
    SpanningForest ext full G k (edges G.n (tab (fun _ => empty) Ed')) := by
  have := loopL_sound hG hn (fun P e => mem_arcs P e) hord f (by simp) (by simp) (fun x hx => List.mem_range.1 hx) h
  refine ⟨tab (fun x => x) P', tab (fun _ => empty) Ed', ?_, rfl⟩
  rw [tab_range] at this
  have e1 : tab (fun x => (x, empty)) ((List.range G.n).map fun x => (x, empty)) = fun x => (x, empty) := by
    funext x
    unfold tab
    by_cases hx : x < G.n
    · rw [List.getD_eq_getElem?_getD, List.getElem?_map, List.getElem?_range hx]; rfl
    · rw [List.getD_eq_getElem?_getD, List.getElem?_map, List.getElem?_eq_none (by simp; omega)]; rfl
  have e2 : tab (fun _ => empty) (List.replicate G.n empty) = fun _ => empty := by
    funext x
    unfold tab
    rw [List.getD_eq_getElem?_getD, List.getElem?_replicate]
    split <;> rfl
  rw [e1, e2] at this
  exact this

/-- Two paths `7 - 5 - 3 - 1 - 0` and `6 - 4 - 2` joined by the edge `7 - 6`. -/
def zig : UG := UG.ofLists [[1], [0, 3], [4], [1, 5], [2, 6], [3, 7], [4, 7], [5, 6]]

theorem zig_sym : zig.Sym := UG.ofLists_sym (by decide)

/-- C91 fails with a single `shortcut` per round: if the vertices are shortcut in descending order, the loop ends after two rounds
without an edge between the two paths. -/
theorem lt_sf_short_refuted : ∃ es, SpanningForest false false zig 2 es ∧ ¬ IsSF (Adj zig) es := by
  have h := sf_of (ext := false) (full := false) zig_sym (by decide) (ord := [7, 6, 5, 4, 3, 2, 1, 0]) (by decide) 3 (k := 2)
    (P' := [0, 0, 2, 0, 2, 0, 2, 0]) (Ed' := [empty, (0, 1), empty, (1, 3), (2, 4), (3, 5), (4, 6), (5, 7)]) rfl
  refine ⟨_, h, fun hs => ?_⟩
  have hc := hs.spans 6 7 (.rel _ _ (by show 7 ∈ zig.nb 6; decide))
  have hle : ∀ {x y}, LConn (edges zig.n (tab (fun _ => empty) [empty, (0, 1), empty, (1, 3), (2, 4), (3, 5), (4, 6), (5, 7)])) x y →
      tab (fun x => x) [0, 0, 2, 0, 2, 0, 2, 0] x = tab (fun x => x) [0, 0, 2, 0, 2, 0, 2, 0] y :=
    conn_le (s := fun x y => tab (fun x => x) [0, 0, 2, 0, 2, 0, 2, 0] x = tab (fun x => x) [0, 0, 2, 0, 2, 0, 2, 0] y)
      ⟨fun _ => rfl, fun h => h.symm, fun h h' => h.trans h'⟩ fun a b hab => by
      have hab : (a, b) ∈ [(0, 1), (1, 3), (2, 4), (3, 5), (4, 6), (5, 7)] := hab
      simp only [List.mem_cons, Prod.mk.injEq, List.not_mem_nil, or_false] at hab
      rcases hab with ⟨rfl, rfl⟩ | ⟨rfl, rfl⟩ | ⟨rfl, rfl⟩ | ⟨rfl, rfl⟩ | ⟨rfl, rfl⟩ | ⟨rfl, rfl⟩ <;> rfl
  have := hle hc
  revert this
  decide

/-! ### Example -/

/-- A run with `full_shortcut` of three rounds. -/
example : SpanningForest false true zig 3 [(0, 1), (6, 7), (1, 3), (2, 4), (3, 5), (4, 6), (5, 7)] :=
  sf_of zig_sym (by decide) (ord := [7, 6, 5, 4, 3, 2, 1, 0]) (by decide) 3 (P' := [0, 0, 0, 0, 0, 0, 0, 0])
    (Ed' := [empty, (0, 1), (6, 7), (1, 3), (2, 4), (3, 5), (4, 6), (5, 7)]) rfl

end Gbbs.LTSF
