/-
C87: the Shiloach-Vishkin spanning forest, `benchmarks/SpanningForest/ShiloachVishkin/SpanningForest.h`.
-/
import Verif.Algo.SV
import Verif.Algo.SpanForest

namespace Gbbs.SVSF

open Conc Conc.Prog Comp SF SV
open Atomics (Steps)
open Relation

/-! ### Model -/

/-- `empty_edge`, `common.h:9`. -/
def empty : Nat × Nat := (4294967295, 4294967295)

/-- `map_f_2`, `SpanningForest.h:96-108`, over some edges. The memory is `Edges`; `PrevParents` and `Parents` are not written
during this loop and are parameters. -/
def record (prev P1 : Nat → Nat) : List (Nat × Nat) → Prog Nat (Nat × Nat) Unit
  | [] => ret ()
  | e :: es =>
    let l := min (prev e.1) (prev e.2)
    let h := max (prev e.1) (prev e.2)
    if l ≠ h ∧ h = prev h then
      if P1 h = l then cas h empty e fun _ => record prev P1 es else record prev P1 es
    else record prev P1 es

/-- One iteration of `while (changed)`, `SpanningForest.h:74-121`. The first loop (`map_f`, lines 80-90) and the compression
(lines 113-120) are those of the connectivity algorithm, `SV.hook` and `compress`; the edges `E` are distributed over threads
in any way, in both loops. -/
def Round (n : Nat) (E : Nat × Nat → Prop) (P prev : Nat → Nat) (Ed : Nat → Nat × Nat) (P2 prev2 : Nat → Nat)
    (Ed2 : Nat → Nat × Nat) (ch : Bool) : Prop :=
  ∃ (part part2 : Nat → List (Nat × Nat)) (f f2 : Nat) (P1 : Nat → Nat) (c : Nat → Bool) (o : Nat → Unit)
    (out : Nat → Option Nat),
    (∀ e, (∃ i, e ∈ part i) ↔ E e) ∧
    Par (fun i => hook f prev (part i) false) P P1 c ∧
    (ch = true ↔ ∃ i, c i = true) ∧
    (∀ e, (∃ i, e ∈ part2 i) ↔ E e) ∧
    Par (fun i => record prev P1 (part2 i)) Ed Ed2 o ∧
    Par (fun u => if decide (u < n) then compress f2 u else ret none) P1 P2 out ∧
    (∀ u, u < n → ∃ r, out u = some r ∧ prev2 u = r) ∧ ∀ u, n ≤ u → prev2 u = prev u

/-- The loop; the index counts the iterations. -/
inductive Loop (n : Nat) (E : Nat × Nat → Prop) :
    Nat → (Nat → Nat) → (Nat → Nat) → (Nat → Nat × Nat) → (Nat → Nat) → (Nat → Nat × Nat) → Prop
  | last {P prev Ed P2 prev2 Ed2} (h : Round n E P prev Ed P2 prev2 Ed2 false) : Loop n E 1 P prev Ed P2 Ed2
  | more {k P prev Ed P2 prev2 Ed2 P' Ed'} (h : Round n E P prev Ed P2 prev2 Ed2 true) (hl : Loop n E k P2 prev2 Ed2 P' Ed') :
      Loop n E (k + 1) P prev Ed P' Ed'

/-- `compute_spanning_forest<sampling_option>(Parents, Edges, frequent_comp)`, `SpanningForest.h:42-123`; `frq` is `none`
without sampling. -/
def Compute (G : UG) (frq : Option Nat) (P0 : Nat → Nat) (Ed0 : Nat → Nat × Nat) (k : Nat) (par : Nat → Nat)
    (Ed : Nat → Nat × Nat) : Prop :=
  Loop G.n (fun e => e.1 < G.n ∧ (∀ c, frq = some c → P0 e.1 ≠ c) ∧ e.2 ∈ G.nb e.1) k P0 P0 Ed0 par Ed

/-- The final filter, `SpanningForest.h:136`. -/
def edges (n : Nat) (Ed : Nat → Nat × Nat) : List (Nat × Nat) := ((List.range n).map Ed).filter fun e => decide (e ≠ empty)

/-- `SpanningForest(G)`, `SpanningForest.h:126-137`. -/
def SpanningForest (G : UG) (k : Nat) (es : List (Nat × Nat)) : Prop :=
  ∃ par Ed, Compute G none (fun x => x) (fun _ => empty) k par Ed ∧ es = edges G.n Ed

/-! ### Specification of the start -/

/-- What a sampling has to provide: labels, and edges of the graph which connect every vertex with its label, none of them
recorded at a vertex that is its own label. -/
structure FStart (G : UG) (P0 : Nat → Nat) (Ed0 : Nat → Nat × Nat) : Prop where
  start : Start G P0
  edge : ∀ x, x < G.n → Ed0 x ≠ empty → Adj G (Ed0 x).1 (Ed0 x).2 ∧ P0 x ≠ x
  conn : ∀ x, x < G.n → LConn (edges G.n Ed0) x (P0 x)

/-! ### Recording edges -/

/-- What is recorded at a vertex that was hooked. -/
def RInv (E : Nat × Nat → Prop) (P P1 : Nat → Nat) (Ed m : Nat → Nat × Nat) : Prop :=
  ∀ x, m x = Ed x ∨ Ed x = empty ∧ E (m x) ∧ P (m x).1 ≠ P (m x).2 ∧ max (P (m x).1) (P (m x).2) = x ∧
    P1 x = min (P (m x).1) (P (m x).2)

def rRG (E : Nat × Nat → Prop) (P P1 : Nat → Nat) (Ed : Nat → Nat × Nat) : RG Nat (Nat → Nat × Nat) Nat (Nat × Nat) where
  Inv g m := g = m ∧ RInv E P P1 Ed m
  R _ g g' := ∀ x, g x ≠ empty → g' x = g x
  Gu _ g g' := ∀ x, g x ≠ empty → g' x = g x
  refl _ _ _ _ := rfl
  trans _ _ _ _ h1 h2 x hx := by
    have := h1 x hx
    exact (h2 x (by rw [this]; exact hx)).trans this
  compat _ _ _ _ _ h := h

theorem record_safe {E : Nat × Nat → Prop} {P P1 : Nat → Nat} {Ed : Nat → Nat × Nat} (hE : ∀ e, E e → e ≠ empty) (i : Nat)
    (es : List (Nat × Nat)) (hes : ∀ e ∈ es, E e) (g : Nat → Nat × Nat) :
    Safe (rRG E P P1 Ed) i (fun g _ => ∀ e ∈ es, P e.1 ≠ P e.2 → max (P e.1) (P e.2) = P (max (P e.1) (P e.2)) →
      P1 (max (P e.1) (P e.2)) = min (P e.1) (P e.2) → g (max (P e.1) (P e.2)) ≠ empty) (record P P1 es) g := by
  induction es generalizing g with
  | nil => exact fun _ _ e he => (by cases he)
  | cons e es ih =>
    have hes' := fun e he => hes e (List.mem_cons_of_mem _ he)
    have hne : (min (P e.1) (P e.2) ≠ max (P e.1) (P e.2)) ↔ P e.1 ≠ P e.2 := by omega
    rw [record]
    by_cases h1 : min (P e.1) (P e.2) ≠ max (P e.1) (P e.2) ∧ max (P e.1) (P e.2) = P (max (P e.1) (P e.2))
    · rw [if_pos h1]
      by_cases h2 : P1 (max (P e.1) (P e.2)) = min (P e.1) (P e.2)
      · rw [if_pos h2]
        have hK : ∀ y, Em.Keeps (rRG E P P1 Ed) i fun g => g y ≠ empty := fun y =>
          ⟨fun g g' hr hk => by rw [hr y hk]; exact hk, fun g g' hr hk => by rw [hr y hk]; exact hk⟩
        have fin : ∀ g : Nat → Nat × Nat, g (max (P e.1) (P e.2)) ≠ empty →
            Safe (rRG E P P1 Ed) i (fun g _ => ∀ e' ∈ e :: es, P e'.1 ≠ P e'.2 → max (P e'.1) (P e'.2) = P (max (P e'.1) (P e'.2)) →
              P1 (max (P e'.1) (P e'.2)) = min (P e'.1) (P e'.2) → g (max (P e'.1) (P e'.2)) ≠ empty) (record P P1 es) g := by
          intro g hg
          refine (Em.safe_frame (hK _) (ih hes' g) hg).weaken fun _ g3 h3 e' he' => ?_
          rcases List.mem_cons.1 he' with rfl | he'
          · exact fun _ _ _ => h3.2
          · exact h3.1 e' he'
        rintro g1 m1 hr1 ⟨rfl, hi1⟩
        refine ⟨fun heq => ⟨put g1 (max (P e.1) (P e.2)) e, fun x hx => ?_, ⟨rfl, fun x => ?_⟩, fin _ ?_⟩,
          fun heq => ⟨g1, fun _ _ => rfl, ⟨rfl, hi1⟩, fin _ heq⟩⟩
        · have : x ≠ max (P e.1) (P e.2) := fun he => hx (he ▸ heq)
          rw [put_ne _ _ this]
        · by_cases hx : x = max (P e.1) (P e.2)
          · right
            rw [hx, put_same]
            refine ⟨?_, hes e List.mem_cons_self, hne.1 h1.1, rfl, h2⟩
            rcases hi1 (max (P e.1) (P e.2)) with h | h
            · exact h.symm.trans heq
            · exact h.1
          · rw [put_ne _ _ hx]; exact hi1 x
        · rw [put_same]; exact hE e (hes e List.mem_cons_self)
      · rw [if_neg h2]
        refine (ih hes' g).weaken fun _ g3 h3 e' he' => ?_
        rcases List.mem_cons.1 he' with rfl | he'
        · exact fun _ _ h => absurd h h2
        · exact h3 e' he'
    · rw [if_neg h1]
      refine (ih hes' g).weaken fun _ g3 h3 e' he' => ?_
      rcases List.mem_cons.1 he' with rfl | he'
      · exact fun h h' => absurd ⟨hne.2 h, h'⟩ h1
      · exact h3 e' he'

theorem record_par {E : Nat × Nat → Prop} {P P1 : Nat → Nat} {Ed Ed2 : Nat → Nat × Nat} (hE : ∀ e, E e → e ≠ empty)
    {part : Nat → List (Nat × Nat)} (hpart : ∀ e, (∃ i, e ∈ part i) ↔ E e) {o : Nat → Unit}
    (h : Par (fun i => record P P1 (part i)) Ed Ed2 o) :
    RInv E P P1 Ed Ed2 ∧ (∀ x, Ed x ≠ empty → Ed2 x = Ed x) ∧
    ∀ e, E e → P e.1 ≠ P e.2 → max (P e.1) (P e.2) = P (max (P e.1) (P e.2)) →
      P1 (max (P e.1) (P e.2)) = min (P e.1) (P e.2) → Ed2 (max (P e.1) (P e.2)) ≠ empty := by
  obtain ⟨g, ⟨rfl, hi⟩, -, hp⟩ := safe_reach (rRG E P P1 Ed) _ h Ed ⟨rfl, fun _ => .inl rfl⟩
    fun i => record_safe hE i (part i) (fun e he => (hpart e).1 ⟨i, he⟩) Ed
  refine ⟨hi, fun x hx => ?_, fun e he => ?_⟩
  · rcases hi x with h | h
    · exact h
    · exact absurd h.1 hx
  · obtain ⟨i, hi'⟩ := (hpart e).2 he
    exact hp i _ rfl e hi'

/-! ### One round -/

theorem Round.toSV {n : Nat} {E : Nat × Nat → Prop} {P prev P2 prev2 : Nat → Nat} {Ed Ed2 : Nat → Nat × Nat} {ch : Bool}
    (h : Round n E P prev Ed P2 prev2 Ed2 ch) : SV.Round n E P prev P2 prev2 ch := by
  obtain ⟨part, -, f, f2, P1, c, -, out, h1, h2, h3, -, -, h6, h7, h8⟩ := h
  exact ⟨part, f, f2, P1, c, out, h1, h2, h3, h6, h7, h8⟩

theorem Loop.toSV {n : Nat} {E : Nat × Nat → Prop} {k : Nat} {P prev P' : Nat → Nat} {Ed Ed' : Nat → Nat × Nat}
    (h : Loop n E k P prev Ed P' Ed') : SV.Loop n E k P prev P' := by
  induction h with
  | last h => exact .last h.toSV
  | more h _ ih => exact .more h.toSV ih

theorem mem_edges {n : Nat} {Ed : Nat → Nat × Nat} {e : Nat × Nat} : e ∈ edges n Ed ↔ e ≠ empty ∧ ∃ x, x < n ∧ Ed x = e := by
  rw [edges, List.mem_filter, List.mem_map, and_comm]
  simp

theorem forest_round {G : UG} {E : Nat × Nat → Prop} (hn : G.n ≤ 4294967295)
    (hE : ∀ e, E e → e.1 < G.n ∧ e.2 < G.n ∧ Adj G e.1 e.2)
    {P0 P prev P2 prev2 : Nat → Nat} {Ed Ed2 : Nat → Nat × Nat} {ch : Bool} (h : SInv G P0 P prev) (hF : FStart G P Ed)
    (hr : Round G.n E P prev Ed P2 prev2 Ed2 ch) : FStart G P2 Ed2 := by
  have hsv := round_inv hE h hr.toSV
  obtain ⟨part, part2, f, f2, P1, c, o, out, hpart, hhook, -, hpart2, hrec, hcomp, hout, hprev⟩ := hr
  obtain ⟨heq, hs, -, -⟩ := h
  subst prev
  obtain ⟨hi, hmin, -⟩ := hook_par hs.flat hpart hhook
  have hne : ∀ e, E e → e ≠ empty := by
    rintro e he rfl
    have : 4294967295 < G.n := (hE _ he).1
    omega
  obtain ⟨hR, hkeep, hall⟩ := record_par hne hpart2 hrec
  have hrk := ranked hs hi
  obtain ⟨rt, hrt⟩ := hrk.isRoot
  obtain ⟨hc1, -, -⟩ := compress_par hrk hrt f2 (fun u => decide (u < G.n)) hcomp
  have hP2 : ∀ x, x < G.n → P2 x = rt x := by
    intro x hx
    obtain ⟨r, h1, h2⟩ := hout x hx
    exact (hc1 x (by simpa using hx) r h1).1
  have h1lt : ∀ x, x < G.n → P1 x < G.n := by
    intro x hx
    rcases hi x with h | ⟨-, -, -, -, -, h⟩
    · rw [h]; exact hs.lt x hx
    · omega
  have hmono : ∀ e ∈ edges G.n Ed, e ∈ edges G.n Ed2 := by
    intro e he
    obtain ⟨h1, x, h2, rfl⟩ := mem_edges.1 he
    exact mem_edges.2 ⟨h1, x, h2, hkeep x h1⟩
  have q := lconn_equiv (edges G.n Ed2)
  have hold : ∀ x, x < G.n → LConn (edges G.n Ed2) x (P x) := fun x hx => lconn_mono hmono (hF.conn x hx)
  have h1c : ∀ x, x < G.n → LConn (edges G.n Ed2) x (P1 x) := by
    intro x hx
    rcases hi x with h | ⟨hPx, e, he, h2, h3, h4⟩
    · rw [h]; exact hold x hx
    · subst h2
      have hset := hall e he (by omega) hPx.symm h3.symm
      have hun : Ed (max (P e.1) (P e.2)) = empty := by
        by_contra hc
        exact (hF.edge _ hx hc).2 hPx
      rcases hR (max (P e.1) (P e.2)) with k | ⟨-, k1, k2, k3, k4⟩
      · exact absurd (k.trans hun) hset
      · generalize hx' : max (P e.1) (P e.2) = x at *
        obtain ⟨l1, l2, -⟩ := hE _ k1
        have hed : LConn (edges G.n Ed2) (Ed2 x).1 (Ed2 x).2 := .rel _ _ (mem_edges.2 ⟨hset, x, hx, rfl⟩)
        have hpp : LConn (edges G.n Ed2) (P (Ed2 x).1) (P (Ed2 x).2) :=
          q.trans (q.symm (hold _ l1)) (q.trans hed (hold _ l2))
        rcases Nat.le_total (P (Ed2 x).1) (P (Ed2 x).2) with hle | hle
        · rw [Nat.max_eq_right hle] at k3
          rw [Nat.min_eq_left hle] at k4
          rw [k4]
          rw [k3] at hpp
          exact q.symm hpp
        · rw [Nat.max_eq_left hle] at k3
          rw [Nat.min_eq_right hle] at k4
          rw [k4]
          rw [k3] at hpp
          exact hpp
  refine ⟨hsv.1.start, fun x hx hex => ?_, fun x hx => ?_⟩
  · rcases hR x with k | ⟨-, k1, k2, k3, k4⟩
    · rw [k] at hex ⊢
      exact ⟨(hF.edge x hx hex).1, fun hc => (hF.edge x hx hex).2 (hsv.2.2.2.1 x hc)⟩
    · refine ⟨(hE _ k1).2.2, fun hc => ?_⟩
      rw [hP2 x hx] at hc
      have := hrt.root x
      rw [hc] at this
      omega
  · rw [hP2 x hx]
    obtain ⟨k, hk⟩ := hrt.path x
    rw [hk]
    exact (iter_inv (S := fun y => y < G.n ∧ LConn (edges G.n Ed2) x y)
      (fun y hy => ⟨h1lt y hy.1, q.trans hy.2 (h1c y hy.1)⟩) ⟨hx, q.refl x⟩ k).2

theorem forest_loop {G : UG} {E : Nat × Nat → Prop} (hn : G.n ≤ 4294967295)
    (hE : ∀ e, E e → e.1 < G.n ∧ e.2 < G.n ∧ Adj G e.1 e.2)
    {P0 P prev par : Nat → Nat} {Ed Ed' : Nat → Nat × Nat} {k : Nat} (hl : Loop G.n E k P prev Ed par Ed')
    (h : SInv G P0 P prev) (hF : FStart G P Ed) : FStart G par Ed' := by
  induction hl with
  | last hr => exact forest_round hn hE h hF hr
  | more hr _ ih => exact ih (round_inv hE h hr.toSV).1 (forest_round hn hE h hF hr)

theorem edges_eq (n : Nat) (Ed : Nat → Nat × Nat) :
    edges n Ed = (List.range n).filterMap fun x => if Ed x ≠ empty then some (Ed x) else none := by
  rw [edges, List.filter_map]
  induction List.range n with
  | nil => rfl
  | cons a l ih =>
    rw [List.filterMap_cons, List.filter_cons]
    by_cases h : Ed a ≠ empty
    · rw [if_pos h, if_pos (by simpa using h), List.map_cons, ih]
    · rw [if_neg h, if_neg (by simpa using h), ih]

/-- Labels and edges that meet `FStart` and in which adjacent vertices have the same label are a spanning forest. -/
theorem isSF_of_start {G : UG} (hG : G.Sym) {P : Nat → Nat} {Ed : Nat → Nat × Nat} (h : FStart G P Ed)
    (hs : ∀ x y, Adj G x y → P x = P y) : IsSF (Adj G) (edges G.n Ed) := by
  refine isSF_of_count (fun x y hxy => hG.bound x y hxy) (fun e he => ?_) P (fun x hx => ⟨h.start.lt x hx, h.start.flat x⟩)
    h.conn hs ?_
  · obtain ⟨h1, x, h2, rfl⟩ := mem_edges.1 he
    exact (h.edge x h2 h1).1
  · rw [edges_eq]
    refine count_le _ P fun x hx hne => ?_
    by_cases hc : Ed x ≠ empty
    · exact (h.edge x hx hc).2
    · rw [if_neg hc] at hne; exact absurd rfl hne

/-- C87, with any sampling that meets `FStart` and any choice of the frequent component. -/
theorem sv_sf_sampled {G : UG} (hG : G.Sym) (hn : G.n ≤ 4294967295) {frq : Option Nat} {P0 par : Nat → Nat}
    {Ed0 Ed : Nat → Nat × Nat} (h0 : FStart G P0 Ed0) {k : Nat} (h : Compute G frq P0 Ed0 k par Ed) :
    IsSF (Adj G) (edges G.n Ed) ∧ IsCC G.n (Adj G) par ∧ k ≤ roots G.n P0 + 1 := by
  obtain ⟨h1, h2, h3⟩ := sv_correct hG h0.start (frq := frq) (Loop.toSV h)
  refine ⟨isSF_of_start hG (forest_loop hn (fun e he => ⟨he.1, UG_lt hG he.2.2, he.2.2⟩) h
    (⟨rfl, h0.start, fun _ _ h => h, fun h => h⟩ : SInv G P0 P0 P0) h0) fun x y hxy => ?_, h1, h3⟩
  exact (h1 x y (hG.bound x y hxy).1 (hG.bound x y hxy).2).2 (.rel _ _ hxy)

theorem start_id (G : UG) : FStart G (fun x => x) fun _ => empty :=
  ⟨⟨fun _ h => h, fun _ => rfl, fun x => (conn_equiv _).refl x, fun _ _ => rfl⟩, fun _ _ h => absurd rfl h,
    fun x _ => (lconn_equiv _).refl x⟩

/-- C87: whatever the interleaving, `SpanningForest` returns a spanning forest, after at most `n + 1` rounds. -/
theorem sv_sf {G : UG} (hG : G.Sym) (hn : G.n ≤ 4294967295) {k : Nat} {es : List (Nat × Nat)}
    (h : SpanningForest G k es) : IsSF (Adj G) es ∧ k ≤ G.n + 1 := by
  obtain ⟨par, Ed, hc, rfl⟩ := h
  obtain ⟨h1, -, h3⟩ := sv_sf_sampled hG hn (start_id G) hc
  refine ⟨h1, Nat.le_trans h3 ?_⟩
  have : roots G.n (fun x => x) ≤ G.n := by
    rw [roots]
    exact Nat.le_trans (Finset.card_filter_le _ _) (by rw [Finset.card_range])
  omega

/-! ### Example -/

/-- One thread per loop, then the vertices are compressed in order. -/
def execRound (n : Nat) (es : List (Nat × Nat)) (P : Nat → Nat) (Ed : Nat → Nat × Nat) :
    Option ((Nat → Nat) × (Nat → Nat × Nat) × Bool) :=
  (runSeq (fun i => hook 2 P (if i = 0 then es else []) false) (fun _ => false) [0] P).bind fun x =>
    (runSeq (fun i => record P x.1 (if i = 0 then es else [])) (fun _ => ()) [0] Ed).bind fun z =>
      (runSeq (fun u => if decide (u < n) then compress (2 * n + 1) u else ret none) (fun _ => none) (List.range n) x.1).bind
        fun y => if (List.range n).all fun u => y.2 u == some (y.1 u) then some (y.1, z.1, x.2 0) else none

theorem execRound_sound {n : Nat} {es : List (Nat × Nat)} {E : Nat × Nat → Prop} (hes : ∀ e, e ∈ es ↔ E e)
    {P P2 : Nat → Nat} {Ed Ed2 : Nat → Nat × Nat} {ch : Bool} (h : execRound n es P Ed = some (P2, Ed2, ch)) :
    Round n E P P Ed P2 (fun u => if u < n then P2 u else P u) Ed2 ch := by
  rw [execRound, Option.bind_eq_some_iff] at h
  obtain ⟨⟨P1, c⟩, h1, h⟩ := h
  rw [Option.bind_eq_some_iff] at h
  obtain ⟨⟨Ed2', o⟩, h3, h⟩ := h
  rw [Option.bind_eq_some_iff] at h
  obtain ⟨⟨P2', out⟩, h2, h⟩ := h
  simp only at h h2 h3
  split at h
  · rename_i hall
    cases h
    have hc : ∀ i, i ≠ 0 → c i = false := by
      intro i hi
      rw [runSeq] at h1
      split at h1
      · cases h1
      · rw [runSeq] at h1
        cases h1
        simp [hi]
    have hp : ∀ e, (∃ i : Nat, e ∈ if i = 0 then es else []) ↔ E e := by
      intro e
      rw [← hes]
      refine ⟨?_, fun h => ⟨0, by simpa using h⟩⟩
      rintro ⟨i, hi⟩
      by_cases h0 : i = 0
      · simpa [h0] using hi
      · simp [h0] at hi
    refine ⟨fun i => if i = 0 then es else [], fun i => if i = 0 then es else [], 2, 2 * n + 1, P1, c, o, out, hp,
      runSeq_par _ _ [0] (by simp) (fun j hj => ?_) h1, ⟨fun h => ⟨0, h⟩, ?_⟩, hp,
      runSeq_par _ _ [0] (by simp) (fun j hj => ?_) h3,
      runSeq_par _ _ (List.range n) List.nodup_range (fun j hj => ?_) h2, fun u hu => ?_, fun u hu => ?_⟩
    · have : j ≠ 0 := by simpa using hj
      simp [this, hook]
    · rintro ⟨i, hi⟩
      by_cases h0 : i = 0
      · subst h0; exact hi
      · rw [hc i h0] at hi; cases hi
    · have : j ≠ 0 := by simpa using hj
      simp [this, record]
    · have : ¬ j < n := by simpa using hj
      simp [this]
    · rw [List.all_eq_true] at hall
      have := hall u (by simpa using hu)
      refine ⟨P2 u, by simpa using this, by simp [hu]⟩
    · simp [Nat.not_lt.2 hu]
  · cases h

/-- Rounds until nothing changes. -/
def execLoop (n : Nat) (es : List (Nat × Nat)) : Nat → (Nat → Nat) → (Nat → Nat × Nat) → Option (Nat × (Nat → Nat) × (Nat → Nat × Nat))
  | 0, _, _ => none
  | f + 1, P, Ed => match execRound n es P Ed with
    | none => none
    | some (P2, Ed2, false) => some (1, P2, Ed2)
    | some (P2, Ed2, true) => (execLoop n es f P2 Ed2).map fun x => (x.1 + 1, x.2)

theorem execLoop_sound {G : UG} {es : List (Nat × Nat)} {E : Nat × Nat → Prop} (hes : ∀ e, e ∈ es ↔ E e)
    (hE : ∀ e, E e → e.1 < G.n ∧ e.2 < G.n ∧ Adj G e.1 e.2) (f : Nat) {P0 P par : Nat → Nat} {Ed Ed' : Nat → Nat × Nat} {k : Nat}
    (hs : SInv G P0 P P) (h : execLoop G.n es f P Ed = some (k, par, Ed')) : Loop G.n E k P P Ed par Ed' := by
  induction f generalizing P Ed k with
  | zero => cases h
  | succ f ih =>
    rw [execLoop] at h
    rcases hr : execRound G.n es P Ed with _ | ⟨P2, Ed2, ch⟩
    · rw [hr] at h; cases h
    · have h1 := execRound_sound hes hr
      rw [hr] at h
      cases ch with
      | false => cases h; exact .last h1
      | true =>
        simp only [Option.map_eq_some_iff] at h
        obtain ⟨⟨k', par', Ed''⟩, h2, h3⟩ := h
        cases h3
        obtain ⟨h4, -⟩ := round_inv hE hs h1.toSV
        have he := h4.eq
        rw [he] at h1 h4
        exact .more h1 (ih h4 h2)

/-- A run on the graph with the components `0 - 3 - 1` and `2 - 4`. -/
example : SpanningForest exG 3 [(1, 3), (0, 3), (2, 4)] := by
  refine ⟨_, _, execLoop_sound exE_mem (fun e he => ⟨he.1, UG_lt exG_sym he.2.2, he.2.2⟩) 4
    (⟨rfl, (start_id exG).start, fun _ _ h => h, fun h => h⟩ : SInv exG (fun x => x) (fun x => x) (fun x => x)) rfl, ?_⟩
  decide +kernel

end Gbbs.SVSF
