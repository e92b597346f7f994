/-
C85, C86: spanning forests by breadth-first searches, `benchmarks/SpanningForest/BFSSF/SpanningForest.h`.
-/
import Verif.EdgeMap.Claim
import Verif.EdgeMap.Total
import Verif.Algo.Relax
import Verif.Algo.SpanForest
import Mathlib.Data.Fin.VecNotation

namespace Gbbs.BFSSF

open Conc Conc.Prog Em Comp SF
open Atomics (Steps)
open Relax (writeMin)
open Relation

variable {W : Type}

/-! ### Model -/

/-- `UINT_E_MAX`. -/
def none32 : Nat := 4294967295

/-- `parents_to_edges`, `benchmarks/SpanningForest/common.h:13-21`. -/
def toEdges (n : Nat) (p : Nat → Nat) : List (Nat × Nat) :=
  ((List.range n).map fun i => (i, p i)).filter fun e => decide (e.1 ≠ e.2) && decide (e.2 ≠ none32)

/-- `BFS_SpanningForest_F`, `BFSSF/SpanningForest.h:31-44`. -/
def bfsF : Func W Nat Nat Unit where
  cond d := read d fun x => ret (x == none32)
  updA s d _ := cas d none32 s fun b => ret (if b then some () else none)
  upd s d _ := write d s (ret (some ()))

/-- The loop of `BFS_SpanningForest`, `SpanningForest.h:50-62`; the index counts its iterations. -/
inductive Loop (G : Gr W) : Nat → (Nat → Nat) → List Nat → (Nat → Nat) → Prop
  | done (p) : Loop G 0 p [] p
  | round {k p F p1 o p'} (hF : F ≠ []) (h : EdgeMap bfsF G (fun v => decide (v ∈ F)) p p1 o)
      (hl : Loop G k p1 (o.map Prod.fst) p') : Loop G (k + 1) p F p'

/-- The loop of `SpanningForest` from vertex `i` on, `SpanningForest.h:68-73`; the index counts all iterations of the inner
loops. -/
inductive Outer (G : Gr W) : Nat → Nat → (Nat → Nat) → (Nat → Nat) → Prop
  | done (p) : Outer G 0 G.n p p
  | seen {k i p p'} (hi : i < G.n) (h : p i ≠ none32) (hl : Outer G k (i + 1) p p') : Outer G k i p p'
  | bfs {k k' i p p1 p'} (hi : i < G.n) (h : p i = none32) (hb : Loop G k (put p i i) [i] p1)
      (hl : Outer G k' (i + 1) p1 p') : Outer G (k + k') i p p'

/-- `SpanningForest(G)`, `SpanningForest.h:64-75`, returning `es` after `k` calls of `edgeMap`. -/
def SpanningForest (G : Gr W) (k : Nat) (es : List (Nat × Nat)) : Prop :=
  ∃ p, Outer G k 0 (fun _ => none32) p ∧ es = toEdges G.n p

/-- Locations of the deterministic version: `Parents[d]`, `visited[d]`. -/
inductive Loc
  | par (d : Nat)
  | vis (d : Nat)
  deriving DecidableEq

/-- `BFS_SpanningForest_Det_F`, `SpanningForest.h:79-98`; a `write_min` is considered for at most `f` iterations. -/
def minF (f : Nat) : Func W Loc Nat Unit where
  cond d := read (.vis d) fun v => ret (v == 0)
  updA s d _ := (writeMin f (.par d) s).bind fun _ => ret none
  upd s d _ := read (.par d) fun p => if s < p then write (.par d) s (ret none) else ret none

/-- `BFS_SpanningForest_Det_F_2`, `SpanningForest.h:100-126`. -/
def winF : Func W Loc Nat Unit where
  cond d := read (.vis d) fun v => ret (v == 0)
  updA s d _ := read (.par d) fun p => if p = s then write (.vis d) 1 (ret (some ())) else ret none
  upd s d _ := read (.par d) fun p => if p = s then write (.vis d) 1 (ret (some ())) else ret none

/-- The loop of `BFS_SpanningForest_Det`, `SpanningForest.h:133-144`. -/
inductive DLoop (G : Gr W) : Nat → (Loc → Nat) → List Nat → (Loc → Nat) → Prop
  | done (m) : DLoop G 0 m [] m
  | round {k f m F m1 o1 m2 o m'} (hF : F ≠ []) (h1 : EdgeMap (minF f) G (fun v => decide (v ∈ F)) m m1 o1)
      (h2 : EdgeMap winF G (fun v => decide (v ∈ F)) m1 m2 o)
      (hl : DLoop G k m2 (o.map Prod.fst) m') : DLoop G (k + 1) m F m'

/-- The loop of `SpanningForestDet` from vertex `i` on, `SpanningForest.h:152-158`. -/
inductive DOuter (G : Gr W) : Nat → Nat → (Loc → Nat) → (Loc → Nat) → Prop
  | done (m) : DOuter G 0 G.n m m
  | seen {k i m m'} (hi : i < G.n) (h : m (.par i) ≠ none32) (hl : DOuter G k (i + 1) m m') : DOuter G k i m m'
  | bfs {k k' i m m1 m'} (hi : i < G.n) (h : m (.par i) = none32)
      (hb : DLoop G k (put (put m (.par i) i) (.vis i) 1) [i] m1)
      (hl : DOuter G k' (i + 1) m1 m') : DOuter G (k + k') i m m'

/-- `parents` unset, `visited` false. -/
def dinit : Loc → Nat
  | .par _ => none32
  | .vis _ => 0

/-- `SpanningForestDet(G)`, `SpanningForest.h:147-160`. -/
def SpanningForestDet (G : Gr W) (k : Nat) (es : List (Nat × Nat)) : Prop :=
  ∃ m, DOuter G k 0 dinit m ∧ es = toEdges G.n fun v => m (.par v)

/-! ### Specification -/

/-- There is an edge from `u` to `v`. -/
def Adj (G : Gr W) (u v : Nat) : Prop := ∃ w, (v, w) ∈ G.fwd u

/-! ### Both algorithms as a search by layers -/

/-- One layer: the unset out-neighbours of `F` are set to one of their in-neighbours in `F`. -/
structure Layer (G : Gr W) (p : Nat → Nat) (F : List Nat) (p' : Nat → Nat) (F' : List Nat) : Prop where
  mem : ∀ d, d ∈ F' ↔ p d = none32 ∧ ∃ s ∈ F, Adj G s d
  val : ∀ d ∈ F', p' d ∈ F ∧ Adj G (p' d) d
  old : ∀ d, d ∉ F' → p' d = p d

inductive Search (G : Gr W) : Nat → (Nat → Nat) → List Nat → (Nat → Nat) → Prop
  | done (p) : Search G 0 p [] p
  | round {k p F p1 F1 p'} (hF : F ≠ []) (h : Layer G p F p1 F1) (hl : Search G k p1 F1 p') : Search G (k + 1) p F p'

inductive All (G : Gr W) : Nat → Nat → (Nat → Nat) → (Nat → Nat) → Prop
  | done (p) : All G 0 G.n p p
  | seen {k i p p'} (hi : i < G.n) (h : p i ≠ none32) (hl : All G k (i + 1) p p') : All G k i p p'
  | bfs {k k' i p p1 p'} (hi : i < G.n) (h : p i = none32) (hb : Search G k (put p i i) [i] p1)
      (hl : All G k' (i + 1) p1 p') : All G (k + k') i p p'

/-- Connected by the edges to parents. -/
def PConn (p : Nat → Nat) : Nat → Nat → Prop := EqvGen fun a b => p a = b ∧ b ≠ none32

theorem pconn_mono {p p' : Nat → Nat} (h : ∀ v, p v ≠ none32 → p' v = p v) {x y : Nat} (hc : PConn p x y) : PConn p' x y :=
  conn_le (EqvGen.is_equivalence _) (fun a b hab => .rel _ _ ⟨by rw [h a (hab.1 ▸ hab.2)]; exact hab.1, hab.2⟩) hc

/-- Before vertex `i` of the outer loop. -/
structure OInv (G : Gr W) (i : Nat) (p : Nat → Nat) : Prop where
  edge : ∀ v, p v ≠ none32 → v < G.n ∧ (p v ≠ v → Adj G (p v) v)
  done : ∀ v, v < i → p v ≠ none32
  closed : ∀ v u, p v ≠ none32 → Adj G v u → p u ≠ none32
  conn : ∀ v, p v ≠ none32 → ∃ r, p r = r ∧ r ≠ none32 ∧ Conn (Adj G) v r ∧ PConn p v r
  uniq : ∀ r r', p r = r → p r' = r' → r ≠ none32 → r' ≠ none32 → Conn (Adj G) r r' → r = r'

/-- During the search from `src`, started with `p0`. -/
structure SInv (G : Gr W) (src : Nat) (p0 p : Nat → Nat) (F : List Nat) : Prop where
  keep : ∀ v, p0 v ≠ none32 → p v = p0 v
  new : ∀ v, p v ≠ none32 → p0 v = none32 → v < G.n ∧ Conn (Adj G) src v ∧ PConn p v src ∧ (v ≠ src → p v ≠ v ∧ Adj G (p v) v)
  self : p src = src
  front : ∀ v ∈ F, p v ≠ none32
  closed : ∀ v u, p v ≠ none32 → v ∉ F → Adj G v u → p u ≠ none32

theorem adj_lt {G : Gr W} (hG : G.Ok) {u v : Nat} (h : Adj G u v) : u < G.n ∧ v < G.n := by
  obtain ⟨w, hw⟩ := h
  exact hG.bound _ _ _ hw

theorem SInv.step {G : Gr W} (hG : G.Ok) (hn : G.n ≤ none32) {src i : Nat} {p0 p p' : Nat → Nat} {F F' : List Nat}
    (hs : src ≠ none32) (h0 : OInv G i p0) (h : SInv G src p0 p F) (hl : Layer G p F p' F') : SInv G src p0 p' F' := by
  have hset : ∀ v, p v ≠ none32 → v ∉ F' := fun v hv hin => hv ((hl.mem v).1 hin).1
  have hold : ∀ v, p v ≠ none32 → p' v = p v := fun v hv => hl.old v (hset v hv)
  have hnew : ∀ d ∈ F', p' d ≠ none32 ∧ p' d ≠ d ∧ Adj G (p' d) d ∧ p (p' d) ≠ none32 ∧ p0 (p' d) = none32 := by
    intro d hd
    obtain ⟨h1, h2⟩ := hl.val d hd
    have hf := h.front _ h1
    have hd0 := ((hl.mem d).1 hd).1
    have h0d : p0 d = none32 := by
      by_contra hc
      rw [← h.keep d hc] at hc
      exact hc hd0
    refine ⟨?_, fun he => ?_, h2, hf, ?_⟩
    · have := (adj_lt hG h2).1; omega
    · rw [he] at hf; exact hf hd0
    · by_contra hc
      exact h0.closed _ _ hc h2 h0d
  refine ⟨fun v hv => ?_, fun v hv hv0 => ?_, ?_, fun v hv => (hnew v hv).1, fun v u hv hF hu => ?_⟩
  · rw [hold v (by rw [h.keep v hv]; exact hv)]; exact h.keep v hv
  · by_cases hin : v ∈ F'
    · obtain ⟨h1, h3, h4, h5, h6⟩ := hnew v hin
      obtain ⟨k1, k2, k3, k4⟩ := h.new _ h5 h6
      refine ⟨(adj_lt hG h4).2, (conn_equiv _).trans k2 (.rel _ _ h4), ?_, fun _ => ⟨h3, h4⟩⟩
      exact .trans _ _ _ (.rel _ _ ⟨rfl, hv⟩) (pconn_mono hold k3)
    · have hp := hl.old v hin
      rw [hp] at hv
      obtain ⟨k1, k2, k3, k4⟩ := h.new _ hv hv0
      rw [hp]
      exact ⟨k1, k2, pconn_mono hold k3, k4⟩
  · rw [hold _ (by rw [h.self]; exact hs)]; exact h.self
  · rw [hl.old v hF] at hv
    by_cases hvF : v ∈ F
    · by_cases hun : p u = none32
      · exact (hnew u ((hl.mem u).2 ⟨hun, v, hvF, hu⟩)).1
      · rw [hold u hun]; exact hun
    · have := h.closed v u hv hvF hu
      rw [hold u this]; exact this

theorem search_inv {G : Gr W} (hG : G.Ok) (hn : G.n ≤ none32) {src i : Nat} {p0 p p' : Nat → Nat} {F : List Nat} {k : Nat}
    (hs : src ≠ none32) (h0 : OInv G i p0) (hl : Search G k p F p') (h : SInv G src p0 p F) : SInv G src p0 p' [] := by
  induction hl with
  | done p => exact h
  | round _ hr _ ih => exact ih (h.step hG hn hs h0 hr)

/-- The component of an unset vertex is unset. -/
theorem OInv.unset {G : Gr W} (hsym : ∀ u v, Adj G u v → Adj G v u) {i : Nat} {p : Nat → Nat} (h : OInv G i p) {x y : Nat}
    (hc : Conn (Adj G) x y) : p x ≠ none32 ↔ p y ≠ none32 :=
  conn_closed (S := fun z => p z ≠ none32) (fun a b hab => ⟨fun ha => h.closed _ _ ha hab, fun hb => h.closed _ _ hb (hsym _ _ hab)⟩) hc

theorem bfs_inv {G : Gr W} (hG : G.Ok) (hn : G.n ≤ none32) (hsym : ∀ u v, Adj G u v → Adj G v u) {i k : Nat} (hi : i < G.n)
    {p p' : Nat → Nat} (h : OInv G i p) (hu : p i = none32) (hl : Search G k (put p i i) [i] p') : OInv G (i + 1) p' := by
  have hs : i ≠ none32 := by omega
  have hst : SInv G i p (put p i i) [i] := by
    have hput : ∀ v, v ≠ i → put p i i v = p v := fun v hv => put_ne _ _ hv
    refine ⟨fun v hv => hput v fun he => hv (he ▸ hu), fun v hv hv0 => ?_, put_same .., fun v hv => ?_, fun v u hv hF hu' => ?_⟩
    · by_cases he : v = i
      · subst he
        exact ⟨hi, .refl _, .refl _, fun h => absurd rfl h⟩
      · rw [hput v he] at hv; exact absurd hv0 hv
    · rw [List.mem_singleton.1 hv, put_same]; exact hs
    · have he : v ≠ i := by simpa using hF
      rw [hput v he] at hv
      have := h.closed v u hv hu'
      rw [hput u fun he => this (he ▸ hu)]; exact this
  have hf := search_inv hG hn hs h hl hst
  have hkeep : ∀ v, p v ≠ none32 → p' v = p v := hf.keep
  have hroot : ∀ r, p' r = r → r ≠ none32 → p r = r ∨ r = i ∧ p r = none32 := by
    intro r hr hr0
    by_cases hp : p r = none32
    · refine .inr ⟨?_, hp⟩
      by_contra hne
      exact ((hf.new r (by rw [hr]; exact hr0) hp).2.2.2 hne).1 hr
    · exact .inl ((hkeep r hp).symm.trans hr)
  refine ⟨fun v hv => ?_, fun v hv => ?_, fun v u hv huv => ?_, fun v hv => ?_, fun r r' hr hr' h1 h2 hc => ?_⟩
  · by_cases hp : p v = none32
    · obtain ⟨k1, _, _, k2⟩ := hf.new v hv hp
      refine ⟨k1, fun hne => (k2 ?_).2⟩
      rintro rfl
      exact hne hf.self
    · rw [hkeep v hp]; exact h.edge v hp
  · by_cases he : v = i
    · rw [he, hf.self]; exact hs
    · have := h.done v (by omega)
      rw [hkeep v this]; exact this
  · exact hf.closed v u hv (by simp) huv
  · by_cases hp : p v = none32
    · obtain ⟨_, k1, k2, _⟩ := hf.new v hv hp
      exact ⟨i, hf.self, hs, (conn_equiv _).symm k1, k2⟩
    · obtain ⟨r, h1, h2, h3, h4⟩ := h.conn v hp
      exact ⟨r, by rw [hkeep r (by rw [h1]; exact h2)]; exact h1, h2, h3, pconn_mono hkeep h4⟩
  · have hun := h.unset hsym hc
    rcases hroot r hr h1 with k | ⟨k, k0⟩ <;> rcases hroot r' hr' h2 with k' | ⟨k', k0'⟩
    · exact h.uniq r r' k k' h1 h2 hc
    · exact absurd k0' (hun.1 (by rw [k]; exact h1))
    · exact absurd k0 (hun.2 (by rw [k']; exact h2))
    · rw [k, k']

theorem all_inv {G : Gr W} (hG : G.Ok) (hn : G.n ≤ none32) (hsym : ∀ u v, Adj G u v → Adj G v u) {k i : Nat}
    {p p' : Nat → Nat} (hl : All G k i p p') (h : OInv G i p) : OInv G G.n p' := by
  induction hl with
  | done p => exact h
  | seen hi hu _ ih =>
    refine ih ⟨h.edge, fun v hv => ?_, h.closed, h.conn, h.uniq⟩
    rcases Nat.lt_succ_iff_lt_or_eq.1 hv with hv | rfl
    · exact h.done v hv
    · exact hu
  | bfs hi hu hb _ ih => exact ih (bfs_inv hG hn hsym hi h hu hb)

/-- The option list of edges to parents. -/
def ef (p : Nat → Nat) (i : Nat) : Option (Nat × Nat) := if i ≠ p i ∧ p i ≠ none32 then some (i, p i) else none

theorem toEdges_eq (n : Nat) (p : Nat → Nat) : toEdges n p = (List.range n).filterMap (ef p) := by
  rw [toEdges, List.filter_map]
  induction List.range n with
  | nil => rfl
  | cons a l ih =>
    rw [List.filterMap_cons, List.filter_cons]
    by_cases h : a ≠ p a ∧ p a ≠ none32
    · rw [ef, if_pos h, if_pos (by simpa using h), List.map_cons, ih]
    · rw [ef, if_neg h, if_neg (by simpa using h), ih]

theorem mem_toEdges {n : Nat} {p : Nat → Nat} {e : Nat × Nat} :
    e ∈ toEdges n p ↔ e.1 < n ∧ e.2 = p e.1 ∧ e.1 ≠ e.2 ∧ e.2 ≠ none32 := by
  rw [toEdges, List.mem_filter, List.mem_map]
  constructor
  · rintro ⟨⟨i, hi, rfl⟩, h⟩
    exact ⟨List.mem_range.1 hi, rfl, by simpa using h⟩
  · rintro ⟨h1, h2, h3⟩
    exact ⟨⟨e.1, List.mem_range.2 h1, by rw [← h2]⟩, by simpa using h3⟩

theorem all_sf {G : Gr W} (hG : G.Ok) (hn : G.n ≤ none32) (hsym : ∀ u v, Adj G u v → Adj G v u) {k : Nat}
    {p : Nat → Nat} (hl : All G k 0 (fun _ => none32) p) : IsSF (Adj G) (toEdges G.n p) := by
  have h := all_inv hG hn hsym hl ⟨fun _ h => absurd rfl h, fun _ h => (by omega), fun _ _ h => absurd rfl h,
    fun _ h => absurd rfl h, fun r _ h _ hr => absurd h.symm hr⟩
  classical
  let root : Nat → Nat := fun v => if hv : p v ≠ none32 then (h.conn v hv).choose else v
  have hroot : ∀ v, v < G.n → p (root v) = root v ∧ root v ≠ none32 ∧ Conn (Adj G) v (root v) ∧ PConn p v (root v) := by
    intro v hv
    have hv' := h.done v hv
    have : root v = (h.conn v hv').choose := dif_pos hv'
    rw [this]
    exact (h.conn v hv').choose_spec
  have hlt : ∀ v, v < G.n → root v < G.n := fun v hv => by
    obtain ⟨h1, h2, _⟩ := hroot v hv
    exact (h.edge _ (by rw [h1]; exact h2)).1
  have hself : ∀ v, v < G.n → p v = v → root v = v := by
    intro v hv hp
    obtain ⟨h1, h2, h3, _⟩ := hroot v hv
    exact (h.uniq v _ hp h1 (by omega) h2 h3).symm
  refine isSF_of_count (fun x y => adj_lt hG) (fun e he => ?_) root (fun v hv => ⟨hlt v hv, ?_⟩) (fun v hv => ?_)
    (fun x y hxy => ?_) ?_
  · obtain ⟨h1, h2, h3, h4⟩ := mem_toEdges.1 he
    rw [h2] at h3 h4
    rw [h2]
    exact hsym _ _ ((h.edge _ h4).2 (Ne.symm h3))
  · exact hself _ (hlt v hv) (hroot v hv).1
  · refine conn_le (lconn_equiv _) (fun a b hab => ?_) (hroot v hv).2.2.2
    by_cases he : a = b
    · rw [he]; exact .refl _
    · have hpa : p a ≠ none32 := by rw [hab.1]; exact hab.2
      exact .rel _ _ (mem_toEdges.2 ⟨(h.edge a hpa).1, hab.1.symm, he, hab.2⟩)
  · have hx := hroot x (adj_lt hG hxy).1
    have hy := hroot y (adj_lt hG hxy).2
    refine h.uniq _ _ hx.1 hy.1 hx.2.1 hy.2.1 ?_
    exact .trans _ _ _ (.symm _ _ hx.2.2.1) (.trans _ _ _ (.rel _ _ hxy) hy.2.2.1)
  · rw [toEdges_eq]
    refine count_le _ root fun x hx hne hr => ?_
    have := (hroot x hx).1
    rw [hr] at this
    refine hne ?_
    rw [ef, if_neg (fun hc => hc.1 this.symm)]

/-! ### Number of rounds -/

/-- Number of unset vertices. -/
def unset (n : Nat) (p : Nat → Nat) : Nat := ((Finset.range n).filter fun v => p v = none32).card

theorem unset_lt {n : Nat} {p p' : Nat → Nat} (h : ∀ v, p v ≠ none32 → p' v ≠ none32) {d : Nat} (hd : d < n)
    (h1 : p d = none32) (h2 : p' d ≠ none32) : unset n p' < unset n p := by
  refine Finset.card_lt_card ⟨fun v hv => ?_, fun hc => ?_⟩
  · obtain ⟨k1, k2⟩ := Finset.mem_filter.1 hv
    refine Finset.mem_filter.2 ⟨k1, ?_⟩
    by_contra hne
    exact h v hne k2
  · exact h2 (Finset.mem_filter.1 (hc (Finset.mem_filter.2 ⟨Finset.mem_range.2 hd, h1⟩))).2

theorem Layer.mono {G : Gr W} (hG : G.Ok) (hn : G.n ≤ none32) {p p' : Nat → Nat} {F F' : List Nat} (h : Layer G p F p' F') :
    ∀ v, p v ≠ none32 → p' v ≠ none32 := by
  intro v hv
  rw [h.old v fun hin => hv ((h.mem v).1 hin).1]
  exact hv

theorem Layer.less {G : Gr W} (hG : G.Ok) (hn : G.n ≤ none32) {p p' : Nat → Nat} {F F' : List Nat} (h : Layer G p F p' F')
    (hne : F' ≠ []) : unset G.n p' < unset G.n p := by
  obtain ⟨d, hd⟩ := List.exists_mem_of_ne_nil _ hne
  have hv := adj_lt hG (h.val d hd).2
  exact unset_lt (h.mono hG hn) hv.2 ((h.mem d).1 hd).1 (by omega)

theorem Layer.le {G : Gr W} (hG : G.Ok) (hn : G.n ≤ none32) {p p' : Nat → Nat} {F F' : List Nat} (h : Layer G p F p' F') :
    unset G.n p' ≤ unset G.n p := by
  by_cases hne : F' = []
  · have : p' = p := funext fun d => h.old d (by rw [hne]; simp)
    rw [this]
  · exact Nat.le_of_lt (h.less hG hn hne)

theorem search_rounds {G : Gr W} (hG : G.Ok) (hn : G.n ≤ none32) {k : Nat} {p p' : Nat → Nat} {F : List Nat}
    (hl : Search G k p F p') : k + unset G.n p' ≤ unset G.n p + (if F = [] then 0 else 1) := by
  induction hl with
  | done p => simp
  | @round k p F p1 F1 p' hF h hl ih =>
    rw [if_neg hF]
    by_cases h1 : F1 = []
    · rw [if_pos h1] at ih
      have := h.le hG hn
      omega
    · rw [if_neg h1] at ih
      have := h.less hG hn h1
      omega

theorem all_rounds {G : Gr W} (hG : G.Ok) (hn : G.n ≤ none32) {k i : Nat} {p p' : Nat → Nat} (hl : All G k i p p') :
    k + unset G.n p' ≤ unset G.n p := by
  induction hl with
  | done p => simp
  | seen _ _ _ ih => exact ih
  | @bfs k k' i p p1 p' hi h hb hl ih =>
    have h1 := search_rounds hG hn hb
    rw [if_neg (by simp)] at h1
    have : unset G.n (put p i i) < unset G.n p := by
      refine unset_lt (fun v hv => ?_) hi h (by rw [put_same]; omega)
      have hvi : v ≠ i := fun he => hv (he ▸ h)
      rw [put_ne _ _ hvi]
      exact hv
    omega

theorem unset_init (n : Nat) : unset n (fun _ => none32) = n := by
  rw [unset, Finset.filter_true_of_mem (fun _ _ => rfl), Finset.card_range]

/-! ### The first algorithm -/

theorem bfs_spec (hval : ∀ e : Edge W, Ac e → e.s ≠ none32) (p0 : Nat → Nat) :
    FSpecC (crg none32 p0 Ac fun s _ _ => s) bfsF Ac CT (fun g e => g.p e.d ≠ none32) (fun d g => g.p d = none32) where
  keep := (claim_spec none32 p0 Ac (fun s _ _ => s) hval).keep
  stable := (claim_spec none32 p0 Ac (fun s _ _ => s) hval).stable
  cond may i l g d hT := by
    intro g1 m1 hr1 hi1
    refine ⟨g1, crg_gu_refl _ _, hi1, ?_⟩
    intro g2 hr2
    refine ⟨(hT.stable hr1).stable hr2, fun hb e _ he => ?_, fun hb hx => ?_⟩
    · subst he
      have hne : g1.p e.d ≠ none32 := by
        rw [← hi1.mem]
        simpa using hb
      rw [hr2.2.1 _ hne]; exact hne
    · rw [hr2.2.2 _ hx, ← hi1.mem]
      simpa using hb
  updA := (claim_spec none32 p0 Ac (fun s _ _ => s) hval).updA
  upd may i l g e he hm hx hc hT := by
    intro g1 m1 hr1 hi1
    have hu : m1 e.d = none32 := by rw [hi1.mem, hr1.2.2 _ hx]; exact hc
    obtain ⟨h1, h2, h3, h4⟩ := claim_ok hval hi1 he hm hu (hT.stable hr1)
    refine ⟨_, h1, h2, fun g3 hr3 => ⟨h3.stable hr3, ?_⟩⟩
    rw [hr3.2.1 _ h4]; exact h4

theorem bfs_layer {G : Gr W} (hG : G.Ok) (hn : G.n ≤ none32) {p p' : Nat → Nat} {F : List Nat} {o : List (Nat × Unit)}
    (h : EdgeMap bfsF G (fun v => decide (v ∈ F)) p p' o) : Layer G p F p' (o.map Prod.fst) := by
  have hval : ∀ e, Active G (fun v => decide (v ∈ F)) e → e.s ≠ none32 := fun e he => by
    have := (hG.bound _ _ _ he.2).1
    omega
  obtain ⟨-, h2, h3, h4⟩ := claim_round_of _ _ G hG _ (bfs_spec hval p) h
  refine ⟨fun d => ?_, fun d hd => ?_, h4⟩
  · rw [h2]
    refine and_congr_right fun _ => ⟨?_, ?_⟩
    · rintro ⟨e, he, rfl⟩
      exact ⟨e.s, by simpa using he.1, _, he.2⟩
    · rintro ⟨s, hs, w, hw⟩
      exact ⟨⟨s, d, w⟩, ⟨by simpa using hs, hw⟩, rfl⟩
  · obtain ⟨e, he, rfl, hm⟩ := h3 d hd
    rw [hm]
    exact ⟨by simpa using he.1, _, he.2⟩

theorem loop_search {G : Gr W} (hG : G.Ok) (hn : G.n ≤ none32) {k : Nat} {p p' : Nat → Nat} {F : List Nat}
    (h : Loop G k p F p') : Search G k p F p' := by
  induction h with
  | done p => exact .done p
  | round hF h _ ih => exact .round hF (bfs_layer hG hn h) ih

theorem outer_all {G : Gr W} (hG : G.Ok) (hn : G.n ≤ none32) {k i : Nat} {p p' : Nat → Nat} (h : Outer G k i p p') :
    All G k i p p' := by
  induction h with
  | done p => exact .done p
  | seen hi h _ ih => exact .seen hi h ih
  | bfs hi h hb _ ih => exact .bfs hi h (loop_search hG hn hb) ih

/-- C85: whatever the interleaving, `SpanningForest` returns a spanning forest of the graph after at most `n` traversals. -/
theorem bfs_sf {G : Gr W} (hG : G.Ok) (hn : G.n ≤ none32) (hsym : ∀ u v, Adj G u v → Adj G v u) {k : Nat}
    {es : List (Nat × Nat)} (h : SpanningForest G k es) : IsSF (Adj G) es ∧ k ≤ G.n := by
  obtain ⟨p, hp, rfl⟩ := h
  have hp := outer_all hG hn hp
  refine ⟨all_sf hG hn hsym hp, ?_⟩
  have := all_rounds hG hn hp
  rw [unset_init] at this
  omega

/-- Some execution returns. -/
theorem loop_exists {G : Gr W} (hG : G.Ok) (hn : G.n ≤ none32) (p : Nat → Nat) (F : List Nat) : ∃ k p', Loop G k p F p' := by
  generalize hc : unset G.n p + (if F = [] then 0 else 1) = c
  induction c using Nat.strongRecOn generalizing p F with
  | _ c ih =>
    by_cases hF : F = []
    · subst hF; exact ⟨0, p, .done p⟩
    · rw [if_neg hF] at hc
      obtain ⟨p1, o, hr⟩ := edgeMap_exists (F := (bfsF : Func W Nat Nat Unit)) (fun d m => ⟨_, rfl⟩)
        (fun s d w m => by
          show ∃ r, (if m d = none32 then _ else _) = some r
          split <;> exact ⟨_, rfl⟩) hG (fun v => decide (v ∈ F)) p
      have hl := bfs_layer hG hn hr
      obtain ⟨k, p', h⟩ := ih (unset G.n p1 + (if o.map Prod.fst = [] then 0 else 1)) (by
        by_cases h1 : o.map Prod.fst = []
        · rw [if_pos h1]; have := hl.le hG hn; omega
        · rw [if_neg h1]; have := hl.less hG hn h1; omega) p1 (o.map Prod.fst) rfl
      exact ⟨k + 1, p', .round hF hr h⟩

theorem outer_exists {G : Gr W} (hG : G.Ok) (hn : G.n ≤ none32) (j : Nat) : ∀ i p, i + j = G.n → ∃ k p', Outer G k i p p' := by
  induction j with
  | zero => rintro i p rfl; exact ⟨0, p, .done p⟩
  | succ j ih =>
    intro i p hij
    by_cases hu : p i = none32
    · obtain ⟨k, p1, h⟩ := loop_exists hG hn (put p i i) [i]
      obtain ⟨k', p', h'⟩ := ih (i + 1) p1 (by omega)
      exact ⟨_, _, .bfs (by omega) hu h h'⟩
    · obtain ⟨k', p', h'⟩ := ih (i + 1) p (by omega)
      exact ⟨_, _, .seen (by omega) hu h'⟩

theorem bfs_sf_exists {G : Gr W} (hG : G.Ok) (hn : G.n ≤ none32) : ∃ k es, SpanningForest G k es := by
  obtain ⟨k, p, h⟩ := outer_exists hG hn G.n 0 (fun _ => none32) (by omega)
  exact ⟨k, _, p, h, rfl⟩

/-! ### The deterministic algorithm: first pass -/

structure MInv (Ac : Edge W → Prop) (m0 : Loc → Nat) (g : Nat → Nat) (m : Loc → Nat) : Prop where
  par : ∀ d, m (.par d) = g d
  vis : ∀ d, m (.vis d) = m0 (.vis d)
  val : ∀ d, g d = m0 (.par d) ∨ m0 (.vis d) = 0 ∧ ∃ e, Ac e ∧ e.d = d ∧ g d = e.s

def mrg (Ac : Edge W → Prop) (m0 : Loc → Nat) (may : Nat × Nat → Nat → Prop) : RG (Nat × Nat) (Nat → Nat) Loc Nat where
  Inv := MInv Ac m0
  R i g g' := (∀ d, g' d ≤ g d) ∧ ∀ d, Excl may i d → g' d = g d
  Gu i g g' := (∀ d, g' d ≤ g d) ∧ ∀ d, g' d ≠ g d → may i d
  refl _ _ := ⟨fun _ => Nat.le_refl _, fun _ _ => rfl⟩
  trans _ _ _ _ h1 h2 := ⟨fun d => Nat.le_trans (h2.1 d) (h1.1 d), fun d hd => (h2.2 d hd).trans (h1.2 d hd)⟩
  compat i j g g' hne h := ⟨h.1, fun d hd => by
    by_contra hc
    exact hd i hne (h.2 d hc)⟩

section
variable {Ac : Edge W → Prop} {m0 : Loc → Nat} {may : Nat × Nat → Nat → Prop}

theorem mrg_gu_refl (i : Nat × Nat) (g : Nat → Nat) : (mrg Ac m0 may).Gu i g g := ⟨fun _ => Nat.le_refl _, fun _ h => absurd rfl h⟩

theorem lower_ok {i : Nat × Nat} {g : Nat → Nat} {m : Loc → Nat} (hi : MInv Ac m0 g m) {e : Edge W} (he : Ac e) (hm : may i e.d)
    (hv : m0 (.vis e.d) = 0) (hlt : e.s < m (.par e.d)) :
    (mrg Ac m0 may).Gu i g (put g e.d e.s) ∧ MInv Ac m0 (put g e.d e.s) (put m (.par e.d) e.s) := by
  rw [hi.par] at hlt
  refine ⟨⟨fun d => ?_, fun d hd => ?_⟩, ⟨fun d => ?_, fun d => ?_, fun d => ?_⟩⟩
  · by_cases h : d = e.d
    · rw [h, put_same]; omega
    · rw [put_ne _ _ h]
  · by_cases h : d = e.d
    · rw [h]; exact hm
    · rw [put_ne _ _ h] at hd; exact absurd rfl hd
  · by_cases h : d = e.d
    · rw [h, put_same, put_same]
    · rw [put_ne _ _ h, put_ne _ _ (by simpa using h)]; exact hi.par d
  · rw [put_ne _ _ (by simp)]; exact hi.vis d
  · by_cases h : d = e.d
    · subst h; rw [put_same]; exact .inr ⟨hv, e, he, rfl, rfl⟩
    · rw [put_ne _ _ h]; exact hi.val d

theorem writeMin_safe (f : Nat) {i : Nat × Nat} {e : Edge W} (he : Ac e) (hm : may i e.d) (hv : m0 (.vis e.d) = 0)
    (g : Nat → Nat) : Safe (mrg Ac m0 may) i (fun g _ => g e.d ≤ e.s) (writeMin f (.par e.d) e.s) g := by
  induction f generalizing g with
  | zero => trivial
  | succ f ih =>
    intro g1 m1 hr1 hi1
    refine ⟨g1, mrg_gu_refl _ _, hi1, ?_⟩
    beta_reduce
    by_cases hlt : e.s < m1 (.par e.d)
    · rw [if_pos hlt]
      intro g2 m2 hr2 hi2
      refine ⟨fun heq => ?_, fun _ => ⟨g2, mrg_gu_refl _ _, hi2, ih g2⟩⟩
      obtain ⟨h1, h2⟩ := lower_ok hi2 he hm hv (by rw [heq]; exact hlt)
      refine ⟨_, h1, h2, fun g3 hr3 => ?_⟩
      have := hr3.1 e.d
      rwa [put_same] at this
    · rw [if_neg hlt]
      intro g2 hr2
      have := hr2.1 e.d
      rw [hi1.par] at hlt
      omega

theorem min_spec (f : Nat) (Ac : Edge W → Prop) (m0 : Loc → Nat) :
    FSpecD (mrg Ac m0) (minF f) Ac (fun _ _ l => l = []) (fun g e => m0 (.vis e.d) = 0 → g e.d ≤ e.s) (fun _ _ => True)
      (fun d _ => m0 (.vis d) = 0) where
  keep may i e := ⟨fun g g' hr h hv => Nat.le_trans (hr.1 _) (h hv), fun g g' hr h hv => Nat.le_trans (hr.1 _) (h hv)⟩
  stable may i l g g' _ h := h
  cond may i l g d hT := by
    intro g1 m1 hr1 hi1
    refine ⟨g1, mrg_gu_refl _ _, hi1, fun g2 hr2 => ⟨hT, fun hb e _ he hv => ?_, fun hb => ⟨fun _ => trivial, ?_⟩⟩⟩
    · rw [hi1.vis, ← he, hv] at hb; cases hb
    · rw [← hi1.vis]; simpa using hb
  updA may i l g e he hm hv hT := by
    refine (writeMin_safe f he hm hv g).bind fun _ g1 h1 => ?_
    exact fun g2 hr2 => ⟨hT, fun _ => Nat.le_trans (hr2.1 _) h1⟩
  upd may i l g e he hm hx _ hv hT := by
    intro g1 m1 hr1 hi1
    refine ⟨g1, mrg_gu_refl _ _, hi1, ?_⟩
    beta_reduce
    by_cases hlt : e.s < m1 (.par e.d)
    · rw [if_pos hlt]
      intro g2 m2 hr2 hi2
      have heq : m2 (.par e.d) = m1 (.par e.d) := by rw [hi2.par, hi1.par]; exact hr2.2 _ hx
      obtain ⟨h1, h2⟩ := lower_ok hi2 he hm hv (by rw [heq]; exact hlt)
      refine ⟨_, h1, h2, fun g3 hr3 => ⟨hT, fun _ => ?_⟩⟩
      have := hr3.1 e.d
      rwa [put_same] at this
    · rw [if_neg hlt]
      intro g2 hr2
      refine ⟨hT, fun _ => ?_⟩
      have := hr2.1 e.d
      rw [hi1.par] at hlt
      omega

theorem min_round {f : Nat} {G : Gr W} (hG : G.Ok) {inF : Nat → Bool} {m m' : Loc → Nat} {o : List (Nat × Unit)}
    (h : EdgeMap (minF f) G inF m m' o) : (∀ d, m' (.vis d) = m (.vis d)) ∧
    (∀ d, m' (.par d) = m (.par d) ∨ m (.vis d) = 0 ∧ ∃ e, Active G inF e ∧ e.d = d ∧ m' (.par d) = e.s) ∧
    ∀ e, Active G inF e → m (.vis e.d) = 0 → m' (.par e.d) ≤ e.s := by
  obtain ⟨g, out, hi, hdn, -, -⟩ := edgeMap_soundD (min_spec f (Active G inF) m) G hG inF (fun _ h => h) (MInv (Active G inF) m)
    (fun _ _ _ => Iff.rfl) (fun d => m (.par d)) ⟨fun _ => rfl, fun _ => rfl, fun _ => .inl rfl⟩ (fun _ => rfl) h
  refine ⟨hi.vis, fun d => ?_, fun e he hv => ?_⟩
  · rw [hi.par]; exact hi.val d
  · rw [hi.par]; exact hdn e he hv

/-! ### Second pass -/

/-- Ghost state: the first thread that set the flag. -/
abbrev Own := Nat → Option (Nat × Nat)

structure VInv (Ac : Edge W → Prop) (m0 : Loc → Nat) (g : Own) (m : Loc → Nat) : Prop where
  par : ∀ d, m (.par d) = m0 (.par d)
  vis : ∀ d, m (.vis d) = if g d = none then m0 (.vis d) else 1
  val : ∀ d, g d ≠ none → m0 (.vis d) = 0 ∧ ∃ e, Ac e ∧ e.d = d ∧ m0 (.par d) = e.s

def vrg (Ac : Edge W → Prop) (m0 : Loc → Nat) (_may : Nat × Nat → Nat → Prop) : RG (Nat × Nat) Own Loc Nat where
  Inv := VInv Ac m0
  R i g g' := (∀ d, g d ≠ none → g' d = g d) ∧ ∀ d, g' d = some i → g d = some i
  Gu i g g' := (∀ d, g d ≠ none → g' d = g d) ∧ ∀ d j, j ≠ i → g' d = some j → g d = some j
  refl _ _ := ⟨fun _ _ => rfl, fun _ h => h⟩
  trans i g g' g'' h1 h2 := ⟨fun d hd => by
    have := h1.1 d hd
    exact (h2.1 d (by rw [this]; exact hd)).trans this, fun d hd => h1.2 d (h2.2 d hd)⟩
  compat i j g g' hne h := ⟨h.1, fun d => h.2 d j (Ne.symm hne)⟩

def VT (i : Nat × Nat) (g : Own) (l : List (Nat × Unit)) : Prop :=
  (∀ d, g d = some i → d ∈ l.map Prod.fst) ∧ ∀ d ∈ l.map Prod.fst, g d ≠ none

theorem VT.stable {i : Nat × Nat} {g g' : Own} {l : List (Nat × Unit)} (hr : (vrg Ac m0 may).R i g g') (h : VT i g l) :
    VT i g' l :=
  ⟨fun d hd => h.1 d (hr.2 d hd), fun d hd => by rw [hr.1 d (h.2 d hd)]; exact h.2 d hd⟩

theorem vrg_gu_refl (i : Nat × Nat) (g : Own) : (vrg Ac m0 may).Gu i g g := ⟨fun _ _ => rfl, fun _ _ _ h => h⟩

theorem win_safe {i : Nat × Nat} {g : Own} {e : Edge W} (he : Ac e) (hv : m0 (.vis e.d) = 0) {l : List (Nat × Unit)}
    (hT : VT i g l) : Safe (vrg Ac m0 may) i
      (fun g x => VT i g (emit e.d x l) ∧ (m0 (.par e.d) = e.s → m0 (.vis e.d) = 0 → g e.d ≠ none))
      ((winF : Func W Loc Nat Unit).updA e.s e.d e.w) g := by
  intro g1 m1 hr1 hi1
  have hT1 := hT.stable hr1
  refine ⟨g1, vrg_gu_refl _ _, hi1, ?_⟩
  beta_reduce
  rw [hi1.par]
  by_cases hp : m0 (.par e.d) = e.s
  · rw [if_pos hp]
    intro g2 m2 hr2 hi2
    have hT2 := hT1.stable hr2
    by_cases hg : g2 e.d = none
    · refine ⟨put g2 e.d (some i), ⟨fun d hd => ?_, fun d j hj hd => ?_⟩, ⟨fun d => ?_, fun d => ?_, fun d hd => ?_⟩, ?_⟩
      · have : d ≠ e.d := fun h => hd (h ▸ hg)
        rw [put_ne _ _ this]
      · by_cases h : d = e.d
        · rw [h, put_same] at hd; exact absurd (Option.some.inj hd).symm hj
        · rw [put_ne _ _ h] at hd; exact hd
      · rw [put_ne _ _ (by simp)]; exact hi2.par d
      · by_cases h : d = e.d
        · rw [h, put_same, put_same, if_neg (by simp)]
        · rw [put_ne _ _ h, put_ne _ _ (by simpa using h)]; exact hi2.vis d
      · by_cases h : d = e.d
        · rw [h]; exact ⟨hv, e, he, rfl, hp⟩
        · rw [put_ne _ _ h] at hd; exact hi2.val d hd
      · have hT3 : VT i (put g2 e.d (some i)) ((e.d, ()) :: l) := by
          refine ⟨fun d hd => ?_, fun d hd => ?_⟩
          · rw [List.map_cons, List.mem_cons]
            by_cases h : d = e.d
            · exact .inl h
            · rw [put_ne _ _ h] at hd; exact .inr (hT2.1 d hd)
          · by_cases h : d = e.d
            · rw [h, put_same]; simp
            · rw [put_ne _ _ h]
              rw [List.map_cons, List.mem_cons] at hd
              exact hT2.2 d (hd.resolve_left h)
        intro g3 hr3
        have hT4 := hT3.stable hr3
        exact ⟨hT4, fun _ _ => hT4.2 _ (by simp)⟩
    · refine ⟨g2, vrg_gu_refl _ _, ⟨fun d => ?_, fun d => ?_, hi2.val⟩, ?_⟩
      · rw [put_ne _ _ (by simp)]; exact hi2.par d
      · by_cases h : d = e.d
        · rw [h, put_same, if_neg hg]
        · rw [put_ne _ _ (by simpa using h)]; exact hi2.vis d
      · have hT3 : VT i g2 ((e.d, ()) :: l) := by
          refine ⟨fun d hd => List.mem_cons_of_mem _ (hT2.1 d hd), fun d hd => ?_⟩
          rw [List.map_cons, List.mem_cons] at hd
          rcases hd with rfl | hd
          · exact hg
          · exact hT2.2 d hd
        intro g3 hr3
        have hT4 := hT3.stable hr3
        exact ⟨hT4, fun _ _ => hT4.2 _ (by simp)⟩
  · rw [if_neg hp]
    exact fun g2 hr2 => ⟨hT1.stable hr2, fun h => absurd h hp⟩

theorem win_spec (Ac : Edge W → Prop) (m0 : Loc → Nat) :
    FSpecD (vrg Ac m0) winF Ac VT (fun g e => m0 (.par e.d) = e.s → m0 (.vis e.d) = 0 → g e.d ≠ none) (fun _ _ => True)
      (fun d _ => m0 (.vis d) = 0) where
  keep may i e := ⟨fun g g' hr h h1 h2 => by rw [hr.1 _ (h h1 h2)]; exact h h1 h2,
    fun g g' hr h h1 h2 => by rw [hr.1 _ (h h1 h2)]; exact h h1 h2⟩
  stable may i l g g' hr h := h.stable hr
  cond may i l g d hT := by
    intro g1 m1 hr1 hi1
    refine ⟨g1, vrg_gu_refl _ _, hi1, fun g2 hr2 => ⟨(hT.stable hr1).stable hr2, fun hb e _ he hp hv hn => ?_,
      fun hb => ⟨fun _ => trivial, ?_⟩⟩⟩
    · subst he
      have h1 : g1 e.d = none := by
        by_contra hne
        rw [hr2.1 _ hne] at hn
        exact hne hn
      rw [hi1.vis, if_pos h1, hv] at hb
      cases hb
    · have hb : m1 (.vis d) = 0 := by simpa using hb
      rw [hi1.vis] at hb
      by_cases h1 : g1 d = none
      · rwa [if_pos h1] at hb
      · rw [if_neg h1] at hb; cases hb
  updA may i l g e he hm hv hT := win_safe he hv hT
  upd may i l g e he hm hx _ hv hT := win_safe he hv hT

theorem win_round {G : Gr W} (hG : G.Ok) {inF : Nat → Bool} {m m' : Loc → Nat} {o : List (Nat × Unit)}
    (h : EdgeMap winF G inF m m' o) : (∀ d, m' (.par d) = m (.par d)) ∧
    (∀ d, d ∈ o.map Prod.fst ↔ m (.vis d) = 0 ∧ ∃ e, Active G inF e ∧ e.d = d ∧ m (.par d) = e.s) ∧
    (∀ d, d ∈ o.map Prod.fst → m' (.vis d) = 1) ∧ ∀ d, d ∉ o.map Prod.fst → m' (.vis d) = m (.vis d) := by
  obtain ⟨g, out, hi, hdn, hT, hcol⟩ := edgeMap_soundD (win_spec (Active G inF) m) G hG inF (fun _ h => h)
    (VInv (Active G inF) m) (fun _ _ _ => Iff.rfl) (fun _ => none)
    ⟨fun _ => rfl, fun _ => rfl, fun _ h => absurd rfl h⟩ (fun _ => ⟨fun _ h => (by cases h), fun _ h => (by cases h)⟩) h
  have hmem : ∀ d, d ∈ o.map Prod.fst ↔ g d ≠ none := by
    intro d
    constructor
    · intro h
      obtain ⟨⟨d', x⟩, h1, rfl⟩ := List.mem_map.1 h
      obtain ⟨i, hi'⟩ := hcol.sub _ h1
      exact (hT i).2 _ (List.mem_map.2 ⟨_, hi', rfl⟩)
    · intro h
      obtain ⟨i, hg⟩ := Option.ne_none_iff_exists'.1 h
      obtain ⟨⟨d', x⟩, h1, rfl⟩ := List.mem_map.1 ((hT i).1 d hg)
      obtain ⟨y, hy⟩ := hcol.all i _ _ h1
      exact List.mem_map.2 ⟨_, hy, rfl⟩
  refine ⟨hi.par, fun d => ?_, fun d hd => ?_, fun d hd => ?_⟩
  · rw [hmem]
    constructor
    · exact hi.val d
    · rintro ⟨h1, e, h2, rfl, h3⟩
      exact hdn e h2 h3 h1
  · rw [hi.vis, if_neg ((hmem d).1 hd)]
  · have : g d = none := by
      by_contra hc
      exact hd ((hmem d).2 hc)
    rw [hi.vis, if_pos this]
end

/-! ### Both passes -/

/-- `visited` is set exactly where `parents` is. -/
def Sync (m : Loc → Nat) : Prop := ∀ d, m (.vis d) = 0 ↔ m (.par d) = none32

theorem det_layer {G : Gr W} (hG : G.Ok) (hn : G.n ≤ none32) {f : Nat} {m m1 m2 : Loc → Nat} {F : List Nat}
    {o1 o : List (Nat × Unit)} (hs : Sync m) (h1 : EdgeMap (minF f) G (fun v => decide (v ∈ F)) m m1 o1)
    (h2 : EdgeMap winF G (fun v => decide (v ∈ F)) m1 m2 o) :
    Layer G (fun v => m (.par v)) F (fun v => m2 (.par v)) (o.map Prod.fst) ∧ Sync m2 ∧
    ∀ d ∈ o.map Prod.fst, ∀ s ∈ F, Adj G s d → m2 (.par d) ≤ s := by
  obtain ⟨a1, a2, a3⟩ := min_round hG h1
  obtain ⟨b1, b2, b3, b4⟩ := win_round hG h2
  have hact : ∀ {e : Edge W}, Active G (fun v => decide (v ∈ F)) e → e.s ∈ F ∧ Adj G e.s e.d ∧ e.s ≠ none32 := by
    intro e he
    have := (hG.bound _ _ _ he.2).1
    exact ⟨by simpa using he.1, ⟨_, he.2⟩, by omega⟩
  have hmem : ∀ d, d ∈ o.map Prod.fst ↔ m (.par d) = none32 ∧ ∃ s ∈ F, Adj G s d := by
    intro d
    rw [b2, a1, hs d]
    refine and_congr_right fun hu => ⟨?_, ?_⟩
    · rintro ⟨e, he, rfl, _⟩
      exact ⟨e.s, (hact he).1, (hact he).2.1⟩
    · rintro ⟨s, hs', w, hw⟩
      have he : Active G (fun v => decide (v ∈ F)) ⟨s, d, w⟩ := ⟨by simpa using hs', hw⟩
      have hle : m1 (.par d) ≤ s := a3 _ he ((hs d).2 hu)
      rcases a2 d with h | ⟨_, e, k1, k2, k3⟩
      · have hsn : s < G.n := (hG.bound _ _ _ hw).1
        rw [h, hu] at hle
        omega
      · exact ⟨e, k1, k2, k3⟩
  have hval : ∀ d ∈ o.map Prod.fst, ∃ e, Active G (fun v => decide (v ∈ F)) e ∧ e.d = d ∧ m2 (.par d) = e.s := by
    intro d hd
    obtain ⟨_, e, k1, k2, k3⟩ := (b2 d).1 hd
    exact ⟨e, k1, k2, by rw [b1]; exact k3⟩
  have hold : ∀ d, d ∉ o.map Prod.fst → m2 (.par d) = m (.par d) := by
    intro d hd
    rw [b1]
    rcases a2 d with h | ⟨h, e, k1, k2, k3⟩
    · exact h
    · exact absurd ((b2 d).2 ⟨by rw [a1]; exact h, e, k1, k2, k3⟩) hd
  refine ⟨⟨hmem, fun d hd => ?_, hold⟩, fun d => ?_, fun d hd s hsF hsd => ?_⟩
  · obtain ⟨e, k1, rfl, k3⟩ := hval d hd
    simp only [k3]
    exact ⟨(hact k1).1, (hact k1).2.1⟩
  · by_cases hd : d ∈ o.map Prod.fst
    · obtain ⟨e, k1, k2, k3⟩ := hval d hd
      rw [b3 d hd, k3]
      exact ⟨fun h => (by cases h), fun h => absurd h (hact k1).2.2⟩
    · rw [b4 d hd, hold d hd, a1]; exact hs d
  · obtain ⟨w, hw⟩ := hsd
    rw [b1]
    exact a3 ⟨s, d, w⟩ ⟨by simpa using hsF, hw⟩ ((hs d).2 ((hmem d).1 hd).1)

theorem dloop_search {G : Gr W} (hG : G.Ok) (hn : G.n ≤ none32) {k : Nat} {m m' : Loc → Nat} {F : List Nat}
    (h : DLoop G k m F m') (hs : Sync m) : Search G k (fun v => m (.par v)) F (fun v => m' (.par v)) ∧ Sync m' := by
  induction h with
  | done m => exact ⟨.done _, hs⟩
  | round hF h1 h2 _ ih =>
    obtain ⟨a, b, _⟩ := det_layer hG hn hs h1 h2
    exact ⟨.round hF a (ih b).1, (ih b).2⟩

theorem sync_start {m : Loc → Nat} (hs : Sync m) {i : Nat} (hi : i ≠ none32) : Sync (put (put m (.par i) i) (.vis i) 1) := by
  intro d
  by_cases h : d = i
  · subst h
    rw [put_same, put_ne _ _ (by simp), put_same]
    exact ⟨fun h => (by cases h), fun h => absurd h hi⟩
  · rw [put_ne _ _ (by simpa using h), put_ne _ _ (by simp), put_ne _ _ (by simp), put_ne _ _ (by simpa using h)]
    exact hs d

theorem start_par (m : Loc → Nat) (i : Nat) : (fun v => put (put m (.par i) i) (.vis i) 1 (.par v)) = put (fun v => m (.par v)) i i := by
  funext v
  rw [put_ne _ _ (by simp)]
  by_cases h : v = i
  · rw [h, put_same, put_same]
  · rw [put_ne _ _ (by simpa using h), put_ne _ _ h]

theorem douter_all {G : Gr W} (hG : G.Ok) (hn : G.n ≤ none32) {k i : Nat} {m m' : Loc → Nat} (h : DOuter G k i m m')
    (hs : Sync m) : All G k i (fun v => m (.par v)) (fun v => m' (.par v)) := by
  induction h with
  | done m => exact .done _
  | seen hi h _ ih => exact .seen hi h (ih hs)
  | @bfs k k' i m m1 m' hi h hb _ ih =>
    obtain ⟨a, b⟩ := dloop_search hG hn hb (sync_start hs (by omega))
    rw [start_par] at a
    exact .bfs hi h a (ih b)

theorem sync_init : Sync dinit := fun _ => ⟨fun _ => rfl, fun _ => rfl⟩

/-- C86: whatever the interleaving, `SpanningForestDet` returns a spanning forest of the graph after at most `n` pairs of
traversals. -/
theorem det_sf {G : Gr W} (hG : G.Ok) (hn : G.n ≤ none32) (hsym : ∀ u v, Adj G u v → Adj G v u) {k : Nat}
    {es : List (Nat × Nat)} (h : SpanningForestDet G k es) : IsSF (Adj G) es ∧ k ≤ G.n := by
  obtain ⟨m, hm, rfl⟩ := h
  have hp := douter_all hG hn hm sync_init
  refine ⟨all_sf hG hn hsym hp, ?_⟩
  have := all_rounds hG hn hp
  have h0 := unset_init G.n
  have : unset G.n (fun v => dinit (.par v)) = G.n := h0
  omega

/-! ### Determinism -/

theorem layer_det {G : Gr W} (hG : G.Ok) (hn : G.n ≤ none32) {f f' : Nat} {m m1 m2 n1 n2 : Loc → Nat} {F F' : List Nat}
    (hFF : ∀ v, v ∈ F ↔ v ∈ F') {o1 o p1 p : List (Nat × Unit)} (hs : Sync m)
    (h1 : EdgeMap (minF f) G (fun v => decide (v ∈ F)) m m1 o1) (h2 : EdgeMap winF G (fun v => decide (v ∈ F)) m1 m2 o)
    (k1 : EdgeMap (minF f') G (fun v => decide (v ∈ F')) m n1 p1) (k2 : EdgeMap winF G (fun v => decide (v ∈ F')) n1 n2 p) :
    m2 = n2 ∧ ∀ v, v ∈ o.map Prod.fst ↔ v ∈ p.map Prod.fst := by
  obtain ⟨a1, a2, a3⟩ := det_layer hG hn hs h1 h2
  obtain ⟨b1, b2, b3⟩ := det_layer hG hn hs k1 k2
  have hmem : ∀ v, v ∈ o.map Prod.fst ↔ v ∈ p.map Prod.fst := by
    intro v
    rw [a1.mem, b1.mem]
    simp only [hFF]
  have hpar : ∀ v, m2 (.par v) = n2 (.par v) := by
    intro v
    by_cases hv : v ∈ o.map Prod.fst
    · have hv' := (hmem v).1 hv
      obtain ⟨c1, c2⟩ := a1.val v hv
      obtain ⟨d1, d2⟩ := b1.val v hv'
      exact Nat.le_antisymm (a3 v hv _ ((hFF _).2 d1) d2) (b3 v hv' _ ((hFF _).1 c1) c2)
    · have hv' := fun h => hv ((hmem v).2 h)
      exact (a1.old v hv).trans (b1.old v hv').symm
  refine ⟨funext fun x => ?_, hmem⟩
  cases x with
  | par v => exact hpar v
  | vis v =>
    have e1 := (min_round hG h1).1 v
    have e2 := (min_round hG k1).1 v
    obtain ⟨_, _, c3, c4⟩ := win_round hG h2
    obtain ⟨_, _, d3, d4⟩ := win_round hG k2
    by_cases hv : v ∈ o.map Prod.fst
    · rw [c3 v hv, d3 v ((hmem v).1 hv)]
    · rw [c4 v hv, d4 v fun h => hv ((hmem v).2 h), e1, e2]

theorem nil_of_mem {F F' : List Nat} (h : ∀ v, v ∈ F ↔ v ∈ F') (hF : F = []) : F' = [] :=
  List.eq_nil_iff_forall_not_mem.2 fun v hv => by
    have := (h v).2 hv
    rw [hF] at this; cases this

theorem dloop_det {G : Gr W} (hG : G.Ok) (hn : G.n ≤ none32) {k k' : Nat} {m m1 m2 : Loc → Nat} {F F' : List Nat}
    (hFF : ∀ v, v ∈ F ↔ v ∈ F') (hs : Sync m) (h : DLoop G k m F m1) (h' : DLoop G k' m F' m2) : m1 = m2 ∧ k = k' := by
  induction h generalizing F' k' m2 with
  | done m =>
    cases h' with
    | done => exact ⟨rfl, rfl⟩
    | round hF => exact absurd (nil_of_mem hFF rfl) hF
  | round hF h1 h2 _ ih =>
    cases h' with
    | done => exact absurd (nil_of_mem (fun v => (hFF v).symm) rfl) hF
    | round hF' k1 k2 hl =>
      obtain ⟨rfl, hm⟩ := layer_det hG hn hFF hs h1 h2 k1 k2
      obtain ⟨e1, e2⟩ := ih hm (det_layer hG hn hs h1 h2).2.1 hl
      exact ⟨e1, by rw [e2]⟩

theorem douter_det {G : Gr W} (hG : G.Ok) (hn : G.n ≤ none32) {k k' i : Nat} {m m1 m2 : Loc → Nat} (hs : Sync m)
    (h : DOuter G k i m m1) (h' : DOuter G k' i m m2) : m1 = m2 ∧ k = k' := by
  induction h generalizing k' m2 with
  | done m =>
    cases h' with
    | done => exact ⟨rfl, rfl⟩
    | seen hi => exact absurd hi (Nat.lt_irrefl _)
    | bfs hi => exact absurd hi (Nat.lt_irrefl _)
  | seen hi hu _ ih =>
    cases h' with
    | done => exact absurd hi (Nat.lt_irrefl _)
    | seen _ _ hl => exact ih hs hl
    | bfs _ h => exact absurd h hu
  | @bfs k1 k2 i m n1 n2 hi hu hb _ ih =>
    cases h' with
    | done => exact absurd hi (Nat.lt_irrefl _)
    | seen _ h => exact absurd hu h
    | bfs _ _ hb' hl =>
      have hst := sync_start hs (show i ≠ none32 by omega)
      obtain ⟨rfl, rfl⟩ := dloop_det hG hn (fun _ => Iff.rfl) hst hb hb'
      obtain ⟨rfl, rfl⟩ := ih (dloop_search hG hn hb hst).2 hl
      exact ⟨rfl, rfl⟩

/-- C86: any two executions of `SpanningForestDet` return the same list. -/
theorem det_unique {G : Gr W} (hG : G.Ok) (hn : G.n ≤ none32) {k k' : Nat} {es es' : List (Nat × Nat)}
    (h : SpanningForestDet G k es) (h' : SpanningForestDet G k' es') : es = es' ∧ k = k' := by
  obtain ⟨m, hm, rfl⟩ := h
  obtain ⟨m', hm', rfl⟩ := h'
  obtain ⟨rfl, rfl⟩ := douter_det hG hn sync_init hm hm'
  exact ⟨rfl, rfl⟩

theorem dloop_exists {G : Gr W} (hG : G.Ok) (hn : G.n ≤ none32) (m : Loc → Nat) (F : List Nat) (hs : Sync m) :
    ∃ k m', DLoop G k m F m' := by
  generalize hc : unset G.n (fun v => m (.par v)) + (if F = [] then 0 else 1) = c
  induction c using Nat.strongRecOn generalizing m F with
  | _ c ih =>
    by_cases hF : F = []
    · subst hF; exact ⟨0, m, .done m⟩
    · rw [if_neg hF] at hc
      obtain ⟨m1, o1, h1⟩ := edgeMap_exists (F := (minF 1 : Func W Loc Nat Unit)) (fun d m => ⟨_, rfl⟩)
        (fun s d w m => by
          show ∃ r, exec ((if s < m (.par d) then cas (.par d) (m (.par d)) s fun r => if r then ret true else stuck
            else ret false).bind fun _ => ret none) m = some r
          by_cases hlt : s < m (.par d)
          · rw [if_pos hlt]
            refine ⟨(none, put m (.par d) s), ?_⟩
            show (if m (.par d) = m (.par d) then _ else _) = _
            rw [if_pos rfl]; rfl
          · rw [if_neg hlt]; exact ⟨_, rfl⟩) hG (fun v => decide (v ∈ F)) m
      obtain ⟨m2, o, h2⟩ := edgeMap_exists (F := (winF : Func W Loc Nat Unit)) (fun d m => ⟨_, rfl⟩)
        (fun s d w m => by
          show ∃ r, exec (if m (.par d) = s then write (.vis d) 1 (ret (some ())) else ret none) m = some r
          split <;> exact ⟨_, rfl⟩) hG (fun v => decide (v ∈ F)) m1
      obtain ⟨hl, hs2, _⟩ := det_layer hG hn hs h1 h2
      obtain ⟨k, m', h⟩ := ih (unset G.n (fun v => m2 (.par v)) + (if o.map Prod.fst = [] then 0 else 1)) (by
        by_cases h1 : o.map Prod.fst = []
        · rw [if_pos h1]; have := hl.le hG hn; omega
        · rw [if_neg h1]; have := hl.less hG hn h1; omega) m2 (o.map Prod.fst) hs2 rfl
      exact ⟨k + 1, m', .round hF h1 h2 h⟩

theorem douter_exists {G : Gr W} (hG : G.Ok) (hn : G.n ≤ none32) (j : Nat) :
    ∀ i m, Sync m → i + j = G.n → ∃ k m', DOuter G k i m m' := by
  induction j with
  | zero => rintro i m _ rfl; exact ⟨0, m, .done m⟩
  | succ j ih =>
    intro i m hs hij
    by_cases hu : m (.par i) = none32
    · have hst := sync_start hs (show i ≠ none32 by omega)
      obtain ⟨k, m1, h⟩ := dloop_exists hG hn _ [i] hst
      obtain ⟨k', m', h'⟩ := ih (i + 1) m1 (dloop_search hG hn h hst).2 (by omega)
      exact ⟨_, _, .bfs (by omega) hu h h'⟩
    · obtain ⟨k', m', h'⟩ := ih (i + 1) m hs (by omega)
      exact ⟨_, _, .seen (by omega) hu h'⟩

theorem det_sf_exists {G : Gr W} (hG : G.Ok) (hn : G.n ≤ none32) : ∃ k es, SpanningForestDet G k es := by
  obtain ⟨k, m, h⟩ := douter_exists hG hn G.n 0 dinit sync_init (by omega)
  exact ⟨k, _, m, h, rfl⟩

/-! ### Example: a cycle with a self-loop, and an edge -/

def exG : Gr Unit :=
  let l := [[(0, ()), (1, ()), (2, ())], [(0, ()), (3, ())], [(0, ()), (3, ())], [(1, ()), (2, ())], [(5, ())], [(4, ())]]
  Gr.ofLists l l

theorem exG_ok : exG.Ok := Gr.ofLists_ok (by decide)

theorem exG_sym : ∀ u v, Adj exG u v → Adj exG v u := by
  rintro u v ⟨w, h⟩
  exact ⟨w, (exG_ok.same u v w).1 h⟩

theorem exG_n : exG.n ≤ none32 := by decide

example : ∃ k es, SpanningForest exG k es ∧ IsSF (Adj exG) es := by
  obtain ⟨k, es, h⟩ := bfs_sf_exists exG_ok exG_n
  exact ⟨k, es, h, (bfs_sf exG_ok exG_n exG_sym h).1⟩

theorem exG_run : ∃ k m, DOuter exG k 0 dinit m ∧ toEdges 6 (fun v => m (.par v)) = [(1, 0), (2, 0), (3, 1), (5, 4)] := by
  refine ⟨_, _, .bfs (by decide) rfl
    (.round (by simp [emit]) (edgeMap_seq (F := minF 1) _ (mem_activeEdges exG_ok) rfl) (edgeMap_seq _ (mem_activeEdges exG_ok) rfl)
      (.round (by simp [emit]) (edgeMap_seq (F := minF 1) _ (mem_activeEdges exG_ok) rfl) (edgeMap_seq _ (mem_activeEdges exG_ok) rfl)
        (.round (by simp [emit]) (edgeMap_seq (F := minF 1) _ (mem_activeEdges exG_ok) rfl) (edgeMap_seq _ (mem_activeEdges exG_ok) rfl)
          (.done _))))
    (.seen (by decide) (by decide) (.seen (by decide) (by decide) (.seen (by decide) (by decide)
      (.bfs (by decide) rfl
        (.round (by simp [emit]) (edgeMap_seq (F := minF 1) _ (mem_activeEdges exG_ok) rfl) (edgeMap_seq _ (mem_activeEdges exG_ok) rfl)
          (.round (by simp [emit]) (edgeMap_seq (F := minF 1) _ (mem_activeEdges exG_ok) rfl) (edgeMap_seq _ (mem_activeEdges exG_ok) rfl)
            (.done _)))
        (.seen (by decide) (by decide) (.done _)))))), by decide⟩

/-- The deterministic algorithm gives vertex 3, which has the neighbours 1 and 2 in the previous layer, the parent 1. -/
example : ∀ k es, SpanningForestDet exG k es → es = [(1, 0), (2, 0), (3, 1), (5, 4)] := by
  intro k es h
  obtain ⟨k', m, h1, h2⟩ := exG_run
  rw [← h2]
  exact (det_unique exG_ok exG_n h ⟨m, h1, rfl⟩).1

end Gbbs.BFSSF
