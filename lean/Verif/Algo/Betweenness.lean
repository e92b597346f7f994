/-
`SSBetweennessCentrality`, `benchmarks/SSBetweenessCentrality/Brandes/SSBetweennessCentrality.h:36-157`. Doubles are modelled by exact
rationals.
-/
import Verif.Algo.PageRank

namespace Gbbs.Bc

open Gbbs.Em Finset
open Gbbs.PageRank (mult Fl sum_range_list)

variable {W : Type}

/-! ### Specification -/

/-- Number of walks with `k` edges from `s` to `t`. -/
def walks (G : Gr W) : Nat → Nat → Nat → Nat
  | 0, s, t => if s = t then 1 else 0
  | k + 1, s, t => ∑ u ∈ range G.n, walks G k s u * mult G u t

open Classical in
/-- Number of edges of a shortest path. -/
noncomputable def dist (G : Gr W) (s t : Nat) : Option Nat :=
  if h : ∃ k, 0 < walks G k s t then some (Nat.find h) else none

/-- Number of shortest paths from `s` to `t`. -/
noncomputable def paths (G : Gr W) (s t : Nat) : Nat := match dist G s t with
  | some e => walks G e s t
  | none => 0

/-- Number of shortest paths from `s` to `t` through `v`: they are at `v` after as many edges as `v` is far from `s`. -/
noncomputable def through (G : Gr W) (s v t : Nat) : Nat := match dist G s v, dist G s t with
  | some d, some e => if d ≤ e then walks G d s v * walks G (e - d) v t else 0
  | _, _ => 0

/-- The dependency of `s` on `v`: over all targets `t` other than `v`, the fraction of the shortest paths from `s` to `t` that pass `v`. -/
noncomputable def dependency (G : Gr W) (s v : Nat) : ℚ :=
  ∑ t ∈ range G.n, if t = v then 0 else (through G s v t : ℚ) / paths G s t

/-! ### Model -/

/-- `SSBetweennessCentrality_F`, `SSBetweennessCentrality.h:36-53`, with the array `Visited`. -/
def bcK (vis : Nat → Bool) : AccP W Nat ℚ where
  src s := s
  dst d := d
  val _ x := x
  c d := !vis d
  q x := decide (x = 0)

/-- The flag `in_edges`: the edges in the other direction. -/
def rev (G : Gr W) : Gr W := ⟨G.n, G.bwd, G.fwd⟩

/-- `Visited` after `vertexMap` over a frontier. -/
def mark (vis : Nat → Bool) (fr : List Nat) : Nat → Bool := fun v => vis v || decide (v ∈ fr)

/-- The forward phase, `SSBetweennessCentrality.h:115-131` (the same loop at `:259-272` and `:359-378`), from a frontier: `NumPaths`,
`Visited`, `Frontier`, then the levels pushed (without the last, empty one) and the final `NumPaths`. `R` is one round; `S` is the type
of the array `Visited`. -/
inductive Fwd {S : Type} (R : S → List Nat → (Nat → ℚ) → S → (Nat → ℚ) → List Nat → Prop) :
    (Nat → ℚ) → S → List Nat → List (List Nat) → (Nat → ℚ) → Prop
  | done (m vis) : Fwd R m vis [] [] m
  | round (m vis fr vis' m' o lv mf) (hne : fr ≠ []) (h : R vis fr m vis' m' o) (h' : Fwd R m' vis' o lv mf) :
      Fwd R m vis fr (fr :: lv) mf

/-- `SSBetweennessCentrality_Back_Vertex_F` over a frontier, `SSBetweennessCentrality.h:77-89`: `Dependencies` afterwards. `NumPaths` was
inverted (`:138-139`); it is not 0 for the vertices of frontiers (`levels_pos`). -/
def addInv (np : Nat → ℚ) (fr : List Nat) (dp : Nat → ℚ) : Nat → ℚ := fun v => if v ∈ fr then dp v + 1 / np v else dp v

/-- The loop of the backward phase, `SSBetweennessCentrality.h:147-154` (and `:293-304`, `:439-445`): `lv` are the levels still to come,
the nearest first. `R vis fr fr' dp dp'` is what happens in a round before the `vertexMap` over the next level `fr'`. -/
inductive Bwd (R : (Nat → Bool) → List Nat → List Nat → (Nat → ℚ) → (Nat → ℚ) → Prop) (np : Nat → ℚ) :
    List (List Nat) → List Nat → (Nat → Bool) → (Nat → ℚ) → (Nat → ℚ) → Prop
  | done (fr vis dp) : Bwd R np [] fr vis dp dp
  | round (fr' lv fr vis dp dp' df) (h : R vis fr fr' dp dp') (h' : Bwd R np lv fr' (mark vis fr') (addInv np fr' dp') df) :
      Bwd R np (fr' :: lv) fr vis dp df

/-- Both phases, from the state `v0` of `Visited`. The result of a vertex with `NumPaths` 0 is `(x - inf) / inf`, not a number:
`none`. -/
def Run {S : Type} (Rf : S → List Nat → (Nat → ℚ) → S → (Nat → ℚ) → List Nat → Prop)
    (Rb : (Nat → Bool) → List Nat → List Nat → (Nat → ℚ) → (Nat → ℚ) → Prop) (v0 : S) (start : Nat) (r : Nat → Fl) : Prop :=
  ∃ lv np fr rest df, Fwd Rf (fun v => if v = start then 1 else 0) v0 [start] lv np ∧
    lv.reverse = fr :: rest ∧ Bwd Rb np rest fr (fun v => decide (v ∈ fr)) (addInv np fr fun _ => 0) df ∧
    ∀ v, r v = if np v = 0 then none else some ((df v - 1 / np v) / (1 / np v))

/-- A forward round of `SSBetweennessCentrality`, `SSBetweennessCentrality.h:121-127`. The `edgeMap` takes any traversal and any
interleaving. `f` bounds the retries of `fetch_and_add`. -/
def fwdEM (G : Gr W) (f : Nat) (vis : Nat → Bool) (fr : List Nat) (m : Nat → ℚ) (vis' : Nat → Bool) (m' : Nat → ℚ) (o : List Nat) : Prop :=
  ∃ o', EdgeMapX (accF f (bcK vis)) G (fun v => decide (v ∈ fr)) m m' o' ∧ o = o'.map Prod.fst ∧ vis' = mark vis o

/-- A backward round, `SSBetweennessCentrality.h:150-151`. -/
def bwdEM (G : Gr W) (f : Nat) (vis : Nat → Bool) (fr _fr' : List Nat) (dp dp' : Nat → ℚ) : Prop :=
  ∃ o, EdgeMapX (accF f (bcK vis)) (rev G) (fun v => decide (v ∈ fr)) dp dp' o

/-- `SSBetweennessCentrality(G, start)`, `SSBetweennessCentrality.h:98-157`. -/
def SSBC (G : Gr W) (f : Nat) (start : Nat) (r : Nat → Fl) : Prop :=
  Run (fwdEM G f) (bwdEM G f) (fun v => decide (v = start)) start r

/-- The sum over the finished neighbours in `l`. -/
def finSum (fin : Nat → Bool) (val : Nat → ℚ) (l : List (Nat × W)) : ℚ := (l.map fun x => if fin x.1 then val x.1 else 0).sum

/-- `BFS_F`, `SSBetweennessCentrality.h:318-332`. -/
def bfsF : Func W Nat Nat Unit where
  cond d := .read d fun x => .ret (x == 0)
  updA _ d _ := .cas d 0 1 fun b => .ret (if b then some () else none)
  upd _ d _ := .write d 1 (.ret (some ()))

/-- A forward round of `SSBetweennessCentrality_BFS`, `SSBetweennessCentrality.h:361-376`: the next frontier is found by `edgeMap`; then
its vertices add up the values of their finished (2) in-neighbours. The vertices written have `Visited` 1, so no value read there is
written in the same step. -/
def fwdBFS (G : Gr W) (vis : Nat → Nat) (fr : List Nat) (m : Nat → ℚ) (vis' : Nat → Nat) (m' : Nat → ℚ) (o : List Nat) : Prop :=
  ∃ v1 o', EdgeMap bfsF G (fun v => decide (v ∈ fr)) vis v1 o' ∧ o = o'.map Prod.fst ∧
    (∀ v, m' v = if v ∈ o then finSum (fun u => v1 u == 2) m (G.bwd v) else m v) ∧ ∀ v, vis' v = if v ∈ o then 2 else v1 v

/-- A backward round, `SSBetweennessCentrality.h:440-442`. -/
def bwdBFS (G : Gr W) (vis : Nat → Bool) (_fr fr' : List Nat) (dp dp' : Nat → ℚ) : Prop :=
  ∀ v, dp' v = if v ∈ fr' then finSum vis dp (G.fwd v) else dp v

/-- `SSBetweennessCentrality_BFS(G, start)`, `SSBetweennessCentrality.h:334-453`. -/
def SSBCbfs (G : Gr W) (start : Nat) (r : Nat → Fl) : Prop :=
  Run (fwdBFS G) (bwdBFS G) (fun v => if v = start then 2 else 0) start r

/-- The dense branch of `sparse_fa_dense_em`, `SSBetweennessCentrality.h:189-224`, with `edgeMapReduce_dense` (`edge_map_reduce.h:326-381`):
every unvisited vertex adds up the values of all its neighbours `nb`, also of those outside the frontier, into `Storage`; then
`Storage` is copied. Returns the vertices with a positive sum. -/
def denseEM (G : Gr W) (nb : Nat → List (Nat × W)) (vis : Nat → Bool) (m m' : Nat → ℚ) (o : List Nat) : Prop :=
  (∀ v, v ∈ o ↔ v < G.n ∧ vis v = false ∧ 0 < finSum (fun _ => true) m (nb v)) ∧
    ∀ v, m' v = if v < G.n ∧ vis v = false ∧ 0 < finSum (fun _ => true) m (nb v) then finSum (fun _ => true) m (nb v) else m v

/-- A forward round of `SSBetweennessCentrality_EM`, `SSBetweennessCentrality.h:264-270`. Which branch is taken depends on a sum of degrees
(of the wrong vertices); both are allowed here in every round. -/
def fwdEMD (G : Gr W) (f : Nat) (vis : Nat → Bool) (fr : List Nat) (m : Nat → ℚ) (vis' : Nat → Bool) (m' : Nat → ℚ) (o : List Nat) : Prop :=
  fwdEM G f vis fr m vis' m' o ∨ denseEM G G.bwd vis m m' o ∧ vis' = mark vis o

/-- A backward round, `SSBetweennessCentrality.h:299-300`. -/
def bwdEMD (G : Gr W) (f : Nat) (vis : Nat → Bool) (fr fr' : List Nat) (dp dp' : Nat → ℚ) : Prop :=
  bwdEM G f vis fr fr' dp dp' ∨ ∃ o, denseEM G G.fwd vis dp dp' o

/-- `SSBetweennessCentrality_EM(G, start)`, `SSBetweennessCentrality.h:233-312`. `none`: it prints `NumPaths[0..99]` (`:276-278`), out of
bounds when there are fewer than 100 vertices. -/
def SSBCem (G : Gr W) (f : Nat) (start : Nat) (r : Option (Nat → Fl)) : Prop :=
  if 100 ≤ G.n then ∃ r', r = some r' ∧ Run (fwdEMD G f) (bwdEMD G f) (fun v => decide (v = start)) start r'
  else r = none ∧ ∃ lv np, Fwd (fwdEMD G f) (fun v => if v = start then 1 else 0) (fun v => decide (v = start)) [start] lv np

/-! ### Walks and distances -/

theorem mult_lt {G : Gr W} (hG : G.Ok) {u t : Nat} (h : 0 < mult G u t) : u < G.n ∧ t < G.n := by
  unfold mult at h
  rw [List.countP_pos_iff] at h
  obtain ⟨x, hx, hxt⟩ := h
  have := hG.bound u x.1 x.2 hx
  simp only [decide_eq_true_eq] at hxt
  exact ⟨this.1, hxt ▸ this.2⟩

theorem walks_snoc {G : Gr W} (hG : G.Ok) {k s u t : Nat} (h : 0 < walks G k s u) (hm : 0 < mult G u t) : 0 < walks G (k + 1) s t := by
  have h1 := single_le_sum (f := fun u => walks G k s u * mult G u t) (fun _ _ => Nat.zero_le _) (mem_range.2 (mult_lt hG hm).1)
  have h2 : 0 < walks G k s u * mult G u t := Nat.mul_pos h hm
  exact Nat.lt_of_lt_of_le h2 h1

theorem walks_snoc_inv {G : Gr W} {k s t : Nat} (h : 0 < walks G (k + 1) s t) : ∃ u < G.n, 0 < walks G k s u ∧ 0 < mult G u t := by
  have h : 0 < ∑ u ∈ range G.n, walks G k s u * mult G u t := h
  obtain ⟨u, hu, h1⟩ := exists_ne_zero_of_sum_ne_zero h.ne'
  exact ⟨u, mem_range.1 hu, Nat.pos_of_ne_zero fun h0 => h1 (by rw [h0, zero_mul]), Nat.pos_of_ne_zero fun h0 => h1 (by rw [h0, mul_zero])⟩

theorem walks_lt {G : Gr W} (hG : G.Ok) {k s t : Nat} (hs : s < G.n) (h : 0 < walks G k s t) : t < G.n := by
  cases k with
  | zero =>
    unfold walks at h
    split at h
    · omega
    · omega
  | succ k =>
    obtain ⟨u, _, _, h2⟩ := walks_snoc_inv h
    exact (mult_lt hG h2).2

/-- A walk, split after the first edge. -/
theorem walks_cons {G : Gr W} (hG : G.Ok) (k s t : Nat) : walks G (k + 1) s t = ∑ w ∈ range G.n, mult G s w * walks G k w t := by
  induction k generalizing t with
  | zero =>
    show ∑ u ∈ range G.n, (if s = u then 1 else 0) * mult G u t = ∑ w ∈ range G.n, mult G s w * (if w = t then 1 else 0)
    simp only [ite_mul, one_mul, zero_mul, mul_ite, mul_one, mul_zero]
    rw [sum_ite_eq, sum_ite_eq']
    by_cases h : 0 < mult G s t
    · have := mult_lt hG h
      simp [this.1, this.2]
    · have : mult G s t = 0 := by omega
      simp [this]
  | succ k ih =>
    show ∑ u ∈ range G.n, walks G (k + 1) s u * mult G u t = ∑ w ∈ range G.n, mult G s w * ∑ u ∈ range G.n, walks G k w u * mult G u t
    simp only [ih, sum_mul, mul_sum]
    rw [sum_comm]
    refine sum_congr rfl fun w _ => sum_congr rfl fun u _ => ?_
    ring

theorem walks_append {G : Gr W} (hG : G.Ok) {j k s u t : Nat} (h : 0 < walks G j s u) (h' : 0 < walks G k u t) : 0 < walks G (j + k) s t := by
  induction k generalizing t with
  | zero =>
    unfold walks at h'
    split at h'
    · rename_i he; rw [← he]; exact h
    · omega
  | succ k ih =>
    obtain ⟨w, _, h1, h2⟩ := walks_snoc_inv h'
    exact walks_snoc hG (ih h1) h2

open Classical in
theorem dist_some {G : Gr W} {s t d : Nat} : dist G s t = some d ↔ 0 < walks G d s t ∧ ∀ d' < d, walks G d' s t = 0 := by
  unfold dist
  constructor
  · intro h
    split at h
    · rename_i hx
      cases h
      exact ⟨Nat.find_spec hx, fun d' hd => Nat.eq_zero_of_not_pos fun hc => Nat.find_min hx hd hc⟩
    · cases h
  · rintro ⟨h1, h2⟩
    have hx : ∃ k, 0 < walks G k s t := ⟨d, h1⟩
    rw [dif_pos hx, Option.some.injEq]
    refine (Nat.find_eq_iff hx).2 ⟨h1, fun k hk => by rw [h2 k hk]; omega⟩

open Classical in
theorem dist_none {G : Gr W} {s t : Nat} : dist G s t = none ↔ ∀ k, walks G k s t = 0 := by
  unfold dist
  split
  · rename_i hx
    obtain ⟨k, hk⟩ := hx
    exact ⟨fun h => (by cases h), fun h => by rw [h k] at hk; omega⟩
  · rename_i hx
    exact ⟨fun _ k => Nat.eq_zero_of_not_pos fun hc => hx ⟨k, hc⟩, fun _ => rfl⟩

theorem dist_le {G : Gr W} {s t k : Nat} (h : 0 < walks G k s t) : ∃ d ≤ k, dist G s t = some d := by
  cases hd : dist G s t with
  | none => rw [dist_none.1 hd k] at h; omega
  | some d =>
    refine ⟨d, ?_, rfl⟩
    by_contra hc
    rw [(dist_some.1 hd).2 k (by omega)] at h; omega

theorem dist_self (G : Gr W) (s : Nat) : dist G s s = some 0 := by
  rw [dist_some]
  exact ⟨by simp [walks], fun d' h => by omega⟩

theorem dist_zero {G : Gr W} {s t : Nat} (h : dist G s t = some 0) : t = s := by
  have := (dist_some.1 h).1
  unfold walks at this
  split at this
  · rename_i he; exact he.symm
  · omega

/-- An edge leads at most one level up. -/
theorem dist_edge {G : Gr W} (hG : G.Ok) {s u t d : Nat} (h : dist G s u = some d) (hm : 0 < mult G u t) :
    ∃ e ≤ d + 1, dist G s t = some e := dist_le (walks_snoc hG (dist_some.1 h).1 hm)

theorem dist_pred {G : Gr W} (hG : G.Ok) {s t d : Nat} (h : dist G s t = some (d + 1)) : ∃ u < G.n, dist G s u = some d ∧ 0 < mult G u t := by
  obtain ⟨u, hu, h1, h2⟩ := walks_snoc_inv (dist_some.1 h).1
  obtain ⟨e, he, h3⟩ := dist_le h1
  obtain ⟨e', he', h4⟩ := dist_edge hG h3 h2
  rw [h] at h4
  cases h4
  have : e = d := by omega
  exact ⟨u, hu, this ▸ h3, h2⟩

/-- The shortest paths to a vertex, by their last edge. -/
theorem paths_step {G : Gr W} (hG : G.Ok) {s t d : Nat} (h : dist G s t = some (d + 1)) :
    walks G (d + 1) s t = ∑ u ∈ range G.n, if dist G s u = some d then walks G d s u * mult G u t else 0 := by
  show ∑ u ∈ range G.n, walks G d s u * mult G u t = _
  refine sum_congr rfl fun u _ => ?_
  split
  · rfl
  · rename_i hu
    by_contra hc
    have h1 : 0 < walks G d s u := Nat.pos_of_ne_zero fun h0 => hc (by rw [h0, zero_mul])
    have h2 : 0 < mult G u t := Nat.pos_of_ne_zero fun h0 => hc (by rw [h0, mul_zero])
    obtain ⟨e, he, h3⟩ := dist_le h1
    obtain ⟨e', he', h4⟩ := dist_edge hG h3 h2
    rw [h] at h4
    cases h4
    have : e = d := by omega
    exact hu (this ▸ h3)

/-- What the code accumulates: `(1 + dependency) / paths`. -/
noncomputable def hh (G : Gr W) (s : Nat) (d v : Nat) : ℚ :=
  ∑ t ∈ range G.n, match dist G s t with
    | some e => if d ≤ e then (walks G (e - d) v t : ℚ) / walks G e s t else 0
    | none => 0

theorem hh_step {G : Gr W} (hG : G.Ok) {s v d : Nat} (hv : v < G.n) (h : dist G s v = some d) :
    hh G s d v = 1 / walks G d s v + ∑ w ∈ range G.n, if dist G s w = some (d + 1) then (mult G v w : ℚ) * hh G s (d + 1) w else 0 := by
  have key : ∀ t ∈ range G.n, (match dist G s t with
      | some e => if d ≤ e then (walks G (e - d) v t : ℚ) / walks G e s t else 0
      | none => 0) = (if t = v then 1 / (walks G d s v : ℚ) else 0) +
        ∑ w ∈ range G.n, if dist G s w = some (d + 1) then (mult G v w : ℚ) * (match dist G s t with
          | some e => if d + 1 ≤ e then (walks G (e - (d + 1)) w t : ℚ) / walks G e s t else 0
          | none => 0) else 0 := by
    intro t _
    cases ht : dist G s t with
    | none =>
      have : t ≠ v := by rintro rfl; rw [h] at ht; cases ht
      simp [this]
    | some e =>
      dsimp only
      by_cases hle : d + 1 ≤ e
      · have htv : t ≠ v := by rintro rfl; rw [h] at ht; cases ht; omega
        rw [if_pos (by omega), if_neg htv, zero_add]
        obtain ⟨k, rfl⟩ : ∃ k, e = d + 1 + k := ⟨e - (d + 1), by omega⟩
        rw [show d + 1 + k - d = k + 1 by omega, walks_cons hG, Nat.cast_sum, sum_div]
        refine sum_congr rfl fun w _ => ?_
        rw [if_pos hle, show d + 1 + k - (d + 1) = k by omega]
        by_cases hw : dist G s w = some (d + 1)
        · rw [if_pos hw, Nat.cast_mul, mul_div_assoc]
        · rw [if_neg hw]
          have : mult G v w * walks G k w t = 0 := by
            by_contra hc
            have h1 : 0 < mult G v w := Nat.pos_of_ne_zero fun h0 => hc (by rw [h0, zero_mul])
            have h2 : 0 < walks G k w t := Nat.pos_of_ne_zero fun h0 => hc (by rw [h0, mul_zero])
            obtain ⟨j, hj, h3⟩ := dist_edge hG h h1
            obtain ⟨e', he', h4⟩ := dist_le (walks_append hG (dist_some.1 h3).1 h2)
            rw [ht] at h4
            cases h4
            have : j = d + 1 := by omega
            exact hw (this ▸ h3)
          rw [this]; simp
      · simp only [hle, if_false, mul_zero, ite_self, sum_const_zero, add_zero]
        by_cases hde : d ≤ e
        · have : e = d := by omega
          subst this
          rw [if_pos hde, Nat.sub_self]
          by_cases htv : t = v
          · subst htv; simp [walks]
          · rw [if_neg htv]
            have : walks G 0 v t = 0 := by unfold walks; rw [if_neg fun hc => htv hc.symm]
            rw [this]; simp
        · rw [if_neg hde, if_neg]
          rintro rfl
          rw [h] at ht; cases ht; exact hde (le_refl _)
  unfold hh
  rw [sum_congr rfl key, sum_add_distrib, sum_ite_eq', if_pos (mem_range.2 hv), sum_comm]
  congr 1
  refine sum_congr rfl fun w _ => ?_
  split
  · rw [mul_sum]
  · simp

/-- The result of the code, from what it accumulates. -/
theorem dependency_eq {G : Gr W} {s v d : Nat} (hv : v < G.n) (h : dist G s v = some d) :
    dependency G s v = (hh G s d v - 1 / walks G d s v) / (1 / walks G d s v) := by
  have hpos : (walks G d s v : ℚ) ≠ 0 := by
    have := (dist_some.1 h).1
    positivity
  have key : ∀ t ∈ range G.n, (if t = v then 0 else (through G s v t : ℚ) / paths G s t) = walks G d s v * ((match dist G s t with
      | some e => if d ≤ e then (walks G (e - d) v t : ℚ) / walks G e s t else 0
      | none => 0) - if t = v then 1 / (walks G d s v : ℚ) else 0) := by
    intro t _
    unfold through paths
    rw [h]
    by_cases htv : t = v
    · subst htv
      rw [if_pos rfl, if_pos rfl, h]
      simp [walks]
    · rw [if_neg htv, if_neg htv, sub_zero]
      cases ht : dist G s t with
      | none => simp
      | some e =>
        dsimp only
        split
        · rw [Nat.cast_mul, mul_div_assoc]
        · simp
  unfold dependency
  rw [sum_congr rfl key, ← mul_sum, sum_sub_distrib, sum_ite_eq', if_pos (mem_range.2 hv)]
  unfold hh
  field_simp

/-! ### The phases -/

theorem rev_ok {G : Gr W} (hG : G.Ok) : (rev G).Ok :=
  ⟨fun s d w => (hG.same d s w).symm, fun s d w h => (hG.bound d s w ((hG.same d s w).2 h)).symm⟩

theorem rev_once {G : Gr W} (hO : G.Once) : (rev G).Once := ⟨hO.bwd, hO.fwd⟩

/-- The additions of one round, grouped by source. -/
theorem sumTo_frontier (G : Gr W) (inF c : Nat → Bool) (v : Nat → ℚ) (d : Nat) :
    sumTo (activeEdges G inF) (fun e => v e.s) (fun e => c e.d = true) d =
      if c d then ∑ s ∈ range G.n, if inF s then v s * mult G s d else 0 else 0 := by
  rw [← sum_range_list]
  unfold sumTo activeEdges mult
  induction List.range G.n with
  | nil => simp
  | cons a l ih =>
    rw [List.map_cons, List.sum_cons, List.filter_cons]
    have key : ∀ l : List (Nat × W), sumTo (l.map fun x => (⟨a, x.1, x.2⟩ : Edge W)) (fun e => v e.s) (fun e => c e.d = true) d =
        if c d then v a * (l.countP fun x => decide (x.1 = d) : ℚ) else 0 := by
      intro l
      unfold sumTo
      induction l with
      | nil => simp
      | cons x l ih =>
        rw [List.map_cons, List.map_cons, List.sum_cons, ih, List.countP_cons]
        by_cases hx : x.1 = d
        · subst hx
          by_cases hc : c x.1 = true
          · simp [hc]; ring
          · simp [hc]
        · simp [hx]
    have key := key (G.fwd a)
    unfold sumTo at key
    by_cases ha : inF a = true
    · rw [if_pos ha, List.flatMap_cons, List.map_append, List.sum_append, ih, if_pos ha, key]
      split <;> ring
    · rw [if_neg ha, ih, if_neg ha, zero_add]

theorem bc_sep {G : Gr W} (hG : G.Ok) {vis inF : Nat → Bool} (h : ∀ v, inF v = true → vis v = true) :
    (bcK vis).Sep (activeEdges G inF) := by
  refine ⟨fun _ _ h => h, fun e e' he he' _ hc' hs => ?_⟩
  have h1 : vis e.s = true := h _ ((mem_activeEdges hG e).1 he).1
  have h2 : (!vis e'.d) = true := hc'
  have h3 : e.s = e'.d := hs
  rw [← h3, h1] at h2; cases h2

theorem mult_rev {G : Gr W} (hG : G.Ok) (hO : G.Once) (s d : Nat) : mult (rev G) s d = mult G d s := by
  classical
  unfold mult rev
  dsimp only
  rw [List.countP_eq_length_filter, List.countP_eq_length_filter]
  have hp : (((G.bwd s).filter fun x => decide (x.1 = d)).map fun x => (s, x.2)).Perm ((G.fwd d).filter fun x => decide (x.1 = s)) := by
    rw [List.perm_ext_iff_of_nodup _ ((hO.fwd d).filter _)]
    · rintro ⟨a, w⟩
      simp only [List.mem_map, List.mem_filter, decide_eq_true_eq]
      constructor
      · rintro ⟨x, ⟨h1, h2⟩, h3⟩
        cases h3
        subst h2
        exact ⟨(hG.same _ _ _).2 h1, rfl⟩
      · rintro ⟨h1, rfl⟩
        exact ⟨(d, w), ⟨(hG.same _ _ _).1 h1, rfl⟩, rfl⟩
    · refine List.Nodup.map_on (fun x hx y hy h => ?_) ((hO.bwd s).filter _)
      simp only [List.mem_filter, decide_eq_true_eq] at hx hy
      have h2 : x.2 = y.2 := (Prod.ext_iff.1 h).2
      exact Prod.ext (hx.2.trans hy.2.symm) h2
  rw [← hp.length_eq, List.length_map]

/-- A sum over the in-neighbours, by neighbour. -/
theorem finSum_bwd {G : Gr W} (hG : G.Ok) (hO : G.Once) (fin : Nat → Bool) (val : Nat → ℚ) (v : Nat) :
    finSum fin val (G.bwd v) = ∑ u ∈ range G.n, if fin u then val u * mult G u v else 0 := by
  have h1 : finSum fin val (G.bwd v) = ∑ u ∈ range G.n, mult (rev G) v u * if fin u then val u else 0 := by
    have hb : ∀ x ∈ G.bwd v, x.1 < G.n := fun x hx => (hG.bound x.1 v x.2 ((hG.same _ _ _).2 hx)).1
    unfold finSum mult rev
    dsimp only
    generalize G.bwd v = l at hb
    induction l with
    | nil => simp
    | cons x l ih =>
      rw [List.map_cons, List.sum_cons, ih fun y hy => hb y (List.mem_cons_of_mem _ hy)]
      simp only [List.countP_cons, Nat.cast_add, add_mul, sum_add_distrib]
      rw [add_comm]
      congr 1
      have h2 : ∀ u, (((if decide (x.1 = u) = true then 1 else 0 : Nat) : ℚ) * if fin u then val u else 0) =
          if x.1 = u then (if fin u then val u else 0) else 0 := by
        intro u
        by_cases h : x.1 = u <;> simp [h]
      simp only [h2]
      rw [sum_ite_eq, if_pos (mem_range.2 (hb x List.mem_cons_self))]
  rw [h1]
  refine sum_congr rfl fun u _ => ?_
  rw [mult_rev hG hO]
  split
  · ring
  · ring

theorem finSum_fwd {G : Gr W} (hG : G.Ok) (hO : G.Once) (fin : Nat → Bool) (val : Nat → ℚ) (v : Nat) :
    finSum fin val (G.fwd v) = ∑ u ∈ range G.n, if fin u then val u * mult G v u else 0 := by
  have := finSum_bwd (rev_ok hG) (rev_once hO) fin val v
  simp only [mult_rev hG hO] at this
  exact this

/-- The levels from `r` on. -/
def LevelsFrom (G : Gr W) (s : Nat) : Nat → List (List Nat) → Prop
  | r, [] => ∀ v, dist G s v ≠ some r
  | r, fr :: lv => (fr ≠ [] ∧ ∀ v, v ∈ fr ↔ dist G s v = some r) ∧ LevelsFrom G s (r + 1) lv

/-- The state of the forward phase before round `r`. -/
structure FwdInv (G : Gr W) (s r : Nat) (m : Nat → ℚ) (vis : Nat → Bool) (fr : List Nat) : Prop where
  seen : ∀ v, vis v = true ↔ ∃ d ≤ r, dist G s v = some d
  cur : ∀ v, v ∈ fr ↔ dist G s v = some r
  num : ∀ v d, d ≤ r → dist G s v = some d → m v = walks G d s v
  zero : ∀ v, vis v = false → m v = 0

/-- What a forward round has to do. -/
structure FOk (G : Gr W) (s r : Nat) (vis : Nat → Bool) (m m' : Nat → ℚ) (o : List Nat) : Prop where
  out : ∀ v, v ∈ o ↔ dist G s v = some (r + 1)
  same : ∀ v, dist G s v ≠ some (r + 1) → m' v = m v
  add : ∀ v, dist G s v = some (r + 1) → m' v = ∑ u ∈ range G.n, if dist G s u = some r then m u * mult G u v else 0

theorem FwdInv.unseen {G : Gr W} {s r : Nat} {m : Nat → ℚ} {vis : Nat → Bool} {fr : List Nat} (hi : FwdInv G s r m vis fr) {v d : Nat}
    (hd : r < d) (h : dist G s v = some d) : vis v = false := by
  rw [← Bool.not_eq_true]
  intro hc
  obtain ⟨e, he, h5⟩ := (hi.seen v).1 hc
  rw [h] at h5; cases h5; omega

theorem FwdInv.nonneg {G : Gr W} {s r : Nat} {m : Nat → ℚ} {vis : Nat → Bool} {fr : List Nat} (hi : FwdInv G s r m vis fr) (v : Nat) :
    0 ≤ m v := by
  cases hv : vis v with
  | false => rw [hi.zero v hv]
  | true =>
    obtain ⟨j, hj, hd⟩ := (hi.seen v).1 hv
    rw [hi.num v j hj hd]; positivity

/-- The predecessors of the next level that were seen are in the frontier. -/
theorem FwdInv.pred {G : Gr W} (hG : G.Ok) {s r : Nat} {m : Nat → ℚ} {vis : Nat → Bool} {fr : List Nat} (hi : FwdInv G s r m vis fr)
    {u v : Nat} (hv : vis v = false) (hu : vis u = true) (hm : 0 < mult G u v) : dist G s u = some r ∧ dist G s v = some (r + 1) := by
  obtain ⟨e, he, h5⟩ := (hi.seen u).1 hu
  obtain ⟨e', he', h6⟩ := dist_edge hG h5 hm
  have : ¬ e' ≤ r := fun hc => by
    rw [(hi.seen v).2 ⟨e', hc, h6⟩] at hv; cases hv
  have h1 : e' = r + 1 := by omega
  have h2 : e = r := by omega
  exact ⟨h2 ▸ h5, h1 ▸ h6⟩

theorem fwd_round {G : Gr W} (hG : G.Ok) {s r : Nat} {m m' : Nat → ℚ} {vis : Nat → Bool} {fr o : List Nat} (hi : FwdInv G s r m vis fr)
    (h : FOk G s r vis m m' o) : FwdInv G s (r + 1) m' (mark vis o) o := by
  refine ⟨fun v => ?_, h.out, fun v d hd hdv => ?_, fun v hv => ?_⟩
  · rw [mark, Bool.or_eq_true, hi.seen, decide_eq_true_eq, h.out]
    constructor
    · rintro (⟨d, hd, h⟩ | h)
      · exact ⟨d, by omega, h⟩
      · exact ⟨r + 1, le_refl _, h⟩
    · rintro ⟨d, hd, h⟩
      by_cases hle : d ≤ r
      · exact Or.inl ⟨d, hle, h⟩
      · have : d = r + 1 := by omega
        exact Or.inr (this ▸ h)
  · by_cases hle : d ≤ r
    · rw [h.same v fun hc => by rw [hdv] at hc; cases hc; omega, hi.num v d hle hdv]
    · have : d = r + 1 := by omega
      subst this
      rw [h.add v hdv, paths_step hG hdv, Nat.cast_sum]
      refine sum_congr rfl fun u _ => ?_
      split
      · rename_i hu; rw [hi.num u r (le_refl _) hu, Nat.cast_mul]
      · simp
  · rw [mark, Bool.or_eq_false_iff, decide_eq_false_iff_not, h.out] at hv
    rw [h.same v hv.2, hi.zero v hv.1]

theorem fwdEM_ok {G : Gr W} (hG : G.Ok) (hO : G.Once) {f s r : Nat} {m m' : Nat → ℚ} {vis vis' : Nat → Bool} {fr o : List Nat}
    (hi : FwdInv G s r m vis fr) (h : fwdEM G f vis fr m vis' m' o) : FOk G s r vis m m' o ∧ vis' = mark vis o := by
  obtain ⟨o', h, rfl, hv'⟩ := h
  refine ⟨?_, hv'⟩
  have hfv : ∀ v, decide (v ∈ fr) = true → vis v = true := fun v hv =>
    (hi.seen v).2 ⟨r, le_refl _, (hi.cur v).1 (of_decide_eq_true hv)⟩
  obtain ⟨h1, -, h3⟩ := acc_round G hG hO _ (bc_sep hG hfv) h
  have hu : (bcK vis).Up (activeEdges G fun v => decide (v ∈ fr)) m (fun x => 0 ≤ x) := by
    refine ⟨fun d => hi.nonneg d, fun e he _ x hx => ?_⟩
    have h4 : dist G s e.s = some r := (hi.cur _).1 (of_decide_eq_true ((mem_activeEdges hG e).1 he).1)
    have h5 : (0 : ℚ) < m e.s := by
      rw [hi.num _ r (le_refl _) h4]
      exact_mod_cast (dist_some.1 h4).1
    have h6 : (bcK (W := W) vis).v0 m e = m e.s := rfl
    rw [h6]
    refine ⟨by linarith, ?_⟩
    show decide (x + m e.s = 0) = false
    rw [decide_eq_false_iff_not]
    intro hc; linarith
  obtain ⟨-, h4⟩ := h3 ⟨_, hu⟩
  have hval : ∀ d, m' d = m d + if vis d then 0 else ∑ u ∈ range G.n, if dist G s u = some r then m u * mult G u d else 0 := by
    intro d
    have h5 : m' d = m d + sumTo (activeEdges G fun v => decide (v ∈ fr)) (fun e => m e.s) (fun e => (!vis e.d) = true) d := h1 d
    rw [h5, sumTo_frontier G (fun v => decide (v ∈ fr)) (fun d => !vis d) m d]
    congr 1
    cases vis d with
    | true => rfl
    | false =>
      simp only [Bool.not_false, if_true, Bool.false_eq_true, if_false]
      refine sum_congr rfl fun u _ => ?_
      by_cases hu : u ∈ fr
      · rw [if_pos (decide_eq_true hu), if_pos ((hi.cur u).1 hu)]
      · rw [if_neg (fun hc => hu (of_decide_eq_true hc)), if_neg fun hc => hu ((hi.cur u).2 hc)]
  refine ⟨fun v => ?_, fun v hv => ?_, fun v hv => ?_⟩
  · rw [h4]
    constructor
    · rintro ⟨_, hc, ⟨s', d', w⟩, he, rfl⟩
      have hc : (!vis d') = true := hc
      obtain ⟨ha, hb⟩ := (mem_activeEdges hG _).1 he
      have hm : 0 < mult G s' d' := List.countP_pos_iff.2 ⟨(d', w), hb, by simp⟩
      exact (hi.pred hG (by simpa using hc) (hfv _ ha) hm).2
    · intro hd
      have hv := hi.unseen (by omega) hd
      refine ⟨?_, ?_, ?_⟩
      · show decide (m v = 0) = true
        rw [hi.zero v hv]; simp
      · show (!vis v) = true
        rw [hv]; rfl
      · obtain ⟨u, _, h5, h6⟩ := dist_pred hG hd
        obtain ⟨x, hx, hxv⟩ := List.countP_pos_iff.1 h6
        simp only [decide_eq_true_eq] at hxv
        exact ⟨⟨u, x.1, x.2⟩, (mem_activeEdges hG _).2 ⟨decide_eq_true ((hi.cur u).2 h5), hx⟩, hxv⟩
  · rw [hval]
    cases hs : vis v with
    | true => simp
    | false =>
      rw [if_neg (by simp), sum_eq_zero, add_zero]
      intro u _
      split
      · rename_i hu
        by_cases hm : mult G u v = 0
        · rw [hm]; simp
        · exact absurd (hi.pred hG hs ((hi.seen u).2 ⟨r, le_refl _, hu⟩) (Nat.pos_of_ne_zero hm)).2 hv
      · rfl
  · have hs := hi.unseen (by omega) hv
    rw [hval, hi.zero v hs, hs, if_neg (by simp), zero_add]

/-- The levels form an initial segment. -/
theorem dist_bound {G : Gr W} (hG : G.Ok) {s r : Nat} (hno : ∀ v, dist G s v ≠ some r) : ∀ d v, dist G s v = some d → d < r := by
  have : ∀ k v, dist G s v ≠ some (r + k) := by
    intro k
    induction k with
    | zero => exact hno
    | succ k ih =>
      intro v hv
      obtain ⟨u, _, h1, _⟩ := dist_pred hG hv
      exact ih u h1
  intro d v hv
  by_contra hc
  obtain ⟨k, rfl⟩ : ∃ k, d = r + k := ⟨d - r, by omega⟩
  exact this k v hv

/-- `J r m vis fr`: an invariant of the rounds that implies `FwdInv` for the boolean view `ab vis`. -/
theorem fwd_inv {S : Type} {R : S → List Nat → (Nat → ℚ) → S → (Nat → ℚ) → List Nat → Prop} {G : Gr W} (hG : G.Ok) {s : Nat}
    (J : Nat → (Nat → ℚ) → S → List Nat → Prop) (ab : S → Nat → Bool) (hab : ∀ r m vis fr, J r m vis fr → FwdInv G s r m (ab vis) fr)
    (hst : ∀ r m vis fr vis' m' o, J r m vis fr → R vis fr m vis' m' o → J (r + 1) m' vis' o) {r : Nat} {m mf : Nat → ℚ} {vis : S}
    {fr : List Nat} {lv : List (List Nat)} (hi : J r m vis fr) (h : Fwd R m vis fr lv mf) :
    LevelsFrom G s r lv ∧ (∀ v d, dist G s v = some d → mf v = walks G d s v) ∧ ∀ v, dist G s v = none → mf v = 0 := by
  induction h generalizing r with
  | done m vis =>
    have hi := hab _ _ _ _ hi
    have hno : ∀ v, dist G s v ≠ some r := fun v hv => by have := (hi.cur v).2 hv; cases this
    refine ⟨hno, fun v d hd => hi.num v d (by have := dist_bound hG hno d v hd; omega) hd, fun v hv => hi.zero v ?_⟩
    rw [← Bool.not_eq_true]
    intro hc
    obtain ⟨e, _, h5⟩ := (hi.seen v).1 hc
    rw [hv] at h5; cases h5
  | round m vis fr vis' m' o lv mf hne h h' ih =>
    obtain ⟨h1, h2⟩ := ih (hst _ _ _ _ _ _ _ hi h)
    exact ⟨⟨⟨hne, (hab _ _ _ _ hi).cur⟩, h1⟩, h2⟩

theorem fwd_start (G : Gr W) (s : Nat) : FwdInv G s 0 (fun v => if v = s then 1 else 0) (fun v => decide (v = s)) [s] := by
  have h0 : ∀ v, v = s ↔ dist G s v = some 0 := fun v => ⟨fun h => h ▸ dist_self G s, dist_zero⟩
  refine ⟨fun v => ?_, fun v => ?_, fun v d hd hdv => ?_, fun v hv => ?_⟩
  · rw [decide_eq_true_eq]
    constructor
    · rintro rfl; exact ⟨0, le_refl _, dist_self G v⟩
    · rintro ⟨d, hd, h⟩
      obtain rfl : d = 0 := by omega
      exact dist_zero h
  · rw [List.mem_singleton, h0]
  · obtain rfl : d = 0 := by omega
    have := dist_zero hdv
    subst this
    simp [walks]
  · rw [decide_eq_false_iff_not] at hv
    exact if_neg hv

/-! ### Backward phase -/

/-- The levels below `r`, the nearest first. -/
def LevelsTo (G : Gr W) (s : Nat) : Nat → List (List Nat) → Prop
  | r, [] => r = 0
  | r, fr :: lv => ∃ q, r = q + 1 ∧ (∀ v, v ∈ fr ↔ dist G s v = some q) ∧ LevelsTo G s q lv

theorem levels_rev {G : Gr W} {s : Nat} (lv : List (List Nat)) : ∀ r acc, LevelsFrom G s r lv → LevelsTo G s r acc →
    LevelsTo G s (r + lv.length) (lv.reverse ++ acc) ∧ ∀ v, dist G s v ≠ some (r + lv.length) := by
  induction lv with
  | nil => intro r acc h h'; exact ⟨h', h⟩
  | cons fr lv ih =>
    intro r acc h h'
    have := ih (r + 1) (fr :: acc) h.2 ⟨r, rfl, h.1.2, h'⟩
    rw [List.reverse_cons, List.append_assoc, List.length_cons, show r + (lv.length + 1) = r + 1 + lv.length by omega]
    exact this

/-- The state of the backward phase when level `r` has been finished. -/
structure BwdInv (G : Gr W) (s r : Nat) (dp : Nat → ℚ) (vis : Nat → Bool) (fr : List Nat) : Prop where
  seen : ∀ v, vis v = true ↔ ∃ d, r ≤ d ∧ dist G s v = some d
  cur : ∀ v, v ∈ fr ↔ dist G s v = some r
  high : ∀ v d, r ≤ d → dist G s v = some d → dp v = hh G s d v
  low : ∀ v d, d < r → dist G s v = some d → dp v = 0

/-- What a backward round has to do, before the `vertexMap` over level `r`. -/
structure BOk (G : Gr W) (s r : Nat) (dp dp' : Nat → ℚ) : Prop where
  same : ∀ v d, d ≠ r → dist G s v = some d → dp' v = dp v
  add : ∀ v, dist G s v = some r → dp' v = ∑ w ∈ range G.n, if dist G s w = some (r + 1) then dp w * mult G v w else 0

theorem BwdInv.unseen {G : Gr W} {s r : Nat} {dp : Nat → ℚ} {vis : Nat → Bool} {fr : List Nat} (hi : BwdInv G s r dp vis fr) {v d : Nat}
    (hd : d < r) (h : dist G s v = some d) : vis v = false := by
  rw [← Bool.not_eq_true]
  intro hc
  obtain ⟨e, he, h5⟩ := (hi.seen v).1 hc
  rw [h] at h5; cases h5; omega

theorem bwd_round {G : Gr W} (hG : G.Ok) {s r : Nat} (hs : s < G.n) {np dp dp' : Nat → ℚ} {vis : Nat → Bool} {fr fr' : List Nat}
    (hnp : ∀ v d, dist G s v = some d → np v = walks G d s v) (hi : BwdInv G s (r + 1) dp vis fr)
    (hfr : ∀ v, v ∈ fr' ↔ dist G s v = some r) (h : BOk G s r dp dp') :
    BwdInv G s r (addInv np fr' dp') (mark vis fr') fr' := by
  refine ⟨fun v => ?_, hfr, fun v d hd hdv => ?_, fun v d hd hdv => ?_⟩
  · rw [mark, Bool.or_eq_true, hi.seen, decide_eq_true_eq, hfr]
    constructor
    · rintro (⟨d, hd, h⟩ | h)
      · exact ⟨d, by omega, h⟩
      · exact ⟨r, le_refl _, h⟩
    · rintro ⟨d, hd, h⟩
      by_cases hle : r + 1 ≤ d
      · exact Or.inl ⟨d, hle, h⟩
      · have : d = r := by omega
        exact Or.inr (this ▸ h)
  · unfold addInv
    by_cases hle : r + 1 ≤ d
    · have hnf : v ∉ fr' := fun hc => by
        have := (hfr v).1 hc
        rw [hdv] at this; cases this; omega
      rw [if_neg hnf, h.same v d (by omega) hdv, hi.high v d hle hdv]
    · obtain rfl : d = r := by omega
      rw [if_pos ((hfr v).2 hdv), h.add v hdv, hnp v d hdv, hh_step hG (walks_lt hG hs (dist_some.1 hdv).1) hdv, add_comm]
      congr 1
      refine sum_congr rfl fun w _ => ?_
      split
      · rename_i hw; rw [hi.high w (d + 1) (le_refl _) hw, mul_comm]
      · rfl
  · unfold addInv
    have hnf : v ∉ fr' := fun hc => by
      have := (hfr v).1 hc
      rw [hdv] at this; cases this; omega
    rw [if_neg hnf, h.same v d (by omega) hdv, hi.low v d (by omega) hdv]

theorem bwdEM_ok {G : Gr W} (hG : G.Ok) (hO : G.Once) {f s r : Nat} {dp dp' : Nat → ℚ} {vis : Nat → Bool} {fr fr' : List Nat}
    (hi : BwdInv G s (r + 1) dp vis fr) (h : bwdEM G f vis fr fr' dp dp') : BOk G s r dp dp' := by
  obtain ⟨o, h⟩ := h
  have hfv : ∀ v, decide (v ∈ fr) = true → vis v = true := fun v hv =>
    (hi.seen v).2 ⟨r + 1, le_refl _, (hi.cur v).1 (of_decide_eq_true hv)⟩
  obtain ⟨h1, -, -⟩ := acc_round (rev G) (rev_ok hG) (rev_once hO) _ (bc_sep (rev_ok hG) hfv) h
  have hval : ∀ d, dp' d = dp d + if vis d then 0 else ∑ w ∈ range G.n, if dist G s w = some (r + 1) then dp w * mult G d w else 0 := by
    intro d
    have h5 : dp' d = dp d + sumTo (activeEdges (rev G) fun v => decide (v ∈ fr)) (fun e => dp e.s) (fun e => (!vis e.d) = true) d := h1 d
    rw [h5, sumTo_frontier (rev G) (fun v => decide (v ∈ fr)) (fun d => !vis d) dp d]
    congr 1
    cases vis d with
    | true => rfl
    | false =>
      simp only [Bool.not_false, if_true, Bool.false_eq_true, if_false]
      refine sum_congr rfl fun u _ => ?_
      rw [mult_rev hG hO]
      by_cases hu : u ∈ fr
      · rw [if_pos (decide_eq_true hu), if_pos ((hi.cur u).1 hu)]
      · rw [if_neg (fun hc => hu (of_decide_eq_true hc)), if_neg fun hc => hu ((hi.cur u).2 hc)]
  refine ⟨fun v d hd hdv => ?_, fun v hdv => ?_⟩
  · rw [hval]
    by_cases hle : r + 1 ≤ d
    · rw [(hi.seen v).2 ⟨d, hle, hdv⟩, if_pos rfl, add_zero]
    · rw [hi.unseen (by omega) hdv, if_neg (by simp), sum_eq_zero, add_zero]
      intro w _
      split
      · rename_i hw
        by_cases hm : mult G v w = 0
        · rw [hm]; simp
        · obtain ⟨e, he, h5⟩ := dist_edge hG hdv (Nat.pos_of_ne_zero hm)
          rw [hw] at h5; cases h5; omega
      · rfl
  · rw [hval, hi.low v r (by omega) hdv, hi.unseen (by omega) hdv, if_neg (by simp), zero_add]

theorem bwd_inv {R : (Nat → Bool) → List Nat → List Nat → (Nat → ℚ) → (Nat → ℚ) → Prop} {G : Gr W} (hG : G.Ok) {s : Nat} (hs : s < G.n)
    {np : Nat → ℚ} (hnp : ∀ v d, dist G s v = some d → np v = walks G d s v)
    (hst : ∀ r vis fr fr' dp dp', BwdInv G s (r + 1) dp vis fr → (∀ v, v ∈ fr' ↔ dist G s v = some r) → R vis fr fr' dp dp' → BOk G s r dp dp')
    {lv : List (List Nat)} {r : Nat} {fr : List Nat} {vis : Nat → Bool}
    {dp df : Nat → ℚ} (hl : LevelsTo G s r lv) (hi : BwdInv G s r dp vis fr) (h : Bwd R np lv fr vis dp df) :
    ∀ v d, dist G s v = some d → df v = hh G s d v := by
  induction h generalizing r with
  | done fr vis dp =>
    have : r = 0 := hl
    subst this
    exact fun v d h => hi.high v d (Nat.zero_le _) h
  | round fr' lv fr vis dp dp' df h h' ih =>
    obtain ⟨q, rfl, h1, h2⟩ := hl
    exact ih h2 (bwd_round hG hs hnp hi h1 (hst _ _ _ _ _ _ hi h1 h))

/-- The last level. -/
theorem bwd_start {G : Gr W} (hG : G.Ok) {s r : Nat} (hs : s < G.n) {np : Nat → ℚ} (hnp : ∀ v d, dist G s v = some d → np v = walks G d s v)
    {fr : List Nat} (hfr : ∀ v, v ∈ fr ↔ dist G s v = some r) (hno : ∀ v, dist G s v ≠ some (r + 1)) :
    BwdInv G s r (addInv np fr fun _ => 0) (fun v => decide (v ∈ fr)) fr := by
  have hno' : ∀ d v, dist G s v = some d → d ≤ r := fun d v h => by have := dist_bound hG hno d v h; omega
  refine ⟨fun v => ?_, hfr, fun v d hd hdv => ?_, fun v d hd hdv => ?_⟩
  · rw [decide_eq_true_eq, hfr]
    constructor
    · exact fun h => ⟨r, le_refl _, h⟩
    · rintro ⟨d, hd, h⟩
      have : d = r := by have := hno' d v h; omega
      exact this ▸ h
  · obtain rfl : d = r := by have := hno' d v hdv; omega
    rw [addInv, if_pos ((hfr v).2 hdv), zero_add, hnp v d hdv, hh_step hG (walks_lt hG hs (dist_some.1 hdv).1) hdv]
    rw [sum_eq_zero fun w _ => if_neg (hno w), add_zero]
  · rw [addInv, if_neg fun hc => ?_]
    have := (hfr v).1 hc
    rw [hdv] at this; cases this; omega

/-- Both phases. -/
theorem run_correct {S : Type} {Rf : S → List Nat → (Nat → ℚ) → S → (Nat → ℚ) → List Nat → Prop}
    {Rb : (Nat → Bool) → List Nat → List Nat → (Nat → ℚ) → (Nat → ℚ) → Prop} {G : Gr W} (hG : G.Ok) {start : Nat} (hs : start < G.n)
    (J : Nat → (Nat → ℚ) → S → List Nat → Prop) (ab : S → Nat → Bool) (hab : ∀ r m vis fr, J r m vis fr → FwdInv G start r m (ab vis) fr)
    (hst : ∀ r m vis fr vis' m' o, J r m vis fr → Rf vis fr m vis' m' o → J (r + 1) m' vis' o)
    (hst' : ∀ r vis fr fr' dp dp', BwdInv G start (r + 1) dp vis fr → (∀ v, v ∈ fr' ↔ dist G start v = some r) → Rb vis fr fr' dp dp' →
      BOk G start r dp dp') {v0 : S} (h0 : J 0 (fun v => if v = start then 1 else 0) v0 [start]) {r : Nat → Fl} (h : Run Rf Rb v0 start r) :
    (∀ v, (∃ d, dist G start v = some d) → r v = some (dependency G start v)) ∧ ∀ v, dist G start v = none → r v = none := by
  obtain ⟨lv, np, fr, rest, df, h1, h2, h3, h4⟩ := h
  obtain ⟨hl, hnp, hz⟩ := fwd_inv hG J ab hab hst h0 h1
  obtain ⟨hl2, hno⟩ := levels_rev lv 0 [] hl rfl
  rw [List.append_nil, h2] at hl2
  obtain ⟨q, hq, hfr, hrest⟩ := hl2
  rw [hq] at hno
  have hb := bwd_inv hG hs hnp hst' hrest (bwd_start hG hs hnp hfr hno) h3
  refine ⟨fun v ⟨d, hd⟩ => ?_, fun v hv => by rw [h4, hz v hv, if_pos rfl]⟩
  have hpos : (walks G d start v : ℚ) ≠ 0 := by
    have := (dist_some.1 hd).1
    positivity
  rw [h4, hnp v d hd, if_neg hpos, hb v d hd, dependency_eq (walks_lt hG hs (dist_some.1 hd).1) hd]

/-- C79, the part that holds: every run returns the dependency for every vertex reachable from the start, and not a number for the
others. -/
theorem bc_partial {G : Gr W} (hG : G.Ok) (hO : G.Once) {f start : Nat} (hs : start < G.n) {r : Nat → Fl} (h : SSBC G f start r) :
    (∀ v, (∃ d, dist G start v = some d) → r v = some (dependency G start v)) ∧ ∀ v, dist G start v = none → r v = none :=
  run_correct hG hs (FwdInv G start) id (fun _ _ _ _ h => h) (fun _ _ _ _ _ _ _ hi h => by
    obtain ⟨h1, h2⟩ := fwdEM_ok hG hO hi h
    rw [h2]; exact fwd_round hG hi h1) (fun _ _ _ _ _ _ hi _ h => bwdEM_ok hG hO hi h) (fwd_start G start) h

/-- The dependency on an unreachable vertex is 0. -/
theorem dependency_unreachable {G : Gr W} {s v : Nat} (h : dist G s v = none) : dependency G s v = 0 := by
  unfold dependency
  refine sum_eq_zero fun t _ => ?_
  unfold through
  rw [h]
  split <;> simp

/-- C79 holds exactly for graphs in which every vertex is reachable from the start. -/
theorem bc_iff {G : Gr W} (hG : G.Ok) (hO : G.Once) {f start : Nat} (hs : start < G.n) {r : Nat → Fl} (h : SSBC G f start r) :
    (∀ v < G.n, r v = some (dependency G start v)) ↔ ∀ v < G.n, dist G start v ≠ none := by
  obtain ⟨h1, h2⟩ := bc_partial hG hO hs h
  constructor
  · intro ha v hv hn
    have := ha v hv
    rw [h2 v hn] at this; cases this
  · intro ha v hv
    exact h1 v (Option.ne_none_iff_exists'.1 (ha v hv))

/-! ### Termination -/

/-- There are at most `n` levels. -/
theorem dist_card {G : Gr W} (hG : G.Ok) {s k : Nat} (hs : s < G.n) (h : ∀ d < k, ∃ v, dist G s v = some d) : k ≤ G.n := by
  choose! g hg using h
  have := card_le_card_of_injOn (s := range k) (t := range G.n) g
    (fun d hd => by
      have := hg d (by simpa using hd)
      simpa using walks_lt hG hs (dist_some.1 this).1)
    (fun a ha b hb hab => by
      have h3 := hg a (by simpa using ha)
      have h4 := hg b (by simpa using hb)
      rw [hab, h4] at h3
      exact (Option.some.inj h3).symm)
  simpa using this

theorem levels_bound {G : Gr W} (hG : G.Ok) {s : Nat} (hs : s < G.n) (lv : List (List Nat)) (h : LevelsFrom G s 0 lv) : lv.length ≤ G.n := by
  have key : ∀ lv r, LevelsFrom G s r lv → ∀ d, r ≤ d → d < r + lv.length → ∃ v, dist G s v = some d := by
    intro lv
    induction lv with
    | nil => intro r _ d h1 h2; rw [List.length_nil] at h2; omega
    | cons fr lv ih =>
      intro r h d h1 h2
      by_cases hd : d = r
      · obtain ⟨v, hv⟩ := List.exists_mem_of_ne_nil fr h.1.1
        exact ⟨v, hd ▸ (h.1.2 v).1 hv⟩
      · exact ih (r + 1) h.2 d (by omega) (by rw [List.length_cons] at h2; omega)
  exact dist_card hG hs fun d hd => key lv 0 h d (Nat.zero_le _) (by omega)

theorem levels_pos {G : Gr W} {s : Nat} {np : Nat → ℚ} (lv : List (List Nat)) {r : Nat} (h : LevelsFrom G s r lv)
    (hnp : ∀ v d, dist G s v = some d → np v = walks G d s v) : ∀ fr ∈ lv, ∀ v ∈ fr, 0 < np v := by
  induction lv generalizing r with
  | nil => intro fr hf; cases hf
  | cons fr lv ih =>
    intro fr' hf v hv
    rcases List.mem_cons.1 hf with rfl | hf
    · have := (h.1.2 v).1 hv
      rw [hnp v r this]
      exact_mod_cast (dist_some.1 this).1
    · exact ih h.2 fr' hf v hv

/-- Runs exist, if every round can be made. -/
theorem run_exists {S : Type} {Rf : S → List Nat → (Nat → ℚ) → S → (Nat → ℚ) → List Nat → Prop}
    {Rb : (Nat → Bool) → List Nat → List Nat → (Nat → ℚ) → (Nat → ℚ) → Prop} {G : Gr W} (hG : G.Ok) {s : Nat} (hs : s < G.n)
    (J : Nat → (Nat → ℚ) → S → List Nat → Prop) (ab : S → Nat → Bool) (hab : ∀ r m vis fr, J r m vis fr → FwdInv G s r m (ab vis) fr)
    (hst : ∀ r m vis fr vis' m' o, J r m vis fr → Rf vis fr m vis' m' o → J (r + 1) m' vis' o)
    (hex : ∀ vis fr m, ∃ vis' m' o, Rf vis fr m vis' m' o) (hex' : ∀ vis fr fr' dp, ∃ dp', Rb vis fr fr' dp dp')
    {v0 : S} (h0 : J 0 (fun v => if v = s then 1 else 0) v0 [s]) : ∃ r, Run Rf Rb v0 s r := by
  have key : ∀ k r m vis fr, J r m vis fr → G.n ≤ r + k → (∀ d < r, ∃ v, dist G s v = some d) → ∃ lv mf, Fwd Rf m vis fr lv mf := by
    intro k
    induction k with
    | zero =>
      intro r m vis fr hi hr hp
      cases fr with
      | nil => exact ⟨_, _, .done m vis⟩
      | cons a fr =>
        exfalso
        have ha := ((hab _ _ _ _ hi).cur a).1 List.mem_cons_self
        have hp' : ∀ d < r + 1, ∃ v, dist G s v = some d := fun d hd => by
          by_cases h : d = r
          · exact ⟨a, h ▸ ha⟩
          · exact hp d (by omega)
        have := dist_card hG hs hp'
        omega
    | succ k ih =>
      intro r m vis fr hi hr hp
      by_cases hfr : fr = []
      · subst hfr; exact ⟨_, _, .done m vis⟩
      · obtain ⟨vis', m', o, hx⟩ := hex vis fr m
        obtain ⟨a, ha⟩ := List.exists_mem_of_ne_nil fr hfr
        obtain ⟨lv, mf, h⟩ := ih (r + 1) m' _ _ (hst _ _ _ _ _ _ _ hi hx) (by omega) fun d hd => by
          by_cases h : d = r
          · exact ⟨a, h ▸ ((hab _ _ _ _ hi).cur a).1 ha⟩
          · exact hp d (by omega)
        exact ⟨_, _, .round m vis fr vis' m' o lv mf hfr hx h⟩
  obtain ⟨lv, np, h⟩ := key G.n 0 _ _ _ h0 (by omega) fun d hd => by omega
  have hne : lv.reverse ≠ [] := by
    cases h with
    | round => simp
  obtain ⟨fr, rest, hr⟩ := List.exists_cons_of_ne_nil hne
  have key : ∀ lv fr vis dp, ∃ df, Bwd Rb np lv fr vis dp df := by
    intro lv
    induction lv with
    | nil => exact fun fr vis dp => ⟨dp, .done fr vis dp⟩
    | cons fr' lv ih =>
      intro fr vis dp
      obtain ⟨dp', hx⟩ := hex' vis fr fr' dp
      obtain ⟨df, hd⟩ := ih fr' (mark vis fr') (addInv np fr' dp')
      exact ⟨df, .round fr' lv fr vis dp dp' df hx hd⟩
  obtain ⟨df, hd⟩ := key rest fr _ _
  exact ⟨_, lv, np, fr, rest, df, h, hr, hd, fun _ => rfl⟩

theorem fwdEM_exists {G : Gr W} (hG : G.Ok) (hO : G.Once) (f : Nat) (vis : Nat → Bool) (fr : List Nat) (m : Nat → ℚ) :
    ∃ vis' m' o, fwdEM G (f + 1) vis fr m vis' m' o := by
  obtain ⟨m', o, hx⟩ := accF_exists (f := f) (bcK (W := W) vis) hG hO (fun v => decide (v ∈ fr)) m
  exact ⟨_, m', _, o, hx, rfl, rfl⟩

theorem bwdEM_exists {G : Gr W} (hG : G.Ok) (hO : G.Once) (f : Nat) (vis : Nat → Bool) (fr fr' : List Nat) (dp : Nat → ℚ) :
    ∃ dp', bwdEM G (f + 1) vis fr fr' dp dp' := by
  obtain ⟨dp', o, hx⟩ := accF_exists (f := f) (bcK (W := W) vis) (rev_ok hG) (rev_once hO) (fun v => decide (v ∈ fr)) dp
  exact ⟨dp', o, hx⟩

/-- Runs exist. -/
theorem bc_exists {G : Gr W} (hG : G.Ok) (hO : G.Once) (f : Nat) {start : Nat} (hs : start < G.n) : ∃ r, SSBC G (f + 1) start r :=
  run_exists hG hs (FwdInv G start) id (fun _ _ _ _ h => h) (fun _ _ _ _ _ _ _ hi h => by
    obtain ⟨h1, h2⟩ := fwdEM_ok hG hO hi h
    rw [h2]; exact fwd_round hG hi h1) (fwdEM_exists hG hO f) (bwdEM_exists hG hO f) (fwd_start G start)

/-- Every forward phase has at most `n` rounds, and the vertices it visits have a positive number of paths. -/
theorem bc_rounds {G : Gr W} (hG : G.Ok) (hO : G.Once) {f start : Nat} (hs : start < G.n) {lv : List (List Nat)} {np : Nat → ℚ}
    (h : Fwd (fwdEM G f) (fun v => if v = start then 1 else 0) (fun v => decide (v = start)) [start] lv np) :
    lv.length ≤ G.n ∧ ∀ fr ∈ lv, ∀ v ∈ fr, 0 < np v := by
  obtain ⟨h1, h2, -⟩ := fwd_inv hG (FwdInv G start) id (fun _ _ _ _ h => h) (fun _ _ _ _ _ _ _ hi h => by
    obtain ⟨h1, h2⟩ := fwdEM_ok hG hO hi h
    rw [h2]; exact fwd_round hG hi h1) (fwd_start G start) h
  exact ⟨levels_bound hG hs lv h1, levels_pos lv h1 h2⟩

/-- C79 fails on two vertices without edges: every run returns not a number for the other vertex; its dependency is 0. -/
def two : Gr Unit := Gr.ofLists [[], []] [[], []]

theorem two_once : two.Once := by
  have : ∀ v, two.fwd v = [] := by
    intro v
    match v with
    | 0 => rfl
    | 1 => rfl
    | v + 2 => rfl
  have h : ∀ v, (two.fwd v).Nodup := fun v => by rw [this]; exact List.nodup_nil
  exact ⟨h, h⟩

theorem two_ok : two.Ok := Gr.ofLists_ok (by decide)

theorem two_dist : dist two 0 1 = none := by
  rw [dist_none]
  intro k
  cases k with
  | zero => rfl
  | succ k =>
    show ∑ u ∈ range 2, walks two k 0 u * mult two u 1 = 0
    refine sum_eq_zero fun u hu => ?_
    have : mult two u 1 = 0 := by
      have := mem_range.1 hu
      interval_cases u <;> decide
    rw [this, mul_zero]

theorem bc_refuted : two.Ok ∧ two.Once ∧ (∃ r, SSBC two 1 0 r) ∧ dependency two 0 1 = 0 ∧ ∀ f r, SSBC two f 0 r → r 1 = none :=
  ⟨two_ok, two_once, bc_exists two_ok two_once 0 (by decide), dependency_unreachable two_dist,
    fun _ _ h => (bc_partial two_ok two_once (by decide) h).2 1 two_dist⟩

/-- On the path 0 - 1 - 2 everything is reachable from 0, so `bc_partial` applies to all vertices: the dependency of 0 on 1 is 1. -/
example : ∃ r, SSBC PageRank.path3 1 0 r ∧ r 1 = some 1 := by
  obtain ⟨r, hr⟩ := bc_exists PageRank.path3_ok PageRank.path3_once 0 (start := 0) (by decide)
  have d0 : dist PageRank.path3 0 0 = some 0 := dist_self _ _
  have d1 : dist PageRank.path3 0 1 = some 1 := dist_some.2 (by decide)
  have d2 : dist PageRank.path3 0 2 = some 2 := dist_some.2 (by decide)
  refine ⟨r, hr, ?_⟩
  rw [(bc_partial PageRank.path3_ok PageRank.path3_once (by decide) hr).1 1 ⟨1, d1⟩]
  have n3 : PageRank.path3.n = 3 := rfl
  have w1 : walks PageRank.path3 1 0 1 = 1 := by decide
  have w2 : walks PageRank.path3 1 1 2 = 1 := by decide
  have w3 : walks PageRank.path3 2 0 2 = 1 := by decide
  unfold dependency
  rw [n3, sum_range_succ, sum_range_succ, sum_range_succ, sum_range_zero]
  simp [through, paths, d0, d1, d2, w1, w2, w3]

end Gbbs.Bc
