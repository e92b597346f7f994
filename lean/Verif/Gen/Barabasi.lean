import Verif.Common
import Mathlib.Logic.Relation

/-!
# The Barabási–Albert generator (C136): `utils/generators/barabasi_albert.h`

`parlay::random` is an arbitrary stream of numbers per vertex.  Products of the parameters are assumed
to be below `2^64`.
-/

namespace Gbbs.Barabasi

open Gbbs

/-- `2^32`, the modulus of `uintE`. -/
def M32 : Nat := 4294967296

/-- The array of pairs. -/
abbrev Arr := Nat → Nat × Nat

/-- `edges[i] = (i, i + 1)` for `i < edges_per_node`, `barabasi_albert.h:12-14`. -/
def phase1 (e : Nat) (E : Arr) : Arr :=
  (List.range e).foldl (fun E i => upd E i (i % M32, (i + 1) % M32)) E

/-- The loop that draws numbers until one differs from those already stored for vertex `i`,
`barabasi_albert.h:19-33`; `rnd p` is the `p`-th number of the vertex' stream.  Result: the number and
its position in the stream.  `none`: not found within `fuel` draws. -/
def draw (rnd : Nat → Nat) (modBy e i j : Nat) (E : Arr) : (fuel p : Nat) → Option (Nat × Nat)
  | 0, _ => none
  | fuel + 1, p =>
    let idx := rnd p % modBy % M32
    if (List.range j).any (fun k => (E (i * e + k)).2 == idx) then draw rnd modBy e i j E fuel (p + 1)
    else some (idx, p)

/-- The loop over `j` for one vertex, `barabasi_albert.h:18-37`; `k` rounds are left. -/
def fillVertex (fuel : Nat) (rnd : Nat → Nat) (e i : Nat) : (k j p : Nat) → Arr → Option Arr
  | 0, _, _, E => some E
  | k + 1, j, p, E =>
    match draw rnd (2 * i * e) e i j E fuel p with
    | none => none
    | some (idx, p) => fillVertex fuel rnd e i k (j + 1) (p + 1) (upd E (i * e + j) (i % M32, idx))

/-- One round of the last loop, `barabasi_albert.h:42-49`. -/
def resolve (E : Arr) (s : Nat) : Arr :=
  let offset := (E s).2
  upd E s ((E s).1, if offset % 2 = 0 then (E (offset / 2)).1 else (E (offset / 2)).2)

/-- `generate_updates(n, edges_per_node)`, `barabasi_albert.h:8-52`: the edges at positions below
`n * edges_per_node`.  `order` is the order of the parallel loop (its rounds access disjoint parts of the
array), `junk` the initial contents.  For `n = 0` the first loop writes out of bounds (`none`). -/
def generateUpdates (fuel : Nat) (rnd : Nat → Nat → Nat) (order : List Nat) (junk : Arr) (n e : Nat) :
    Option Arr :=
  if n * e < e then none
  else
    match order.foldlM (fun E i => fillVertex fuel (rnd i) e i e 0 0 E) (phase1 e junk) with
    | none => none
    | some E => some ((List.range' e (n * e - e)).foldl resolve E)

/-! ## Specification -/

/-- `x` and `y` are joined by one of the first `m` edges. -/
def Adj (E : Arr) (m x y : Nat) : Prop := ∃ s, s < m ∧ (E s = (x, y) ∨ E s = (y, x))

/-- The vertex at position `o` of the list of endpoints `(E 0).1, (E 0).2, (E 1).1, …`. -/
def endp (E : Arr) (o : Nat) : Nat := if o % 2 = 0 then (E (o / 2)).1 else (E (o / 2)).2

/-! ## Proofs -/

theorem phase1_spec (e : Nat) (E : Arr) (he : e < M32) :
    ∀ s, s < e → phase1 e E s = (s, s + 1) := by
  have key : ∀ k, k ≤ e → ∀ s, s < k →
      (List.range k).foldl (fun E i => upd E i (i % M32, (i + 1) % M32)) E s = (s, s + 1) := by
    intro k
    induction k with
    | zero => intro _ s hs; omega
    | succ k ih =>
      intro hk s hs
      rw [List.range_succ, List.foldl_append]
      simp only [List.foldl_cons, List.foldl_nil]
      by_cases h : s = k
      · subst h
        rw [upd_same, Nat.mod_eq_of_lt (by omega), Nat.mod_eq_of_lt (by omega)]
      · rw [upd_of_ne _ _ h]
        exact ih (by omega) s (by omega)
  exact key e (Nat.le_refl _)

theorem draw_lt {rnd : Nat → Nat} {modBy e i j : Nat} {E : Arr} (hm : 0 < modBy) {fuel p idx q : Nat}
    (h : draw rnd modBy e i j E fuel p = some (idx, q)) :
    idx < modBy ∧ ∀ k, k < j → (E (i * e + k)).2 ≠ idx := by
  induction fuel generalizing p with
  | zero => simp [draw] at h
  | succ fuel ih =>
    rw [draw] at h
    split at h
    · exact ih h
    · rename_i hany
      simp only [Option.some.injEq, Prod.mk.injEq] at h
      obtain ⟨rfl, _⟩ := h
      refine ⟨Nat.lt_of_le_of_lt (Nat.mod_le _ _) (Nat.mod_lt _ hm), fun k hk he => hany ?_⟩
      rw [List.any_eq_true]
      exact ⟨k, List.mem_range.2 hk, by simpa using he⟩

/-- A slot before the last loop: the vertex and a position in the list of endpoints of earlier blocks. -/
def Raw (e : Nat) (E : Arr) (s : Nat) : Prop := (E s).1 = s / e ∧ (E s).2 < 2 * (s / e) * e

theorem fillVertex_spec {fuel : Nat} {rnd : Nat → Nat} {e i : Nat} (he : 0 < e) (hi : 0 < i)
    (hi2 : i < M32) (k : Nat) :
    ∀ (j p : Nat) (E E' : Arr), j + k = e → (∀ s, i * e ≤ s → s < i * e + j → Raw e E s) →
      (∀ a b, a < b → b < j → (E (i * e + a)).2 ≠ (E (i * e + b)).2) →
      fillVertex fuel rnd e i k j p E = some E' →
      (∀ s, i * e ≤ s → s < i * e + e → Raw e E' s) ∧
      (∀ a b, a < b → b < e → (E' (i * e + a)).2 ≠ (E' (i * e + b)).2) ∧
      (∀ s, s < i * e ∨ i * e + e ≤ s → E' s = E s) := by
  induction k with
  | zero =>
    intro j p E E' hj hr hx h
    simp only [fillVertex, Option.some.injEq] at h
    subst h
    have : j = e := by omega
    subst this
    exact ⟨hr, hx, fun _ _ => rfl⟩
  | succ k ih =>
    intro j p E E' hj hr hx h
    rw [fillVertex] at h
    split at h
    · simp at h
    · rename_i idx q hd
      obtain ⟨hlt, hnew⟩ := draw_lt (Nat.mul_pos (by omega) he) hd
      obtain ⟨g1, gx, g2⟩ := ih (j + 1) (q + 1) _ E' (by omega) (by
        intro s h1 h2
        by_cases hs : s = i * e + j
        · subst hs
          have hdiv : (i * e + j) / e = i := by
            rw [Nat.mul_comm, Nat.mul_add_div he, Nat.div_eq_of_lt (by omega), Nat.add_zero]
          simp only [Raw, upd_same, hdiv]
          exact ⟨Nat.mod_eq_of_lt hi2, hlt⟩
        · simp only [Raw, upd_of_ne _ _ hs]
          exact hr s h1 (by omega)) (by
        intro a b hab hb
        rw [upd_of_ne _ _ (show i * e + a ≠ i * e + j by omega)]
        by_cases hbj : b = j
        · subst hbj
          rw [upd_same]
          exact hnew a hab
        · rw [upd_of_ne _ _ (show i * e + b ≠ i * e + j by omega)]
          exact hx a b hab (by omega)) h
      refine ⟨g1, gx, fun s hs => ?_⟩
      rw [g2 s hs, upd_of_ne _ _ (by omega)]

theorem phase2_spec {fuel : Nat} {rnd : Nat → Nat → Nat} {e : Nat} (he : 0 < e) (order : List Nat) :
    ∀ (E E' : Arr), order.Nodup → (∀ i ∈ order, 0 < i ∧ i < M32) →
      order.foldlM (fun E i => fillVertex fuel (rnd i) e i e 0 0 E) E = some E' →
      (∀ s, s / e ∈ order → Raw e E' s) ∧
      (∀ i ∈ order, ∀ a b, a < b → b < e → (E' (i * e + a)).2 ≠ (E' (i * e + b)).2) ∧
      (∀ s, s / e ∉ order → E' s = E s) := by
  induction order with
  | nil =>
    intro E E' _ _ h
    simp only [List.foldlM_nil, Option.pure_def, Option.some.injEq] at h
    subst h
    exact ⟨fun s h => by simp at h, fun i h => by simp at h, fun _ _ => rfl⟩
  | cons i order ih =>
    intro E E' hnd hpos h
    rw [List.foldlM_cons] at h
    cases hf : fillVertex fuel (rnd i) e i e 0 0 E with
    | none => rw [hf] at h; simp at h
    | some E1 =>
      rw [hf] at h
      have hnd' := List.nodup_cons.1 hnd
      obtain ⟨hi, hi2⟩ := hpos i (by simp)
      obtain ⟨g1, gx, g2⟩ := ih E1 E' hnd'.2 (fun j hj => hpos j (by simp [hj])) h
      obtain ⟨f1, fx, f2⟩ := fillVertex_spec he hi hi2 e 0 0 E E1 (by omega) (fun s _ _ => by omega)
        (fun a b _ _ => by omega) hf
      have hdm := fun s => Nat.div_add_mod s e
      have hml := fun s => Nat.mod_lt s he
      refine ⟨fun s hs => ?_, fun i' hi' a b hab hb => ?_, fun s hs => ?_⟩
      · by_cases ho : s / e ∈ order
        · exact g1 s ho
        · have hsi : s / e = i := (List.mem_cons.1 hs).resolve_right ho
          have d := hdm s
          have l := hml s
          rw [hsi, Nat.mul_comm] at d
          have := f1 s (by omega) (by omega)
          simp only [Raw, g2 s ho] at this ⊢
          exact this
      · by_cases ho : i' ∈ order
        · exact gx i' ho a b hab hb
        · have hii : i' = i := (List.mem_cons.1 hi').resolve_right ho
          subst hii
          have hdiv : ∀ c, c < e → (i' * e + c) / e = i' := fun c hc => by
            rw [Nat.mul_comm, Nat.mul_add_div he, Nat.div_eq_of_lt hc, Nat.add_zero]
          rw [g2 _ (by rw [hdiv a (by omega)]; exact ho), g2 _ (by rw [hdiv b hb]; exact ho)]
          exact fx a b hab hb
      · simp only [List.mem_cons, not_or] at hs
        rw [g2 s hs.2]
        apply f2
        rcases Nat.lt_or_gt_of_ne hs.1 with h1 | h1
        · left; exact (Nat.div_lt_iff_lt_mul he).1 h1
        · right
          have := (Nat.le_div_iff_mul_le he).1 (show i + 1 ≤ s / e from h1)
          rwa [Nat.succ_mul] at this

/-- A finished slot: the position `(R s).2` is replaced by the vertex there. -/
def Done (e : Nat) (R E : Arr) (s : Nat) : Prop := (E s).1 = s / e ∧ (E s).2 = endp E (R s).2

theorem raw_lt {e : Nat} {R : Arr} {s : Nat} (h : Raw e R s) : (R s).2 / 2 < s / e * e := by
  have h2 := h.2
  rw [Nat.mul_assoc] at h2
  generalize s / e * e = z at *
  omega

theorem phase3_spec {e m : Nat} {R : Arr} (hR : ∀ s, e ≤ s → s < m → Raw e R s) (k : Nat) :
    ∀ (t : Nat) (E : Arr), t + k = m → e ≤ t → (∀ s, s < e → E s = (s, s + 1)) →
      (∀ s, e ≤ s → s < t → Done e R E s) → (∀ s, t ≤ s → s < m → E s = R s) →
      let E' := (List.range' t k).foldl resolve E
      (∀ s, s < e → E' s = (s, s + 1)) ∧ (∀ s, e ≤ s → s < m → Done e R E' s) := by
  induction k with
  | zero =>
    intro t E ht _ h1 h2 _
    refine ⟨h1, fun s hs hm => h2 s hs (by omega)⟩
  | succ k ih =>
    intro t E ht het h1 h2 h3
    rw [List.range'_succ, List.foldl_cons]
    have hne : ∀ s, s ≠ t → resolve E t s = E s := fun s hs => upd_of_ne _ _ hs
    have hend : ∀ s, e ≤ s → s ≤ t → endp (resolve E t) (R s).2 = endp E (R s).2 := by
      intro s hs hst
      have hlt := raw_lt (hR s hs (by omega))
      have hle : s / e * e ≤ s := Nat.div_mul_le_self _ _
      rw [endp, endp, hne _ (by omega)]
    refine ih (t + 1) (resolve E t) (by omega) (by omega) ?_ ?_ ?_
    · intro s hs; rw [hne s (by omega)]; exact h1 s hs
    · intro s hs hst
      rw [Done, hend s hs (by omega)]
      by_cases e1 : s = t
      · subst e1
        have hEs := h3 s (Nat.le_refl _) (by omega)
        simp only [resolve, upd_same, endp, hEs, (hR s hs (by omega)).1, and_self]
      · rw [hne s e1]
        exact h2 s hs (by omega)
    · intro s hs hm
      rw [hne s (by omega)]
      exact h3 s (by omega) hm

theorem generate_spec {fuel : Nat} {rnd : Nat → Nat → Nat} {order : List Nat} {junk : Arr} {n e : Nat}
    {E : Arr} (hn : 0 < n) (hn2 : n ≤ M32) (he : 0 < e) (he2 : e < M32)
    (ho : order.Nodup ∧ ∀ i, i ∈ order ↔ 1 ≤ i ∧ i < n)
    (h : generateUpdates fuel rnd order junk n e = some E) :
    (∀ s, s < e → E s = (s, s + 1)) ∧ ∃ R : Arr,
      (∀ s, e ≤ s → s < n * e → Raw e R s ∧ Done e R E s) ∧
      (∀ i, 1 ≤ i → i < n → ∀ a b, a < b → b < e → (R (i * e + a)).2 ≠ (R (i * e + b)).2) := by
  rw [generateUpdates] at h
  have hle : e ≤ n * e := Nat.le_mul_of_pos_left e hn
  rw [if_neg (by omega)] at h
  split at h
  · simp at h
  · rename_i E2 h2
    simp only [Option.some.injEq] at h
    subst h
    obtain ⟨g1, gx, g2⟩ := phase2_spec he order _ _ ho.1 (fun i hi => by have := (ho.2 i).1 hi; omega) h2
    have hraw : ∀ s, e ≤ s → s < n * e → Raw e E2 s := by
      intro s hs hm
      refine g1 s ((ho.2 _).2 ⟨?_, ?_⟩)
      · exact (Nat.le_div_iff_mul_le he).2 (by omega)
      · exact (Nat.div_lt_iff_lt_mul he).2 hm
    have h3 := phase3_spec hraw (n * e - e) e E2 (by omega) (Nat.le_refl _) (by
        intro s hs
        rw [g2 s (by rw [Nat.div_eq_of_lt hs]; intro h; have := (ho.2 0).1 h; omega)]
        exact phase1_spec e junk he2 s hs) (fun s _ _ => by omega) (fun _ _ _ => rfl)
    exact ⟨h3.1, E2, fun s hs hm => ⟨hraw s hs hm, h3.2 s hs hm⟩,
      fun i h1 h2 => gx i ((ho.2 i).2 ⟨h1, h2⟩)⟩

/-- C136 (partial): for any random numbers and any schedule, if the generator ends, then the edges at
positions `0 .. e-1` form the path `0 - 1 - … - e`, the `e` edges at positions `i*e ..` leave vertex `i`,
to the vertices at `e` different positions of the list of endpoints of the earlier edges (preferential
attachment); all vertices are below `n`
if `e < n`; and every vertex below `n` is connected to vertex 0.  Missing: the graph is not simple
(`C136_self_loop`, `C136_multi_edge`), for `e ≥ n` vertices `n` or more occur (`C136_vertex_out_of_range`),
and `n = 0` is undefined (`C136_zero_undefined`). -/
theorem C136_barabasi_partial (fuel : Nat) (rnd : Nat → Nat → Nat) (order : List Nat) (junk : Arr)
    (n e : Nat) (E : Arr) (hn : 0 < n) (hn2 : n ≤ 4294967296) (he : 0 < e) (he2 : e < 4294967296)
    (ho : order.Nodup ∧ ∀ i, i ∈ order ↔ 1 ≤ i ∧ i < n)
    (h : generateUpdates fuel rnd order junk n e = some E) :
    (∀ s, s < e → E s = (s, s + 1)) ∧
    (∀ i j, 1 ≤ i → i < n → j < e → (E (i * e + j)).1 = i) ∧
    (∀ i, 1 ≤ i → i < n → ∃ pos : Nat → Nat,
      (∀ j, j < e → pos j < 2 * (i * e) ∧ (E (i * e + j)).2 = endp E (pos j)) ∧
      (∀ j j', j < j' → j' < e → pos j ≠ pos j')) ∧
    (∀ s, s < n * e → (E s).1 < max n (e + 1) ∧ (E s).2 < max n (e + 1)) ∧
    (∀ v, v < n → Relation.ReflTransGen (Adj E (n * e)) 0 v) := by
  obtain ⟨h1, R, h2', h4⟩ := generate_spec hn hn2 he he2 ho h
  have h2 : ∀ s, e ≤ s → s < n * e → (E s).1 = s / e ∧
      ∃ k, k < s / e * e ∧ ((E s).2 = (E k).1 ∨ (E s).2 = (E k).2) := by
    intro s hs hm
    obtain ⟨r, d⟩ := h2' s hs hm
    refine ⟨d.1, (R s).2 / 2, raw_lt r, ?_⟩
    rw [d.2, endp]
    split
    · exact Or.inl rfl
    · exact Or.inr rfl
  have slot : ∀ i j, 1 ≤ i → i < n → j < e →
      (i * e + j) / e = i ∧ e ≤ i * e + j ∧ i * e + j < n * e := by
    intro i j hi hin hj
    have hdiv : (i * e + j) / e = i := by
      rw [Nat.mul_comm, Nat.mul_add_div he, Nat.div_eq_of_lt hj, Nat.add_zero]
    have hge : e ≤ i * e := Nat.le_mul_of_pos_left e hi
    have hlt : (i + 1) * e ≤ n * e := Nat.mul_le_mul_right e hin
    rw [Nat.succ_mul] at hlt
    exact ⟨hdiv, by omega, by omega⟩
  have hle : e ≤ n * e := Nat.le_mul_of_pos_left e hn
  have conn : ∀ s, s < n * e → Relation.ReflTransGen (Adj E (n * e)) 0 (E s).1 ∧
      Relation.ReflTransGen (Adj E (n * e)) 0 (E s).2 := by
    intro s
    induction s using Nat.strong_induction_on with
    | _ s ih =>
      intro hs
      by_cases hse : s < e
      · rw [h1 s hse]
        have c1 : Relation.ReflTransGen (Adj E (n * e)) 0 s := by
          rcases Nat.eq_zero_or_pos s with h0 | h0
          · rw [h0]
          · have := (ih (s - 1) (by omega) (by omega)).2
            rw [h1 (s - 1) (by omega)] at this
            simpa [Nat.sub_add_cancel h0] using this
        exact ⟨c1, c1.tail ⟨s, hs, Or.inl (h1 s hse)⟩⟩
      · obtain ⟨d1, k, d2, d3⟩ := h2 s (by omega) hs
        have hsl : s / e * e ≤ s := Nat.div_mul_le_self _ _
        obtain ⟨k1, k2⟩ := ih k (by omega) (by omega)
        have c2 : Relation.ReflTransGen (Adj E (n * e)) 0 (E s).2 := by
          rcases d3 with d3 | d3 <;> rw [d3] <;> assumption
        exact ⟨c2.tail ⟨s, hs, Or.inr rfl⟩, c2⟩
  refine ⟨h1, fun i j hi hin hj => ?_, fun i hi hin => ?_, ?_, ?_⟩
  · obtain ⟨s1, s2, s3⟩ := slot i j hi hin hj
    rw [(h2 _ s2 s3).1, s1]
  · refine ⟨fun j => (R (i * e + j)).2, fun j hj => ?_, fun j j' hjj hj => h4 i hi hin j j' hjj hj⟩
    obtain ⟨s1, s2, s3⟩ := slot i j hi hin hj
    obtain ⟨r, d⟩ := h2' _ s2 s3
    have r2 := r.2
    rw [s1, Nat.mul_assoc] at r2
    exact ⟨r2, d.2⟩
  · intro s
    induction s using Nat.strong_induction_on with
    | _ s ih =>
      intro hs
      by_cases hse : s < e
      · rw [h1 s hse]; simp only; omega
      · obtain ⟨d1, k, d2, d3⟩ := h2 s (by omega) hs
        have hsl : s / e * e ≤ s := Nat.div_mul_le_self _ _
        have hlt : s / e < n := (Nat.div_lt_iff_lt_mul he).2 hs
        have := ih k (by omega) (by omega)
        refine ⟨by omega, ?_⟩
        rcases d3 with d3 | d3 <;> rw [d3] <;> omega
  · intro v hv
    rcases Nat.eq_zero_or_pos v with h0 | h0
    · rw [h0]
    · have hge : e ≤ v * e := Nat.le_mul_of_pos_left e h0
      have hlt : v * e < n * e := Nat.mul_lt_mul_of_pos_right hv he
      have := (conn (v * e) hlt).1
      rw [(h2 (v * e) hge hlt).1, Nat.mul_div_cancel _ he] at this
      exact this

/-- The hypotheses of `C136_barabasi_partial` can be met: three vertices with two edges each. -/
example (junk : Arr) : ∃ E, generateUpdates 4 (fun i p => i + p) [2, 1] junk 3 2 = some E ∧
    E 0 = (0, 1) ∧ E 2 = (1, 1) ∧ E 3 = (1, 1) ∧ E 4 = (2, 1) ∧ E 5 = (2, 2) := by
  refine ⟨_, rfl, ?_, ?_, ?_, ?_, ?_⟩ <;>
    simp [phase1, resolve, upd, M32, List.range', List.range, List.range.loop]

/-- C136: a self loop: two vertices with one edge each, when the draw of vertex 1 is odd. -/
theorem C136_self_loop (junk : Arr) :
    ∃ E, generateUpdates 1 (fun _ _ => 1) [1] junk 2 1 = some E ∧ E 0 = (0, 1) ∧ E 1 = (1, 1) := by
  refine ⟨_, rfl, ?_, ?_⟩ <;> simp [phase1, resolve, upd, M32, List.range, List.range.loop]

/-- C136: two equal edges: the positions drawn by vertex 2 differ, but hold the same vertex. -/
theorem C136_multi_edge (junk : Arr) :
    ∃ E, generateUpdates 1 (fun _ p => p + 1) [1, 2] junk 3 2 = some E ∧ E 4 = (2, 1) ∧ E 5 = (2, 1) := by
  refine ⟨_, rfl, ?_, ?_⟩ <;> simp [phase1, resolve, upd, M32, List.range', List.range, List.range.loop]

/-- C136: with `e ≥ n` the vertex `e`, which is not below `n`, occurs whatever is drawn. -/
theorem C136_vertex_out_of_range (fuel : Nat) (rnd : Nat → Nat → Nat) (order : List Nat) (junk : Arr)
    (n e : Nat) (E : Arr) (hn : 0 < n) (hn2 : n ≤ 4294967296) (he : n ≤ e) (he2 : e < 4294967296)
    (ho : order.Nodup ∧ ∀ i, i ∈ order ↔ 1 ≤ i ∧ i < n)
    (h : generateUpdates fuel rnd order junk n e = some E) : (E (e - 1)).2 = e := by
  rw [(generate_spec hn hn2 (by omega) he2 ho h).1 (e - 1) (by omega)]
  simp only; omega

/-- C136: `n = 0` writes out of bounds. -/
theorem C136_zero_undefined (fuel : Nat) (rnd : Nat → Nat → Nat) (order : List Nat) (junk : Arr) (e : Nat)
    (he : 0 < e) : generateUpdates fuel rnd order junk 0 e = none := by
  rw [generateUpdates, if_pos (by omega)]

end Gbbs.Barabasi
