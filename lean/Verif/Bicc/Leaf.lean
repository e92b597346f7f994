/-
C105: the passes from the leaves to the roots, `AugF` and `MinMaxF` of `benchmarks/Biconnectivity/TarjanVishkin/Biconnectivity.h:41-92`: one call
of `edgeMap`.
-/
import Verif.EdgeMap.Once
import Verif.EdgeMap.Total
import Verif.Algo.Relax

namespace Gbbs.Bicc

open Conc Conc.Prog Em
open Atomics (Steps)
open Relax (writeMin)

set_option linter.unusedSectionVars false

/-! ### Model -/

/-- The arrays: `aug_sizes`, the two parts of `MM`, and `cts`. -/
inductive Kd
  | sz
  | lo
  | hi
  | ct
  deriving DecidableEq

/-- Locations. -/
abbrev Loc := Kd × Nat

/-- `write_add` and `fetch_and_add`, `gbbs/bridge.h:254-262, 281-289`, with the old value; `f` bounds the retries. -/
def addTo : Nat → Loc → Int → Prog Loc Int Int
  | 0, _, _ => stuck
  | f + 1, a, b => read a fun c => cas a c (c + b) fun r => if r then ret c else addTo f a b

/-- `write_max`, `bridge.h:330-338`. -/
def writeMax : Nat → Loc → Int → Prog Loc Int Bool
  | 0, _, _ => stuck
  | f + 1, a, b => read a fun c => if c < b then cas a c b fun r => if r then ret true else writeMax f a b else ret false

/-- The emission: `true` or `false`. -/
def tf (b : Bool) : Option Unit := if b then some () else none

/-- `AugF`, `Biconnectivity.h:41-60`. Sizes are integers without overflow: at most `n`. -/
def augF (f : Nat) : Func Unit Loc Int Unit where
  cond _ := ret true
  upd s d _ := read (.sz, d) fun x => read (.sz, s) fun y => write (.sz, d) (x + y) (read (.ct, d) fun c => write (.ct, d) (c - 1)
    (read (.ct, d) fun c' => ret (tf (decide (c' = 0)))))
  updA s d _ := read (.sz, s) fun y => (addTo f (.sz, d) y).bind fun _ => (addTo f (.ct, d) (-1)).bind fun c => ret (tf (decide (c - 1 = 0)))

/-- `MinMaxF`, `:63-92`. -/
def mmF (f : Nat) : Func Unit Loc Int Unit where
  cond _ := ret true
  upd s d _ := read (.lo, s) fun low => read (.hi, s) fun high =>
    read (.lo, d) fun x => (if low < x then write (.lo, d) low (ret ()) else ret ()).bind fun _ =>
    read (.hi, d) fun y => (if high > y then write (.hi, d) high (ret ()) else ret ()).bind fun _ =>
    read (.ct, d) fun c => write (.ct, d) (c - 1) (ret (tf (decide (c - 1 = 0))))
  updA s d _ := read (.lo, s) fun low => read (.hi, s) fun high =>
    read (.lo, d) fun x => (if low < x then (writeMin f (.lo, d) low).bind fun _ => ret () else ret ()).bind fun _ =>
    read (.hi, d) fun y => (if high > y then (writeMax f (.hi, d) high).bind fun _ => ret () else ret ()).bind fun _ =>
    (addTo f (.ct, d) (-1)).bind fun c => ret (tf (decide (c - 1 = 0)))

/-! ### Verification -/

/-- What an edge does to a cell of its destination. -/
def op : Kd → Int → Int → Int
  | .sz, x, a => x + a
  | .lo, x, a => min x a
  | .hi, x, a => max x a
  | .ct, x, _ => x - 1

theorem op_comm (k : Kd) (x a b : Int) : op k (op k x a) b = op k (op k x b) a := by
  cases k <;> simp only [op] <;> omega

abbrev Ed := Edge Unit

structure LGh where
  did : Kd → Ed → Prop
  z : Nat → Option (Nat × Nat)

section
open Classical

/-- The cell after the edges to `d` satisfying `q`. -/
noncomputable def accTo (acts : List Ed) (k : Kd) (v : Ed → Int) (q : Ed → Prop) (x : Int) (d : Nat) : Int :=
  (acts.filter fun e => decide (q e ∧ e.d = d)).foldl (fun x e => op k x (v e)) x

theorem accTo_congr {acts : List Ed} {k : Kd} {v : Ed → Int} {q q' : Ed → Prop} {x : Int} {d : Nat}
    (h : ∀ e ∈ acts, e.d = d → (q e ↔ q' e)) : accTo acts k v q x d = accTo acts k v q' x d := by
  unfold accTo
  rw [List.filter_congr fun e he => ?_]
  by_cases hd : e.d = d
  · simp only [hd, and_true, h e he hd]
  · simp [hd]

theorem accTo_none {acts : List Ed} {k : Kd} {v : Ed → Int} {q : Ed → Prop} {x : Int} {d : Nat} (h : ∀ e ∈ acts, q e → e.d ≠ d) :
    accTo acts k v q x d = x := by
  unfold accTo
  rw [List.filter_eq_nil_iff.2 fun e he => ?_]
  · rfl
  · simpa using h e he

theorem accTo_all (acts : List Ed) (k : Kd) (v : Ed → Int) (x : Int) (d : Nat) :
    accTo acts k v (fun _ => True) x d = (acts.filter fun e => decide (e.d = d)).foldl (fun x e => op k x (v e)) x := by
  unfold accTo
  rw [List.filter_congr fun e _ => ?_]
  simp

theorem foldl_op (k : Kd) (v : Ed → Int) (l : List Ed) (x a : Int) :
    l.foldl (fun x e => op k x (v e)) (op k x a) = op k (l.foldl (fun x e => op k x (v e)) x) a := by
  induction l generalizing x with
  | nil => rfl
  | cons e l ih => rw [List.foldl_cons, List.foldl_cons, op_comm, ih]

theorem accTo_add {acts : List Ed} (hn : acts.Nodup) {k : Kd} {v : Ed → Int} {q : Ed → Prop} {e : Ed} (he : e ∈ acts) (hq : ¬ q e) (x : Int) (d : Nat) :
    accTo acts k v (fun e' => e' = e ∨ q e') x d = if e.d = d then op k (accTo acts k v q x d) (v e) else accTo acts k v q x d := by
  by_cases hd : e.d = d
  · rw [if_pos hd]
    induction acts generalizing x with
    | nil => cases he
    | cons a l ih =>
      rw [List.nodup_cons] at hn
      rcases List.mem_cons.1 he with h | h
      · subst h
        have : accTo l k v (fun e' => e' = e ∨ q e') (op k x (v e)) d = accTo l k v q (op k x (v e)) d :=
          accTo_congr fun e' he' _ => ⟨fun h => h.resolve_left fun hc => hn.1 (hc ▸ he'), Or.inr⟩
        unfold accTo at this ⊢
        rw [List.filter_cons_of_pos (by simp [hd]), List.filter_cons_of_neg (by simp [hq]), List.foldl_cons, this, foldl_op]
      · have hae : a ≠ e := fun hc => hn.1 (hc ▸ h)
        by_cases hqa : q a ∧ a.d = d
        · have := ih hn.2 h (op k x (v a))
          unfold accTo at this ⊢
          rw [List.filter_cons_of_pos (by simp [hqa]), List.filter_cons_of_pos (by simp [hqa]), List.foldl_cons, List.foldl_cons, this]
        · have := ih hn.2 h x
          unfold accTo at this ⊢
          rw [List.filter_cons_of_neg (by simpa [hae] using hqa), List.filter_cons_of_neg (by simpa using hqa), this]
  · rw [if_neg hd]
    refine accTo_congr fun e' _ hd' => ⟨fun h => h.resolve_left fun hc => hd (hc ▸ hd'), Or.inr⟩

theorem accTo_ct (acts : List Ed) (v : Ed → Int) (q : Ed → Prop) (x : Int) (d : Nat) :
    accTo acts .ct v q x d = x - (acts.countP fun e => decide (q e ∧ e.d = d) : Nat) := by
  unfold accTo
  rw [List.countP_eq_length_filter]
  generalize acts.filter _ = l
  induction l generalizing x with
  | nil => simp
  | cons e l ih => rw [List.foldl_cons, ih, List.length_cons]; simp only [op]; push_cast; omega

theorem accTo_le (acts : List Ed) (v : Ed → Int) (q : Ed → Prop) (x : Int) (d : Nat) :
    x - (acts.countP fun e => decide (e.d = d) : Nat) ≤ accTo acts .ct v q x d := by
  rw [accTo_ct]
  have : acts.countP (fun e => decide (q e ∧ e.d = d)) ≤ acts.countP fun e => decide (e.d = d) :=
    List.countP_mono_left fun e' _ h => by simp only [decide_eq_true_eq] at h ⊢; exact h.2
  omega

variable {acts : List Ed} {K : List Kd} {m0 : Loc → Int}

/-- The value of an edge for a kind of cell. -/
def v0 (m0 : Loc → Int) (k : Kd) (e : Ed) : Int := m0 (k, e.s)

structure LInv (acts : List Ed) (K : List Kd) (m0 : Loc → Int) (g : LGh) (m : Loc → Int) : Prop where
  mem : ∀ k d, m (k, d) = accTo acts k (v0 m0 k) (g.did k) (m0 (k, d)) d
  ok : ∀ k e, g.did k e → e ∈ acts ∧ k ∈ K
  em : ∀ d, g.z d ≠ none ↔ m (.ct, d) = 0 ∧ ∃ e, g.did .ct e ∧ e.d = d

/-- The counters are at least the numbers of edges. -/
def Enough (acts : List Ed) (m0 : Loc → Int) : Prop := ∀ e ∈ acts, ((acts.countP fun e' => decide (e'.d = e.d) : Nat) : Int) ≤ m0 (.ct, e.d)

/-- The sources of the edges are not destinations. -/
def SepE (acts : List Ed) : Prop := ∀ e ∈ acts, ∀ e' ∈ acts, e.s ≠ e'.d

theorem LInv.src (hS : SepE acts) {g : LGh} {m : Loc → Int} (h : LInv acts K m0 g m) {e : Ed} (he : e ∈ acts) (k : Kd) : m (k, e.s) = v0 m0 k e := by
  rw [h.mem, accTo_none fun e' he' _ hc => hS e he e' he' hc.symm]; rfl

def lrg (acts : List Ed) (K : List Kd) (m0 : Loc → Int) (P : Plan Unit) : RG (Nat × Nat) LGh Loc Int where
  Inv := LInv acts K m0
  R i g g' := (∀ e, P.mine i e → ∀ k, g'.did k e ↔ g.did k e) ∧ (∀ k e, g.did k e → g'.did k e) ∧
    (∀ d, g'.z d = some i ↔ g.z d = some i) ∧ ∀ k (e : Ed), Excl P.may i e.d → (g'.did k e ↔ g.did k e)
  Gu i g g' := (∀ e, ¬ P.mine i e → ∀ k, g'.did k e ↔ g.did k e) ∧ (∀ k e, g.did k e → g'.did k e) ∧
    (∀ d j, j ≠ i → (g'.z d = some j ↔ g.z d = some j)) ∧ ∀ k (e : Ed), ¬ P.may i e.d → (g'.did k e ↔ g.did k e)
  refl _ _ := ⟨fun _ _ _ => Iff.rfl, fun _ _ h => h, fun _ => Iff.rfl, fun _ _ _ => Iff.rfl⟩
  trans i g g' g'' h1 h2 := ⟨fun e he k => (h2.1 e he k).trans (h1.1 e he k), fun k e he => h2.2.1 k e (h1.2.1 k e he),
    fun d => (h2.2.2.1 d).trans (h1.2.2.1 d), fun k (e : Ed) he => (h2.2.2.2 k e he).trans (h1.2.2.2 k e he)⟩
  compat i j g g' hne h := ⟨fun e he k => h.1 e (fun hc => hne (P.disj _ _ _ hc he)) k, h.2.1, fun d => h.2.2.1 d j (Ne.symm hne),
    fun k e he => h.2.2.2 k e (he i hne)⟩

theorem lrg_gu_refl (P : Plan Unit) (i : Nat × Nat) (g : LGh) : (lrg acts K m0 P).Gu i g g :=
  ⟨fun _ _ _ => Iff.rfl, fun _ _ h => h, fun _ _ _ => Iff.rfl, fun _ _ _ => Iff.rfl⟩

/-- Emissions and edges that are still to be processed. -/
def LT (P : Plan Unit) (i : Nat × Nat) (g : LGh) (l : List (Nat × Unit)) (S : Ed → Prop) : Prop :=
  (l.map Prod.fst).Nodup ∧ (∀ d, d ∈ l.map Prod.fst ↔ g.z d = some i) ∧ ∀ e, S e → P.mine i e ∧ ∀ k, ¬ g.did k e

/-- `e` is being processed: the cells `D` have been updated. -/
def Part (P : Plan Unit) (i : Nat × Nat) (g : LGh) (e : Ed) (D : List Kd) : Prop := P.mine i e ∧ ∀ k, g.did k e ↔ k ∈ D

def LDn (K : List Kd) (g : LGh) (e : Ed) : Prop := ∀ k ∈ K, g.did k e

theorem LT.stable {P : Plan Unit} {i : Nat × Nat} {g g' : LGh} {l : List (Nat × Unit)} {S : Ed → Prop} (hr : (lrg acts K m0 P).R i g g') (h : LT P i g l S) :
    LT P i g' l S :=
  ⟨h.1, fun d => (h.2.1 d).trans (hr.2.2.1 d).symm, fun e he => ⟨(h.2.2 e he).1, fun k hc => (h.2.2 e he).2 k ((hr.1 e (h.2.2 e he).1 k).1 hc)⟩⟩

theorem Part.stable {P : Plan Unit} {i : Nat × Nat} {g g' : LGh} {e : Ed} {D : List Kd} (hr : (lrg acts K m0 P).R i g g') (h : Part P i g e D) :
    Part P i g' e D := ⟨h.1, fun k => (hr.1 e h.1 k).trans (h.2 k)⟩

/-- Both. -/
def LP (P : Plan Unit) (i : Nat × Nat) (e : Ed) (S : Ed → Prop) (l : List (Nat × Unit)) (D : List Kd) (g : LGh) : Prop := LT P i g l S ∧ Part P i g e D

theorem LP.stable {P : Plan Unit} {i : Nat × Nat} {g g' : LGh} {e : Ed} {S : Ed → Prop} {l : List (Nat × Unit)} {D : List Kd} (hr : (lrg acts K m0 P).R i g g')
    (h : LP P i e S l D g) : LP P i e S l D g' := ⟨h.1.stable hr, h.2.stable hr⟩

theorem excl_same {P : Plan Unit} {i : Nat × Nat} {g g' : LGh} {m m' : Loc → Int} {d : Nat} (hr : (lrg acts K m0 P).R i g g') (hx : Excl P.may i d)
    (h : LInv acts K m0 g m) (h' : LInv acts K m0 g' m') (k : Kd) : m' (k, d) = m (k, d) := by
  rw [h.mem, h'.mem]
  exact accTo_congr fun e _ hd => hr.2.2.2 k e (hd ▸ hx)

/-- Thread `i` updates the cell `k` for `e`. -/
def LGh.app (g : LGh) (i : Nat × Nat) (k : Kd) (e : Ed) (b : Bool) : LGh :=
  ⟨fun k' e' => (k' = k ∧ e' = e) ∨ g.did k' e', fun d => if d = e.d ∧ b = true then some i else g.z d⟩

theorem app_ok (hn : acts.Nodup) (hE : Enough acts m0) {P : Plan Unit} {i : Nat × Nat} {g : LGh} {m : Loc → Int} (hi : LInv acts K m0 g m)
    {e : Ed} (he : e ∈ acts) (hm : P.may i e.d) {S : Ed → Prop} (hS : ¬ S e) {l : List (Nat × Unit)} {D : List Kd} (hP : LP P i e S l D g) {k : Kd} (hk : k ∈ K) (hkD : k ∉ D) :
    ∃ g', (lrg acts K m0 P).Gu i g g' ∧ LInv acts K m0 g' (put m (k, e.d) (op k (m (k, e.d)) (v0 m0 k e))) ∧
      LP P i e S (emit e.d (tf (decide (k = .ct ∧ m (k, e.d) - 1 = 0))) l) (k :: D) g' := by
  obtain ⟨hT, hmi, hpt⟩ := hP
  have hnd : ¬ g.did k e := fun hc => hkD ((hpt k).1 hc)
  have hup : ∀ k' d, accTo acts k' (v0 m0 k') (fun e' => (k' = k ∧ e' = e) ∨ g.did k' e') (m0 (k', d)) d =
      put m (k, e.d) (op k (m (k, e.d)) (v0 m0 k e)) (k', d) := by
    intro k' d
    by_cases hkk : k' = k
    · subst hkk
      have h1 : accTo acts k' (v0 m0 k') (fun e' => (k' = k' ∧ e' = e) ∨ g.did k' e') (m0 (k', d)) d = _ :=
        (accTo_congr fun e' _ _ => by simp).trans (accTo_add hn he hnd (v := v0 m0 k') (m0 (k', d)) d)
      rw [h1]
      by_cases hd : e.d = d
      · subst hd; rw [if_pos rfl, put_same, hi.mem]
      · rw [if_neg hd, put_ne _ _ fun hc => hd (by injection hc with _ h; exact h.symm), hi.mem]
    · rw [put_ne _ _ fun hc => hkk (by injection hc), hi.mem]
      exact accTo_congr fun e' _ _ => by simp [hkk]
  -- the counter of a destination that was emitted is not touched again
  have hz : k = .ct → g.z e.d = none := by
    rintro rfl
    by_contra hz
    obtain ⟨h0, -⟩ := (hi.em e.d).1 hz
    have h2 := hi.mem .ct e.d
    rw [accTo_ct] at h2
    have h3 := hE e he
    have h4 : acts.countP (fun e' => decide (g.did .ct e' ∧ e'.d = e.d)) < acts.countP fun e' => decide (e'.d = e.d) := by
      have h5 : acts.countP (fun e' => decide (g.did .ct e' ∧ e'.d = e.d)) + 1 ≤ acts.countP fun e' => decide (e'.d = e.d) := by
        have h6 := accTo_add hn he hnd (k := .ct) (v := v0 m0 .ct) 0 e.d
        have h7 := accTo_le acts (v0 m0 .ct) (fun e' => e' = e ∨ g.did .ct e') 0 e.d
        rw [if_pos rfl, accTo_ct _ _ (g.did .ct)] at h6
        rw [h6] at h7
        simp only [op] at h7
        omega
      omega
    omega
  refine ⟨g.app i k e (decide (k = .ct ∧ m (k, e.d) - 1 = 0)), ⟨fun e' he' k' => ?_, fun k' e' h => Or.inr h, fun d j hj => ?_, fun k' e' hm' => ?_⟩,
    ⟨fun k' d => (hup k' d).symm, fun k' e' h => ?_, fun d => ?_⟩, ⟨?_, fun d => ?_, fun e' he' => ?_⟩, hmi, fun k' => ?_⟩
  · have : e' ≠ e := fun h => he' (h ▸ hmi)
    simp [LGh.app, this]
  · by_cases h : d = e.d ∧ decide (k = .ct ∧ m (k, e.d) - 1 = 0) = true
    · have h1 : (g.app i k e (decide (k = .ct ∧ m (k, e.d) - 1 = 0))).z d = some i := if_pos h
      rw [h1, h.1, hz (of_decide_eq_true h.2).1, Option.some.injEq]
      exact ⟨fun h => absurd h.symm hj, fun h => by cases h⟩
    · have h1 : (g.app i k e (decide (k = .ct ∧ m (k, e.d) - 1 = 0))).z d = g.z d := if_neg h
      rw [h1]
  · have : e' ≠ e := fun h => hm' (h ▸ hm)
    simp [LGh.app, this]
  · rcases h with ⟨rfl, rfl⟩ | h
    · exact ⟨he, hk⟩
    · exact hi.ok k' e' h
  · by_cases hkc : k = .ct
    · subst hkc
      by_cases hd : d = e.d
      · subst hd
        rw [put_same]
        have hx : ∃ e', (g.app i .ct e (decide (Kd.ct = .ct ∧ m (.ct, e.d) - 1 = 0))).did .ct e' ∧ e'.d = e.d := ⟨e, Or.inl ⟨rfl, rfl⟩, rfl⟩
        by_cases h0 : m (.ct, e.d) - 1 = 0
        · have h1 : (g.app i .ct e (decide (Kd.ct = .ct ∧ m (.ct, e.d) - 1 = 0))).z e.d = some i := if_pos ⟨rfl, by simp [h0]⟩
          rw [h1]
          exact ⟨fun _ => ⟨h0, hx⟩, fun _ => by simp⟩
        · have h1 : (g.app i .ct e (decide (Kd.ct = .ct ∧ m (.ct, e.d) - 1 = 0))).z e.d = g.z e.d := if_neg fun hc => h0 (of_decide_eq_true hc.2).2
          rw [h1, hz rfl]
          exact ⟨fun h => absurd rfl h, fun h => absurd h.1 h0⟩
      · have h1 : (g.app i .ct e (decide (Kd.ct = .ct ∧ m (.ct, e.d) - 1 = 0))).z d = g.z d := if_neg fun hc => hd hc.1
        rw [h1, hi.em, put_ne _ _ fun hc => hd (by injection hc)]
        refine and_congr_right fun _ => ⟨fun ⟨e', h1, h2⟩ => ⟨e', Or.inr h1, h2⟩, fun ⟨e', h1, h2⟩ => ⟨e', h1.resolve_left ?_, h2⟩⟩
        rintro ⟨-, rfl⟩
        exact hd h2.symm
    · have h1 : (g.app i k e (decide (k = .ct ∧ m (k, e.d) - 1 = 0))).z d = g.z d := if_neg fun hc => hkc (of_decide_eq_true hc.2).1
      rw [h1, hi.em, put_ne _ _ fun hc => hkc (by injection hc with h _; exact h.symm)]
      refine and_congr_right fun _ => ⟨fun ⟨e', h1, h2⟩ => ⟨e', Or.inr h1, h2⟩, fun ⟨e', h1, h2⟩ => ⟨e', h1.resolve_left ?_, h2⟩⟩
      rintro ⟨h, -⟩
      exact hkc h.symm
  · by_cases h : k = .ct ∧ m (k, e.d) - 1 = 0
    · rw [show tf (decide (k = .ct ∧ m (k, e.d) - 1 = 0)) = some () by rw [decide_eq_true h]; rfl, emit, List.map_cons, List.nodup_cons]
      refine ⟨fun hin => ?_, hT.1⟩
      have := (hT.2.1 _).1 hin
      rw [hz h.1] at this; cases this
    · rw [show tf (decide (k = .ct ∧ m (k, e.d) - 1 = 0)) = none by rw [decide_eq_false h]; rfl]; exact hT.1
  · by_cases h : k = .ct ∧ m (k, e.d) - 1 = 0
    · rw [show tf (decide (k = .ct ∧ m (k, e.d) - 1 = 0)) = some () by rw [decide_eq_true h]; rfl, emit, List.map_cons, List.mem_cons, hT.2.1]
      by_cases hd : d = e.d
      · have h1 : (g.app i k e (decide (k = .ct ∧ m (k, e.d) - 1 = 0))).z d = some i := if_pos ⟨hd, decide_eq_true h⟩
        rw [h1]; exact ⟨fun _ => rfl, fun _ => Or.inl hd⟩
      · have h1 : (g.app i k e (decide (k = .ct ∧ m (k, e.d) - 1 = 0))).z d = g.z d := if_neg fun hc => hd hc.1
        rw [h1]; exact ⟨fun h => h.resolve_left hd, Or.inr⟩
    · have h1 : (g.app i k e (decide (k = .ct ∧ m (k, e.d) - 1 = 0))).z d = g.z d := if_neg fun hc => h (of_decide_eq_true hc.2)
      rw [show tf (decide (k = .ct ∧ m (k, e.d) - 1 = 0)) = none by rw [decide_eq_false h]; rfl, emit, hT.2.1, h1]
  · refine ⟨(hT.2.2 e' he').1, fun k' hc => ?_⟩
    rcases hc with ⟨-, rfl⟩ | hc
    · exact hS he'
    · exact (hT.2.2 e' he').2 k' hc
  · show (k' = k ∧ e = e) ∨ g.did k' e ↔ _
    rw [hpt, List.mem_cons]; simp

section
variable {P : Plan Unit} {i : Nat × Nat} {e : Ed} {S : Ed → Prop} {l : List (Nat × Unit)} {D : List Kd}

/-- What a step on the cell `k` leaves. -/
def After (P : Plan Unit) (i : Nat × Nat) (e : Ed) (S : Ed → Prop) (l : List (Nat × Unit)) (k : Kd) (D : List Kd) (g : LGh) (x : Int) : Prop :=
  LP P i e S (emit e.d (tf (decide (k = .ct ∧ x - 1 = 0))) l) (k :: D) g

theorem addTo_spec (hn : acts.Nodup) (hE : Enough acts m0) (he : e ∈ acts) (hm : P.may i e.d) (hS : ¬ S e) {k : Kd} (hk : k ∈ K) (hkD : k ∉ D) {b : Int}
    (hb : ∀ x, x + b = op k x (v0 m0 k e)) (f : Nat) : ∀ g, LP P i e S l D g →
      Safe (lrg acts K m0 P) i (After P i e S l k D) (addTo f (k, e.d) b) g := by
  induction f with
  | zero => intro g _; trivial
  | succ f ih =>
    intro g hT g1 m1 hr1 hi1
    refine ⟨g1, lrg_gu_refl _ _ _, hi1, ?_⟩
    intro g2 m2 hr2 hi2
    have hT2 := (hT.stable hr1).stable hr2
    refine ⟨fun hx => ?_, fun hx => ?_⟩
    · obtain ⟨g3, h1, h2, h3⟩ := app_ok hn hE hi2 he hm hS hT2 hk hkD
      rw [hx] at h2 h3
      rw [← hb] at h2
      exact ⟨g3, h1, h2, fun g4 hr4 => h3.stable hr4⟩
    · exact ⟨g2, lrg_gu_refl _ _ _, hi2, ih g2 hT2⟩

theorem put_self (m : Loc → Int) (x : Loc) {v : Int} (h : v = m x) : put m x v = m := by
  funext y
  by_cases hy : y = x
  · subst hy; rw [put_same, h]
  · rw [put_ne _ _ hy]

/-- When the new value is the old one, nothing needs to be written. -/
theorem skip_ok (hn : acts.Nodup) (hE : Enough acts m0) {g : LGh} {m : Loc → Int} (hi : LInv acts K m0 g m)
    (he : e ∈ acts) (hm : P.may i e.d) (hS : ¬ S e) (hP : LP P i e S l D g) {k : Kd} (hk : k ∈ K) (hkD : k ∉ D) (hkc : k ≠ .ct)
    (hs : op k (m (k, e.d)) (v0 m0 k e) = m (k, e.d)) :
    ∃ g', (lrg acts K m0 P).Gu i g g' ∧ LInv acts K m0 g' m ∧ LP P i e S l (k :: D) g' := by
  obtain ⟨g', h1, h2, h3⟩ := app_ok hn hE hi he hm hS hP hk hkD
  rw [put_self _ _ hs] at h2
  exact ⟨g', h1, h2, by simpa [hkc, tf, emit] using h3⟩

theorem writeMin_ok (hn : acts.Nodup) (hE : Enough acts m0) (he : e ∈ acts) (hm : P.may i e.d) (hS : ¬ S e) (hk : Kd.lo ∈ K) (hkD : Kd.lo ∉ D)
    (f : Nat) : ∀ g, LP P i e S l D g →
      Safe (lrg acts K m0 P) i (fun g _ => LP P i e S l (.lo :: D) g) (writeMin f (.lo, e.d) (v0 m0 .lo e)) g := by
  induction f with
  | zero => intro g _; trivial
  | succ f ih =>
    intro g hT g1 m1 hr1 hi1
    by_cases hlt : v0 m0 .lo e < m1 (.lo, e.d)
    · beta_reduce
      rw [if_pos hlt]
      refine ⟨g1, lrg_gu_refl _ _ _, hi1, ?_⟩
      intro g2 m2 hr2 hi2
      have hT2 := (hT.stable hr1).stable hr2
      refine ⟨fun hx => ?_, fun hx => ?_⟩
      · obtain ⟨g3, h1, h2, h3⟩ := app_ok hn hE hi2 he hm hS hT2 hk hkD
        rw [hx, show op .lo (m1 (.lo, e.d)) (v0 m0 .lo e) = v0 m0 .lo e by simp only [op]; omega] at h2
        refine ⟨g3, h1, h2, fun g4 hr4 => ?_⟩
        simpa [tf, emit] using h3.stable hr4
      · exact ⟨g2, lrg_gu_refl _ _ _, hi2, ih g2 hT2⟩
    · beta_reduce
      rw [if_neg hlt]
      obtain ⟨g2, h1, h2, h3⟩ := skip_ok hn hE hi1 he hm hS (hT.stable hr1) hk hkD (by decide) (k := .lo) (by simp only [op]; omega)
      exact ⟨g2, h1, h2, fun g4 hr4 => h3.stable hr4⟩

theorem writeMax_ok (hn : acts.Nodup) (hE : Enough acts m0) (he : e ∈ acts) (hm : P.may i e.d) (hS : ¬ S e) (hk : Kd.hi ∈ K) (hkD : Kd.hi ∉ D)
    (f : Nat) : ∀ g, LP P i e S l D g →
      Safe (lrg acts K m0 P) i (fun g _ => LP P i e S l (.hi :: D) g) (writeMax f (.hi, e.d) (v0 m0 .hi e)) g := by
  induction f with
  | zero => intro g _; trivial
  | succ f ih =>
    intro g hT g1 m1 hr1 hi1
    by_cases hlt : m1 (.hi, e.d) < v0 m0 .hi e
    · beta_reduce
      rw [if_pos hlt]
      refine ⟨g1, lrg_gu_refl _ _ _, hi1, ?_⟩
      intro g2 m2 hr2 hi2
      have hT2 := (hT.stable hr1).stable hr2
      refine ⟨fun hx => ?_, fun hx => ?_⟩
      · obtain ⟨g3, h1, h2, h3⟩ := app_ok hn hE hi2 he hm hS hT2 hk hkD
        rw [hx, show op .hi (m1 (.hi, e.d)) (v0 m0 .hi e) = v0 m0 .hi e by simp only [op]; omega] at h2
        refine ⟨g3, h1, h2, fun g4 hr4 => ?_⟩
        simpa [tf, emit] using h3.stable hr4
      · exact ⟨g2, lrg_gu_refl _ _ _, hi2, ih g2 hT2⟩
    · beta_reduce
      rw [if_neg hlt]
      obtain ⟨g2, h1, h2, h3⟩ := skip_ok hn hE hi1 he hm hS (hT.stable hr1) hk hkD (by decide) (k := .hi) (by simp only [op]; omega)
      exact ⟨g2, h1, h2, fun g4 hr4 => h3.stable hr4⟩

end

theorem LT.part {P : Plan Unit} {i : Nat × Nat} {g : LGh} {l : List (Nat × Unit)} {S : Ed → Prop} {e : Ed} (h : LT P i g l (fun e' => e' = e ∨ S e')) :
    LP P i e S l [] g :=
  ⟨⟨h.1, h.2.1, fun e' he' => h.2.2 e' (Or.inr he')⟩, (h.2.2 e (Or.inl rfl)).1, fun k => ⟨fun hc => absurd hc ((h.2.2 e (Or.inl rfl)).2 k), fun hc => (by cases hc)⟩⟩

theorem aug_spec (f : Nat) (hn : acts.Nodup) (hE : Enough acts m0) (hSep : SepE acts) :
    XSpec (lrg acts [.sz, .ct] m0) (augF f) (· ∈ acts) (fun _ => True) LT (LDn [.sz, .ct]) where
  keep P i e := ⟨fun g g' hr h k hk => hr.2.1 k e (h k hk), fun g g' hr h k hk => hr.2.1 k e (h k hk)⟩
  stable P i l S g g' hr h := h.stable hr
  less P i l S S' g hs h := ⟨h.1, h.2.1, fun e he => h.2.2 e (hs e he)⟩
  cond P i l S g d hT := fun g1 hr1 => ⟨hT.stable hr1, fun _ => trivial, fun h => (by cases h)⟩
  updA P i l S g e hac _ hm hS hT := by
    intro g1 m1 hr1 hi1
    refine ⟨g1, lrg_gu_refl _ _ _, hi1, ?_⟩
    rw [hi1.src hSep hac]
    refine (addTo_spec hn hE hac hm hS (by simp) (by simp) (fun _ => rfl) f g1 (hT.stable hr1).part).bind fun x g2 h2 => ?_
    have h2' : LP P i e S l [.sz] g2 := by simpa [After, tf, emit] using h2
    refine (addTo_spec hn hE hac hm hS (by simp) (by simp) (fun _ => rfl) f g2 h2').bind fun c g3 h3 g4 hr4 => ?_
    have h4 : LP P i e S (emit e.d (tf (decide (c - 1 = 0))) l) [.ct, .sz] g4 := by simpa [After] using LP.stable hr4 h3
    refine ⟨h4.1, fun k hk => (h4.2.2 k).2 ?_⟩
    simp only [List.mem_cons] at hk ⊢; tauto
  upd P i l S g e hac _ hm hx hS hT := by
    intro g1 m1 hr1 hi1
    refine ⟨g1, lrg_gu_refl _ _ _, hi1, ?_⟩
    intro g2 m2 hr2 hi2
    refine ⟨g2, lrg_gu_refl _ _ _, hi2, ?_⟩
    rw [hi2.src hSep hac, ← excl_same hr2 hx hi1 hi2]
    intro g3 m3 hr3 hi3
    rw [← excl_same hr3 hx hi2 hi3]
    obtain ⟨g4, h1, h2, h3⟩ := app_ok hn hE hi3 hac hm hS (((hT.part.stable hr1).stable hr2).stable hr3) (k := .sz) (by simp) (by simp)
    refine ⟨g4, h1, h2, ?_⟩
    have h3' : LP P i e S l [.sz] g4 := by simpa [tf, emit] using h3
    intro g5 m5 hr5 hi5
    refine ⟨g5, lrg_gu_refl _ _ _, hi5, ?_⟩
    intro g6 m6 hr6 hi6
    rw [← excl_same hr6 hx hi5 hi6]
    obtain ⟨g7, h4, h5, h6⟩ := app_ok hn hE hi6 hac hm hS ((h3'.stable hr5).stable hr6) (k := .ct) (by simp) (by simp)
    refine ⟨g7, h4, h5, ?_⟩
    intro g8 m8 hr8 hi8
    refine ⟨g8, lrg_gu_refl _ _ _, hi8, ?_⟩
    rw [excl_same hr8 hx h5 hi8, put_same]
    intro g9 hr9
    have h7 := (h6.stable hr8).stable hr9
    have h8 : LP P i e S (emit e.d (tf (decide (m6 (.ct, e.d) - 1 = 0))) l) [.ct, .sz] g9 := by simpa using h7
    refine ⟨h8.1, fun k hk => (h8.2.2 k).2 ?_⟩
    simp only [List.mem_cons] at hk ⊢; tauto

theorem mm_spec (f : Nat) (hn : acts.Nodup) (hE : Enough acts m0) (hSep : SepE acts) :
    XSpec (lrg acts [.lo, .hi, .ct] m0) (mmF f) (· ∈ acts) (fun _ => True) LT (LDn [.lo, .hi, .ct]) where
  keep P i e := ⟨fun g g' hr h k hk => hr.2.1 k e (h k hk), fun g g' hr h k hk => hr.2.1 k e (h k hk)⟩
  stable P i l S g g' hr h := h.stable hr
  less P i l S S' g hs h := ⟨h.1, h.2.1, fun e he => h.2.2 e (hs e he)⟩
  cond P i l S g d hT := fun g1 hr1 => ⟨hT.stable hr1, fun _ => trivial, fun h => (by cases h)⟩
  updA P i l S g e hac _ hm hS hT := by
    intro g1 m1 hr1 hi1
    refine ⟨g1, lrg_gu_refl _ _ _, hi1, ?_⟩
    rw [hi1.src hSep hac]
    intro g2 m2 hr2 hi2
    refine ⟨g2, lrg_gu_refl _ _ _, hi2, ?_⟩
    rw [hi2.src hSep hac]
    have hT2 := (hT.part.stable hr1).stable hr2
    -- the low part
    intro g3 m3 hr3 hi3
    have hlo : ∃ g4, (lrg acts [.lo, .hi, .ct] m0 P).Gu i g3 g4 ∧ LInv acts [.lo, .hi, .ct] m0 g4 m3 ∧
        Safe (lrg acts [.lo, .hi, .ct] m0 P) i (fun g _ => LP P i e S l [.lo] g)
          (if v0 m0 .lo e < m3 (.lo, e.d) then (writeMin f (.lo, e.d) (v0 m0 .lo e)).bind fun _ => ret () else ret ()) g4 := by
      by_cases hlt : v0 m0 .lo e < m3 (.lo, e.d)
      · rw [if_pos hlt]
        exact ⟨g3, lrg_gu_refl _ _ _, hi3, (writeMin_ok hn hE hac hm hS (by simp) (by simp) f g3 (hT2.stable hr3)).bind
          fun x g5 h5 g6 hr6 => h5.stable hr6⟩
      · rw [if_neg hlt]
        obtain ⟨g4, h1, h2, h3⟩ := skip_ok hn hE hi3 hac hm hS (hT2.stable hr3) (by simp) (by simp) (by decide) (k := .lo) (by simp only [op]; omega)
        exact ⟨g4, h1, h2, fun g5 hr5 => h3.stable hr5⟩
    obtain ⟨g4, hg4, hi4, hs4⟩ := hlo
    refine ⟨g4, hg4, hi4, Safe.bind hs4 fun _ g5 h5 => ?_⟩
    intro g6 m6 hr6 hi6
    have hhi : ∃ g7, (lrg acts [.lo, .hi, .ct] m0 P).Gu i g6 g7 ∧ LInv acts [.lo, .hi, .ct] m0 g7 m6 ∧
        Safe (lrg acts [.lo, .hi, .ct] m0 P) i (fun g _ => LP P i e S l [.hi, .lo] g)
          (if v0 m0 .hi e > m6 (.hi, e.d) then (writeMax f (.hi, e.d) (v0 m0 .hi e)).bind fun _ => ret () else ret ()) g7 := by
      by_cases hlt : v0 m0 .hi e > m6 (.hi, e.d)
      · rw [if_pos hlt]
        exact ⟨g6, lrg_gu_refl _ _ _, hi6, (writeMax_ok hn hE hac hm hS (by simp) (by simp) f g6 (h5.stable hr6)).bind
          fun x g5 h5 g6 hr6 => h5.stable hr6⟩
      · rw [if_neg hlt]
        obtain ⟨g4, h1, h2, h3⟩ := skip_ok hn hE hi6 hac hm hS (h5.stable hr6) (by simp) (by simp) (by decide) (k := .hi) (by simp only [op]; omega)
        exact ⟨g4, h1, h2, fun g5 hr5 => h3.stable hr5⟩
    obtain ⟨g7, hg7, hi7, hs7⟩ := hhi
    refine ⟨g7, hg7, hi7, Safe.bind hs7 fun _ g8 h8 => ?_⟩
    refine (addTo_spec hn hE hac hm hS (by simp) (by simp) (fun _ => rfl) f g8 h8).bind fun c g9 h9 g10 hr10 => ?_
    have h4 : LP P i e S (emit e.d (tf (decide (c - 1 = 0))) l) [.ct, .hi, .lo] g10 := by simpa [After] using LP.stable hr10 h9
    refine ⟨h4.1, fun k hk => (h4.2.2 k).2 ?_⟩
    simp only [List.mem_cons] at hk ⊢; tauto
  upd P i l S g e hac _ hm hx hS hT := by
    intro g1 m1 hr1 hi1
    refine ⟨g1, lrg_gu_refl _ _ _, hi1, ?_⟩
    rw [hi1.src hSep hac]
    intro g2 m2 hr2 hi2
    refine ⟨g2, lrg_gu_refl _ _ _, hi2, ?_⟩
    rw [hi2.src hSep hac]
    have hT2 := (hT.part.stable hr1).stable hr2
    intro g3 m3 hr3 hi3
    have hlo : ∃ g4, (lrg acts [.lo, .hi, .ct] m0 P).Gu i g3 g4 ∧ LInv acts [.lo, .hi, .ct] m0 g4 m3 ∧
        Safe (lrg acts [.lo, .hi, .ct] m0 P) i (fun g _ => LP P i e S l [.lo] g)
          (if v0 m0 .lo e < m3 (.lo, e.d) then write (.lo, e.d) (v0 m0 .lo e) (ret ()) else ret ()) g4 := by
      by_cases hlt : v0 m0 .lo e < m3 (.lo, e.d)
      · rw [if_pos hlt]
        refine ⟨g3, lrg_gu_refl _ _ _, hi3, ?_⟩
        intro g4 m4 hr4 hi4
        obtain ⟨g5, h1, h2, h3⟩ := app_ok hn hE hi4 hac hm hS ((hT2.stable hr3).stable hr4) (k := .lo) (by simp) (by simp)
        rw [excl_same hr4 hx hi3 hi4, show op .lo (m3 (.lo, e.d)) (v0 m0 .lo e) = v0 m0 .lo e by simp only [op]; omega] at h2
        refine ⟨g5, h1, h2, fun g6 hr6 => ?_⟩
        simpa [tf, emit] using h3.stable hr6
      · rw [if_neg hlt]
        obtain ⟨g4, h1, h2, h3⟩ := skip_ok hn hE hi3 hac hm hS (hT2.stable hr3) (by simp) (by simp) (by decide) (k := .lo) (by simp only [op]; omega)
        exact ⟨g4, h1, h2, fun g5 hr5 => h3.stable hr5⟩
    obtain ⟨g4, hg4, hi4, hs4⟩ := hlo
    refine ⟨g4, hg4, hi4, Safe.bind hs4 fun _ g5 h5 => ?_⟩
    intro g6 m6 hr6 hi6
    have hhi : ∃ g7, (lrg acts [.lo, .hi, .ct] m0 P).Gu i g6 g7 ∧ LInv acts [.lo, .hi, .ct] m0 g7 m6 ∧
        Safe (lrg acts [.lo, .hi, .ct] m0 P) i (fun g _ => LP P i e S l [.hi, .lo] g)
          (if v0 m0 .hi e > m6 (.hi, e.d) then write (.hi, e.d) (v0 m0 .hi e) (ret ()) else ret ()) g7 := by
      by_cases hlt : v0 m0 .hi e > m6 (.hi, e.d)
      · rw [if_pos hlt]
        refine ⟨g6, lrg_gu_refl _ _ _, hi6, ?_⟩
        intro g7 m7 hr7 hi7
        obtain ⟨g8, h1, h2, h3⟩ := app_ok hn hE hi7 hac hm hS ((h5.stable hr6).stable hr7) (k := .hi) (by simp) (by simp)
        rw [excl_same hr7 hx hi6 hi7, show op .hi (m6 (.hi, e.d)) (v0 m0 .hi e) = v0 m0 .hi e by simp only [op]; omega] at h2
        refine ⟨g8, h1, h2, fun g9 hr9 => ?_⟩
        simpa [tf, emit] using h3.stable hr9
      · rw [if_neg hlt]
        obtain ⟨g4, h1, h2, h3⟩ := skip_ok hn hE hi6 hac hm hS (h5.stable hr6) (by simp) (by simp) (by decide) (k := .hi) (by simp only [op]; omega)
        exact ⟨g4, h1, h2, fun g5 hr5 => h3.stable hr5⟩
    obtain ⟨g7, hg7, hi7, hs7⟩ := hhi
    refine ⟨g7, hg7, hi7, Safe.bind hs7 fun _ g8 h8 => ?_⟩
    intro g9 m9 hr9 hi9
    refine ⟨g9, lrg_gu_refl _ _ _, hi9, ?_⟩
    intro g10 m10 hr10 hi10
    obtain ⟨g11, h1, h2, h3⟩ := app_ok hn hE hi10 hac hm hS ((h8.stable hr9).stable hr10) (k := .ct) (by simp) (by simp)
    rw [excl_same hr10 hx hi9 hi10] at h2 h3
    refine ⟨g11, h1, h2, fun g12 hr12 => ?_⟩
    have h4 : LP P i e S (emit e.d (tf (decide (m9 (.ct, e.d) - 1 = 0))) l) [.ct, .hi, .lo] g12 := by simpa using h3.stable hr12
    refine ⟨h4.1, fun k hk => (h4.2.2 k).2 ?_⟩
    simp only [List.mem_cons] at hk ⊢; tauto

/-- One `edgeMap` with such a client: every cell of the kinds `K` receives the values of all edges to it, other kinds are unchanged; the vertices
whose counter gets to 0 are emitted, once. -/
theorem leaf_round {F : Func Unit Loc Int Unit} (G : Gr Unit) (hG : G.Ok) (hO : G.Once) (inF : Nat → Bool) {m m' : Loc → Int} {o : List (Nat × Unit)}
    (hc : Kd.ct ∈ K) (hF : XSpec (lrg (activeEdges G inF) K m) F (· ∈ activeEdges G inF) (fun _ => True) LT (LDn K)) (hr : EdgeMapX F G inF m m' o) :
    (∀ k d, m' (k, d) = if k ∈ K then accTo (activeEdges G inF) k (v0 m k) (fun _ => True) (m (k, d)) d else m (k, d)) ∧
    (o.map Prod.fst).Nodup ∧ ∀ d, d ∈ o.map Prod.fst ↔ m' (.ct, d) = 0 ∧ ∃ e ∈ activeEdges G inF, e.d = d := by
  obtain ⟨P, g, out, hi, hdn, hT, hcol⟩ := edgeMap_soundX hF G hG hO inF
    (fun e he => (mem_activeEdges hG e).2 he) (LInv (activeEdges G inF) K m) (fun _ _ _ => Iff.rfl)
    ⟨fun _ _ => False, fun _ => none⟩
    ⟨fun k d => by rw [accTo_none (fun _ _ h => h.elim)], fun _ _ h => h.elim, fun d => ⟨fun h => absurd rfl h, fun ⟨_, _, h, _⟩ => h.elim⟩⟩
    (fun P i => ⟨List.nodup_nil, fun d => ⟨fun h => (by cases h), fun h => (by cases h)⟩, fun e he => ⟨he, fun _ => id⟩⟩) hr
  refine ⟨fun k d => ?_, ?_, fun d => ?_⟩
  · rw [hi.mem]
    by_cases hk : k ∈ K
    · rw [if_pos hk]
      exact accTo_congr fun e he _ => ⟨fun _ => trivial, fun _ => hdn e ((mem_activeEdges hG e).1 he) k hk⟩
    · rw [if_neg hk]
      exact accTo_none fun e he h => absurd (hi.ok k e h).2 hk
  · refine hcol.nodup (fun i => (hT i).1) fun i j d x y h1 h2 => ?_
    have e1 := ((hT i).2.1 d).1 (List.mem_map.2 ⟨_, h1, rfl⟩)
    have e2 := ((hT j).2.1 d).1 (List.mem_map.2 ⟨_, h2, rfl⟩)
    exact Option.some.inj (e1.symm.trans e2)
  · have hmem : d ∈ o.map Prod.fst ↔ ∃ i, g.z d = some i := by
      constructor
      · intro h
        obtain ⟨⟨d', x⟩, h1, rfl⟩ := List.mem_map.1 h
        obtain ⟨i, hi'⟩ := hcol.sub _ h1
        exact ⟨i, ((hT i).2.1 _).1 (List.mem_map.2 ⟨_, hi', rfl⟩)⟩
      · rintro ⟨i, h⟩
        obtain ⟨⟨d', x⟩, h1, rfl⟩ := List.mem_map.1 (((hT i).2.1 d).2 h)
        obtain ⟨y, hy⟩ := hcol.all i _ _ h1
        exact List.mem_map.2 ⟨_, hy, rfl⟩
    rw [hmem, ← Option.ne_none_iff_exists', hi.em]
    exact and_congr_right fun _ => ⟨fun ⟨e, h1, h2⟩ => ⟨e, (hi.ok _ e h1).1, h2⟩, fun ⟨e, h1, h2⟩ => ⟨e, hdn e ((mem_activeEdges hG e).1 h1) _ hc, h2⟩⟩

end

end Gbbs.Bicc
