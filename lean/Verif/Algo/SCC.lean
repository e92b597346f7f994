/-
`StronglyConnectedComponents` and `num_scc`, `benchmarks/StronglyConnectedComponents/RandomGreedyBGSS16/StronglyConnectedComponents.h`
(C83, C84).
-/
import Verif.Algo.SccSearch
import Verif.Common
import Mathlib.Data.Rat.Floor
import Mathlib.Algebra.Order.Floor.Semiring

namespace Gbbs.Scc

open Conc Conc.Prog Gbbs.Em Gbbs.RT
open Relation (ReflTransGen)

variable {W : Type}

/-! ### Model -/

/-- The vertices without out- or in-edges, `StronglyConnectedComponents.h:211-214`. -/
def zero (G : Gr W) : List Nat := (List.range G.n).filter fun v => decide (G.fwd v = [] ∨ G.bwd v = [])

/-- The others, 215-218. -/
def nonZero (G : Gr W) : List Nat := (List.range G.n).filter fun v => !decide (G.fwd v = [] ∨ G.bwd v = [])

/-- The labels after `StronglyConnectedComponents.h:203-226`: `1 + (i | TOP_BIT)` for `zero[i]`, 0 for the others. -/
def lab0 (G : Gr W) (v : Nat) : Nat := if v ∈ zero G then 1 + (top + (zero G).idxOf v) else 0

/-- The argument of the first search, `StronglyConnectedComponents.h:238-249`: the operator keeps the right argument unless the left one
has a larger degree; it is associative. -/
def start (G : Gr W) : Nat :=
  ((List.range G.n).foldl (fun l i => if l.2 > (G.fwd i).length then l else (i, (G.fwd i).length)) ((0, 0) : Nat × Nat)).1

/-- The loop over the visited vertices, `StronglyConnectedComponents.h:255-263, 310-318`. -/
def mark (lab vin vout : Nat → Nat) (label v : Nat) : Nat :=
  if vin v ≠ 0 ∧ vout v ≠ 0 then top + label else if vin v ≠ 0 ∨ vout v ≠ 0 then label else lab v

/-- Two first searches and their labels, `StronglyConnectedComponents.h:252-263, 302-318`. -/
def FirstRound (G : Gr W) (lab : Nat → Nat) (s label : Nat) (lab' : Nat → Nat) : Prop :=
  ∃ vin vout, FirstSearch (rev G) (fun v => done (lab v)) s vin ∧ FirstSearch G (fun v => done (lab v)) s vout ∧
    lab' = mark lab vin vout label

/-- Calls of `write_max` on the labels; they commute, so the order does not matter. -/
def wmax (lab : Nat → Nat) (l : List KV) : Nat → Nat := l.foldl (fun lab p => upd lab p.1 (max (lab p.1) p.2)) lab

/-- The calls of `write_max` for the pairs of the smaller table, `StronglyConnectedComponents.h:349-362`; `none`: `contains` does not
return. -/
def inter (hash : Nat → Nat) (S L : Tab) : Option (List KV) :=
  (entries S.m S.t).mapM fun kv => (contains2 L.m hash L.t kv L.m 0).map fun b => (kv.1, if b then top + kv.2 else kv.2)

/-- A round of many searches, `StronglyConnectedComponents.h:325-376`. -/
def MultiRound (G : Gr W) (hash : Nat → Nat) (lab : Nat → Nat) (bits : Nat → Val) (centers : List Nat) (label : Nat) (lab' : Nat → Nat)
    (bits' : Nat → Val) : Prop :=
  ∃ Ti To bits1 l, MultiSearch (rev G) lab hash bits centers label Ti bits1 ∧ MultiSearch G lab hash bits1 centers label To bits' ∧
    inter hash (if Ti.m ≤ To.m then Ti else To) (if Ti.m > To.m then Ti else To) = some l ∧
    lab' = wmax (wmax lab l) (entries (if Ti.m > To.m then Ti else To).m (if Ti.m > To.m then Ti else To).t)

/-- The variables of the loop. `finished` is equal to `cur_offset`. -/
structure St where
  lab : Nat → Nat
  bits : Nat → Val
  step : Nat
  cur : Nat
  round : Nat
  off : Nat

/-- The centers of the next round, `StronglyConnectedComponents.h:277-290`. -/
def centersOf (Q : List Nat) (s : St) : List Nat :=
  ((Q.drop s.cur).take (min (s.cur + s.step) Q.length - s.cur)).filter fun v => !done (s.lab v)

/-- The counters after the start of a round, `StronglyConnectedComponents.h:278-284, 300`. -/
def advance (beta : ℚ) (Q : List Nat) (s : St) (lab : Nat → Nat) (bits : Nat → Val) : St :=
  ⟨lab, bits, ⌈(s.step : ℚ) * beta⌉₊, min (s.cur + s.step) Q.length, s.round + 1, s.off + (centersOf Q s).length⟩

/-- A round of the loop, `StronglyConnectedComponents.h:274-380`. The rounding of `step_size * step_multiplier` to a double is left out. -/
inductive Round (G : Gr W) (hash : Nat → Nat) (beta : ℚ) (Q : List Nat) : St → St → Prop
  | skip (s : St) (h : s.cur < Q.length) (hc : centersOf Q s = []) : Round G hash beta Q s (advance beta Q s s.lab s.bits)
  | first (s : St) (c : Nat) (cs : List Nat) (lab' : Nat → Nat) (h : s.cur < Q.length) (hc : centersOf Q s = c :: cs)
      (h1 : s.round + 1 = 1) (hf : FirstRound G s.lab c s.off lab') : Round G hash beta Q s (advance beta Q s lab' s.bits)
  | multi (s : St) (lab' : Nat → Nat) (bits' : Nat → Val) (h : s.cur < Q.length) (hc : centersOf Q s ≠ [])
      (h1 : s.round + 1 ≠ 1) (hm : MultiRound G hash s.lab s.bits (centersOf Q s) s.off lab' bits') :
      Round G hash beta Q s (advance beta Q s lab' bits')

/-- The state before the loop, with its sequence `Q` of vertices, `StronglyConnectedComponents.h:220-272`; `P` is the shuffled sequence. -/
def Init (G : Gr W) (P : List Nat) (s : St) (Q : List Nat) : Prop :=
  P.Perm (nonZero G) ∧ (∃ lab off, (if done (lab0 G (start G)) then lab = lab0 G ∧ off = (zero G).length + 1
      else FirstRound G (lab0 G) (start G) ((zero G).length + 1) lab ∧ off = (zero G).length + 1 + 1) ∧
    s = ⟨lab, fun _ => none, 1, 0, 0, off⟩) ∧ Q = P.filter fun v => !done (s.lab v)

/-- A call of `StronglyConnectedComponents(G, beta)` that returns `res`, `StronglyConnectedComponents.h:197-385`. -/
def SCC (G : Gr W) (hash : Nat → Nat) (beta : ℚ) (res : Nat → Nat) : Prop :=
  ∃ P s Q s', Init G P s Q ∧ ReflTransGen (Round G hash beta Q) s s' ∧ ¬ s'.cur < Q.length ∧ ∀ v, res v = s'.lab v % top - 1

/-- `num_scc`, `StronglyConnectedComponents.h:395-411`: the sum of the flags of `0..n-1`; the racing writes all store 1. -/
def numScc (n : Nat) (labels : Nat → Nat) : Nat :=
  ((List.range n).map fun l => if ∃ v < n, labels v % top = l then 1 else 0).sum

/-! ### Specification -/

/-- The vertices are in one strongly connected component. -/
def Strong (G : Gr W) (u v : Nat) : Prop := ReflTransGen (E G) u v ∧ ReflTransGen (E G) v u

/-! ### Reachability -/

theorem Strong.refl {G : Gr W} (v : Nat) : Strong G v v := ⟨.refl, .refl⟩
theorem Strong.symm {G : Gr W} {u v : Nat} (h : Strong G u v) : Strong G v u := ⟨h.2, h.1⟩
theorem Strong.trans {G : Gr W} {u v w : Nat} (h : Strong G u v) (h' : Strong G v w) : Strong G u w :=
  ⟨h.1.trans h'.1, h'.2.trans h.2⟩

theorem reach_rev {G : Gr W} (hG : G.Ok) {u v : Nat} : ReflTransGen (E (rev G)) u v ↔ ReflTransGen (E G) v u := by
  constructor
  · intro h
    induction h with
    | refl => exact .refl
    | tail _ h ih => exact ReflTransGen.head ((E_rev hG _ _).1 h) ih
  · intro h
    induction h with
    | refl => exact .refl
    | tail _ h ih => exact ReflTransGen.head ((E_rev hG _ _).2 h) ih

theorem strong_rev {G : Gr W} (hG : G.Ok) {u v : Nat} : Strong (rev G) u v ↔ Strong G u v := by
  unfold Strong
  rw [reach_rev hG, reach_rev hG]
  exact And.comm

/-- Within a component there are paths that stay in it. -/
theorem strong_path {G : Gr W} {R : Nat → Nat → Prop} {u v : Nat} (h : Strong G u v)
    (hR : ∀ a b, Strong G u a → Strong G u b → E G a b → R a b) : ReflTransGen R u v := by
  obtain ⟨h1, h2⟩ := h
  induction h1 with
  | refl => exact .refl
  | tail hab hbc ih =>
    have hb := ReflTransGen.head hbc h2
    exact (ih hb).tail (hR _ _ ⟨hab, hb⟩ ⟨hab.tail hbc, h2⟩ hbc)

theorem strong_lt {G : Gr W} (hG : G.Ok) {u v : Nat} (h : Strong G u v) (hu : u < G.n) : v < G.n := by
  rcases ReflTransGen.cases_tail h.1 with rfl | ⟨b, _, w, hw⟩
  · exact hu
  · exact (hG.bound _ _ _ hw).2

/-! ### The invariant -/

/-- Labels: at most `off`, with the bit for finished components; constant on components, distinct on finished ones. -/
structure LInv (G : Gr W) (lab : Nat → Nat) (off : Nat) : Prop where
  pos : 1 ≤ off
  rng : ∀ v, v < G.n → lab v < off ∨ ∃ x, 1 ≤ x ∧ x < off ∧ lab v = top + x
  same : ∀ u v, Strong G u v → lab u = lab v
  sep : ∀ u v, u < G.n → v < G.n → done (lab u) = true → lab u = lab v → Strong G u v

theorem done_iff {x : Nat} : done x = true ↔ top ≤ x := by simp [done]
theorem not_done_iff {x : Nat} : done x = false ↔ x < top := by simp [done]

theorem open_lab {G : Gr W} {lab : Nat → Nat} {s v : Nat} (hs : done (lab s) = false)
    (h : ReflTransGen (Open G fun v => done (lab v)) s v) : done (lab v) = false ∧ ReflTransGen (E G) s v := by
  induction h with
  | refl => exact ⟨hs, .refl⟩
  | tail _ h ih => exact ⟨h.2, ih.2.tail h.1⟩

/-- A search covers whole components. -/
theorem open_strong {G : Gr W} {lab : Nat → Nat} (hsame : ∀ u v, Strong G u v → lab u = lab v) {s u v : Nat} (huv : Strong G u v)
    (hu : done (lab u) = false) (h : ReflTransGen (Open G fun v => done (lab v)) s u) :
    ReflTransGen (Open G fun v => done (lab v)) s v :=
  h.trans (strong_path huv fun a b _ hb he => ⟨he, by beta_reduce; rw [← hsame _ _ hb]; exact hu⟩)

theorem first_ok {G : Gr W} (hG : G.Ok) {lab lab' : Nat → Nat} {off s : Nat} (hi : LInv G lab off) (hoff : off < top) (hs : s < G.n)
    (hd : done (lab s) = false) (h : FirstRound G lab s off lab') :
    LInv G lab' (off + 1) ∧ (∀ v, done (lab v) = true → done (lab' v) = true) ∧ done (lab' s) = true := by
  obtain ⟨vin, vout, hin, hout, rfl⟩ := h
  have hin := first_search (rev_ok hG) hin
  have hout := first_search hG hout
  have hsame' : ∀ u v, Strong (rev G) u v → lab u = lab v := fun u v h => hi.same u v ((strong_rev hG).1 h)
  have hinr : ∀ v, vin v ≠ 0 → done (lab v) = false ∧ ReflTransGen (E G) v s := by
    intro v hv
    obtain ⟨a, b⟩ := open_lab hd ((hin v).1 hv)
    exact ⟨a, (reach_rev hG).1 b⟩
  have houtr : ∀ v, vout v ≠ 0 → done (lab v) = false ∧ ReflTransGen (E G) s v := fun v hv => open_lab hd ((hout v).1 hv)
  have hin_s : ∀ u v, Strong G u v → (vin u ≠ 0 → vin v ≠ 0) := fun u v huv hu =>
    (hin v).2 (open_strong hsame' ((strong_rev hG).2 huv) (hinr u hu).1 ((hin u).1 hu))
  have hout_s : ∀ u v, Strong G u v → (vout u ≠ 0 → vout v ≠ 0) := fun u v huv hu =>
    (hout v).2 (open_strong hi.same huv (houtr u hu).1 ((hout u).1 hu))
  have hmark : ∀ v, done (lab v) = true → mark lab vin vout off v = lab v := by
    intro v hv
    have h1 : vin v = 0 := by
      by_contra h; rw [(hinr v h).1] at hv; cases hv
    have h2 : vout v = 0 := by
      by_contra h; rw [(houtr v h).1] at hv; cases hv
    simp [mark, h1, h2]
  refine ⟨⟨by omega, fun v hv => ?_, fun u v huv => ?_, fun u v hu hv hdu he => ?_⟩, fun v hv => ?_, ?_⟩
  · unfold mark
    split
    · exact Or.inr ⟨off, hi.pos, by omega, rfl⟩
    · split
      · exact Or.inl (by omega)
      · rcases hi.rng v hv with h | ⟨x, h1, h2, h3⟩
        · exact Or.inl (by omega)
        · exact Or.inr ⟨x, h1, by omega, h3⟩
  · have h1 : vin u ≠ 0 ↔ vin v ≠ 0 := ⟨hin_s u v huv, hin_s v u huv.symm⟩
    have h2 : vout u ≠ 0 ↔ vout v ≠ 0 := ⟨hout_s u v huv, hout_s v u huv.symm⟩
    simp only [mark, h1, h2, hi.same u v huv]
  · -- finished vertices: old ones, or in the component of s
    have key : ∀ v, v < G.n → done (mark lab vin vout off v) = true →
        (done (lab v) = true ∧ mark lab vin vout off v = lab v ∧ lab v < top + off) ∨
        (Strong G s v ∧ mark lab vin vout off v = top + off) := by
      intro v hv hdv
      unfold mark at hdv ⊢
      split
      · rename_i h
        exact Or.inr ⟨⟨(houtr v h.2).2, (hinr v h.1).2⟩, rfl⟩
      · rename_i h
        rw [if_neg h] at hdv
        split
        · rename_i h'
          rw [if_pos h', done_iff] at hdv
          omega
        · rename_i h'
          rw [if_neg h'] at hdv
          refine Or.inl ⟨hdv, rfl, ?_⟩
          rcases hi.rng v hv with h | ⟨x, h1, h2, h3⟩ <;> omega
    have hdv : done (mark lab vin vout off v) = true := by rw [← he]; exact hdu
    rcases key u hu hdu with ⟨a1, a2, a3⟩ | ⟨a1, a2⟩ <;> rcases key v hv hdv with ⟨b1, b2, b3⟩ | ⟨b1, b2⟩
    · exact hi.sep u v hu hv a1 (by rw [← a2, he, b2])
    · rw [a2, b2] at he; omega
    · rw [a2, b2] at he; omega
    · exact a1.symm.trans b1
  · rw [hmark v hv]; exact hv
  · have h1 : vin s ≠ 0 := (hin s).2 .refl
    have h2 : vout s ≠ 0 := (hout s).2 .refl
    rw [mark, if_pos ⟨h1, h2⟩, done_iff]
    omega

theorem wmax_spec (l : List KV) : ∀ (lab : Nat → Nat) (v : Nat), lab v ≤ wmax lab l v ∧ (∀ x, (v, x) ∈ l → x ≤ wmax lab l v) ∧
    (wmax lab l v = lab v ∨ (v, wmax lab l v) ∈ l) := by
  induction l with
  | nil => exact fun lab v => ⟨Nat.le_refl _, fun x h => (by cases h), Or.inl rfl⟩
  | cons p l ih =>
    intro lab v
    have hw : wmax lab (p :: l) = wmax (upd lab p.1 (max (lab p.1) p.2)) l := rfl
    rw [hw]
    obtain ⟨h1, h2, h3⟩ := ih (upd lab p.1 (max (lab p.1) p.2)) v
    by_cases hv : v = p.1
    · subst hv
      have e : upd lab p.1 (max (lab p.1) p.2) p.1 = max (lab p.1) p.2 := by simp [upd]
      rw [e] at h1 h3
      refine ⟨by omega, fun x hx => ?_, ?_⟩
      · rcases List.mem_cons.1 hx with hx | hx
        · have : x = p.2 := by rw [← hx]
          omega
        · exact h2 x hx
      · rcases h3 with h3 | h3
        · rw [h3]
          rcases Nat.le_total (lab p.1) p.2 with h | h
          · right; rw [Nat.max_eq_right h]; exact List.mem_cons_self
          · left; rw [Nat.max_eq_left h]
        · exact Or.inr (List.mem_cons_of_mem _ h3)
    · have e : upd lab p.1 (max (lab p.1) p.2) v = lab v := by simp [upd, hv]
      rw [e] at h1 h3
      refine ⟨h1, fun x hx => ?_, h3.imp id (List.mem_cons_of_mem _)⟩
      rcases List.mem_cons.1 hx with hx | hx
      · exact absurd (by rw [← hx]) hv
      · exact h2 x hx

theorem mapM_mem {α β : Type} (f : α → Option β) (l : List α) {r : List β} (h : l.mapM f = some r) (x : β) :
    x ∈ r ↔ ∃ y ∈ l, f y = some x := by
  induction l generalizing r with
  | nil => cases h; simp
  | cons a l ih =>
    rw [List.mapM_cons] at h
    rcases ha : f a with _ | b
    · rw [ha] at h; cases h
    · rw [ha] at h
      rcases hl : l.mapM f with _ | r'
      · rw [hl] at h; cases h
      · rw [hl] at h
        cases h
        simp only [List.mem_cons, exists_eq_or_imp, ha, Option.some.injEq]
        rw [ih hl]
        exact or_congr eq_comm Iff.rfl

theorem contains2_sound {m : Nat} {hash : Nat → Nat} {t : Nat → Val} (hm : 0 < m) (kv : KV) (f : Nat) : ∀ j b,
    contains2 m hash t kv f j = some b → (b = true → Mem m t kv) ∧ (b = false → ∃ s, s < m ∧ t s = none) := by
  induction f with
  | zero => intro j b h; cases h
  | succ f ih =>
    intro j b h
    rw [contains2] at h
    split at h
    · rename_i hc
      cases h
      refine ⟨fun _ => ⟨_, pos_lt hm hash kv.1 j, ?_⟩, fun h => (by cases h)⟩
      rcases hx : t (pos m hash kv.1 j) with _ | ⟨a, b⟩
      · rw [hx] at hc; simp at hc
      · rw [hx] at hc
        simp only [Option.map_some, Option.some.injEq] at hc
        rw [hc.1, hc.2]
    · split at h
      · rename_i hn
        cases h
        exact ⟨fun h => (by cases h), fun _ => ⟨_, pos_lt hm hash kv.1 j, hn⟩⟩
      · exact ih _ _ h

theorem contains2_iff {m : Nat} {hash : Nat → Nat} {t : Nat → Val} (hm : 0 < m) (hw : WF m hash t) {kv : KV} {b : Bool}
    (h : contains2 m hash t kv m 0 = some b) : b = true ↔ Mem m t kv := by
  obtain ⟨h1, h2⟩ := contains2_sound hm kv m 0 b h
  cases b with
  | true => exact ⟨fun _ => h1 rfl, fun _ => rfl⟩
  | false =>
    obtain ⟨b', h3, h4⟩ := contains2_spec hw (h2 rfl) kv
    rw [h] at h3
    cases h3
    exact h4

/-- Tables are not empty. -/
theorem multi_pos {G : Gr W} {lab : Nat → Nat} {hash : Nat → Nat} {bits bits' : Nat → Val} {centers : List Nat} {start : Nat} {T : Tab}
    (h : MultiSearch G lab hash bits centers start T bits') : 0 < T.m := by
  obtain ⟨t0, res, _, hl⟩ := h
  have : ∀ {T bits fr T' bits'}, MSLoop G lab hash T bits fr T' bits' → 0 < T.m → 0 < T'.m := by
    intro T bits fr T' bits' hl
    induction hl with
    | stop => exact id
    | step f hne hp hr hm hl ih =>
      intro h0
      refine ih ?_
      have := grow_le _ _ _ |>.trans_eq hr.1.symm
      exact Nat.lt_of_lt_of_le h0 this
  exact this hl (initSize_pos _)

/-- The labels after a round of many searches: the maximum of these candidates. -/
theorem multi_max {G : Gr W} (hG : G.Ok) {hash : Nat → Nat} {lab lab' : Nat → Nat} {bits bits' : Nat → Val} {centers : List Nat} {off : Nat}
    (hc : ∀ c ∈ centers, done (lab c) = false) (hb : ∀ v, bits v = none) (h : MultiRound G hash lab bits centers off lab' bits') :
    (∀ v, bits' v = none) ∧ ∀ v, lab v ≤ lab' v ∧
      (∀ x, Reached (rev G) lab centers off (v, x) → Reached G lab centers off (v, x) → top + x ≤ lab' v) ∧
      (∀ x, Reached (rev G) lab centers off (v, x) ∨ Reached G lab centers off (v, x) → x ≤ lab' v) ∧
      (lab' v = lab v ∨
        (∃ x, Reached (rev G) lab centers off (v, x) ∧ Reached G lab centers off (v, x) ∧ lab' v = top + x) ∨
        ∃ x, (Reached (rev G) lab centers off (v, x) ∨ Reached G lab centers off (v, x)) ∧ lab' v = x) := by
  obtain ⟨Ti, To, bits1, l, hin, hout, hint, rfl⟩ := h
  obtain ⟨wi, mi, bi⟩ := multi_search (rev_ok hG) hc hb hin
  obtain ⟨wo, mo, bo⟩ := multi_search hG hc bi hout
  have pi := multi_pos hin
  have po := multi_pos hout
  refine ⟨bo, fun v => ?_⟩
  -- the smaller and the larger table
  have main : ∀ (S L : Tab) (A B : KV → Prop), 0 < L.m → WF L.m hash L.t → (∀ kv, Mem S.m S.t kv ↔ A kv) →
      (∀ kv, Mem L.m L.t kv ↔ B kv) → ∀ l, inter hash S L = some l →
      lab v ≤ wmax (wmax lab l) (entries L.m L.t) v ∧
      (∀ x, A (v, x) → B (v, x) → top + x ≤ wmax (wmax lab l) (entries L.m L.t) v) ∧
      (∀ x, A (v, x) ∨ B (v, x) → x ≤ wmax (wmax lab l) (entries L.m L.t) v) ∧
      (wmax (wmax lab l) (entries L.m L.t) v = lab v ∨
        (∃ x, A (v, x) ∧ B (v, x) ∧ wmax (wmax lab l) (entries L.m L.t) v = top + x) ∨
        ∃ x, (A (v, x) ∨ B (v, x)) ∧ wmax (wmax lab l) (entries L.m L.t) v = x) := by
    intro S L A B pL wL hA hB l hl
    obtain ⟨a1, a2, a3⟩ := wmax_spec l lab v
    obtain ⟨b1, b2, b3⟩ := wmax_spec (entries L.m L.t) (wmax lab l) v
    have hmem : ∀ x, (v, x) ∈ l ↔ ∃ y, A (v, y) ∧ ((B (v, y) ∧ x = top + y) ∨ (¬ B (v, y) ∧ x = y)) := by
      intro x
      rw [mapM_mem _ _ hl]
      constructor
      · rintro ⟨⟨k, y⟩, hy, he⟩
        rcases hcn : contains2 L.m hash L.t (k, y) L.m 0 with _ | b
        · rw [hcn] at he; cases he
        · rw [hcn] at he
          simp only [Option.map_some, Option.some.injEq, Prod.mk.injEq] at he
          obtain ⟨rfl, he⟩ := he
          refine ⟨y, (hA _).1 (mem_entries.1 hy), ?_⟩
          have := contains2_iff pL wL hcn
          cases b with
          | true => exact Or.inl ⟨(hB _).1 (this.1 rfl), by simpa using he.symm⟩
          | false => exact Or.inr ⟨fun h => (by cases this.2 ((hB _).2 h)), by simpa using he.symm⟩
      · rintro ⟨y, hy, he⟩
        have hy' : (v, y) ∈ entries S.m S.t := mem_entries.2 ((hA _).2 hy)
        -- contains returned for every entry
        obtain ⟨b, hcn⟩ : ∃ b, contains2 L.m hash L.t (v, y) L.m 0 = some b := by
          have : ∀ (es : List KV) r, es.mapM (fun kv => (contains2 L.m hash L.t kv L.m 0).map
              fun b => (kv.1, if b then top + kv.2 else kv.2)) = some r → ∀ kv ∈ es, ∃ b, contains2 L.m hash L.t kv L.m 0 = some b := by
            intro es
            induction es with
            | nil => intro r _ kv hkv; cases hkv
            | cons a es ih =>
              intro r hr kv hkv
              rw [List.mapM_cons] at hr
              rcases ha : contains2 L.m hash L.t a L.m 0 with _ | b
              · rw [ha] at hr; cases hr
              · rw [ha] at hr
                rcases hes : es.mapM (fun kv => (contains2 L.m hash L.t kv L.m 0).map
                    fun b => (kv.1, if b then top + kv.2 else kv.2)) with _ | r'
                · simp only [hes] at hr; cases hr
                · rcases List.mem_cons.1 hkv with rfl | hkv
                  · exact ⟨b, ha⟩
                  · exact ih r' hes kv hkv
          exact this _ _ hl _ hy'
        refine ⟨(v, y), hy', ?_⟩
        rw [hcn]
        have := contains2_iff pL wL hcn
        simp only [Option.map_some, Option.some.injEq, Prod.mk.injEq, true_and]
        rcases he with ⟨h1, rfl⟩ | ⟨h1, rfl⟩
        · rw [if_pos (this.2 ((hB _).2 h1))]
        · rw [if_neg fun h => h1 ((hB _).1 (this.1 h))]
    have hL : ∀ x, (v, x) ∈ entries L.m L.t ↔ B (v, x) := fun x => mem_entries.trans (hB _)
    refine ⟨by omega, fun x hAx hBx => ?_, fun x hx => ?_, ?_⟩
    · have := a2 (top + x) ((hmem _).2 ⟨x, hAx, Or.inl ⟨hBx, rfl⟩⟩)
      omega
    · by_cases hBx : B (v, x)
      · exact b2 x ((hL x).2 hBx)
      · have hAx := hx.resolve_right hBx
        have := a2 x ((hmem _).2 ⟨x, hAx, Or.inr ⟨hBx, rfl⟩⟩)
        omega
    · rcases b3 with h | h
      · rw [h]
        rcases a3 with h' | h'
        · exact Or.inl h'
        · obtain ⟨y, hy, (⟨h1, h2⟩ | ⟨h1, h2⟩)⟩ := (hmem _).1 h'
          · exact Or.inr (Or.inl ⟨y, hy, h1, h2⟩)
          · exact Or.inr (Or.inr ⟨y, Or.inl hy, h2⟩)
      · exact Or.inr (Or.inr ⟨_, Or.inr ((hL _).1 h), rfl⟩)
  by_cases hle : Ti.m ≤ To.m
  · have hgt : ¬ Ti.m > To.m := by omega
    simp only [hle, if_true, hgt, if_false] at hint ⊢
    exact main Ti To _ _ po wo mi mo l hint
  · have hgt : Ti.m > To.m := by omega
    simp only [hle, if_false, hgt, if_true] at hint ⊢
    obtain ⟨h1, h2, h3, h4⟩ := main To Ti _ _ pi wi mo mi l hint
    refine ⟨h1, fun x a b => h2 x b a, fun x h => h3 x h.symm, ?_⟩
    rcases h4 with h4 | ⟨x, a, b, c⟩ | ⟨x, a, b⟩
    · exact Or.inl h4
    · exact Or.inr (Or.inl ⟨x, b, a, c⟩)
    · exact Or.inr (Or.inr ⟨x, a.symm, b⟩)

theorem sub_E {G : Gr W} {lab : Nat → Nat} {u v : Nat} (h : ReflTransGen (Sub G lab) u v) : ReflTransGen (E G) u v := by
  induction h with
  | refl => exact .refl
  | tail _ h ih => exact ih.tail h.1

theorem strong_sub {G : Gr W} {lab : Nat → Nat} (hsame : ∀ u v, Strong G u v → lab u = lab v) {u v : Nat} (h : Strong G u v) :
    ReflTransGen (Sub G lab) u v :=
  strong_path h fun a b ha hb he => ⟨he, by rw [← hsame _ _ ha, ← hsame _ _ hb]⟩

theorem multi_ok {G : Gr W} (hG : G.Ok) {hash : Nat → Nat} {lab lab' : Nat → Nat} {bits bits' : Nat → Val} {centers : List Nat} {off : Nat}
    (hi : LInv G lab off) (hoff : off + centers.length ≤ top) (hcn : ∀ c ∈ centers, c < G.n) (hc : ∀ c ∈ centers, done (lab c) = false)
    (hb : ∀ v, bits v = none) (h : MultiRound G hash lab bits centers off lab' bits') :
    LInv G lab' (off + centers.length) ∧ (∀ v, done (lab v) = true → done (lab' v) = true) ∧ (∀ c ∈ centers, done (lab' c) = true) ∧
    ∀ v, bits' v = none := by
  obtain ⟨hbits, hmax⟩ := multi_max hG hc hb h
  have hsame' : ∀ u v, Strong (rev G) u v → lab u = lab v := fun u v h => hi.same u v ((strong_rev hG).1 h)
  have hrng : ∀ v x, Reached (rev G) lab centers off (v, x) ∨ Reached G lab centers off (v, x) → off ≤ x ∧ x < off + centers.length := by
    have : ∀ i c, centers[i]? = some c → i < centers.length := by
      intro i c h
      by_contra hcon
      rw [List.getElem?_eq_none (by omega)] at h; cases h
    rintro v x (⟨i, c, h1, h2, _⟩ | ⟨i, c, h1, h2, _⟩)
    · have h2 : x = off + i := h2
      have := this i c h1
      omega
    · have h2 : x = off + i := h2
      have := this i c h1
      omega
  have hRi : ∀ u v x, Strong G u v → (Reached (rev G) lab centers off (u, x) ↔ Reached (rev G) lab centers off (v, x)) := by
    intro u v x huv
    have key : ∀ u v, Strong G u v → Reached (rev G) lab centers off (u, x) → Reached (rev G) lab centers off (v, x) := by
      rintro u v huv ⟨i, c, h1, h2, h3⟩
      exact ⟨i, c, h1, h2, h3.trans (strong_sub hsame' ((strong_rev hG).2 huv))⟩
    exact ⟨key u v huv, key v u huv.symm⟩
  have hRo : ∀ u v x, Strong G u v → (Reached G lab centers off (u, x) ↔ Reached G lab centers off (v, x)) := by
    intro u v x huv
    have key : ∀ u v, Strong G u v → Reached G lab centers off (u, x) → Reached G lab centers off (v, x) := by
      rintro u v huv ⟨i, c, h1, h2, h3⟩
      exact ⟨i, c, h1, h2, h3.trans (strong_sub hi.same huv)⟩
    exact ⟨key u v huv, key v u huv.symm⟩
  have hpos := hi.pos
  refine ⟨⟨by omega, fun v hv => ?_, fun u v huv => ?_, fun u v hu hv hdu he => ?_⟩, fun v hv => ?_, fun c hcc => ?_, hbits⟩
  · obtain ⟨_, _, _, h4⟩ := hmax v
    rcases h4 with h4 | ⟨x, a, b, c⟩ | ⟨x, a, b⟩
    · rw [h4]
      rcases hi.rng v hv with h | ⟨x, h1, h2, h3⟩
      · exact Or.inl (by omega)
      · exact Or.inr ⟨x, h1, by omega, h3⟩
    · have := hrng v x (Or.inl a)
      exact Or.inr ⟨x, by omega, by omega, c⟩
    · have := hrng v x a
      exact Or.inl (by omega)
  · -- the candidates of u and v are the same
    have key : ∀ u v, Strong G u v → lab' u ≤ lab' v := by
      intro u v huv
      obtain ⟨_, _, _, h4⟩ := hmax u
      obtain ⟨k1, k2, k3, _⟩ := hmax v
      rcases h4 with h4 | ⟨x, a, b, c⟩ | ⟨x, a, b⟩
      · rw [h4, hi.same u v huv]; exact k1
      · rw [c]; exact k2 x ((hRi u v x huv).1 a) ((hRo u v x huv).1 b)
      · rw [b]; exact k3 x (a.imp (hRi u v x huv).1 (hRo u v x huv).1)
    exact Nat.le_antisymm (key u v huv) (key v u huv.symm)
  · have key : ∀ v, v < G.n → done (lab' v) = true →
        (done (lab v) = true ∧ lab' v = lab v ∧ lab v < top + off) ∨
        (∃ i c, centers[i]? = some c ∧ Strong G c v ∧ lab' v = top + (off + i)) := by
      intro v hv hdv
      obtain ⟨_, _, _, h4⟩ := hmax v
      rcases h4 with h4 | ⟨x, ⟨i, c, a1, a2, a3⟩, ⟨i', c', b1, b2, b3⟩, h4⟩ | ⟨x, a, b⟩
      · refine Or.inl ⟨by rw [← h4]; exact hdv, h4, ?_⟩
        rcases hi.rng v hv with h | ⟨x, h1, h2, h3⟩ <;> omega
      · have a2 : x = off + i := a2
        have b2 : x = off + i' := b2
        have hii : i' = i := by omega
        subst hii
        rw [a1] at b1
        cases b1
        exact Or.inr ⟨i', c, a1, ⟨sub_E b3, (reach_rev hG).1 (sub_E a3)⟩, by rw [h4, a2]⟩
      · have := hrng v x a
        rw [b, done_iff] at hdv
        omega
    have hdv : done (lab' v) = true := by rw [← he]; exact hdu
    rcases key u hu hdu with ⟨a1, a2, a3⟩ | ⟨i, c, a1, a2, a3⟩ <;> rcases key v hv hdv with ⟨b1, b2, b3⟩ | ⟨i', c', b1, b2, b3⟩
    · exact hi.sep u v hu hv a1 (by rw [← a2, he, b2])
    · omega
    · omega
    · have : i' = i := by omega
      subst this
      rw [a1] at b1
      cases b1
      exact a2.symm.trans b2
  · rw [done_iff] at hv ⊢
    have := (hmax v).1
    omega
  · obtain ⟨i, hil, hic⟩ := List.getElem_of_mem hcc
    have hk : centers[i]? = some c := by rw [List.getElem?_eq_getElem hil, hic]
    have := (hmax c).2.1 (off + i) ⟨i, c, hk, rfl, .refl⟩ ⟨i, c, hk, rfl, .refl⟩
    rw [done_iff]
    omega

/-! ### The loop -/

structure RInv (G : Gr W) (Q : List Nat) (base : Nat) (s : St) : Prop where
  lab : LInv G s.lab s.off
  bits : ∀ v, s.bits v = none
  prefx : ∀ v ∈ Q.take s.cur, done (s.lab v) = true
  off : s.off ≤ base + s.cur
  keep : ∀ v, v < G.n → v ∉ Q → done (s.lab v) = true
  le : s.cur ≤ Q.length
  step : s.round = 0 → s.step = 1

theorem centers_prefix {Q : List Nat} {s : St} {v : Nat} (hv : v ∈ Q.take (min (s.cur + s.step) Q.length)) :
    v ∈ Q.take s.cur ∨ done (s.lab v) = true ∨ v ∈ centersOf Q s := by
  by_cases hd : done (s.lab v) = true
  · exact Or.inr (Or.inl hd)
  · by_cases hc : s.cur ≤ Q.length
    · have e : min (s.cur + s.step) Q.length = s.cur + (min (s.cur + s.step) Q.length - s.cur) := by omega
      rw [e, List.take_add, List.mem_append] at hv
      refine hv.imp id fun h => Or.inr ?_
      rw [centersOf, List.mem_filter]
      exact ⟨h, by simpa using hd⟩
    · left
      have e : min (s.cur + s.step) Q.length = Q.length := by omega
      rw [e, List.take_length] at hv
      rw [List.take_of_length_le (by omega)]
      exact hv

theorem centers_sub {Q : List Nat} {s : St} {v : Nat} (hv : v ∈ centersOf Q s) : v ∈ Q ∧ done (s.lab v) = false := by
  rw [centersOf, List.mem_filter] at hv
  exact ⟨List.mem_of_mem_drop (List.mem_of_mem_take hv.1), by simpa using hv.2⟩

theorem centers_len (Q : List Nat) (s : St) : (centersOf Q s).length ≤ min (s.cur + s.step) Q.length - s.cur := by
  unfold centersOf
  refine (List.length_filter_le _ _).trans ?_
  rw [List.length_take]
  omega

theorem round_ok {G : Gr W} (hG : G.Ok) {hash : Nat → Nat} {beta : ℚ} {Q : List Nat} (hQ : ∀ v ∈ Q, v < G.n) {base : Nat}
    (hbase : base + Q.length < top) {s s' : St} (hi : RInv G Q base s) (h : Round G hash beta Q s s') : RInv G Q base s' := by
  have hlen := centers_len Q s
  have hle := hi.le
  have hoff := hi.off
  have key : ∀ lab' bits', LInv G lab' (s.off + (centersOf Q s).length) → (∀ v, done (s.lab v) = true → done (lab' v) = true) →
      (∀ c ∈ centersOf Q s, done (lab' c) = true) → (∀ v, bits' v = none) → RInv G Q base (advance beta Q s lab' bits') := by
    intro lab' bits' h1 h2 h3 h4
    refine ⟨h1, h4, fun v hv => ?_, ?_, fun v hv hn => h2 v (hi.keep v hv hn), Nat.min_le_right _ _, fun h => (by cases h)⟩
    · rcases centers_prefix hv with h | h | h
      · exact h2 v (hi.prefx v h)
      · exact h2 v h
      · exact h3 v h
    · show s.off + (centersOf Q s).length ≤ base + min (s.cur + s.step) Q.length
      omega
  cases h with
  | skip h hc => exact key _ _ (by rw [hc]; exact hi.lab) (fun _ h => h) (by rw [hc]; intro c h; cases h) hi.bits
  | first c cs lab' h hc h1 hf =>
    have hcm : c ∈ centersOf Q s := by rw [hc]; exact List.mem_cons_self
    obtain ⟨hcQ, hcd⟩ := centers_sub hcm
    obtain ⟨a1, a2, a3⟩ := first_ok hG hi.lab (by omega) (hQ c hcQ) hcd hf
    have hst := hi.step (by omega)
    have hl : (centersOf Q s).length = 1 := by
      have : (centersOf Q s).length = cs.length + 1 := by rw [hc]; rfl
      omega
    have hcs : cs = [] := by
      rw [hc, List.length_cons] at hl
      exact List.length_eq_zero_iff.1 (by omega)
    refine key _ _ (by rw [hl]; exact a1) a2 (fun c' hc' => ?_) hi.bits
    rw [hc, hcs, List.mem_singleton] at hc'
    rw [hc']; exact a3
  | multi lab' bits' h hc h1 hm =>
    obtain ⟨a1, a2, a3, a4⟩ := multi_ok hG hi.lab (by omega) (fun c hcc => hQ c (centers_sub hcc).1) (fun c hcc => (centers_sub hcc).2) hi.bits hm
    exact key _ _ a1 a2 a3 a4

theorem zero_strong {G : Gr W} (hG : G.Ok) {u v : Nat} (hu : u ∈ zero G) (h : Strong G u v) : u = v := by
  obtain ⟨h1, h2⟩ := h
  rw [zero, List.mem_filter, decide_eq_true_iff] at hu
  rcases hu.2 with hu | hu
  · rcases ReflTransGen.cases_head h1 with rfl | ⟨b, ⟨w, hw⟩, _⟩
    · rfl
    · have hw : (b, w) ∈ G.fwd u := hw
      rw [hu] at hw; cases hw
  · rcases ReflTransGen.cases_tail h2 with rfl | ⟨b, _, w, hw⟩
    · rfl
    · have hw := (hG.same _ _ _).1 hw
      rw [hu] at hw; cases hw

theorem linv0 {G : Gr W} (hG : G.Ok) : LInv G (lab0 G) ((zero G).length + 1) := by
  refine ⟨by omega, fun v hv => ?_, fun u v huv => ?_, fun u v hu hv hd he => ?_⟩
  · by_cases h : v ∈ zero G
    · have := List.idxOf_lt_length_iff.2 h
      exact Or.inr ⟨1 + (zero G).idxOf v, by omega, by omega, by rw [lab0, if_pos h]; omega⟩
    · exact Or.inl (by rw [lab0, if_neg h]; omega)
  · by_cases h : u ∈ zero G
    · rw [zero_strong hG h huv]
    · by_cases h' : v ∈ zero G
      · rw [zero_strong hG h' huv.symm]
      · rw [lab0, lab0, if_neg h, if_neg h']
  · rw [done_iff] at hd
    have hu : u ∈ zero G := by
      by_contra h
      rw [lab0, if_neg h] at hd
      exact absurd hd (by decide)
    have hv : v ∈ zero G := by
      by_contra h
      rw [he, lab0, if_neg h] at hd
      exact absurd hd (by decide)
    rw [lab0, lab0, if_pos hu, if_pos hv] at he
    have : (zero G).idxOf u = (zero G).idxOf v := by omega
    rw [(List.idxOf_inj hu).1 this]
    exact Strong.refl v

theorem start_lt {G : Gr W} (hn : 0 < G.n) : start G < G.n := by
  unfold start
  have : ∀ (l : List Nat) (x : Nat × Nat), (∀ i ∈ l, i < G.n) → x.1 < G.n →
      (l.foldl (fun l i => if l.2 > (G.fwd i).length then l else (i, (G.fwd i).length)) x).1 < G.n := by
    intro l
    induction l with
    | nil => intro x _ h; exact h
    | cons i l ih =>
      intro x hl hx
      rw [List.foldl_cons]
      refine ih _ (fun j hj => hl j (List.mem_cons_of_mem _ hj)) ?_
      split
      · exact hx
      · exact hl i List.mem_cons_self
  exact this _ _ (fun i hi => List.mem_range.1 hi) hn

theorem zero_len (G : Gr W) : (zero G).length + (nonZero G).length = G.n := by
  have := List.length_eq_length_filter_add (l := List.range G.n) fun v => decide (G.fwd v = [] ∨ G.bwd v = [])
  rw [List.length_range] at this
  exact this.symm

theorem mem_nonZero {G : Gr W} {v : Nat} : v ∈ nonZero G ↔ v < G.n ∧ v ∉ zero G := by
  unfold nonZero zero
  rw [List.mem_filter, List.mem_filter, List.mem_range]
  simp only [Bool.not_eq_true', decide_eq_false_iff_not, decide_eq_true_eq]
  exact ⟨fun h => ⟨h.1, fun h' => h.2 h'.2⟩, fun h => ⟨h.1, fun h' => h.2 ⟨h.1, h'⟩⟩⟩

theorem init_ok {G : Gr W} (hG : G.Ok) (hn : 0 < G.n) (htop : G.n + 1 < top) {P Q : List Nat} {s : St} (h : Init G P s Q) :
    RInv G Q s.off s ∧ (∀ v ∈ Q, v < G.n) ∧ s.off + Q.length ≤ G.n + 1 := by
  obtain ⟨hP, ⟨lab, off, hb, rfl⟩, rfl⟩ := h
  have hl := zero_len G
  have hpl := hP.length_eq
  have hmem : ∀ v, v ∈ P ↔ v < G.n ∧ v ∉ zero G := fun v => hP.mem_iff.trans mem_nonZero
  have hz : ∀ v, v ∈ zero G → done (lab0 G v) = true := by
    intro v hv
    rw [lab0, if_pos hv, done_iff]; omega
  have fin : ∀ lab off, LInv G lab off → (∀ v, done (lab0 G v) = true → done (lab v) = true) →
      RInv G (P.filter fun v => !done (lab v)) off ⟨lab, fun _ => none, 1, 0, 0, off⟩ := by
    intro lab off h1 h2
    refine ⟨h1, fun _ => rfl, fun v hv => (by cases hv), Nat.le_refl _, fun v hv hnq => ?_, Nat.zero_le _, fun _ => rfl⟩
    show done (lab v) = true
    by_contra hd
    refine hnq (List.mem_filter.2 ⟨(hmem v).2 ⟨hv, fun hzv => hd (h2 v (hz v hzv))⟩, by simpa using hd⟩)
  have hqn : ∀ lab : Nat → Nat, ∀ v ∈ P.filter fun v => !done (lab v), v < G.n :=
    fun lab v hv => ((hmem v).1 (List.mem_filter.1 hv).1).1
  split at hb
  · obtain ⟨rfl, rfl⟩ := hb
    refine ⟨fin _ _ (linv0 hG) fun _ h => h, hqn _, ?_⟩
    have := List.length_filter_le (fun v => !done (lab0 G v)) P
    show (zero G).length + 1 + (P.filter fun v => !done (lab0 G v)).length ≤ G.n + 1
    omega
  · rename_i hd
    obtain ⟨hf, rfl⟩ := hb
    have hd : done (lab0 G (start G)) = false := by simpa using hd
    have hsn := start_lt hn
    obtain ⟨a1, a2, a3⟩ := first_ok hG (linv0 hG) (by omega) hsn hd hf
    refine ⟨fin _ _ a1 a2, hqn _, ?_⟩
    have hsP : start G ∈ P := (hmem _).2 ⟨hsn, fun h => by rw [hz _ h] at hd; cases hd⟩
    have : (P.filter fun v => !done (lab v)).length < P.length := by
      refine Nat.lt_of_le_of_ne (List.length_filter_le _ _) fun he => ?_
      have := List.length_filter_eq_length_iff.1 he _ hsP
      rw [a3] at this
      cases this
    show (zero G).length + 1 + 1 + (P.filter fun v => !done (lab v)).length ≤ G.n + 1
    omega

/-- C83: if `StronglyConnectedComponents` returns, two vertices have the same label exactly if they are in one strongly connected
component, and labels are less than `n`. -/
theorem scc_partial {G : Gr W} (hG : G.Ok) (hn : 0 < G.n) (htop : G.n + 1 < top) {hash : Nat → Nat} {beta : ℚ} {res : Nat → Nat}
    (h : SCC G hash beta res) :
    (∀ u v, u < G.n → v < G.n → (res u = res v ↔ Strong G u v)) ∧ ∀ v, v < G.n → res v < G.n := by
  obtain ⟨P, s, Q, s', hI, hr, hend, hres⟩ := h
  obtain ⟨hi, hQ, hoff⟩ := init_ok hG hn htop hI
  have hi' : RInv G Q s.off s' := by
    clear hend hres
    induction hr with
    | refl => exact hi
    | tail _ h ih => exact round_ok hG hQ (by omega) ih h
  have hle := hi'.le
  have hcur : s'.cur = Q.length := by omega
  have hdone : ∀ v, v < G.n → done (s'.lab v) = true := by
    intro v hv
    by_cases hq : v ∈ Q
    · exact hi'.prefx v (by rw [hcur, List.take_length]; exact hq)
    · exact hi'.keep v hv hq
  have hx : ∀ v, v < G.n → ∃ x, 1 ≤ x ∧ x < G.n + 1 ∧ s'.lab v = top + x ∧ res v = x - 1 := by
    intro v hv
    have hd := done_iff.1 (hdone v hv)
    have h1 := hi'.off
    rcases hi'.lab.rng v hv with h | ⟨x, h1, h2, h3⟩
    · omega
    · refine ⟨x, h1, by omega, h3, ?_⟩
      rw [hres, h3, Nat.add_mod_left, Nat.mod_eq_of_lt (by omega)]
  refine ⟨fun u v hu hv => ⟨fun he => ?_, fun h => by rw [hres, hres, hi'.lab.same u v h]⟩, fun v hv => ?_⟩
  · obtain ⟨x, a1, a2, a3, a4⟩ := hx u hu
    obtain ⟨y, b1, b2, b3, b4⟩ := hx v hv
    exact hi'.lab.sep u v hu hv (hdone u hu) (by rw [a3, b3]; omega)
  · obtain ⟨x, a1, a2, a3, a4⟩ := hx v hv
    omega

/-- `l` has one vertex of every component. -/
def Reps (G : Gr W) (l : List Nat) : Prop :=
  (∀ v ∈ l, v < G.n) ∧ l.Pairwise (fun u v => ¬ Strong G u v) ∧ ∀ v, v < G.n → ∃ u ∈ l, Strong G u v

theorem sum_ite_len (l : List Nat) (p : Nat → Prop) [DecidablePred p] :
    (l.map fun x => if p x then 1 else 0).sum = (l.filter fun x => decide (p x)).length := by
  induction l with
  | nil => rfl
  | cons a l ih =>
    rw [List.map_cons, List.sum_cons, ih, List.filter_cons]
    by_cases h : p a
    · rw [if_pos h, if_pos (by simpa using h), List.length_cons]; omega
    · rw [if_neg h, if_neg (by simpa using h)]; omega

/-- C84: `num_scc` of such labels is the number of strongly connected components: there is a list of representatives with this length, and
all of them have it. -/
theorem num_scc {G : Gr W} (htop : G.n + 1 < top) {res : Nat → Nat}
    (h : ∀ u v, u < G.n → v < G.n → (res u = res v ↔ Strong G u v)) (hr : ∀ v, v < G.n → res v < G.n) :
    (∃ l, Reps G l) ∧ ∀ l, Reps G l → l.length = numScc G.n res := by
  have hmod : ∀ v, v < G.n → res v % top = res v := fun v hv => Nat.mod_eq_of_lt (by have := hr v hv; omega)
  have hnum : numScc G.n res = ((List.range G.n).filter fun l => decide (∃ v < G.n, res v % top = l)).length := by
    unfold numScc
    exact sum_ite_len _ _
  constructor
  · -- the first vertex with every label
    refine ⟨(List.range G.n).filter fun v => decide (∀ u < v, res u ≠ res v), ?_, ?_, ?_⟩
    · intro v hv; exact List.mem_range.1 (List.mem_filter.1 hv).1
    · refine (List.pairwise_iff_getElem.2 fun i j hi hj hij => ?_)
      set l := (List.range G.n).filter fun v => decide (∀ u < v, res u ≠ res v) with hl
      have hs : l.Pairwise (· < ·) := List.Pairwise.filter _ (List.pairwise_lt_range)
      have hlt := List.pairwise_iff_getElem.1 hs i j hi hj hij
      have mi : l[i] < G.n := List.mem_range.1 (List.mem_filter.1 (List.getElem_mem hi)).1
      have mj := List.mem_filter.1 (List.getElem_mem hj)
      intro hst
      exact (of_decide_eq_true mj.2 _ hlt) ((h _ _ mi (List.mem_range.1 mj.1)).2 hst)
    · intro v hv
      have : ∀ v, v < G.n → ∃ u, u < G.n ∧ res u = res v ∧ ∀ w < u, res w ≠ res u := by
        intro v
        induction v using Nat.strong_induction_on with
        | _ v ih =>
          intro hv
          by_cases hc : ∃ u < v, res u = res v
          · obtain ⟨u, hu, he⟩ := hc
            obtain ⟨w, h1, h2, h3⟩ := ih u hu (by omega)
            exact ⟨w, h1, h2.trans he, h3⟩
          · exact ⟨v, hv, rfl, fun w hw he => hc ⟨w, hw, he⟩⟩
      obtain ⟨u, h1, h2, h3⟩ := this v hv
      exact ⟨u, List.mem_filter.2 ⟨List.mem_range.2 h1, by simpa using h3⟩, (h u v h1 hv).1 h2⟩
  · rintro l ⟨h1, h2, h3⟩
    rw [hnum]
    have hnd : (l.map res).Nodup := by
      rw [List.Nodup, List.pairwise_map]
      exact List.Pairwise.imp_of_mem (fun {u v} hu hv hn he => hn ((h u v (h1 u hu) (h1 v hv)).1 he)) h2
    have hp : (l.map res).Perm ((List.range G.n).filter fun l => decide (∃ v < G.n, res v % top = l)) := by
      rw [List.perm_ext_iff_of_nodup hnd (List.nodup_range.filter _)]
      intro x
      rw [List.mem_map, List.mem_filter, List.mem_range, decide_eq_true_iff]
      constructor
      · rintro ⟨v, hv, rfl⟩
        exact ⟨hr v (h1 v hv), v, h1 v hv, hmod v (h1 v hv)⟩
      · rintro ⟨_, v, hv, he⟩
        obtain ⟨u, hu, hs⟩ := h3 v hv
        exact ⟨u, hu, by rw [(h u v (h1 u hu) hv).2 hs, ← hmod v hv, he]⟩
    rw [← hp.length_eq, List.length_map]

/-- C83, C84 together. -/
theorem scc_count_partial {G : Gr W} (hG : G.Ok) (hn : 0 < G.n) (htop : G.n + 1 < top) {hash : Nat → Nat} {beta : ℚ} {res : Nat → Nat}
    (h : SCC G hash beta res) : (∃ l, Reps G l) ∧ ∀ l, Reps G l → l.length = numScc G.n res :=
  let ⟨h1, h2⟩ := scc_partial hG hn htop h
  num_scc htop h1 h2

end Gbbs.Scc
