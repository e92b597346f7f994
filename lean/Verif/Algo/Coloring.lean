/-
C40, C41: greedy colouring by rootsets, `benchmarks/GraphColoring/Hasenplaugh14/GraphColoring.h`.
-/
import Verif.Algo.MIS
import Mathlib.Data.Finset.Max

namespace Gbbs.Coloring

open Conc Conc.Prog Em
open MIS (toI32 toI32_eq)

variable {W : Type}

/-! ### Model -/

/-- `UINT_E_MAX`. -/
def none32 : Nat := 4294967295

/-- `coloring::color`, `GraphColoring.h:30-61`; `cs`: the colours read for the out-neighbours, `deg` the out-degree. -/
def color (deg : Nat) (cs : List Nat) : Nat :=
  if deg > 0 then
    let bits := fun i => cs.any fun c => decide (c < deg) && c == i
    let m := (List.range deg).foldr (fun i a => min (if bits i then none32 else i) a) none32
    if m = none32 then deg + 1 else m
  else 0

/-- The order of the heuristics, `GraphColoring.h:107-131`: `u` comes before `v`. `key` is the degree (LF) or its rounded-up
logarithm (LLF); nothing depends on the choice. -/
def before (key P : Nat → Nat) (u v : Nat) : Bool := decide (key u > key v) || (decide (key u = key v) && decide (P u < P v))

/-- `priorities[i]`, `GraphColoring.h:104-132`. -/
def prio (G : Gr W) (key P : Nat → Nat) (i : Nat) : Int := toI32 ((G.fwd i).countP fun x => before key P x.1 i)

/-- The initial `roots`, `GraphColoring.h:134-136`. -/
def roots0 (G : Gr W) (key P : Nat → Nat) : List Nat := (List.range G.n).filter fun i => prio G key P i == 0

/-- State at the head of the loop: `priorities`, `roots`, `colors`, `finished`. -/
structure St where
  p : Nat → Int
  roots : List Nat
  col : Nat → Nat
  fin : Nat

/-- One iteration, `GraphColoring.h:142-160`. The roots are coloured in parallel: each colour read is the one before or after the
parallel loop. Then `edgeMap` with `coloring_f` (`:64-86`) in any traversal and interleaving; its `exit` for self-loops
is not modelled. -/
inductive Round (G : Gr W) : St → St → Prop
  | mk {s : St} {c' : Nat → Nat} {p' : Nat → Int} {nr : List (Nat × Unit)} {f : Nat} (hf : s.fin ≠ G.n)
      (hc : ∀ v, v ∈ s.roots → ∃ seen : Nat × W → Nat, (∀ x, seen x = s.col x.1 ∨ seen x = c' x.1) ∧
        c' v = color (G.fwd v).length ((G.fwd v).map seen))
      (hk : ∀ v, v ∉ s.roots → c' v = s.col v)
      (he : EdgeMapX (decF f fun _ _ => true) G (fun v => decide (v ∈ s.roots)) s.p p' nr) :
      Round G s ⟨p', nr.map Prod.fst, c', s.fin + s.roots.length⟩

/-- The states after `k` iterations. -/
inductive After (G : Gr W) (key P : Nat → Nat) : Nat → St → Prop
  | init : After G key P 0 ⟨prio G key P, roots0 G key P, fun _ => none32, 0⟩
  | round {k s s'} (h : After G key P k s) (hr : Round G s s') : After G key P (k + 1) s'

/-- `Coloring(G)`, `GraphColoring.h:88-163`, with priorities `key` and the random permutation `P`, returned `col`. -/
def Coloring (G : Gr W) (key P : Nat → Nat) (col : Nat → Nat) : Prop :=
  ∃ k s, After G key P k s ∧ s.fin = G.n ∧ s.col = col

/-! ### The colour of one vertex -/

theorem foldr_min (f : Nat → Nat) (l : List Nat) (b : Nat) :
    let m := l.foldr (fun i a => min (f i) a) b
    (m = b ∨ ∃ i ∈ l, m = f i) ∧ m ≤ b ∧ ∀ i ∈ l, m ≤ f i := by
  induction l with
  | nil => exact ⟨Or.inl rfl, Nat.le_refl _, fun i hi => by cases hi⟩
  | cons a l ih =>
    obtain ⟨h1, h2, h3⟩ := ih
    simp only [List.foldr_cons]
    refine ⟨?_, by omega, fun i hi => ?_⟩
    · by_cases h : f a ≤ l.foldr (fun i a => min (f i) a) b
      · exact Or.inr ⟨a, List.mem_cons_self, by omega⟩
      · have : min (f a) (l.foldr (fun i a => min (f i) a) b) = l.foldr (fun i a => min (f i) a) b := by omega
        rw [this]
        rcases h1 with h1 | ⟨i, h1, h4⟩
        · exact Or.inl h1
        · exact Or.inr ⟨i, List.mem_cons_of_mem _ h1, h4⟩
    · rcases List.mem_cons.1 hi with rfl | hi
      · omega
      · have := h3 i hi; omega

/-- `color`: the least colour below the degree not read, or `deg + 1` if all of them were read. -/
theorem color_spec {deg : Nat} (hd : deg < none32) (cs : List Nat) :
    (deg = 0 ∧ color deg cs = 0) ∨
    (color deg cs < deg ∧ color deg cs ∉ cs ∧ ∀ i, i < color deg cs → i ∈ cs) ∨
    (0 < deg ∧ color deg cs = deg + 1 ∧ ∀ i, i < deg → i ∈ cs) := by
  by_cases h0 : deg > 0
  · right
    obtain ⟨h1, h2, h3⟩ := foldr_min (fun i => if (cs.any fun c => decide (c < deg) && c == i) then none32 else i) (List.range deg) none32
    have hbit : ∀ i, i < deg → ((cs.any fun c => decide (c < deg) && c == i) = true ↔ i ∈ cs) := by
      intro i hi
      rw [List.any_eq_true]
      constructor
      · rintro ⟨c, hc, h⟩
        simp only [Bool.and_eq_true, beq_iff_eq] at h
        exact h.2 ▸ hc
      · exact fun h => ⟨i, h, by simp [hi]⟩
    unfold color
    rw [if_pos h0]
    simp only
    generalize hm : (List.range deg).foldr (fun i a => min (if (cs.any fun c => decide (c < deg) && c == i) = true then none32 else i) a) none32 = m at h1 h2 h3 ⊢
    by_cases hmm : m = none32
    · rw [if_pos hmm]
      refine Or.inr ⟨h0, rfl, fun i hi => ?_⟩
      have := h3 i (List.mem_range.2 hi)
      by_contra hc
      rw [if_neg fun h => hc ((hbit i hi).1 h)] at this
      omega
    · rw [if_neg hmm]
      left
      rcases h1 with h1 | ⟨i, hi, h1⟩
      · exact absurd h1 hmm
      · have hi := List.mem_range.1 hi
        by_cases hb : i ∈ cs
        · rw [if_pos ((hbit i hi).2 hb)] at h1; exact absurd h1 hmm
        · rw [if_neg fun h => hb ((hbit i hi).1 h)] at h1
          subst h1
          refine ⟨hi, hb, fun j hj => ?_⟩
          have := h3 j (List.mem_range.2 (by omega))
          by_contra hc
          rw [if_neg fun h => hc ((hbit j (by omega)).1 h)] at this
          omega
  · left
    exact ⟨by omega, if_neg h0⟩

/-- The colour differs from every colour read. -/
theorem color_ne {cs : List Nat} (hd : cs.length < none32) : color cs.length cs ∉ cs := by
  rcases color_spec hd cs with ⟨h, _⟩ | ⟨_, h, _⟩ | ⟨_, h, h'⟩
  · rw [List.length_eq_zero_iff] at h
    subst h
    exact fun hc => (by cases hc)
  · exact h
  · intro hc
    rw [h] at hc
    have hnd : ((cs.length + 1) :: List.range cs.length).Nodup := by
      rw [List.nodup_cons]
      exact ⟨fun h => by have := List.mem_range.1 h; omega, List.nodup_range⟩
    have hsub : ((cs.length + 1) :: List.range cs.length) ⊆ cs := by
      intro x hx
      rcases List.mem_cons.1 hx with rfl | hx
      · exact hc
      · exact h' x (List.mem_range.1 hx)
    have := (List.subperm_of_subset hnd hsub).length_le
    simp only [List.length_cons, List.length_range] at this
    omega

/-! ### Proof -/

section
open Classical

variable {G : Gr W} {key P : Nat → Nat}

theorem before_tri (hinj : ∀ u v, u < G.n → v < G.n → P u = P v → u = v) {u v : Nat} (hu : u < G.n) (hv : v < G.n) (hne : u ≠ v) :
    before key P u v = true ∨ before key P v u = true := by
  simp only [before, Bool.or_eq_true, Bool.and_eq_true, decide_eq_true_eq]
  have : P u ≠ P v := fun h => hne (hinj u v hu hv h)
  omega

/-- Neighbours before `v` outside `X`. -/
noncomputable def pend (G : Gr W) (key P : Nat → Nat) (X : Nat → Prop) (v : Nat) : Nat :=
  (G.fwd v).countP fun x => decide (before key P x.1 v = true ∧ ¬ X x.1)

theorem pend_zero {X : Nat → Prop} {v u : Nat} {w : W} (h : pend G key P X v = 0) (hu : (u, w) ∈ G.fwd v)
    (hp : before key P u v = true) : X u := by
  by_contra hx
  rw [pend, List.countP_eq_zero] at h
  have := h _ hu
  simp only [decide_eq_true_eq] at this
  exact this ⟨hp, hx⟩

theorem pend_split {X Y : Nat → Prop} (hd : ∀ v, Y v → ¬ X v) (v : Nat) (q : Nat → Bool) (hq : ∀ u, q u = true ↔ Y u)
    (hb : ∀ x ∈ G.fwd v, Y x.1 → before key P x.1 v = true) :
    pend G key P X v = pend G key P (fun u => X u ∨ Y u) v + (G.fwd v).countP (fun x => q x.1 && true) := by
  rw [pend, pend]
  generalize G.fwd v = l at hb
  induction l with
  | nil => rfl
  | cons a l ih =>
    rw [List.countP_cons, List.countP_cons, List.countP_cons, ih fun x hx => hb x (List.mem_cons_of_mem _ hx)]
    by_cases h2 : Y a.1
    · have := hd _ h2
      have h1 := hb a List.mem_cons_self h2
      simp [h1, h2, this, (hq _).2 h2]; omega
    · have h4 : q a.1 = false := by
        by_contra hc
        exact h2 ((hq _).1 (by simpa using hc))
      by_cases h1 : before key P a.1 v = true
      · by_cases h3 : X a.1 <;> simp [h1, h2, h3, h4]; omega
      · simp [h1, h4]

/-- At the head of the loop; `X`: the coloured vertices. -/
structure Inv (G : Gr W) (key P : Nat → Nat) (s : St) (X : Nat → Prop) : Prop where
  bound : ∀ v, X v → v < G.n
  dead : ∀ v, ¬ (v < G.n ∧ ¬ X v) → s.p v = 0
  live : ∀ v, v < G.n → ¬ X v → s.p v = pend G key P X v
  nodup : s.roots.Nodup
  root : ∀ v, v ∈ s.roots ↔ v < G.n ∧ ¬ X v ∧ s.p v = 0
  proper : ∀ u v w, (v, w) ∈ G.fwd u → X u → X v → s.col u ≠ s.col v
  range : ∀ v, X v → s.col v ≤ (G.fwd v).length + 1 ∧ (G.fwd v = [] → s.col v = 0)
  cnt : s.fin = ((Finset.range G.n).filter fun v => X v).card

theorem inv_init (hdeg : ∀ v, (G.fwd v).length < 2147483648) (hG : G.Ok) :
    Inv G key P ⟨prio G key P, roots0 G key P, fun _ => none32, 0⟩ (fun _ => False) := by
  have hp : ∀ v, prio G key P v = pend G key P (fun _ => False) v := by
    intro v
    rw [prio, toI32_eq (Nat.lt_of_le_of_lt List.countP_le_length (hdeg v)), pend]
    simp
  refine ⟨fun v h => h.elim, fun v h => ?_, fun v _ _ => hp v,
    List.nodup_range.filter _, fun v => ?_, fun u v w _ h => h.elim, fun v h => h.elim, ?_⟩
  · have hv : ¬ v < G.n := fun hv => h ⟨hv, id⟩
    show prio G key P v = 0
    have : G.fwd v = [] := by
      rw [List.eq_nil_iff_forall_not_mem]
      exact fun x hx => hv (hG.bound v x.1 x.2 hx).1
    rw [prio, this]; rfl
  · simp [roots0, List.mem_filter]
  · simp

/-- A neighbour of a root: coloured before, or uncoloured, not a root, and after the root. -/
theorem Inv.root_nbr (hS : G.SymG) (hG : G.Ok) (hinj : ∀ u v, u < G.n → v < G.n → P u = P v → u = v) {s : St}
    {X : Nat → Prop} (hi : Inv G key P s X) {r d : Nat} {w : W} (hr : r ∈ s.roots) (he : (d, w) ∈ G.fwd r) :
    X d ∨ (before key P r d = true ∧ 0 < s.p d) := by
  obtain ⟨r1, r3, r4⟩ := (hi.root r).1 hr
  by_cases hX : X d
  · exact Or.inl hX
  · right
    have hd := (hG.bound _ _ _ he).2
    have hp : before key P r d = true := by
      have h0 := hi.live r r1 r3
      rw [r4] at h0
      have h0 : pend G key P X r = 0 := by omega
      rcases before_tri (key := key) hinj r1 hd (hS.loop _ _ _ he) with h | h
      · exact h
      · exact absurd (pend_zero h0 he h) hX
    refine ⟨hp, ?_⟩
    rw [hi.live d hd hX]
    have : 0 < pend G key P X d := by
      rw [pend, List.countP_pos_iff]
      exact ⟨(r, w), hS.sym _ _ _ he, by simp [hp, r3]⟩
    omega

theorem Inv.step (hS : G.SymG) (hG : G.Ok) (hO : G.Once) (hdeg : ∀ v, (G.fwd v).length < 2147483648)
    (hinj : ∀ u v, u < G.n → v < G.n → P u = P v → u = v) {s s' : St} {X : Nat → Prop} (hi : Inv G key P s X)
    (hr : Round G s s') : ∃ X', Inv G key P s' X' := by
  obtain ⟨hf, hc, hk, he⟩ := hr
  rename_i c' p' nr f
  have hdeg' : ∀ v, (G.fwd v).length < none32 := fun v => Nat.lt_trans (hdeg v) (by decide)
  have hRX : ∀ v, v ∈ s.roots → ¬ X v := fun v hv => ((hi.root v).1 hv).2.1
  have hlive : ∀ v, 0 < s.p v → v < G.n ∧ ¬ X v ∧ v ∉ s.roots := by
    intro v hv
    have hl : v < G.n ∧ ¬ X v := by
      by_contra hc
      rw [hi.dead v hc] at hv; omega
    refine ⟨hl.1, hl.2, fun hc => ?_⟩
    have := ((hi.root v).1 hc).2.2
    omega
  have hsplit : ∀ v, ¬ X v → pend G key P X v = pend G key P (fun u => X u ∨ u ∈ s.roots) v +
      cntTo (activeEdges G fun v => decide (v ∈ s.roots)) (fun e => (fun _ _ => true) e.s e.d = true) v := by
    intro v hv
    have h := cntTo_nbrs hG hO hS (fun v => decide (v ∈ s.roots)) (fun _ _ => true) v
    rw [h]
    refine pend_split hRX v (fun v => decide (v ∈ s.roots)) (fun u => by rw [decide_eq_true_eq]) fun x hx hxr => ?_
    rcases hi.root_nbr hS hG hinj hxr (hS.sym _ _ _ hx) with h | h
    · exact absurd h hv
    · exact h.1
  have hE : Enough (activeEdges G fun v => decide (v ∈ s.roots)) (fun _ _ => true) s.p := by
    intro d hd
    obtain ⟨h1, h2, _⟩ := hlive d hd
    have h3 := hsplit d h2
    rw [hi.live d h1 h2]
    omega
  obtain ⟨c1, c2, c3, c4⟩ := count_round G hG hO _ hE he
  have hl' : ∀ v, v < G.n → ¬ (X v ∨ v ∈ s.roots) → 0 < s.p v := by
    intro v hv hx
    have h1 := hi.live v hv fun h => hx (Or.inl h)
    have h2 : s.p v ≠ 0 := fun h => hx (Or.inr ((hi.root v).2 ⟨hv, fun h => hx (Or.inl h), h⟩))
    omega
  have hlive3 : ∀ v, 0 < s.p v → p' v = pend G key P (fun u => X u ∨ u ∈ s.roots) v := by
    intro v hv
    obtain ⟨h1, h2, _⟩ := hlive v hv
    have h3 := hsplit v h2
    rw [c3 v hv, hi.live v h1 h2, h3]
    beta_reduce
    omega
  -- the colour of a root differs from those of its coloured neighbours
  have hroot : ∀ u v w, u ∈ s.roots → (v, w) ∈ G.fwd u → X v → c' u ≠ c' v := by
    intro u v w hu hw hv
    obtain ⟨seen, h1, h2⟩ := hc u hu
    have h3 : c' v = s.col v := hk v fun h => hRX v h hv
    have h4 : seen (v, w) = c' v := by
      rcases h1 (v, w) with h | h
      · rw [h, h3]
      · exact h
    have h5 : color ((G.fwd u).map seen).length ((G.fwd u).map seen) ∉ (G.fwd u).map seen :=
      color_ne (by rw [List.length_map]; exact hdeg' u)
    rw [List.length_map, ← h2] at h5
    intro h6
    exact h5 (List.mem_map.2 ⟨(v, w), hw, by rw [h4, h6]⟩)
  refine ⟨fun v => X v ∨ v ∈ s.roots, ⟨fun v hv => ?_, fun v hv => ?_, fun v hv hx => hlive3 v (hl' v hv hx),
    c1, fun v => ?_, fun u v w he hu hv => ?_, fun v hv => ?_, ?_⟩⟩
  · rcases hv with hv | hv
    · exact hi.bound v hv
    · exact ((hi.root v).1 hv).1
  · have h0 : ¬ 0 < s.p v := fun hc => by
      obtain ⟨a, b, c⟩ := hlive v hc
      exact hv ⟨a, fun h => h.elim b c⟩
    show p' v = 0
    rw [c4 v h0]
    by_cases hr : v ∈ s.roots
    · exact ((hi.root v).1 hr).2.2
    · exact hi.dead v fun hc => hv ⟨hc.1, fun h => h.elim hc.2 hr⟩
  · rw [c2]
    constructor
    · rintro ⟨a, b⟩
      obtain ⟨a1, a2, a3⟩ := hlive v a
      exact ⟨a1, fun h => h.elim a2 a3, b⟩
    · rintro ⟨a, b, d⟩
      exact ⟨hl' v a b, d⟩
  · show c' u ≠ c' v
    rcases hu with hu | hu
    · rcases hv with hv | hv
      · rw [hk u fun h => hRX u h hu, hk v fun h => hRX v h hv]
        exact hi.proper u v w he hu hv
      · exact Ne.symm (hroot v u w hv (hS.sym _ _ _ he) hu)
    · rcases hv with hv | hv
      · exact hroot u v w hu he hv
      · rcases hi.root_nbr hS hG hinj hu he with h | h
        · exact absurd h (hRX v hv)
        · have := ((hi.root v).1 hv).2.2
          omega
  · show c' v ≤ _ ∧ (_ → c' v = 0)
    by_cases hr : v ∈ s.roots
    · obtain ⟨seen, _, h2⟩ := hc v hr
      rw [h2]
      rcases color_spec (hdeg' v) ((G.fwd v).map seen) with ⟨_, h⟩ | ⟨h, _⟩ | ⟨h0, h, _⟩
      · rw [h]; exact ⟨by omega, fun _ => rfl⟩
      · exact ⟨by omega, fun h0 => by rw [h0] at h; cases h⟩
      · refine ⟨by omega, fun h1 => by rw [h1] at h0; cases h0⟩
    · rw [hk v hr]
      exact hi.range v (hv.resolve_right hr)
  · have hset : ((Finset.range G.n).filter fun v => X v ∨ v ∈ s.roots) =
        ((Finset.range G.n).filter fun v => X v) ∪ s.roots.toFinset := by
      ext v
      simp only [Finset.mem_filter, Finset.mem_range, Finset.mem_union, List.mem_toFinset]
      constructor
      · rintro ⟨a, b | b⟩
        · exact Or.inl ⟨a, b⟩
        · exact Or.inr b
      · rintro (⟨a, b⟩ | b)
        · exact ⟨a, Or.inl b⟩
        · exact ⟨((hi.root v).1 b).1, Or.inr b⟩
    have hcard : s.fin + s.roots.length = ((Finset.range G.n).filter fun v => X v ∨ v ∈ s.roots).card := ?_
    · convert hcard
    rw [hset, Finset.card_union_of_disjoint, List.toFinset_card_of_nodup hi.nodup, hi.cnt]
    rw [Finset.disjoint_left]
    intro v hv hc
    rw [List.mem_toFinset] at hc
    exact hRX v hc (Finset.mem_filter.1 hv).2

/-- While vertices are uncoloured there is a root. -/
theorem Inv.roots_ne (hG : G.Ok) {s : St} {X : Nat → Prop} (hi : Inv G key P s X) (hf : s.fin ≠ G.n) : s.roots ≠ [] := by
  have hex : ∃ v, v < G.n ∧ ¬ X v := by
    by_contra hc
    apply hf
    rw [hi.cnt]
    conv_rhs => rw [← Finset.card_range G.n]
    rw [Finset.card_filter_eq_iff]
    intro v hv
    by_contra hn
    exact hc ⟨v, Finset.mem_range.1 hv, hn⟩
  -- a vertex of largest key and, among those, least `P`
  obtain ⟨v0, hv0⟩ := hex
  obtain ⟨v1, h1, hmax⟩ := Finset.exists_max_image ((Finset.range G.n).filter fun v => ¬ X v) key ⟨v0, by simp [hv0]⟩
  obtain ⟨v, h2, hmin⟩ := Finset.exists_min_image ((Finset.range G.n).filter fun v => ¬ X v ∧ key v = key v1) P
    ⟨v1, by simpa using h1⟩
  simp only [Finset.mem_filter, Finset.mem_range] at h1 h2 hmax hmin
  intro hnil
  have h0 : s.p v ≠ 0 := fun h => by
    have := (hi.root v).2 ⟨h2.1, h2.2.1, h⟩
    rw [hnil] at this; cases this
  rw [hi.live v h2.1 h2.2.1] at h0
  have : 0 < pend G key P X v := by omega
  rw [pend, List.countP_pos_iff] at this
  obtain ⟨x, hx, hq⟩ := this
  rw [decide_eq_true_eq] at hq
  have hxn := (hG.bound _ _ _ hx).2
  have hb := hq.1
  simp only [before, Bool.or_eq_true, Bool.and_eq_true, decide_eq_true_eq] at hb
  have h3 := hmax x.1 ⟨hxn, hq.2⟩
  rcases hb with hb | ⟨hb, hp⟩
  · omega
  · have := hmin x.1 ⟨hxn, hq.2, by omega⟩
    omega

theorem after_inv (hS : G.SymG) (hG : G.Ok) (hO : G.Once) (hdeg : ∀ v, (G.fwd v).length < 2147483648)
    (hinj : ∀ u v, u < G.n → v < G.n → P u = P v → u = v) {k : Nat} {s : St} (h : After G key P k s) :
    k ≤ s.fin ∧ ∃ X, Inv G key P s X := by
  induction h with
  | init => exact ⟨Nat.le_refl _, _, inv_init hdeg hG⟩
  | round _ hr ih =>
    obtain ⟨hk, X, hi⟩ := ih
    refine ⟨?_, hi.step hS hG hO hdeg hinj hr⟩
    obtain ⟨hf, _, _⟩ := hr
    have := List.length_pos_of_ne_nil (hi.roots_ne hG hf)
    show _ ≤ _ + _
    omega

theorem Inv.fin_le {s : St} {X : Nat → Prop} (hi : Inv G key P s X) : s.fin ≤ G.n := by
  rw [hi.cnt]
  exact (Finset.card_filter_le _ _).trans (by rw [Finset.card_range])

theorem Inv.all {s : St} {X : Nat → Prop} (hi : Inv G key P s X) (hf : s.fin = G.n) : ∀ v, v < G.n → X v := by
  have h1 := hi.cnt.symm.trans hf
  conv_rhs at h1 => rw [← Finset.card_range G.n]
  rw [Finset.card_filter_eq_iff] at h1
  exact fun v hv => h1 v (Finset.mem_range.2 hv)

end

/-! ### Theorems -/

/-- C40: in every execution adjacent vertices receive different colours. -/
theorem coloring_proper {G : Gr W} (hG : G.Ok) (hO : G.Once) (hS : G.SymG) (hdeg : ∀ v, (G.fwd v).length < 2147483648)
    {key P : Nat → Nat} (hinj : ∀ u v, u < G.n → v < G.n → P u = P v → u = v) {col : Nat → Nat}
    (h : Coloring G key P col) : ∀ u v w, (v, w) ∈ G.fwd u → col u ≠ col v := by
  obtain ⟨k, s, ha, hf, rfl⟩ := h
  obtain ⟨_, X, hi⟩ := after_inv hS hG hO hdeg hinj ha
  intro u v w he
  have hb := hG.bound _ _ _ he
  exact hi.proper u v w he (hi.all hf u hb.1) (hi.all hf v hb.2)

/-- C40: the assertion `roots.size() > 0` (`GraphColoring.h:143`) holds, and there are at most `n` iterations. -/
theorem coloring_rounds {G : Gr W} (hG : G.Ok) (hO : G.Once) (hS : G.SymG) (hdeg : ∀ v, (G.fwd v).length < 2147483648)
    {key P : Nat → Nat} (hinj : ∀ u v, u < G.n → v < G.n → P u = P v → u = v) {k : Nat} {s : St}
    (h : After G key P k s) : k ≤ G.n ∧ s.fin ≤ G.n ∧ (s.fin ≠ G.n → s.roots ≠ []) := by
  obtain ⟨h1, X, hi⟩ := after_inv hS hG hO hdeg hinj h
  exact ⟨Nat.le_trans h1 hi.fin_le, hi.fin_le, hi.roots_ne hG⟩

/-- C41, the part that holds: colours are at most `deg(v) + 1`. -/
theorem coloring_range_partial {G : Gr W} (hG : G.Ok) (hO : G.Once) (hS : G.SymG) (hdeg : ∀ v, (G.fwd v).length < 2147483648)
    {key P : Nat → Nat} (hinj : ∀ u v, u < G.n → v < G.n → P u = P v → u = v) {col : Nat → Nat}
    (h : Coloring G key P col) : ∀ v, v < G.n → col v ≤ (G.fwd v).length + 1 ∧ (G.fwd v = [] → col v = 0) := by
  obtain ⟨k, s, ha, hf, rfl⟩ := h
  obtain ⟨_, X, hi⟩ := after_inv hS hG hO hdeg hinj ha
  exact fun v hv => hi.range v (hi.all hf v hv)

/-! ### Examples -/

/-- One iteration by one thread. -/
def execRound (G : Gr W) (s : St) : Option St :=
  (exec (sparseRun (decF 1 fun _ _ => true) (activeEdges G fun v => decide (v ∈ s.roots)) []) s.p).map fun t =>
    ⟨t.2, t.1.map Prod.fst,
      fun v => if v ∈ s.roots then color (G.fwd v).length ((G.fwd v).map fun x => s.col x.1) else s.col v,
      s.fin + s.roots.length⟩

/-- The loop, by one thread. -/
def execLoop (G : Gr W) : Nat → St → Option St
  | 0, s => if s.fin = G.n then some s else none
  | k + 1, s => if s.fin = G.n then some s else (execRound G s).bind (execLoop G k)

theorem execLoop_sound {G : Gr W} (hG : G.Ok) (hO : G.Once) {key P : Nat → Nat} (k : Nat) :
    ∀ j s t, After G key P j s → execLoop G k s = some t → t.fin = G.n ∧ ∃ i, After G key P i t := by
  induction k with
  | zero =>
    intro j s t ha h
    rw [execLoop] at h
    split at h
    · cases h; exact ⟨‹_›, j, ha⟩
    · cases h
  | succ k ih =>
    intro j s t ha h
    rw [execLoop] at h
    split at h
    · cases h; exact ⟨‹_›, j, ha⟩
    · rename_i hf
      obtain ⟨s1, h1, h2⟩ := Option.bind_eq_some_iff.1 h
      obtain ⟨⟨nr, p3⟩, h5, h6⟩ := Option.map_eq_some_iff.1 h1
      subst h6
      refine ih _ _ _ (.round ha (.mk hf (fun v hv => ⟨fun x => s.col x.1, fun x => Or.inl rfl, if_pos hv⟩)
        (fun v hv => if_neg hv) (edgeMapX_seq _ (mem_activeEdges hG) (activeEdges_nodup hO _) h5))) h2

/-- The colours computed by one thread. -/
def execAll (G : Gr W) (key P : Nat → Nat) : Option (List Nat) :=
  (execLoop G G.n ⟨prio G key P, roots0 G key P, fun _ => none32, 0⟩).map fun s => (List.range G.n).map s.col

/-- LF on the graph of `Verif/Algo/MIS.lean`: four rounds. -/
example : (∀ u v, u < MIS.exG.n → v < MIS.exG.n → MIS.exPerm u = MIS.exPerm v → u = v) ∧
    ∃ col, Coloring MIS.exG (fun v => (MIS.exG.fwd v).length) MIS.exPerm col ∧ (List.range 5).map col = [0, 1, 3, 0, 1] := by
  refine ⟨fun u v => ?_, ?_⟩
  · show u < 5 → v < 5 → _
    intro hu hv
    exact (by decide : ∀ u < 5, ∀ v < 5, MIS.exPerm u = MIS.exPerm v → u = v) u hu v hv
  · have h : execAll MIS.exG (fun v => (MIS.exG.fwd v).length) MIS.exPerm = some [0, 1, 3, 0, 1] := by decide +kernel
    obtain ⟨s, h1, h2⟩ := Option.map_eq_some_iff.1 h
    obtain ⟨h3, i, h4⟩ := execLoop_sound MIS.exG_ok MIS.exG_once _ _ _ _ .init h1
    exact ⟨s.col, ⟨i, s, h4, h3, rfl⟩, h2⟩

/-- One edge. -/
def k2 : Gr Unit := Gr.ofLists [[(1, ())], [(0, ())]] [[(1, ())], [(0, ())]]

theorem k2_ok : k2.Ok := Gr.ofLists_ok (by decide)

theorem k2_once : k2.Once := by
  have h : ∀ v, (k2.fwd v).Nodup := by
    intro v
    by_cases hv : v < 2
    · exact (by decide : ∀ v < 2, (k2.fwd v).Nodup) v hv
    · have : k2.fwd v = [] := by
        rw [List.eq_nil_iff_forall_not_mem]
        exact fun x hx => hv (k2_ok.bound v x.1 x.2 hx).1
      rw [this]; exact List.nodup_nil
  exact ⟨h, h⟩

/-- C41 is false: on one edge the second vertex receives colour 2, its degree is 1. -/
theorem coloring_range_false : ∃ col, Coloring k2 (fun v => (k2.fwd v).length) id col ∧
    ¬ ∀ v, v < k2.n → col v ≤ (k2.fwd v).length := by
  have h : execAll k2 (fun v => (k2.fwd v).length) id = some [0, 2] := by decide +kernel
  obtain ⟨s, h1, h2⟩ := Option.map_eq_some_iff.1 h
  obtain ⟨h3, i, h4⟩ := execLoop_sound k2_ok k2_once _ _ _ _ .init h1
  refine ⟨s.col, ⟨i, s, h4, h3, rfl⟩, fun hc => ?_⟩
  have h5 : s.col 1 ≤ 1 := hc 1 (by decide)
  have h6 : ((List.range 2).map s.col)[1]? = some 2 := by
    have h2 : (List.range 2).map s.col = [0, 2] := h2
    rw [h2]; rfl
  have h7 : s.col 1 = 2 := Option.some.inj h6
  omega

end Gbbs.Coloring
