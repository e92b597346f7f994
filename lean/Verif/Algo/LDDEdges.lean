/-
Low-diameter decomposition with a tree edge for every vertex that is not a centre: `LDD_edges` of
`benchmarks/SpanningForest/SDB14/SpanningForest.h:35-119` (C97) and `LDD_sample_edges` of
`benchmarks/SpanningForest/Framework/ldd_sampling.h:6-85` (C98).
-/
import Verif.Algo.LDD
import Verif.Algo.SpanForest

namespace Gbbs.LDDE

open Conc Conc.Prog Em
open Atomics (Steps)
open LDD (none32 centers claimed Shifts IsRound)

variable {W : Type}

/-! ### Model -/

/-- The two arrays: `cluster_ids` (`Parents`) and `parents` (`Edges`). -/
inductive Loc
  | lab (x : Nat)
  | ed (x : Nat)
deriving DecidableEq

/-- `LDD_Edge_F`, `SDB14/SpanningForest.h:35-58`, and `LDD_Edges_Fn`, `ldd_sampling.h:7-30`. The former writes `parents[d] = s`,
the latter `Edges[d] = (s, d)`, which is represented by `s` (and `empty_edge` by `none32`). -/
def lddeF : Func W Loc Nat Unit where
  cond d := read (.lab d) fun x => ret (x == none32)
  updA s d _ := read (.lab s) fun x => cas (.lab d) none32 x fun b =>
    if b then write (.ed d) s (ret (some ())) else ret none
  upd s d _ := read (.lab s) fun x => write (.lab d) x (write (.ed d) s (ret (some ())))

/-- The labels. -/
def lab (m : Loc → Nat) (x : Nat) : Nat := m (.lab x)

/-- The arrays after the loop over `new_centers`: `SDB14/SpanningForest.h:99-103`, which also sets `parents[v] = v` (`cw`), and
`ldd_sampling.h:66-69`, which does not touch `Edges`. -/
def claimed2 (cw : Bool) (m : Loc → Nat) (cs : List Nat) : Loc → Nat
  | .lab v => if v ∈ cs then v else m (.lab v)
  | .ed v => if cw = true ∧ v ∈ cs then v else m (.ed v)

/-- The loop, `SDB14/SpanningForest.h:80-117` and `ldd_sampling.h:48-83`, as `LDD.Run`. -/
inductive Run (G : Gr W) (cw : Bool) (perm : Nat → Nat) (sh : List Nat) :
    Nat → Nat → Nat → (Loc → Nat) → List Nat → Option (Loc → Nat) → Prop
  | stop {r vis add m F} (h : ¬ vis < G.n) : Run G cw perm sh r vis add m F (some m)
  | range {r vis add m F} (h : vis < G.n) (ho : sh[r]? = none ∨ sh[r + 1]? = none) : Run G cw perm sh r vis add m F none
  | wrap {r vis add m F a b} (h : vis < G.n) (ha : sh[r]? = some a) (hb : sh[r + 1]? = some b) (hw : min b G.n < a) :
      Run G cw perm sh r vis add m F none
  | perm {r vis add m F a b} (h : vis < G.n) (ha : sh[r]? = some a) (hb : sh[r + 1]? = some b) (hw : a ≤ min b G.n)
      (hp : G.n < add + (min b G.n - a)) : Run G cw perm sh r vis add m F none
  | last {r vis add m F a b cs} (h : vis < G.n) (ha : sh[r]? = some a) (hb : sh[r + 1]? = some b) (hw : a ≤ min b G.n)
      (hp : ¬ G.n < add + (min b G.n - a)) (hcs : cs = centers perm (lab m) add (min b G.n - a))
      (hv : G.n ≤ vis + (F ++ cs).length) : Run G cw perm sh r vis add m F (some (claimed2 cw m cs))
  | round {r vis add m F a b cs m' o res} (h : vis < G.n) (ha : sh[r]? = some a) (hb : sh[r + 1]? = some b)
      (hw : a ≤ min b G.n) (hp : ¬ G.n < add + (min b G.n - a)) (hcs : cs = centers perm (lab m) add (min b G.n - a))
      (hv : ¬ G.n ≤ vis + (F ++ cs).length)
      (he : EdgeMap lddeF G (fun v => decide (v ∈ F ++ cs)) (claimed2 cw m cs) m' o)
      (hr : Run G cw perm sh (r + 1) (vis + (F ++ cs).length) (add + (min b G.n - a)) m' (o.map Prod.fst) res) :
      Run G cw perm sh r vis add m F res

/-- `LDD_edges` (`cw = true`) and `LDD_sample_edges` (`cw = false`). -/
def Ldde (G : Gr W) (cw : Bool) (perm : Nat → Nat) (sh : List Nat) (res : Option (Loc → Nat)) : Prop :=
  Run G cw perm sh 0 0 0 (fun _ => none32) [] res

/-! ### Specification -/

/-- A walk along the recorded edges from the centre `c` to `v`, inside the cluster. -/
inductive TWalk (G : Gr W) (m : Loc → Nat) (c : Nat) : Nat → Prop
  | nil (h : m (.lab c) = c) : TWalk G m c c
  | cons {u v} (w : W) (h : TWalk G m c u) (he : (v, w) ∈ G.fwd u) (hd : m (.ed v) = u) (hm : m (.lab v) = c) (hne : v ≠ c) :
      TWalk G m c v

/-- The same with the number of edges. -/
inductive TWalkN (G : Gr W) (m : Loc → Nat) (c : Nat) : Nat → Nat → Prop
  | nil (h : m (.lab c) = c) : TWalkN G m c c 0
  | cons {u v k} (w : W) (h : TWalkN G m c u k) (he : (v, w) ∈ G.fwd u) (hd : m (.ed v) = u) (hm : m (.lab v) = c) (hne : v ≠ c) :
      TWalkN G m c v (k + 1)

theorem TWalkN.forget {G : Gr W} {m : Loc → Nat} {c v k : Nat} (h : TWalkN G m c v k) : TWalk G m c v := by
  induction h with
  | nil h => exact .nil h
  | cons w h he hd hm hne ih => exact .cons w ih he hd hm hne

/-! ### One round -/

structure Gh where
  p : Nat → Nat
  q : Nat → Nat
  own : Nat → Option (Nat × Nat)
  src : Nat → Nat
  wr : Nat → Bool

structure DInv (p0 q0 : Nat → Nat) (Ac : Edge W → Prop) (g : Gh) (m : Loc → Nat) : Prop where
  memP : ∀ x, m (.lab x) = g.p x
  memQ : ∀ x, m (.ed x) = g.q x
  old : ∀ d, g.own d = none → g.p d = p0 d ∧ g.q d = q0 d
  new : ∀ d i, g.own d = some i → p0 d = none32 ∧ ∃ e, Ac e ∧ e.d = d ∧ e.s = g.src d ∧ g.p d = p0 (g.src d) ∧
    (g.wr d = true → g.q d = g.src d)

def drg (p0 q0 : Nat → Nat) (Ac : Edge W → Prop) (may : Nat × Nat → Nat → Prop) : RG (Nat × Nat) Gh Loc Nat where
  Inv := DInv p0 q0 Ac
  R i g g' := (∀ d, g'.own d = some i ↔ g.own d = some i) ∧ (∀ d, g.p d ≠ none32 → g'.p d = g.p d) ∧
    (∀ d, Excl may i d → g'.p d = g.p d) ∧ ∀ d, g.own d = some i → g'.src d = g.src d ∧ g'.wr d = g.wr d
  Gu i g g' := (∀ d j, j ≠ i → (g'.own d = some j ↔ g.own d = some j)) ∧ (∀ d, g.p d ≠ none32 → g'.p d = g.p d) ∧
    (∀ d, g'.p d ≠ g.p d → may i d) ∧ ∀ d j, j ≠ i → g.own d = some j → g'.src d = g.src d ∧ g'.wr d = g.wr d
  refl _ _ := ⟨fun _ => Iff.rfl, fun _ _ => rfl, fun _ _ => rfl, fun _ _ => ⟨rfl, rfl⟩⟩
  trans i g g' g'' h1 h2 := ⟨fun d => (h2.1 d).trans (h1.1 d),
    fun d hd => (h2.2.1 d (by rw [h1.2.1 d hd]; exact hd)).trans (h1.2.1 d hd),
    fun d hd => (h2.2.2.1 d hd).trans (h1.2.2.1 d hd), fun d hd => by
      have a := h1.2.2.2 d hd
      have b := h2.2.2.2 d ((h1.1 d).2 hd)
      exact ⟨b.1.trans a.1, b.2.trans a.2⟩⟩
  compat i j g g' hne h := ⟨fun d => h.1 d j (Ne.symm hne), h.2.1, fun d hd => by
    by_contra hc
    exact hd i hne (h.2.2.1 d hc), fun d hd => h.2.2.2 d j (Ne.symm hne) hd⟩

def DT (i : Nat × Nat) (g : Gh) (l : List (Nat × Unit)) : Prop :=
  ((l.map Prod.fst).Nodup ∧ ∀ d, d ∈ l.map Prod.fst ↔ g.own d = some i) ∧ ∀ d, g.own d = some i → g.wr d = true

def Gh.claim (g : Gh) (i : Nat × Nat) (d v s : Nat) : Gh :=
  ⟨fun x => if x = d then v else g.p x, g.q, fun x => if x = d then some i else g.own x,
    fun x => if x = d then s else g.src x, fun x => if x = d then false else g.wr x⟩

def Gh.writ (g : Gh) (d s : Nat) : Gh :=
  ⟨g.p, fun x => if x = d then s else g.q x, g.own, g.src, fun x => if x = d then true else g.wr x⟩

section round
variable {p0 q0 : Nat → Nat} {Ac : Edge W → Prop} {may : Nat × Nat → Nat → Prop}

theorem gu_refl (i : Nat × Nat) (g : Gh) : (drg p0 q0 Ac may).Gu i g g :=
  ⟨fun _ _ _ => Iff.rfl, fun _ _ => rfl, fun _ h => absurd rfl h, fun _ _ _ _ => ⟨rfl, rfl⟩⟩

theorem DT.stable {i : Nat × Nat} {g g' : Gh} {l : List (Nat × Unit)} (hr : (drg p0 q0 Ac may).R i g g') (h : DT i g l) : DT i g' l :=
  ⟨⟨h.1.1, fun d => (h.1.2 d).trans (hr.1 d).symm⟩, fun d hd => by
    have hd := (hr.1 d).1 hd
    rw [(hr.2.2.2 d hd).2]; exact h.2 d hd⟩

theorem read_old {g : Gh} {m : Loc → Nat} (hi : DInv p0 q0 Ac g m) {s : Nat} (hs : p0 s ≠ none32) : m (.lab s) = p0 s := by
  rw [hi.memP]
  cases h : g.own s with
  | none => exact (hi.old s h).1
  | some i => exact absurd (hi.new s i h).1 hs

/-- The successful claim followed by the write of the edge. -/
theorem claim_safe (hs : ∀ e, Ac e → p0 e.s ≠ none32) {i : Nat × Nat} {g : Gh} {m : Loc → Nat} (hi : DInv p0 q0 Ac g m) {e : Edge W}
    (he : Ac e) (hm : may i e.d) (hu : m (.lab e.d) = none32) {l : List (Nat × Unit)} (hT : DT i g l) :
    ∃ g', (drg p0 q0 Ac may).Gu i g g' ∧ DInv p0 q0 Ac g' (put m (.lab e.d) (p0 e.s)) ∧
      Safe (drg p0 q0 Ac may) i (fun g x => DT i g (emit e.d x l) ∧ g.p e.d ≠ none32) (write (.ed e.d) e.s (ret (some ()))) g' := by
  have hpu : g.p e.d = none32 := (hi.memP _).symm.trans hu
  have hno : g.own e.d = none := by
    cases h : g.own e.d with
    | none => rfl
    | some j =>
      obtain ⟨_, e', h1, _, h2, h3, _⟩ := hi.new _ _ h
      rw [← h2] at h3
      exact absurd (h3.symm.trans hpu) (hs e' h1)
  refine ⟨g.claim i e.d (p0 e.s) e.s, ⟨fun d j hj => ?_, fun d hd => ?_, fun d hd => ?_, fun d j hj hd => ?_⟩,
    ⟨fun x => ?_, fun x => ?_, fun d hd => ?_, fun d j hd => ?_⟩, ?_⟩
  · by_cases h : d = e.d
    · subst h; simp [Gh.claim, hno, Ne.symm hj]
    · simp [Gh.claim, h]
  · have : d ≠ e.d := fun h => hd (h ▸ hpu)
    simp [Gh.claim, this]
  · by_cases h : d = e.d
    · subst h; exact hm
    · simp [Gh.claim, h] at hd
  · have : d ≠ e.d := fun h => by rw [h, hno] at hd; cases hd
    simp [Gh.claim, this]
  · by_cases h : x = e.d
    · subst h; rw [put_same]; simp [Gh.claim]
    · rw [put_ne _ _ (by simpa using h)]; simp [Gh.claim, h, hi.memP]
  · rw [put_ne _ _ (by simp)]; exact hi.memQ x
  · by_cases h : d = e.d
    · subst h; simp [Gh.claim] at hd
    · simp only [Gh.claim, h, if_false] at hd ⊢; exact hi.old d hd
  · by_cases h : d = e.d
    · subst h; exact ⟨(hi.old _ hno).1.symm.trans hpu, e, he, rfl, by simp [Gh.claim], by simp [Gh.claim], by simp [Gh.claim]⟩
    · simp only [Gh.claim, h, if_false] at hd ⊢; exact hi.new d j hd
  · intro g1 m1 hr1 hi1
    have ho1 : g1.own e.d = some i := (hr1.1 _).2 (by simp [Gh.claim])
    have hs1 : g1.src e.d = e.s := by rw [(hr1.2.2.2 _ (by simp [Gh.claim])).1]; simp [Gh.claim]
    have hmem : ∀ d, g1.own d = some i ↔ d = e.d ∨ g.own d = some i := fun d => by
      rw [hr1.1 d]
      by_cases h : d = e.d <;> simp [Gh.claim, h]
    have hpd : g1.p e.d ≠ none32 := by
      rw [hr1.2.1 e.d (by simp [Gh.claim]; exact hs e he)]; simp [Gh.claim]; exact hs e he
    refine ⟨g1.writ e.d e.s, ⟨fun _ _ _ => Iff.rfl, fun _ _ => rfl, fun _ h => absurd rfl h, fun d j hj hd => ⟨rfl, ?_⟩⟩,
      ⟨fun x => ?_, fun x => ?_, fun d hd => ?_, fun d j hd => ?_⟩, fun g2 hr2 => ⟨DT.stable hr2 ⟨⟨?_, fun d => ?_⟩, fun d hd => ?_⟩, ?_⟩⟩
    · have : d ≠ e.d := fun h => hj (by rw [h, ho1] at hd; exact (Option.some.inj hd).symm)
      simp [Gh.writ, this]
    · rw [put_ne _ _ (by simp)]; exact hi1.memP x
    · by_cases h : x = e.d
      · subst h; rw [put_same]; simp [Gh.writ]
      · rw [put_ne _ _ (by simpa using h)]; simp [Gh.writ, h, hi1.memQ]
    · have : d ≠ e.d := fun h => by
        have hd : g1.own d = none := hd
        rw [h, ho1] at hd; cases hd
      simp only [Gh.writ, this, if_false]; exact hi1.old d hd
    · obtain ⟨h1, e', h2, h3, h4, h5, h6⟩ := hi1.new d j hd
      refine ⟨h1, e', h2, h3, h4, h5, fun hw => ?_⟩
      by_cases h : d = e.d
      · subst h; simp [Gh.writ, hs1]
      · simp only [Gh.writ, h, if_false] at hw ⊢; exact h6 hw
    · rw [emit, List.map_cons, List.nodup_cons]
      refine ⟨fun hin => ?_, hT.1.1⟩
      have := (hT.1.2 _).1 hin
      rw [hno] at this; cases this
    · rw [emit, List.map_cons, List.mem_cons, hT.1.2]
      exact (hmem d).symm
    · by_cases h : d = e.d
      · simp [Gh.writ, h]
      · have hd : g1.own d = some i := hd
        have hg := ((hmem d).1 hd).resolve_left h
        have hc : (g.claim i e.d (p0 e.s) e.s).own d = some i := by simp [Gh.claim, h, hg]
        simp only [Gh.writ, h, if_false]
        rw [(hr1.2.2.2 d hc).2]
        simp only [Gh.claim, h, if_false]
        exact hT.2 d hg
    · rw [hr2.2.1 e.d hpd]; exact hpd

theorem ldde_spec (hs : ∀ e, Ac e → p0 e.s ≠ none32) :
    FSpecC (drg p0 q0 Ac) lddeF Ac DT (fun g e => g.p e.d ≠ none32) (fun d g => g.p d = none32) where
  keep may i e := ⟨fun g g' hr h => by rw [hr.2.1 _ h]; exact h, fun g g' hr h => by rw [hr.2.1 _ h]; exact h⟩
  stable may i l g g' hr h := h.stable hr
  cond may i l g d hT := by
    intro g1 m1 hr1 hi1
    refine ⟨g1, gu_refl _ _, hi1, ?_⟩
    intro g2 hr2
    have hm : m1 (.lab d) = g1.p d := hi1.memP d
    refine ⟨(hT.stable hr1).stable hr2, fun hb e _ he => ?_, fun hb hx => ?_⟩
    · subst he
      have hne : g1.p e.d ≠ none32 := by rw [← hm]; simpa using hb
      rw [hr2.2.1 _ hne]; exact hne
    · rw [hr2.2.2.1 d hx, ← hm]; simpa using hb
  updA may i l g e he hm hT := by
    intro g1 m1 hr1 hi1
    refine ⟨g1, gu_refl _ _, hi1, ?_⟩
    rw [read_old hi1 (hs e he)]
    intro g2 m2 hr2 hi2
    have hT2 := (hT.stable hr1).stable hr2
    refine ⟨fun hu => claim_safe hs hi2 he hm hu hT2, fun hu => ?_⟩
    refine ⟨g2, gu_refl _ _, hi2, fun g3 hr3 => ⟨hT2.stable hr3, ?_⟩⟩
    have hne : g2.p e.d ≠ none32 := by rw [← hi2.memP]; exact hu
    rw [hr3.2.1 _ hne]; exact hne
  upd may i l g e he hm hx hcn hT := by
    intro g1 m1 hr1 hi1
    refine ⟨g1, gu_refl _ _, hi1, ?_⟩
    rw [read_old hi1 (hs e he)]
    intro g2 m2 hr2 hi2
    have hu : m2 (.lab e.d) = none32 := by rw [hi2.memP, hr2.2.2.1 _ hx, hr1.2.2.1 _ hx]; exact hcn
    exact claim_safe hs hi2 he hm hu ((hT.stable hr1).stable hr2)

end round

/-- One `edgeMap`: the labels as in `LDD`, and every emitted vertex has recorded the source of the edge that claimed it. -/
theorem ldde_round (G : Gr W) (hG : G.Ok) (inF : Nat → Bool) {m m' : Loc → Nat} (hs : ∀ v, inF v = true → lab m v ≠ none32)
    {o : List (Nat × Unit)} (hr : EdgeMap lddeF G inF m m' o) :
    IsRound G (fun _ _ _ => true) inF (lab m) (lab m') (o.map Prod.fst) ∧
    (∀ d, d ∈ o.map Prod.fst → ∃ e, Active G inF e ∧ e.d = d ∧ lab m' d = lab m e.s ∧ m' (.ed d) = e.s) ∧
    ∀ d, d ∉ o.map Prod.fst → m' (.ed d) = m (.ed d) := by
  obtain ⟨g, out, hi, hdn, hT, hcol⟩ := edgeMap_soundC
    (ldde_spec (p0 := lab m) (q0 := fun x => m (.ed x)) (Ac := Active G inF) fun e he => hs _ he.1) G hG inF
    (fun _ h => h) (DInv (lab m) (fun x => m (.ed x)) (Active G inF)) (fun _ _ _ => Iff.rfl)
    ⟨lab m, fun x => m (.ed x), fun _ => none, fun _ => 0, fun _ => false⟩
    ⟨fun _ => rfl, fun _ => rfl, fun _ _ => ⟨rfl, rfl⟩, fun _ _ h => (by cases h)⟩
    (fun i => ⟨⟨List.nodup_nil, fun d => ⟨fun h => (by cases h), fun h => (by cases h)⟩⟩, fun d h => (by cases h)⟩) hr
  have hmem : ∀ d, d ∈ o.map Prod.fst ↔ ∃ i, g.own d = some i := by
    intro d
    constructor
    · intro h
      obtain ⟨⟨d', x⟩, h1, rfl⟩ := List.mem_map.1 h
      obtain ⟨i, hi'⟩ := hcol.sub _ h1
      exact ⟨i, ((hT i).1.2 _).1 (List.mem_map.2 ⟨_, hi', rfl⟩)⟩
    · rintro ⟨i, h⟩
      obtain ⟨⟨d', x⟩, h1, rfl⟩ := List.mem_map.1 (((hT i).1.2 d).2 h)
      obtain ⟨y, hy⟩ := hcol.all i _ _ h1
      exact List.mem_map.2 ⟨_, hy, rfl⟩
  have hnew : ∀ d, d ∈ o.map Prod.fst → ∃ e, Active G inF e ∧ e.d = d ∧ lab m' d = lab m e.s ∧ m' (.ed d) = e.s := fun d hd => by
    obtain ⟨i, h⟩ := (hmem d).1 hd
    obtain ⟨_, e, h2, h3, h4, h5, h6⟩ := hi.new d i h
    refine ⟨e, h2, h3, ?_, ?_⟩
    · rw [h4]; exact (hi.memP d).trans h5
    · rw [h4]; exact (hi.memQ d).trans (h6 ((hT i).2 d h))
  refine ⟨⟨?_, fun d => ?_, fun d hd => ?_, fun d hd => ?_⟩, hnew, fun d hd => ?_⟩
  · refine hcol.nodup (fun i => (hT i).1.1) fun i j d x y h1 h2 => ?_
    have e1 := ((hT i).1.2 d).1 (List.mem_map.2 ⟨_, h1, rfl⟩)
    have e2 := ((hT j).1.2 d).1 (List.mem_map.2 ⟨_, h2, rfl⟩)
    exact Option.some.inj (e1.symm.trans e2)
  · rw [hmem]
    constructor
    · rintro ⟨i, h⟩
      obtain ⟨h1, e, h2, h3, _⟩ := hi.new d i h
      exact ⟨h1, e, h2, rfl, h3⟩
    · rintro ⟨h1, e, h2, -, rfl⟩
      cases h : g.own e.d with
      | none => exact absurd ((hi.old _ h).1.trans h1) (hdn e h2)
      | some i => exact ⟨i, rfl⟩
  · obtain ⟨e, h1, h2, h3, -⟩ := hnew d hd
    exact ⟨e, h1, rfl, h2, h3⟩
  · cases h : g.own d with
    | none => exact (hi.memP d).trans (hi.old d h).1
    | some i => exact absurd ((hmem d).2 ⟨i, h⟩) hd
  · cases h : g.own d with
    | none => exact (hi.memQ d).trans (hi.old d h).2
    | some i => exact absurd ((hmem d).2 ⟨i, h⟩) hd

/-! ### The loop -/

section loop
variable {G : Gr W} {cw : Bool} {perm : Nat → Nat} {sh : List Nat}

/-- The walk along recorded edges from the centre, and the entry of the centre. -/
structure TInv (G : Gr W) (cw : Bool) (r : Nat) (m : Loc → Nat) : Prop where
  walk : ∀ v, lab m v ≠ none32 → ∃ k, k ≤ r ∧ TWalkN G m (lab m v) v k
  cen : ∀ v, lab m v ≠ none32 → lab m v = v → m (.ed v) = if cw then v else none32
  unset : ∀ v, lab m v = none32 → m (.ed v) = none32

theorem TWalkN.mono {m m' : Loc → Nat} {c v k : Nat} (h : TWalkN G m c v k) (hc : c ≠ none32)
    (hm : ∀ x, lab m x ≠ none32 → lab m' x = lab m x ∧ m' (.ed x) = m (.ed x)) : TWalkN G m' c v k := by
  induction h with
  | nil h => exact .nil ((hm c (h.trans_ne hc)).1.trans h)
  | cons w h he hd hv hne ih =>
    have := hm _ (hv.trans_ne hc)
    exact .cons w ih he (this.2.trans hd) (this.1.trans hv) hne

theorem TWalk.lab {m : Loc → Nat} {c v : Nat} (h : TWalk G m c v) : m (.lab c) = c ∧ m (.lab v) = c := by
  induction h with
  | nil h => exact ⟨h, h⟩
  | cons w h he hd hv hne ih => exact ⟨ih.1, hv⟩

theorem lab_claimed2 (m : Loc → Nat) (cs : List Nat) : lab (claimed2 cw m cs) = claimed (lab m) cs := rfl

theorem TInv.centers {m : Loc → Nat} {cs : List Nat} (h : TInv G cw r m) (hc : ∀ v ∈ cs, lab m v = none32) (hne : ∀ v ∈ cs, v ≠ none32) :
    TInv G cw r (claimed2 cw m cs) := by
  have hkeep : ∀ x, lab m x ≠ none32 → lab (claimed2 cw m cs) x = lab m x ∧ claimed2 cw m cs (.ed x) = m (.ed x) := fun x hx => by
    have : x ∉ cs := fun h => hx (hc x h)
    exact ⟨if_neg this, if_neg fun h => this h.2⟩
  refine ⟨fun v hv => ?_, fun v hv he => ?_, fun v hv => ?_⟩
  · by_cases hm : v ∈ cs
    · have : lab (claimed2 cw m cs) v = v := if_pos hm
      rw [this]; exact ⟨0, Nat.zero_le _, .nil this⟩
    · have : lab (claimed2 cw m cs) v = lab m v := if_neg hm
      rw [this] at hv ⊢
      obtain ⟨k, hk, hw⟩ := h.walk v hv
      exact ⟨k, hk, hw.mono hv hkeep⟩
  · by_cases hm : v ∈ cs
    · show (if cw = true ∧ v ∈ cs then v else m (.ed v)) = _
      cases cw with
      | true => rw [if_pos ⟨rfl, hm⟩]; rfl
      | false => rw [if_neg (by simp)]; exact h.unset v (hc v hm)
    · have : lab (claimed2 cw m cs) v = lab m v := if_neg hm
      rw [this] at hv he
      rw [(hkeep v hv).2]; exact h.cen v hv he
  · by_cases hm : v ∈ cs
    · have : lab (claimed2 cw m cs) v = v := if_pos hm
      rw [this] at hv
      exact absurd hv (hne v hm)
    · have : lab (claimed2 cw m cs) v = lab m v := if_neg hm
      rw [this] at hv
      show (if cw = true ∧ v ∈ cs then v else m (.ed v)) = _
      rw [if_neg fun h => hm h.2]; exact h.unset v hv

theorem TInv.edges {m m' : Loc → Nat} {inF : Nat → Bool} {o : List (Nat × Unit)} (hG : G.Ok) (h : TInv G cw r m)
    (hs : ∀ v, inF v = true → lab m v ≠ none32) (hr : EdgeMap lddeF G inF m m' o) : TInv G cw (r + 1) m' := by
  obtain ⟨h1, h2, h3⟩ := ldde_round G hG inF hs hr
  have hkeep : ∀ x, lab m x ≠ none32 → lab m' x = lab m x ∧ m' (.ed x) = m (.ed x) := fun x hx => by
    have : x ∉ o.map Prod.fst := fun hc => hx ((h1.mem x).1 hc).1
    exact ⟨h1.old x this, h3 x this⟩
  have hcne : ∀ v, lab m v ≠ none32 → lab m (lab m v) = lab m v := fun v hv => by
    obtain ⟨k, _, hw⟩ := h.walk v hv
    exact hw.forget.lab.1
  refine ⟨fun v hv => ?_, fun v hv he => ?_, fun v hv => ?_⟩
  · by_cases hc : v ∈ o.map Prod.fst
    · obtain ⟨e, ha, rfl, hm, hd⟩ := h2 v hc
      have hse := hs e.s ha.1
      rw [hm]
      obtain ⟨k, hk, hw⟩ := h.walk _ hse
      refine ⟨k + 1, Nat.succ_le_succ hk, .cons e.w (hw.mono hse hkeep) ha.2 hd hm fun heq => ?_⟩
      have h5 := hcne e.s hse
      rw [← heq, ((h1.mem _).1 hc).1] at h5
      exact hse (by rw [← heq, ← h5])
    · rw [h1.old v hc] at hv ⊢
      obtain ⟨k, hk, hw⟩ := h.walk v hv
      exact ⟨k, Nat.le_succ_of_le hk, hw.mono hv hkeep⟩
  · by_cases hc : v ∈ o.map Prod.fst
    · obtain ⟨e, ha, rfl, hm, hd⟩ := h2 v hc
      have hse := hs e.s ha.1
      have h5 := hcne e.s hse
      rw [← hm, he, ((h1.mem _).1 hc).1] at h5
      exact absurd (he.trans h5.symm) hv
    · rw [h1.old v hc] at hv he
      rw [h3 v hc]; exact h.cen v hv he
  · have hc : v ∉ o.map Prod.fst := fun hc => by
      obtain ⟨e, ha, rfl, hm, hd⟩ := h2 v hc
      exact hs e.s ha.1 (hm.symm.trans hv)
    rw [h1.old v hc] at hv
    rw [h3 v hc]; exact h.unset v hv

theorem run_ok (hG : G.Ok) (hn : G.n ≤ none32) (hp : ∀ i, i < G.n → perm i < G.n) (hj : ∀ i j, i < G.n → j < G.n → perm i = perm j → i = j)
    (hs : ∀ v, v < G.n → ∃ i, i < G.n ∧ perm i = v) (hsh : Shifts G.n sh)
    {r vis add : Nat} {m : Loc → Nat} {F : List Nat} {res : Option (Loc → Nat)} (hr : Run G cw perm sh r vis add m F res)
    (hi : LDD.Inv G (fun _ _ _ => true) perm r vis add (lab m) F) (ht : TInv G cw r m) (hvis : vis < G.n) (ha : sh[r]? = some add) (hlt : add < G.n) :
    ∃ m' r' vis' add' F', res = some m' ∧ LDD.Inv G (fun _ _ _ => true) perm r' vis' add' (lab m') F' ∧ TInv G cw r' m' ∧ r' + 1 < sh.length ∧
      G.n ≤ vis' + F'.length := by
  obtain ⟨b0, hb0, hab0⟩ := LDD.shifts_step hsh ha hlt
  have hcs : ∀ (m : Loc → Nat) add k, add + k ≤ G.n → (∀ v ∈ LDD.centers perm (lab m) add k, lab m v = none32) ∧
      ∀ v ∈ LDD.centers perm (lab m) add k, v ≠ none32 := fun m add k hk => by
    refine ⟨fun v hv => (LDD.mem_centers.1 hv).2, fun v hv => ?_⟩
    obtain ⟨i, hi, rfl⟩ := (LDD.mem_centers.1 hv).1
    have := hp (add + i) (by omega)
    omega
  induction hr generalizing b0 with
  | stop h => exact absurd hvis h
  | range h ho => rcases ho with ho | ho <;> simp_all
  | wrap h ha' hb hw =>
    rw [ha] at ha'; rw [hb0] at hb
    obtain rfl := Option.some.inj ha'
    obtain rfl := Option.some.inj hb
    omega
  | perm h ha' hb hw hp' =>
    rw [ha] at ha'; rw [hb0] at hb
    obtain rfl := Option.some.inj ha'
    obtain rfl := Option.some.inj hb
    omega
  | @last r vis add m F a b cs h ha' hb hw hp' hcs' hv =>
    subst hcs'
    obtain ⟨h1, h2⟩ := hcs m add (min b G.n - a) (by omega)
    exact ⟨_, r, vis, add + (min b G.n - a), _, rfl, hi.centers hn hp hj (by omega), ht.centers h1 h2, (List.getElem?_eq_some_iff.1 hb).1, hv⟩
  | @round r vis add m F a b cs m' o res h ha' hb hw hp' hcs' hv he hr ih =>
    rw [ha] at ha'; rw [hb0] at hb
    obtain rfl := Option.some.inj ha'
    obtain rfl := Option.some.inj hb
    subst hcs'
    have h1 := hi.centers hn hp hj (k := min b0 G.n - add) (by omega)
    have hb : b0 < G.n := by
      by_contra hc
      have h2 : add + (min b0 G.n - add) = G.n := by omega
      have h3 := LDD.full_seen (m := claimed (lab m) (LDD.centers perm (lab m) add (min b0 G.n - add))) hs fun i hi => h1.added i (by omega)
      rw [← h1.count] at h3
      omega
    have hadd : add + (min b0 G.n - add) = b0 := by omega
    obtain ⟨c1, c2⟩ := hcs m add (min b0 G.n - add) (by omega)
    have hset : ∀ v, decide (v ∈ F ++ LDD.centers perm (lab m) add (min b0 G.n - add)) = true →
        lab (claimed2 cw m (LDD.centers perm (lab m) add (min b0 G.n - add))) v ≠ none32 := fun v hv => (h1.sub v (by simpa using hv)).2
    have h2 := h1.edges_of hG (ldde_round G hG _ hset he).1
    obtain ⟨b1, hb1, hab1⟩ := LDD.shifts_step hsh hb0 hb
    rw [hadd] at ih h2
    exact ih h2 ((ht.centers c1 c2).edges hG hset he) (by omega) hb0 hb b1 hb1 hab1

end loop

/-- Every vertex gets the label of its centre and is reached from it along fewer than `sh.length - 1` recorded edges; there is no undefined
behaviour. -/
theorem ldde_depth {G : Gr W} {cw : Bool} (hG : G.Ok) (hn : G.n ≤ none32) {perm : Nat → Nat} (hp : ∀ i, i < G.n → perm i < G.n)
    (hj : ∀ i j, i < G.n → j < G.n → perm i = perm j → i = j) (hs : ∀ v, v < G.n → ∃ i, i < G.n ∧ perm i = v)
    {sh : List Nat} (hsh : Shifts G.n sh) {res : Option (Loc → Nat)} (hr : Ldde G cw perm sh res) :
    ∃ m, res = some m ∧ ∀ v, v < G.n → lab m v < G.n ∧ lab m (lab m v) = lab m v ∧ (∃ k, k + 1 < sh.length ∧ TWalkN G m (lab m v) v k) ∧
      (lab m v = v → m (.ed v) = if cw then v else none32) := by
  by_cases h0 : 0 < G.n
  · have hi : LDD.Inv G (fun _ _ _ => true) perm 0 0 0 (lab fun _ => none32) [] := by
      refine ⟨List.nodup_nil, fun v hv => (by cases hv), ?_, fun i hi => (by omega), fun v hv => absurd rfl hv⟩
      simp [LDD.seen, lab]
    obtain ⟨m, r', vis', add', F', h1, h2, h3, hr', h4⟩ := run_ok hG hn hp hj hs hsh hr hi
      ⟨fun v hv => absurd rfl hv, fun v hv => absurd rfl hv, fun _ _ => rfl⟩ h0 hsh.zero h0
    refine ⟨m, h1, fun v hv => ?_⟩
    have hset := LDD.seen_full (m := lab m) (by rw [← h2.count]; exact h4) v hv
    obtain ⟨k, hk, hw⟩ := h3.walk v hset
    have hc : lab m (lab m v) = lab m v := hw.forget.lab.1
    exact ⟨(h2.walk (lab m v) (by rw [hc]; exact hset)).1, hc, ⟨k, by omega, hw⟩, h3.cen v hset⟩
  · cases hr with
    | stop h => exact ⟨_, rfl, fun v hv => by omega⟩
    | range h => exact absurd h h0
    | wrap h => exact absurd h h0
    | perm h => exact absurd h h0
    | last h => exact absurd h h0
    | round h => exact absurd h h0

/-- The same without the number of edges. -/
theorem ldde_correct {G : Gr W} {cw : Bool} (hG : G.Ok) (hn : G.n ≤ none32) {perm : Nat → Nat} (hp : ∀ i, i < G.n → perm i < G.n)
    (hj : ∀ i j, i < G.n → j < G.n → perm i = perm j → i = j) (hs : ∀ v, v < G.n → ∃ i, i < G.n ∧ perm i = v)
    {sh : List Nat} (hsh : Shifts G.n sh) {res : Option (Loc → Nat)} (hr : Ldde G cw perm sh res) :
    ∃ m, res = some m ∧ ∀ v, v < G.n → lab m v < G.n ∧ lab m (lab m v) = lab m v ∧ TWalk G m (lab m v) v ∧
      (lab m v = v → m (.ed v) = if cw then v else none32) := by
  obtain ⟨m, h1, h2⟩ := ldde_depth hG hn hp hj hs hsh hr
  refine ⟨m, h1, fun v hv => ?_⟩
  obtain ⟨h3, h4, ⟨k, _, h5⟩, h6⟩ := h2 v hv
  exact ⟨h3, h4, h5.forget, h6⟩

end Gbbs.LDDE
