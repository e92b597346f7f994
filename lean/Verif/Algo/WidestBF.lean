/-
C149: widest paths by rounds of relaxation (`-bf`), `SSWidestPathBF`,
`benchmarks/SSWidestPath/JulienneDBS17/SSWidestPath.h:174-247`.
-/
import Verif.Algo.Relax
import Verif.Algo.Walks

namespace Gbbs.WidestBF

open Conc Conc.Prog Em Walks
open Relax (Loc BGh BInv brg BT BTp)
open Atomics (Steps)

/-! ### Specification -/

/-- A walk of `k` edges from `s` to `v` whose bottleneck (least weight of an edge) is `x`; that of the empty walk is
`inf`. -/
inductive BWalk (G : Gr Int) (inf : Int) (s : Nat) : Nat → Nat → Int → Prop
  | nil : BWalk G inf s s 0 inf
  | cons {u v k x} (w : Int) (h : BWalk G inf s u k x) (e : (v, w) ∈ G.fwd u) : BWalk G inf s v (k + 1) (min x w)

/-- `x` is the greatest bottleneck of a walk from `s` to `v`. -/
def MaxBottleneck (G : Gr Int) (inf : Int) (s v : Nat) (x : Int) : Prop :=
  (∃ k, BWalk G inf s v k x) ∧ ∀ k y, BWalk G inf s v k y → y ≤ x

/-! ### Model -/

/-- `write_max`, `bridge.h:330-338, 370-373`; at most `f` iterations are considered (a longer run is `stuck`). -/
def writeMax : Nat → Loc → Int → Prog Loc Int Bool
  | 0, _, _ => stuck
  | f + 1, a, b => read a fun c => if c < b then cas a c b fun r => if r then ret true else writeMax f a b
      else ret false

/-- `SSWidestPathBF_F`, `SSWidestPath.h:174-199`; `Loc.sp d` is `width[d]`, `Loc.vis d` is `Visited[d]`. The weights
are of type `intE`, so that `wrap_with_default<W, intE>` passes them on. -/
def wF (f : Nat) : Func Int Loc Int Unit where
  cond _ := ret true
  upd s d w := read (.sp s) fun x => read (.sp d) fun y =>
    if y > min x w then write (.sp d) (min x w) (read (.vis d) fun v =>
      if v = 0 then write (.vis d) 1 (ret (some ())) else ret none)
    else ret none
  updA s d w := read (.sp s) fun x => (writeMax f (.sp d) (min x w)).bind fun r =>
    if r then cas (.vis d) 0 1 fun r => ret (if r then some () else none) else ret none

/-- The traversals `edgeMapData` chooses from, `edge_map_data.h:141-187`: with the flag `dense_forward`
(`fwd = true`) a dense frontier is traversed by `edgeMapDenseForward`, otherwise by `edgeMapDense`. -/
inductive Chosen (fwd : Bool) (F : Func Int Loc Int Unit) (G : Gr Int) (inF : Nat → Bool) :
    (Nat × Nat → Prog Loc Int (List (Nat × Unit))) → Prop
  | dense (par : Bool) (h : fwd = false) : Chosen fwd F G inF (denseProg F G inF par)
  | forward (h : fwd = true) : Chosen fwd F G inF (forwardProg F G inF)
  | chunked (work : Nat × Nat → List (Edge Int)) (h : ∀ e, (∃ i, e ∈ work i) ↔ Active G inF e) :
      Chosen fwd F G inF (fun i => sparseRun F (work i) [])

/-- `edgeMap(G, Frontier, em_f, G.m / 10, sparse_blocked | dense_forward)`, `SSWidestPath.h:230-231`, with
`fwd = true`. -/
def Call (fwd : Bool) (F : Func Int Loc Int Unit) (G : Gr Int) (inF : Nat → Bool) (m m' : Loc → Int)
    (o : List (Nat × Unit)) : Prop :=
  ∃ th, Chosen fwd F G inF th ∧ ∃ (out : Nat × Nat → List (Nat × Unit)),
    Steps Step (⟨m, th⟩ : Conf (Nat × Nat) Loc Int (List (Nat × Unit))) ⟨m', fun i => ret (out i)⟩ ∧ Collect out o

/-- `vertexMap(output, SSWidestPath_BF_Vertex_F)`, `SSWidestPath.h:202-209, 232`. -/
def reset (o : List (Nat × Unit)) (m : Loc → Int) : Loc → Int
  | .sp d => m (.sp d)
  | .vis d => if d ∈ o.map Prod.fst then 0 else m (.vis d)

/-- The loop, `SSWidestPath.h:221-236`, from round `r`; the last result tells whether the branch `round == n`
was taken. -/
inductive Loop (fwd : Bool) (f : Nat) (inf : Int) (G : Gr Int) :
    Nat → (Loc → Int) → List Nat → (Loc → Int) → Bool → Prop
  | done (r m) : Loop fwd f inf G r m [] m false
  | give {m F} (hF : F ≠ []) : Loop fwd f inf G G.n m F (fun | .sp _ => -(inf / 2) | .vis d => m (.vis d)) true
  | round {r m F m' o m'' b} (hF : F ≠ []) (hr : r ≠ G.n)
      (h : Call fwd (wF f) G (fun v => decide (v ∈ F)) m m' o)
      (hl : Loop fwd f inf G (r + 1) (reset o m') (o.map Prod.fst) m'' b) : Loop fwd f inf G r m F m'' b

/-- The arrays at the start, `SSWidestPath.h:215-217`. -/
def mem0 (inf : Int) (src : Nat) : Loc → Int
  | .sp d => if d = src then inf else -1
  | .vis _ => 0

/-- `SSWidestPathBF(G, src)`, `SSWidestPath.h:211-247`, returned `width`; `inf` is `INT_E_MAX`. -/
def SSWidestPathBF (fwd : Bool) (f : Nat) (inf : Int) (G : Gr Int) (src : Nat) (width : Nat → Int) (gave : Bool) :
    Prop :=
  ∃ m, Loop fwd f inf G 0 (mem0 inf src) [src] m gave ∧ ∀ d, m (.sp d) = width d

/-! ### One round -/

/-- The memory with negated widths, to which the invariants of `Relax` apply. -/
def ng (m : Loc → Int) : Loc → Int
  | .sp d => -m (.sp d)
  | .vis d => m (.vis d)

theorem ng_put_sp (m : Loc → Int) (d : Nat) (x : Int) : ng (put m (.sp d) x) = put (ng m) (.sp d) (-x) := by
  funext l
  cases l with
  | sp y =>
    by_cases h : y = d
    · subst h; simp [ng, put_same]
    · simp [ng, put_ne, h]
  | vis y => simp [ng, put_ne]

theorem ng_put_vis (m : Loc → Int) (d : Nat) (x : Int) : ng (put m (.vis d) x) = put (ng m) (.vis d) x := by
  funext l
  cases l with
  | sp y => simp [ng, put_ne]
  | vis y =>
    by_cases h : y = d
    · subst h; simp [ng, put_same]
    · simp [ng, put_ne, h]

/-- The rely-guarantee structure of `Relax` over negated widths. -/
def nrg (inf : Int) (sp0 : Nat → Int) (Good : Nat → Int → Prop) (may : Nat × Nat → Nat → Prop) :
    RG (Nat × Nat) BGh Loc Int :=
  { brg inf sp0 Good may with Inv := fun g m => BInv inf sp0 Good g (ng m) }

section
variable {inf : Int} {sp0 : Nat → Int} {Good : Nat → Int → Prop} {may : Nat × Nat → Nat → Prop}

theorem nrg_gu_refl (i : Nat × Nat) (g : BGh) : (nrg inf sp0 Good may).Gu i g g :=
  Relax.brg_gu_refl (inf := inf) (sp0 := sp0) (Good := Good) i g

theorem bt_stable {i : Nat × Nat} {g g' : BGh} {l : List (Nat × Unit)} (hr : (nrg inf sp0 Good may).R i g g')
    (h : BT i g l) : BT i g' l := BT.stable (inf := inf) (sp0 := sp0) (Good := Good) (may := may) hr h

theorem btp_stable {d : Nat} {i : Nat × Nat} {g g' : BGh} {l : List (Nat × Unit)}
    (hr : (nrg inf sp0 Good may).R i g g') (h : BTp d i g l) : BTp d i g' l :=
  BTp.stable (inf := inf) (sp0 := sp0) (Good := Good) (may := may) hr h

theorem writeMax_spec (f : Nat) {i : Nat × Nat} {d : Nat} {x : Int} (hm : may i d) (hgood : -x < inf → Good d (-x))
    (hinf : ∀ d, sp0 d ≤ inf) {l : List (Nat × Unit)} (g : BGh) (hT : BT i g l) :
    Safe (nrg inf sp0 Good may) i (fun g r => g.sp d ≤ -x ∧
      if r then BTp d i g l ∧ g.sp d < sp0 d else BT i g l) (writeMax f (.sp d) x) g := by
  induction f generalizing g with
  | zero => trivial
  | succ f ih =>
    intro g1 m1 hr1 hi1
    have hT1 := bt_stable hr1 hT
    refine ⟨g1, nrg_gu_refl _ _, hi1, ?_⟩
    beta_reduce
    have hi1' : BInv inf sp0 Good g1 (ng m1) := hi1
    have hsp1 : -m1 (.sp d) = g1.sp d := hi1'.sp d
    by_cases hx : m1 (.sp d) < x
    · rw [if_pos hx]
      have hlt : -x < sp0 d := by
        have := hi1'.le d
        omega
      intro g2 m2 hr2 hi2
      have hT2 := bt_stable hr2 hT1
      refine ⟨fun he => ?_, fun _ => ⟨g2, nrg_gu_refl _ _, hi2, ih g2 hT2⟩⟩
      have hi2' : BInv inf sp0 Good g2 (ng m2) := hi2
      obtain ⟨h1, h2, h3, h4⟩ := Relax.lower_ok (may := may) hi2' hm (x := -x)
        (by show -x < -m2 (.sp d); omega) (hgood (by have := hinf d; omega)) hT2
      refine ⟨_, h1, ?_, ?_⟩
      · show BInv inf sp0 Good _ (ng (put m2 (.sp d) x))
        rw [ng_put_sp]; exact h2
      intro g3 hr3
      have := hr3.1 d
      rw [h4] at this
      refine ⟨this, ?_⟩
      rw [if_pos rfl]
      exact ⟨btp_stable hr3 h3, by omega⟩
    · rw [if_neg hx]
      intro g2 hr2
      have := hr2.1 d
      refine ⟨by omega, ?_⟩
      rw [if_neg (by simp)]
      exact bt_stable hr2 hT1

/-- The client with `update` replaced by `updateAtomic`. -/
def wA (f : Nat) : Func Int Loc Int Unit := { wF f with upd := (wF f).updA }

theorem wA_updA (f : Nat) {Ac : Edge Int → Prop} (hinf : ∀ d, sp0 d ≤ inf) (hfin : ∀ e, Ac e → sp0 e.s < inf)
    (hgood : ∀ e x, Ac e → Good e.s x → max x (-e.w) < inf → Good e.d (max x (-e.w))) (i : Nat × Nat)
    (l : List (Nat × Unit)) (g : BGh) (e : Edge Int) (he : Ac e) (hm : may i e.d) (hT : BT i g l) :
    Safe (nrg inf sp0 Good may) i (fun g x => BT i g (emit e.d x l) ∧ g.sp e.d ≤ max (sp0 e.s) (-e.w))
      ((wF f).updA e.s e.d e.w) g := by
  intro g1 m1 hr1 hi1
  have hT1 := bt_stable hr1 hT
  refine ⟨g1, nrg_gu_refl _ _, hi1, ?_⟩
  have hi1' : BInv inf sp0 Good g1 (ng m1) := hi1
  have hsp1 : -m1 (.sp e.s) = g1.sp e.s := hi1'.sp e.s
  have hle := hi1'.le e.s
  have hmm : -min (m1 (.sp e.s)) e.w = max (g1.sp e.s) (-e.w) := by omega
  have hg : -min (m1 (.sp e.s)) e.w < inf → Good e.d (-min (m1 (.sp e.s)) e.w) := by
    rw [hmm]
    exact hgood e _ he (hi1'.good _ (by have := hfin e he; omega))
  refine (writeMax_spec f hm hg hinf g1 hT1).bind fun r g2 h2 => ?_
  rw [hmm] at h2
  cases r with
  | false =>
    exact fun g3 hr3 => ⟨bt_stable (l := l) hr3 (by simpa using h2.2), by have := hr3.1 e.d; omega⟩
  | true =>
    have h2' : BTp e.d i g2 l ∧ g2.sp e.d < sp0 e.d := by simpa using h2.2
    have h21 := h2.1
    rw [if_pos rfl]
    intro g3 m3 hr3 hi3
    have hi3' : BInv inf sp0 Good g3 (ng m3) := hi3
    have hsp := hr3.1 e.d
    refine ⟨fun hv => ?_, fun hv => ?_⟩
    · obtain ⟨h1, h3, h4⟩ := Relax.flag_ok (may := may) hi3' hm (by omega) hv () (btp_stable hr3 h2'.1)
      refine ⟨_, h1, ?_, fun g4 hr4 => ⟨bt_stable hr4 h4, ?_⟩⟩
      · show BInv inf sp0 Good _ (ng (put m3 (.vis e.d) 1))
        rw [ng_put_vis]; exact h3
      · have := hr4.1 e.d
        have : (g3.flag i e.d).sp e.d = g3.sp e.d := rfl
        omega
    · obtain ⟨h1, h3, h4⟩ := Relax.pass_ok (may := may) hi3' hv (btp_stable hr3 h2'.1)
      refine ⟨_, h1, h3, fun g4 hr4 => ⟨bt_stable hr4 h4, ?_⟩⟩
      have := hr4.1 e.d
      have : (g3.pass i).sp e.d = g3.sp e.d := rfl
      omega

theorem wA_spec (f : Nat) (inf : Int) (sp0 : Nat → Int) (Good : Nat → Int → Prop) (Ac : Edge Int → Prop)
    (hinf : ∀ d, sp0 d ≤ inf) (hfin : ∀ e, Ac e → sp0 e.s < inf)
    (hgood : ∀ e x, Ac e → Good e.s x → max x (-e.w) < inf → Good e.d (max x (-e.w))) :
    FSpec (nrg inf sp0 Good) (wA f) Ac BT (fun g e => g.sp e.d ≤ max (sp0 e.s) (-e.w)) where
  keep may i e := ⟨fun g g' hr h => Int.le_trans (hr.1 _) h, fun g g' hr h => Int.le_trans (hr.1 _) h⟩
  stable may i l g g' hr h := bt_stable hr h
  cond may i l g d hT := fun g' hr => ⟨bt_stable hr hT, fun h => by cases h⟩
  updA may i l g e he hm hT := wA_updA f hinf hfin hgood i l g e he hm hT
  upd may i l g e he hm _ hT := wA_updA f hinf hfin hgood i l g e he hm hT
end

/-- With `dense_forward` only `updateAtomic` is called. -/
theorem call_edgeMap {f : Nat} {G : Gr Int} {inF : Nat → Bool} {m m' : Loc → Int} {o : List (Nat × Unit)}
    (h : Call true (wF f) G inF m m' o) : EdgeMap (wA f) G inF m m' o := by
  obtain ⟨th, hth, out, hs, hc⟩ := h
  have hrun : ∀ es l, sparseRun (wF f) es l = sparseRun (wA f) es l := by
    intro es
    induction es with
    | nil => intro l; rfl
    | cons e es ih =>
      intro l
      simp only [sparseRun, ih]
      rfl
  refine ⟨th, ?_, out, hs, hc⟩
  cases hth with
  | dense par h => cases h
  | forward _ =>
    have : forwardProg (wF f) G inF = forwardProg (wA f) G inF := by
      funext i; simp only [forwardProg, hrun]
    rw [this]; exact .forward
  | chunked work h =>
    simp only [hrun]
    exact .chunked work h

theorem round_ok {f : Nat} {G : Gr Int} (hG : G.Ok) {Good : Nat → Int → Prop}
    (hgood : ∀ u v w x, (v, w) ∈ G.fwd u → Good u x → -1 < min x w → Good v (min x w)) {F : List Nat} {m m' : Loc → Int}
    (hlo : ∀ d, -1 ≤ m (.sp d)) (hF : ∀ v, v ∈ F → -1 < m (.sp v)) (hg : ∀ d, -1 < m (.sp d) → Good d (m (.sp d)))
    (hv : ∀ d, m (.vis d) = 0) {o : List (Nat × Unit)}
    (hr : Call true (wF f) G (fun v => decide (v ∈ F)) m m' o) :
    (∀ d, m (.sp d) ≤ m' (.sp d)) ∧ (∀ d, -1 < m' (.sp d) → Good d (m' (.sp d))) ∧
    (∀ u v w, u ∈ F → (v, w) ∈ G.fwd u → min (m (.sp u)) w ≤ m' (.sp v)) ∧
    (∀ d, d ∈ o.map Prod.fst ↔ m (.sp d) < m' (.sp d)) ∧ (∀ d, reset o m' (.vis d) = 0) := by
  obtain ⟨g, out, hi, hdn, hT, hcol⟩ := edgeMap_sound (wA_spec f 1 (fun d => -m (.sp d)) (fun d x => Good d (-x))
    (Active G (fun v => decide (v ∈ F))) (fun d => by have := hlo d; omega)
    (fun e he => by have := hF e.s (by simpa using he.1); omega)
    (fun e x he hx hlt => by
      have := hgood _ _ _ _ he.2 hx (by omega)
      rwa [show -max x (-e.w) = min (-x) e.w from by omega]))
    G hG _ (fun _ h => h)
    (fun g m1 => BInv 1 (fun d => -m (.sp d)) (fun d x => Good d (-x)) g (ng m1))
    (fun _ _ _ => Iff.rfl) ⟨fun d => -m (.sp d), fun _ => none, fun _ => none⟩
    ⟨fun _ => rfl, fun d => by simpa [ng] using hv d, fun _ => Int.le_refl _,
      fun d hd => by
        show Good d (- -m (.sp d))
        rw [Int.neg_neg]
        exact hg d (by have : -m (.sp d) < 1 := hd; omega), fun _ _ h => (by cases h),
      fun d h => absurd h (Int.lt_irrefl _)⟩
    (fun i => ⟨List.nodup_nil, fun d => ⟨fun h => (by cases h), fun h => (by cases h)⟩, rfl⟩) (call_edgeMap hr)
  have hsp : ∀ d, -m' (.sp d) = g.sp d := hi.sp
  have hmem : ∀ d, d ∈ o.map Prod.fst ↔ ∃ i, g.own d = some i := by
    intro d
    constructor
    · intro h
      obtain ⟨⟨d', x⟩, h1, rfl⟩ := List.mem_map.1 h
      obtain ⟨i, hi'⟩ := hcol.sub _ h1
      exact ⟨i, ((hT i).2.1 _).1 (List.mem_map.2 ⟨_, hi', rfl⟩)⟩
    · rintro ⟨i, h⟩
      obtain ⟨⟨d', x⟩, h1, rfl⟩ := List.mem_map.1 (((hT i).2.1 d).2 h)
      obtain ⟨y, hy⟩ := hcol.all i _ _ h1
      exact List.mem_map.2 ⟨_, hy, rfl⟩
  refine ⟨fun d => ?_, fun d hd => ?_, fun u v w hu he => ?_, fun d => ?_, fun d => ?_⟩
  · have := hi.le d
    have := hsp d
    omega
  · have h1 := hi.good d (by have := hsp d; omega)
    have h1 : Good d (-g.sp d) := h1
    rwa [← hsp, Int.neg_neg] at h1
  · have h1 := hdn ⟨u, v, w⟩ ⟨by simpa using hu, he⟩
    have h1 : g.sp v ≤ max (-m (.sp u)) (-w) := h1
    have := hsp v
    omega
  · rw [hmem]
    have := hsp d
    constructor
    · rintro ⟨i, h⟩
      have := hi.own d i h
      omega
    · intro h
      rcases hi.low d (by omega) with h1 | ⟨i, h1⟩
      · exact Option.ne_none_iff_exists'.1 h1
      · rw [(hT i).2.2] at h1; cases h1
  · show (if d ∈ o.map Prod.fst then 0 else m' (.vis d)) = 0
    by_cases h : d ∈ o.map Prod.fst
    · rw [if_pos h]
    · have hvis : m' (.vis d) = if g.own d = none then 0 else 1 := hi.vis d
      rw [if_neg h, hvis, if_pos]
      rw [hmem] at h
      by_contra hc
      exact h (Option.ne_none_iff_exists'.1 hc)

/-! ### Short walks -/

variable {G : Gr Int} {inf : Int} {src : Nat}

/-- The edges of weight at least `b`. -/
def filt (G : Gr Int) (b : Int) : Gr Int :=
  ⟨G.n, fun u => (G.fwd u).filter fun e => decide (b ≤ e.2), fun u => (G.bwd u).filter fun e => decide (b ≤ e.2)⟩

theorem walk_filt {b : Int} {v k : Nat} {x : Int} (h : BWalk G inf src v k x) (hb : b ≤ x) :
    ∃ y, WWalk (filt G b) src v k y := by
  induction h with
  | nil => exact ⟨_, .nil⟩
  | @cons u v k x w _ e ih =>
    obtain ⟨y, hy⟩ := ih (by omega)
    exact ⟨_, .cons w hy (by simp only [filt, List.mem_filter]; exact ⟨e, by simp; omega⟩)⟩

theorem filt_walk {b : Int} (hb : b ≤ inf) {v k : Nat} {y : Int} (h : WWalk (filt G b) src v k y) :
    ∃ x, b ≤ x ∧ BWalk G inf src v k x := by
  induction h with
  | nil => exact ⟨_, hb, .nil⟩
  | @cons u v k x w _ e ih =>
    obtain ⟨y, hy, hw⟩ := ih
    simp only [filt, List.mem_filter, decide_eq_true_eq] at e
    exact ⟨_, by omega, .cons w hw e.1⟩

theorem filt_ok (hG : G.Ok) (b : Int) : (filt G b).Ok := by
  refine ⟨fun u v w => ?_, fun u v w h => ?_⟩
  · simp only [filt, List.mem_filter]
    rw [hG.same]
  · simp only [filt, List.mem_filter] at h
    exact hG.bound u v w h.1

theorem BWalk.le {v k : Nat} {x : Int} (h : BWalk G inf src v k x) : x ≤ inf := by
  induction h with
  | nil => exact Int.le_refl _
  | cons => omega

/-- Cycles do not help. -/
theorem short (hG : G.Ok) (hs : src < G.n) {v k : Nat} {x : Int} (h : BWalk G inf src v k x) :
    ∃ k' x', k' < G.n ∧ x ≤ x' ∧ BWalk G inf src v k' x' := by
  obtain ⟨y, hy⟩ := walk_filt h (Int.le_refl _)
  obtain ⟨k', y', hk, hw⟩ := short_reach (filt_ok hG x) hs hy
  obtain ⟨x', hx, hw'⟩ := filt_walk h.le hw
  exact ⟨k', x', hk, hx, hw'⟩

/-! ### The loop -/

/-- State before round `r`. -/
structure Inv (G : Gr Int) (inf : Int) (src r : Nat) (m : Loc → Int) (F : List Nat) : Prop where
  low : ∀ d, -1 ≤ m (.sp d)
  good : ∀ d, -1 < m (.sp d) → ∃ k, BWalk G inf src d k (m (.sp d))
  vis : ∀ d, m (.vis d) = 0
  fin : ∀ v, v ∈ F → -1 < m (.sp v)
  relaxed : ∀ u v w, u ∉ F → -1 < m (.sp u) → (v, w) ∈ G.fwd u → min (m (.sp u)) w ≤ m (.sp v)
  short : ∀ v k x, BWalk G inf src v k x → k ≤ r → x ≤ m (.sp v)
  improved : 0 < r → ∀ v, v ∈ F → ∀ k x, BWalk G inf src v k x → k < r → x < m (.sp v)

theorem Inv.step {f : Nat} (hG : G.Ok) {r : Nat} {m m' : Loc → Int} {F : List Nat} {o : List (Nat × Unit)}
    (h : Inv G inf src r m F) (hr : Call true (wF f) G (fun v => decide (v ∈ F)) m m' o) :
    Inv G inf src (r + 1) (reset o m') (o.map Prod.fst) := by
  obtain ⟨h1, h2, h3, h4, h5⟩ := round_ok hG (Good := fun d x => ∃ k, BWalk G inf src d k x)
    (fun u v w x he ⟨k, hk⟩ _ => ⟨_, .cons w hk he⟩) h.low h.fin h.good h.vis hr
  have hall : ∀ u v w, (v, w) ∈ G.fwd u → min (m (.sp u)) w ≤ m' (.sp v) := by
    intro u v w he
    have := h.low u
    by_cases hu : -1 < m (.sp u)
    · by_cases hF : u ∈ F
      · exact h3 u v w hF he
      · exact Int.le_trans (h.relaxed u v w hF hu he) (h1 v)
    · have := h.low v
      have := h1 v
      omega
  refine ⟨fun d => Int.le_trans (h.low d) (h1 d), h2, h5, fun v hv => ?_, fun u v w hu hlt he => ?_,
    fun v k x hw hk => ?_, fun _ v hv k x hw hk => ?_⟩
  · have := (h4 v).1 hv
    have := h.low v
    show -1 < m' (.sp v)
    omega
  · rw [h4] at hu
    have := h1 u
    have heq : m' (.sp u) = m (.sp u) := by omega
    show min (m' (.sp u)) w ≤ m' (.sp v)
    rw [heq]
    exact hall u v w he
  · show x ≤ m' (.sp v)
    cases hw with
    | nil => exact Int.le_trans (h.short _ _ _ .nil (Nat.zero_le _)) (h1 _)
    | @cons u _ k x w hu e =>
      have h6 := h.short _ _ _ hu (by omega)
      have := hall u v w e
      omega
  · have := (h4 v).1 hv
    have := h.short v k x hw (by omega)
    show x < m' (.sp v)
    omega

theorem inv_init (hinf : 0 < inf) : Inv G inf src 0 (mem0 inf src) [src] := by
  refine ⟨fun d => ?_, fun d hd => ?_, fun _ => rfl, fun v hv => ?_, fun u v w hu hlt => ?_, fun v k x hw hk => ?_,
    fun h => by omega⟩
  · show -1 ≤ (if d = src then inf else -1)
    split <;> omega
  · have hd : -1 < (if d = src then inf else -1) := hd
    by_cases h : d = src
    · subst h
      refine ⟨0, ?_⟩
      show BWalk G inf d d 0 (if d = d then inf else -1)
      rw [if_pos rfl]; exact .nil
    · rw [if_neg h] at hd; omega
  · show -1 < (if v = src then inf else -1)
    rw [if_pos (by simpa using hv)]; omega
  · have hlt : -1 < (if u = src then inf else -1) := hlt
    rw [if_neg (by simpa using hu)] at hlt; omega
  · cases hw with
    | nil =>
      show inf ≤ (if src = src then inf else -1)
      rw [if_pos rfl]
    | cons => omega

theorem loop_ok {f : Nat} (hG : G.Ok) (hs : src < G.n) {r : Nat} {m m' : Loc → Int} {F : List Nat} {b : Bool}
    (hl : Loop true f inf G r m F m' b) (hr : r ≤ G.n) (h : Inv G inf src r m F) :
    b = false ∧ ∃ r, Inv G inf src r m' [] := by
  induction hl with
  | done r m => exact ⟨rfl, r, h⟩
  | @give m F hF =>
    obtain ⟨v, hv⟩ := List.exists_mem_of_ne_nil F hF
    obtain ⟨k, hw⟩ := h.good v (h.fin v hv)
    obtain ⟨k', x', hk', hx', hw'⟩ := WidestBF.short hG hs hw
    have := h.improved (by omega) v hv k' x' hw' hk'
    omega
  | round hF hr' he _ ih => exact ih (by omega) (h.step hG he)

/-- With everything relaxed, no walk has a greater bottleneck. -/
theorem relaxed_ge {r : Nat} {m : Loc → Int} (h : Inv G inf src r m []) {v k : Nat} {x : Int}
    (hw : BWalk G inf src v k x) : x ≤ m (.sp v) := by
  induction hw with
  | nil => exact h.short _ _ _ .nil (Nat.zero_le _)
  | @cons u v k x w _ e ih =>
    by_cases hu : -1 < m (.sp u)
    · have := h.relaxed u v w (by simp) hu e
      omega
    · have := h.low v
      omega

/-- C149: whatever the weights and the interleaving, the branch `round == n` is not taken, and the returned width of
every vertex is the greatest among -1 and the bottlenecks of the walks from `src`. -/
theorem C149_widest (hG : G.Ok) (hs : src < G.n) (hinf : 0 < inf) {f : Nat} {width : Nat → Int} {gave : Bool}
    (h : SSWidestPathBF true f inf G src width gave) :
    gave = false ∧ ∀ v, -1 ≤ width v ∧ (∀ k x, BWalk G inf src v k x → x ≤ width v) ∧
      (width v = -1 ∨ ∃ k, BWalk G inf src v k (width v)) := by
  obtain ⟨m, hl, hm⟩ := h
  obtain ⟨h1, r, hi⟩ := loop_ok hG hs hl (Nat.zero_le _) (inv_init hinf)
  refine ⟨h1, fun v => ?_⟩
  rw [← hm]
  refine ⟨hi.low v, fun k x hw => relaxed_ge hi hw, ?_⟩
  by_cases hv : -1 < m (.sp v)
  · exact Or.inr (hi.good v hv)
  · have := hi.low v
    exact Or.inl (by omega)

/-- C149: with weights that are not negative, the returned width is the greatest bottleneck for the vertices that can
be reached, and -1 for the others only. -/
theorem C149_nonneg (hG : G.Ok) (hs : src < G.n) (hinf : 0 < inf) (hw : ∀ u v w, (v, w) ∈ G.fwd u → 0 ≤ w) {f : Nat}
    {width : Nat → Int} {gave : Bool} (h : SSWidestPathBF true f inf G src width gave) (v : Nat) :
    ((∃ k x, BWalk G inf src v k x) → MaxBottleneck G inf src v (width v)) ∧
      (width v = -1 ↔ ¬ ∃ k x, BWalk G inf src v k x) := by
  obtain ⟨_, h1⟩ := C149_widest hG hs hinf h
  obtain ⟨h1, h2, h3⟩ := h1 v
  have hpos : ∀ v k x, BWalk G inf src v k x → 0 ≤ x := by
    intro v k x hw'
    induction hw' with
    | nil => omega
    | cons w _ e ih =>
      have := hw _ _ _ e
      omega
  have hne : (∃ k x, BWalk G inf src v k x) → width v ≠ -1 := by
    rintro ⟨k, x, hx⟩
    have := h2 k x hx
    have := hpos _ _ _ hx
    omega
  refine ⟨fun hr => ⟨h3.resolve_left (hne hr), h2⟩, fun h hr => hne hr h, fun hr => ?_⟩
  rcases h3 with h3 | ⟨k, h3⟩
  · exact h3
  · exact absurd ⟨k, _, h3⟩ hr

/-! ### Examples and counterexamples -/

/-- A traversal of the frontier by one thread. -/
theorem call_seq {fwd : Bool} {F : Func Int Loc Int Unit} {G : Gr Int} {inF : Nat → Bool} (es : List (Edge Int))
    (hes : ∀ e, e ∈ es ↔ Active G inF e) {m m' : Loc → Int} {o : List (Nat × Unit)}
    (h : exec (sparseRun F es []) m = some (o, m')) : Call fwd F G inF m m' o := by
  refine ⟨_, .chunked (fun i => if i = (0, 0) then es else []) (fun e => ?_),
    fun i => if i = (0, 0) then o else [], ?_, ⟨fun x hx => ⟨(0, 0), by simpa using hx⟩, ?_, ?_⟩⟩
  · rw [← hes]
    refine ⟨?_, fun h => ⟨(0, 0), by simpa using h⟩⟩
    rintro ⟨i, hi⟩
    by_cases h0 : i = (0, 0)
    · simpa [h0] using hi
    · simp [h0] at hi
  · have := exec_steps (sparseRun F es []) ((0, 0) : Nat × Nat) (fun _ => ret []) h
    have e1 : (fun j : Nat × Nat => if j = (0, 0) then sparseRun F es [] else ret []) =
        fun i => sparseRun F (if i = (0, 0) then es else []) [] := by
      funext j; by_cases hj : j = (0, 0) <;> simp [hj, sparseRun]
    have e2 : (fun j : Nat × Nat => if j = (0, 0) then (ret o : Prog Loc Int (List (Nat × Unit))) else ret []) =
        fun i => ret (if i = (0, 0) then o else []) := by
      funext j; by_cases hj : j = (0, 0) <;> simp [hj]
    rw [e1, e2] at this
    exact this
  · intro i d x hx
    by_cases h0 : i = (0, 0)
    · simp only [h0, if_true] at hx; exact ⟨x, hx⟩
    · simp [h0] at hx
  · intro hn _
    simpa using hn (0, 0)

/-- 0 → 1 (2), 0 → 2 (7), 2 → 1 (5), 1 → 0 (9), 3 → 0 (1). -/
def exG : Gr Int := Gr.ofLists [[(1, 2), (2, 7)], [(0, 9)], [(1, 5)], [(0, 1)]]
  [[(1, 9), (3, 1)], [(0, 2), (2, 5)], [(0, 7)], []]

theorem exG_ok : exG.Ok := Gr.ofLists_ok (by decide)

/-- A run: vertex 1 is first given 2, then improved to 5; vertex 3 is not reached. -/
example : ∃ width, SSWidestPathBF true 1 2147483647 exG 0 width false ∧ width 0 = 2147483647 ∧ width 1 = 5 ∧
    width 2 = 7 ∧ width 3 = -1 := by
  refine ⟨_, ⟨_, .round (by decide) (by decide) (call_seq (activeEdges exG _) (mem_activeEdges exG_ok) rfl)
    (.round (by decide) (by decide) (call_seq (activeEdges exG _) (mem_activeEdges exG_ok) rfl)
    (.round (by decide) (by decide) (call_seq (activeEdges exG _) (mem_activeEdges exG_ok) rfl) (.done _ _))),
    fun _ => rfl⟩, ?_, ?_, ?_, ?_⟩ <;> decide

example : ∀ u v w, (v, w) ∈ exG.fwd u → 0 ≤ w := by
  intro u v w h
  have hu := (exG_ok.bound _ _ _ h).1
  have : ∀ u, u < 4 → ∀ p ∈ exG.fwd u, 0 ≤ p.2 := by decide
  exact this u hu _ h

/-- 0 → 1 (-5). -/
def exN : Gr Int := Gr.ofLists [[(1, -5)], []] [[], [(0, -5)]]

theorem exN_ok : exN.Ok := Gr.ofLists_ok (by decide)

/-- C149: with negative weights the result is not the greatest bottleneck, and -1 does not mean unreachable. -/
theorem C149_negative_refuted : ∃ width, SSWidestPathBF true 1 2147483647 exN 0 width false ∧
    MaxBottleneck exN 2147483647 0 1 (-5) ∧ width 1 = -1 := by
  refine ⟨_, ⟨_, .round (by decide) (by decide) (call_seq (activeEdges exN _) (mem_activeEdges exN_ok) rfl)
    (.done _ _), fun _ => rfl⟩, ⟨⟨1, .cons (-5) .nil (by decide)⟩, fun k y hy => ?_⟩, by decide⟩
  cases hy with
  | @cons u _ k x w h e =>
    have hu := (exN_ok.bound _ _ _ e).1
    have : ∀ u, u < 2 → ∀ p ∈ exN.fwd u, p.2 ≤ -5 := by decide
    have := this u hu _ e
    have : w ≤ -5 := this
    omega

/-- 0 → 1 (5). -/
def exD : Gr Int := Gr.ofLists [[(1, 5)], []] [[], [(0, 5)]]

theorem exD_ok : exD.Ok := Gr.ofLists_ok (by decide)

/-- C149: `update` compares the wrong way round, so the result depends on the flag `dense_forward`. Without it a run
reports vertex 1 as unreachable, although the edge to it has the weight 5. -/
theorem C149_update_refuted : ∃ width, SSWidestPathBF false 1 2147483647 exD 0 width false ∧
    MaxBottleneck exD 2147483647 0 1 5 ∧ width 1 = -1 := by
  have hcall : Call false (wF 1) exD (fun v => decide (v ∈ [0])) (mem0 2147483647 0) (mem0 2147483647 0) [] := by
    refine ⟨_, .dense false rfl, fun _ => [], ?_, ⟨fun x hx => (by cases hx), fun i d x hx => (by cases hx),
      fun _ _ => List.nodup_nil⟩⟩
    have h := exec_steps (denseProg (wF 1) exD (fun v => decide (v ∈ [0])) false (1, 0)) ((1, 0) : Nat × Nat)
      (fun _ => ret []) (m := mem0 2147483647 0) (m' := mem0 2147483647 0) (a := []) rfl
    have e1 : (fun j : Nat × Nat => if j = (1, 0) then denseProg (wF 1) exD (fun v => decide (v ∈ [0])) false (1, 0)
        else ret []) = denseProg (wF 1) exD (fun v => decide (v ∈ [0])) false := by
      funext ⟨v, b⟩
      by_cases h0 : ((v, b) : Nat × Nat) = (1, 0)
      · rw [if_pos h0, h0]
      · rw [if_neg h0]
        rcases v with _ | _ | v
        · by_cases hb : b = 0
          · subst hb; rfl
          · simp [denseProg, hb]
        · have hb : b ≠ 0 := by rintro rfl; exact h0 rfl
          simp [denseProg, hb]
        · have : ¬ (v + 1 + 1 < exD.n) := by
            show ¬ (v + 1 + 1 < 2); omega
          simp [denseProg, this]
    have e2 : (fun j : Nat × Nat => if j = (1, 0) then (ret [] : Prog Loc Int (List (Nat × Unit))) else ret []) =
        fun _ => ret [] := by
      funext j; simp
    rw [e1, e2] at h
    exact h
  refine ⟨_, ⟨_, .round (by decide) (by decide) hcall (.done _ _), fun _ => rfl⟩,
    ⟨⟨1, .cons 5 .nil (by decide)⟩, fun k y hy => ?_⟩, by decide⟩
  cases hy with
  | @cons u _ k x w h e =>
    have hu := (exD_ok.bound _ _ _ e).1
    have : ∀ u, u < 2 → ∀ p ∈ exD.fwd u, p.2 ≤ 5 := by decide
    have := this u hu _ e
    have : w ≤ 5 := this
    omega

end Gbbs.WidestBF
