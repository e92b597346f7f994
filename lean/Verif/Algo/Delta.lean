/-
C35: delta-stepping, `benchmarks/PositiveWeightSSSP/DeltaStepping/DeltaStepping.h`.
-/
import Verif.Algo.Relax
import Verif.Algo.Walks
import Verif.Buckets.Reach

namespace Gbbs.Delta

open Conc Conc.Prog Em Relax Walks Buckets
open Atomics (Steps)

/-! ### Model -/

/-- `Visit_F`, `DeltaStepping.h:32-79`; `dists[d].first` is `.sp d`, `dists[d].second` is `.vis d`.
Distances are mathematical integers. -/
def visitF (f : Nat) : Func Int Relax.Loc Int Int where
  cond _ := ret true
  upd s d w := read (.sp d) fun dist => read (.sp s) fun x =>
    if x + w < dist then read (.vis d) fun v =>
      if v = 0 then write (.sp d) (x + w) (write (.vis d) 1 (ret (some dist)))
      else write (.sp d) (x + w) (ret none)
    else ret none
  updA s d w := read (.sp d) fun dist => read (.sp s) fun x =>
    if x + w < dist then (writeMin f (.sp d) (x + w)).bind fun _ => read (.vis d) fun v =>
      if v = 0 then cas (.vis d) 0 1 fun r => ret (if r then some dist else none) else ret none
    else ret none

/-- `UINT_E_MAX`, the null bucket. -/
def null : Nat := 4294967295

/-- `get_bkt`, `DeltaStepping.h:96-98`; `bk x` is `(uintE)(x / delta)`. -/
def getBkt (inf : Int) (bk : Int → Nat) (x : Int) : Nat := if x = inf then null else bk x

/-- `get_ring`, `DeltaStepping.h:99-102`. -/
def ring (inf : Int) (bk : Int → Nat) (m : Relax.Loc → Int) (v : Nat) : Nat := getBkt inf bk (m (.sp v))

/-- `make_vertex_buckets(n, get_ring, increasing, num_buckets)`, `DeltaStepping.h:103`. -/
def cfg (opn : Nat) : Cfg := ⟨true, opn, null⟩

/-- `vertexMap(res, apply_f)`, `DeltaStepping.h:105-111, 126`: the effect on `dists`. -/
def clear (o : List (Nat × Int)) (m : Relax.Loc → Int) : Relax.Loc → Int
  | .sp d => m (.sp d)
  | .vis d => if d ∈ o.map Prod.fst then 0 else m (.vis d)

/-- The destinations `bkts[v]` it computes. -/
def dests (inf : Int) (bk : Int → Nat) (c : Cfg) (st : BS) (m : Relax.Loc → Int) (o : List (Nat × Int)) :
    List (Nat × Nat) :=
  o.map fun p => (p.1, getBucket2 c st (getBkt inf bk p.2) (getBkt inf bk (m (.sp p.1))))

/-- One iteration of the loop, `DeltaStepping.h:118-150`, with any property `Q` of the emitted data (to
talk about particular executions). -/
inductive Step (f : Nat) (inf : Int) (bk : Int → Nat) (c : Cfg) (G : Gr Int)
    (Q : (Relax.Loc → Int) → List (Nat × Int) → Prop) : (Relax.Loc → Int) → BS → (Relax.Loc → Int) → BS → Prop
  | mk {m m' st st1 st2 fuel id ids o} (h : nextBucket c (ring inf bk m) fuel st = some (id, ids, st1))
      (hid : id ≠ c.null) (he : EdgeMap (visitF f) G (fun v => decide (v ∈ ids)) m m' o) (hQ : Q m o)
      (hu : updateBuckets c st1 (dests inf bk c st1 m' o) = some st2) :
      Step f inf bk c G Q m st (clear o m') st2

/-- Iterations of the loop, `DeltaStepping.h:118-150`. -/
inductive Run (f : Nat) (inf : Int) (bk : Int → Nat) (c : Cfg) (G : Gr Int)
    (Q : (Relax.Loc → Int) → List (Nat × Int) → Prop) : (Relax.Loc → Int) → BS → (Relax.Loc → Int) → BS → Prop
  | nil {m st} : Run f inf bk c G Q m st m st
  | cons {m st m' st' m'' st''} (h : Run f inf bk c G Q m st m' st') (hs : Step f inf bk c G Q m' st' m'' st'') :
      Run f inf bk c G Q m st m'' st''

/-- Initial memory, `DeltaStepping.h:91-93`. -/
def mem0 (inf : Int) (src : Nat) : Relax.Loc → Int
  | .sp v => if v = src then 0 else inf
  | .vis _ => 0

/-- The state after some iterations, `DeltaStepping.h:91-150`. -/
def After (f : Nat) (inf : Int) (bk : Int → Nat) (opn : Nat) (G : Gr Int)
    (Q : (Relax.Loc → Int) → List (Nat × Int) → Prop) (src : Nat) (m : Relax.Loc → Int) (st : BS) : Prop :=
  ∃ st0, create (cfg opn) G.n (ring inf bk (mem0 inf src)) = some st0 ∧
    Run f inf bk (cfg opn) G Q (mem0 inf src) st0 m st

/-- `DeltaStepping(G, src, delta, opn + 1)`, `DeltaStepping.h:81-162`, returned `dists`. -/
def DeltaStepping (f : Nat) (inf : Int) (bk : Int → Nat) (opn : Nat) (G : Gr Int)
    (Q : (Relax.Loc → Int) → List (Nat × Int) → Prop) (src : Nat) (dists : Nat → Int) : Prop :=
  ∃ m st, After f inf bk opn G Q src m st ∧ (∀ v, m (.sp v) = dists v) ∧
    ∃ fuel ids st', nextBucket (cfg opn) (ring inf bk m) fuel st = some (null, ids, st')

/-- Every emitted value is the distance at the start of the round (what the comment in the code says). -/
def Faithful (m : Relax.Loc → Int) (o : List (Nat × Int)) : Prop := ∀ p ∈ o, p.2 = m (.sp p.1)

/-! ### One round -/

def DT (sp0 : Nat → Int) (i : Nat × Nat) (g : BGh) (l : List (Nat × Int)) : Prop :=
  BT i g l ∧ ∀ p ∈ l, g.sp p.1 < p.2 ∧ p.2 ≤ sp0 p.1

section
variable {inf : Int} {sp0 : Nat → Int} {Good : Nat → Int → Prop} {may : Nat × Nat → Nat → Prop}

theorem DT.stable {i : Nat × Nat} {g g' : BGh} {l : List (Nat × Int)} (hr : (brg inf sp0 Good may).R i g g')
    (h : DT sp0 i g l) : DT sp0 i g' l :=
  ⟨h.1.stable hr, fun p hp => ⟨Int.lt_of_le_of_lt (hr.1 _) (h.2 p hp).1, (h.2 p hp).2⟩⟩

theorem data_stable {i : Nat × Nat} {g g' : BGh} {l : List (Nat × Int)} (hr : (brg inf sp0 Good may).R i g g')
    (h : ∀ p ∈ l, g.sp p.1 < p.2 ∧ p.2 ≤ sp0 p.1) : ∀ p ∈ l, g'.sp p.1 < p.2 ∧ p.2 ≤ sp0 p.1 :=
  fun p hp => ⟨Int.lt_of_le_of_lt (hr.1 _) (h p hp).1, (h p hp).2⟩

theorem data_stableG {i : Nat × Nat} {g g' : BGh} {l : List (Nat × Int)} (hr : (brg inf sp0 Good may).Gu i g g')
    (h : ∀ p ∈ l, g.sp p.1 < p.2 ∧ p.2 ≤ sp0 p.1) : ∀ p ∈ l, g'.sp p.1 < p.2 ∧ p.2 ≤ sp0 p.1 :=
  fun p hp => ⟨Int.lt_of_le_of_lt (hr.1 _) (h p hp).1, (h p hp).2⟩

theorem data_keeps (i : Nat × Nat) (l : List (Nat × Int)) :
    Keeps (brg inf sp0 Good may) i (fun g => ∀ p ∈ l, g.sp p.1 < p.2 ∧ p.2 ≤ sp0 p.1) :=
  ⟨fun _ _ hr h => data_stable hr h, fun _ _ hr h => data_stableG hr h⟩

theorem gu_trans {i : Nat × Nat} {g g' g'' : BGh} (h1 : (brg inf sp0 Good may).Gu i g g')
    (h2 : (brg inf sp0 Good may).Gu i g' g'') : (brg inf sp0 Good may).Gu i g g'' :=
  ⟨fun d => Int.le_trans (h2.1 d) (h1.1 d), fun d j hj => (h2.2.1 d j hj).trans (h1.2.1 d j hj),
    fun j hj => (h2.2.2.1 j hj).trans (h1.2.2.1 j hj), fun d hd => by
      by_cases h : g'.sp d = g.sp d ∧ g'.own d = g.own d
      · refine h2.2.2.2 d fun h' => hd ⟨h'.1.trans h.1, h'.2.trans h.2⟩
      · exact h1.2.2.2 d h⟩

/-- The client of delta-stepping. -/
theorem visit_spec (f : Nat) (inf : Int) (sp0 : Nat → Int) (Good : Nat → Int → Prop) (Ac : Edge Int → Prop)
    (hfin : ∀ e, Ac e → sp0 e.s < inf) (hgood : ∀ e x, Ac e → Good e.s x → Good e.d (x + e.w)) :
    FSpec (brg inf sp0 Good) (visitF f) Ac (DT sp0) (fun g e => g.sp e.d ≤ sp0 e.s + e.w) where
  keep may i e := ⟨fun g g' hr h => Int.le_trans (hr.1 _) h, fun g g' hr h => Int.le_trans (hr.1 _) h⟩
  stable may i l g g' hr h := h.stable hr
  cond may i l g d hT := fun g' hr => ⟨hT.stable hr, fun h => by cases h⟩
  updA may i l g e he hm hT := by
    intro g1 m1 hr1 hi1
    have hT1 := hT.stable hr1
    refine ⟨g1, brg_gu_refl _ _, hi1, ?_⟩
    intro g2 m2 hr2 hi2
    have hT2 := hT1.stable hr2
    refine ⟨g2, brg_gu_refl _ _, hi2, ?_⟩
    have hle : m2 (.sp e.s) ≤ sp0 e.s := by rw [hi2.sp]; exact hi2.le _
    have hdist : m1 (.sp e.d) ≤ sp0 e.d := by rw [hi1.sp]; exact hi1.le _
    have hg : Good e.d (m2 (.sp e.s) + e.w) := by
      refine hgood e _ he ?_
      rw [hi2.sp]
      refine hi2.good _ ?_
      have := hfin e he
      rw [hi2.sp] at hle; omega
    beta_reduce
    by_cases hx : m2 (.sp e.s) + e.w < m1 (.sp e.d)
    · rw [if_pos hx]
      refine (safe_frame (data_keeps i l) (writeMin_spec f hm hg g2 hT2.1) hT2.2).bind fun r g3 h3 => ?_
      obtain ⟨⟨hsp3, hT3⟩, hd3⟩ := h3
      have hTp : BTp e.d i g3 l := by
        cases r with
        | true => exact (by simpa using hT3 : _ ∧ _).1
        | false => exact BT.toP (by simpa using hT3)
      intro g4 m4 hr4 hi4
      have hsp4 := hr4.1 e.d
      by_cases hv : m4 (.vis e.d) = 0
      · refine ⟨g4, brg_gu_refl _ _, hi4, ?_⟩
        beta_reduce
        rw [if_pos hv]
        intro g5 m5 hr5 hi5
        have hsp5 := hr5.1 e.d
        refine ⟨fun hv5 => ?_, fun hv5 => ?_⟩
        · obtain ⟨h1, h2, h4⟩ := flag_ok hi5 hm (by omega) hv5 (m1 (.sp e.d)) ((hTp.stable hr4).stable hr5)
          have hd5 := data_stableG h1 (data_stable hr5 (data_stable hr4 hd3))
          have hself : (g5.flag i e.d).sp e.d = g5.sp e.d := rfl
          refine ⟨_, h1, h2, fun g6 hr6 => ⟨DT.stable hr6 ⟨h4, fun p hp => ?_⟩, ?_⟩⟩
          · rcases List.mem_cons.1 hp with rfl | hp
            · refine ⟨?_, hdist⟩
              show (g5.flag i e.d).sp e.d < m1 (.sp e.d)
              omega
            · exact hd5 p hp
          · have := hr6.1 e.d
            omega
        · obtain ⟨h1, h2, h4⟩ := pass_ok hi5 hv5 ((hTp.stable hr4).stable hr5)
          have hd5 := data_stableG h1 (data_stable hr5 (data_stable hr4 hd3))
          have hself : (g5.pass i).sp e.d = g5.sp e.d := rfl
          refine ⟨_, h1, h2, fun g6 hr6 => ⟨DT.stable (l := l) hr6 ⟨h4, hd5⟩, ?_⟩⟩
          have := hr6.1 e.d
          omega
      · obtain ⟨h1, h2, h4⟩ := pass_ok hi4 hv (hTp.stable hr4)
        have hd5 := data_stableG h1 (data_stable hr4 hd3)
        have hself : (g4.pass i).sp e.d = g4.sp e.d := rfl
        refine ⟨_, h1, h2, ?_⟩
        beta_reduce
        rw [if_neg hv]
        refine fun g6 hr6 => ⟨DT.stable (l := l) hr6 ⟨h4, hd5⟩, ?_⟩
        have := hr6.1 e.d
        omega
    · rw [if_neg hx]
      intro g3 hr3
      refine ⟨hT2.stable hr3, ?_⟩
      have h1 := hr3.1 e.d
      have h2 := hr2.1 e.d
      rw [hi1.sp] at hx
      omega
  upd may i l g e he hm hex hT := by
    intro g1 m1 hr1 hi1
    have hT1 := hT.stable hr1
    refine ⟨g1, brg_gu_refl _ _, hi1, ?_⟩
    intro g2 m2 hr2 hi2
    have hT2 := hT1.stable hr2
    refine ⟨g2, brg_gu_refl _ _, hi2, ?_⟩
    have hle : m2 (.sp e.s) ≤ sp0 e.s := by rw [hi2.sp]; exact hi2.le _
    have hdist : m1 (.sp e.d) ≤ sp0 e.d := by rw [hi1.sp]; exact hi1.le _
    have hg : Good e.d (m2 (.sp e.s) + e.w) := by
      refine hgood e _ he ?_
      rw [hi2.sp]
      refine hi2.good _ ?_
      have := hfin e he
      rw [hi2.sp] at hle; omega
    beta_reduce
    by_cases hx : m2 (.sp e.s) + e.w < m1 (.sp e.d)
    · rw [if_pos hx]
      intro g3 m3 hr3 hi3
      have hT3 := hT2.stable hr3
      refine ⟨g3, brg_gu_refl _ _, hi3, ?_⟩
      have hsp3 : g3.sp e.d = m1 (.sp e.d) := by
        rw [hi1.sp, (hr3.2.2.2 _ hex).1, (hr2.2.2.2 _ hex).1]
      beta_reduce
      by_cases hv : m3 (.vis e.d) = 0
      · rw [if_pos hv]
        intro g4 m4 hr4 hi4
        have hsp4 := (hr4.2.2.2 _ hex).1
        obtain ⟨h1, h2, h3, h4⟩ := lower_ok hi4 hm (by rw [hi4.sp]; omega) hg (hT3.stable hr4).1
        have hd4 := data_stableG h1 (hT3.stable hr4).2
        refine ⟨_, h1, h2, ?_⟩
        intro g5 m5 hr5 hi5
        have hsp5 := hr5.1 e.d
        rw [h4] at hsp5
        have hv5 : m5 (.vis e.d) = 0 := by
          rw [hi5.vis, (hr5.2.2.2 _ hex).2]
          show (if g4.own e.d = none then _ else _) = _
          rw [(hr4.2.2.2 _ hex).2, ← hi3.vis]; exact hv
        obtain ⟨k1, k2, k3⟩ := flag_ok hi5 hm (by omega) hv5 (m1 (.sp e.d)) (h3.stable hr5)
        have hd5 := data_stableG k1 (data_stable hr5 hd4)
        have hself : (g5.flag i e.d).sp e.d = g5.sp e.d := rfl
        refine ⟨_, k1, k2, fun g6 hr6 => ⟨DT.stable hr6 ⟨k3, fun p hp => ?_⟩, ?_⟩⟩
        · rcases List.mem_cons.1 hp with rfl | hp
          · refine ⟨?_, hdist⟩
            show (g5.flag i e.d).sp e.d < m1 (.sp e.d)
            omega
          · exact hd5 p hp
        · have := hr6.1 e.d
          omega
      · rw [if_neg hv]
        intro g4 m4 hr4 hi4
        have hsp4 := (hr4.2.2.2 _ hex).1
        have hv4 : m4 (.vis e.d) ≠ 0 := by
          rw [hi4.vis, (hr4.2.2.2 _ hex).2, ← hi3.vis]; exact hv
        obtain ⟨h1, h2, h3, h4⟩ := lower_ok hi4 hm (by rw [hi4.sp]; omega) hg (hT3.stable hr4).1
        have hd4 := data_stableG h1 (hT3.stable hr4).2
        -- the flag is already set
        have hpv : (put m4 (.sp e.d) (m2 (.sp e.s) + e.w)) (.vis e.d) ≠ 0 := by
          rw [put_ne _ _ (by simp)]; exact hv4
        obtain ⟨k1, k2, k3⟩ := pass_ok h2 hpv h3
        have hd5 := data_stableG k1 hd4
        refine ⟨_, gu_trans h1 k1, k2, fun g6 hr6 => ⟨DT.stable (l := l) hr6 ⟨k3, hd5⟩, ?_⟩⟩
        have h5 := hr6.1 e.d
        have h6 : ((g4.lower i e.d (m2 (.sp e.s) + e.w)).pass i).sp e.d = m2 (.sp e.s) + e.w := h4
        omega
    · rw [if_neg hx]
      intro g3 hr3
      refine ⟨hT2.stable hr3, ?_⟩
      have h1 := hr3.1 e.d
      have h2 := hr2.1 e.d
      rw [hi1.sp] at hx
      omega
end

/-- One round, whatever the interleaving: exactly the lowered vertices are emitted, once each; the data is
between the new and the old distance. -/
theorem round_ok {f : Nat} {G : Gr Int} (hG : G.Ok) {inf : Int} {Good : Nat → Int → Prop} {ids : List Nat}
    {m m' : Relax.Loc → Int} (hgood : ∀ u v w x, u ∈ ids → (v, w) ∈ G.fwd u → Good u x → Good v (x + w))
    (hF : ∀ v, v ∈ ids → m (.sp v) < inf) (hg : ∀ d, m (.sp d) < inf → Good d (m (.sp d)))
    (hv : ∀ d, m (.vis d) = 0) {o : List (Nat × Int)}
    (hr : EdgeMap (visitF f) G (fun v => decide (v ∈ ids)) m m' o) :
    (∀ d, m' (.sp d) ≤ m (.sp d)) ∧ (∀ d, m' (.sp d) < inf → Good d (m' (.sp d))) ∧
    (∀ u v w, u ∈ ids → (v, w) ∈ G.fwd u → m' (.sp v) ≤ m (.sp u) + w) ∧
    (∀ d, d ∈ o.map Prod.fst ↔ m' (.sp d) < m (.sp d)) ∧ (∀ d, clear o m' (.vis d) = 0) ∧
    (o.map Prod.fst).Nodup ∧ ∀ p ∈ o, m' (.sp p.1) < p.2 ∧ p.2 ≤ m (.sp p.1) := by
  obtain ⟨g, out, hi, hdn, hT, hcol⟩ := edgeMap_sound (visit_spec f inf (fun d => m (.sp d)) Good
    (Active G (fun v => decide (v ∈ ids))) (fun e he => hF _ (by simpa using he.1))
    (fun e x he hx => hgood _ _ _ _ (by simpa using he.1) he.2 hx)) G hG _ (fun _ h => h)
    (BInv inf (fun d => m (.sp d)) Good)
    (fun _ _ _ => Iff.rfl) ⟨fun d => m (.sp d), fun _ => none, fun _ => none⟩
    ⟨fun _ => rfl, fun d => by simpa using hv d, fun _ => Int.le_refl _, hg, fun _ _ h => (by cases h),
      fun d h => absurd h (Int.lt_irrefl _)⟩
    (fun i => ⟨⟨List.nodup_nil, fun d => ⟨fun h => (by cases h), fun h => (by cases h)⟩, rfl⟩,
      fun _ h => (by cases h)⟩) hr
  have hmem : ∀ d, d ∈ o.map Prod.fst ↔ ∃ i, g.own d = some i := by
    intro d
    constructor
    · intro h
      obtain ⟨⟨d', x⟩, h1, rfl⟩ := List.mem_map.1 h
      obtain ⟨i, hi'⟩ := hcol.sub _ h1
      exact ⟨i, ((hT i).1.2.1 _).1 (List.mem_map.2 ⟨_, hi', rfl⟩)⟩
    · rintro ⟨i, h⟩
      obtain ⟨⟨d', x⟩, h1, rfl⟩ := List.mem_map.1 (((hT i).1.2.1 d).2 h)
      obtain ⟨y, hy⟩ := hcol.all i _ _ h1
      exact List.mem_map.2 ⟨_, hy, rfl⟩
  refine ⟨fun d => by rw [hi.sp]; exact hi.le d, fun d => by rw [hi.sp]; exact hi.good d, fun u v w hu he => ?_,
    fun d => ?_, fun d => ?_, ?_, fun p hp => ?_⟩
  · rw [hi.sp]; exact hdn ⟨u, v, w⟩ ⟨by simpa using hu, he⟩
  · rw [hmem, hi.sp]
    constructor
    · rintro ⟨i, h⟩; exact hi.own d i h
    · intro h
      rcases hi.low d h with h1 | ⟨i, h1⟩
      · exact Option.ne_none_iff_exists'.1 h1
      · rw [(hT i).1.2.2] at h1; cases h1
  · show (if d ∈ o.map Prod.fst then 0 else m' (.vis d)) = 0
    by_cases h : d ∈ o.map Prod.fst
    · rw [if_pos h]
    · rw [if_neg h, hi.vis, if_pos]
      rw [hmem] at h
      by_contra hc
      exact h (Option.ne_none_iff_exists'.1 hc)
  · refine hcol.nodup (fun i => (hT i).1.1) fun i j d x y h1 h2 => ?_
    have e1 := ((hT i).1.2.1 d).1 (List.mem_map.2 ⟨_, h1, rfl⟩)
    have e2 := ((hT j).1.2.1 d).1 (List.mem_map.2 ⟨_, h2, rfl⟩)
    rw [e1] at e2; exact Option.some.inj e2
  · obtain ⟨i, hi'⟩ := hcol.sub p hp
    rw [hi.sp]; exact (hT i).2 p hi'

/-! ### The loop, with faithful data -/

structure Inv (G : Gr Int) (inf : Int) (bk : Int → Nat) (c : Cfg) (src : Nat) (m : Relax.Loc → Int) (P : Nat → Prop)
    (lb : Nat) (st : BS) : Prop where
  reach : Reach c .any G.n (ring inf bk m) P lb st
  le : ∀ d, m (.sp d) ≤ inf
  good : ∀ d, m (.sp d) < inf → ∃ k, WWalk G src d k (m (.sp d))
  vis : ∀ d, m (.vis d) = 0
  src : m (.sp src) ≤ 0
  pend : ∀ v, P v → m (.sp v) < inf
  relaxed : ∀ u, m (.sp u) < inf → ¬ P u → ∀ v w, (v, w) ∈ G.fwd u → m (.sp v) ≤ m (.sp u) + w

/-- Division by `delta`: monotone, and finite distances do not hit the null bucket. -/
structure BkOk (inf : Int) (bk : Int → Nat) : Prop where
  mono : ∀ x y, 0 ≤ x → x ≤ y → bk x ≤ bk y
  lt : ∀ x, 0 ≤ x → x < inf → bk x < null

variable {G : Gr Int} {src opn : Nat} {inf : Int} {bk : Int → Nat}

theorem walk_nonneg (hw : ∀ u v w, (v, w) ∈ G.fwd u → 0 ≤ w) {s v k : Nat} {x : Int} (h : WWalk G s v k x) :
    0 ≤ x := by
  induction h with
  | nil => exact Int.le_refl _
  | cons w _ e ih => have := hw _ _ _ e; omega

theorem ring_of_lt {m : Relax.Loc → Int} {v : Nat} (h : m (.sp v) < inf) : ring inf bk m v = bk (m (.sp v)) := by
  rw [ring, getBkt, if_neg (by omega)]

/-- The moves of an iteration. -/
def moves (inf : Int) (bk : Int → Nat) (m' : Relax.Loc → Int) (o : List (Nat × Int)) : List (Nat × Nat) :=
  o.map fun p => (p.1, getBkt inf bk (m' (.sp p.1)))

theorem dests_eq {c : Cfg} {st : BS} {m m' : Relax.Loc → Int} {o : List (Nat × Int)} (h : Faithful m o) :
    updateBuckets c st (dests inf bk c st m' o) = moveTo2 c (ring inf bk m) st (moves inf bk m' o) := by
  rw [moveTo2, dests, moves, List.map_map]
  congr 1
  refine List.map_congr_left fun p hp => ?_
  show (_, _) = (_, _)
  rw [h p hp]; rfl

theorem Inv.step (hG : G.Ok) (hw : ∀ u v w, (v, w) ∈ G.fwd u → 0 ≤ w) (hbk : BkOk inf bk) {f : Nat}
    {m m' : Relax.Loc → Int} {P : Nat → Prop} {lb : Nat} {st st1 : BS} (h : Inv G inf bk (cfg opn) src m P lb st)
    {fuel id : Nat} {ids : List Nat} (hn : nextBucket (cfg opn) (ring inf bk m) fuel st = some (id, ids, st1))
    (hid : id ≠ (cfg opn).null) {o : List (Nat × Int)}
    (he : EdgeMap (visitF f) G (fun v => decide (v ∈ ids)) m m' o) (hQ : Faithful m o) :
    ∃ st2, updateBuckets (cfg opn) st1 (dests inf bk (cfg opn) st1 m' o) = some st2 ∧
      ∃ P', Inv G inf bk (cfg opn) src (clear o m') P' id st2 ∧ ∀ v, m' (.sp v) < m (.sp v) → P' v := by
  obtain ⟨⟨v0, hv0, hv0'⟩, hfirst, hids⟩ := (next_bucket_increasing rfl h.reach hn).2 hid
  have hring : ∀ v, P v → ring inf bk m v = bk (m (.sp v)) := fun v hv => ring_of_lt (h.pend v hv)
  obtain ⟨r1, r2, r3, r4, r5, r6, r7⟩ := round_ok hG (inf := inf)
    (Good := fun d x => (∃ k, WWalk G src d k x) ∧ (id ≤ bk x ∨ x = m (.sp d)))
    (fun u v w x hu e hx => by
      obtain ⟨⟨k, hk⟩, hx⟩ := hx
      have h0 := walk_nonneg hw hk
      have hwn := hw _ _ _ e
      refine ⟨⟨_, .cons w hk e⟩, Or.inl ?_⟩
      have h1 : id ≤ bk x := by
        rcases hx with hx | rfl
        · exact hx
        · obtain ⟨hP, h2⟩ := (hids u).1 hu
          rw [hring u hP] at h2; omega
      exact Nat.le_trans h1 (hbk.mono x (x + w) h0 (by omega)))
    (fun v hv => h.pend v ((hids v).1 hv).1) (fun d hd => ⟨h.good d hd, Or.inr rfl⟩) h.vis he
  have hlow : ∀ d ∈ o.map Prod.fst, m' (.sp d) < inf ∧ id ≤ bk (m' (.sp d)) ∧ bk (m' (.sp d)) < null := by
    intro d hd
    have h1 := (r4 d).1 hd
    have h2 := h.le d
    obtain ⟨⟨k, hk⟩, h3⟩ := r2 d (by omega)
    refine ⟨by omega, ?_, hbk.lt _ (walk_nonneg hw hk) (by omega)⟩
    rcases h3 with h3 | h3
    · exact h3
    · omega
  have hmfst : (moves inf bk m' o).map Prod.fst = o.map Prod.fst := by rw [moves, List.map_map]; rfl
  have hmv : ∀ mv ∈ moves inf bk m' o, mv.1 ∈ o.map Prod.fst ∧ mv.2 = bk (m' (.sp mv.1)) := by
    intro mv hmv
    obtain ⟨p, hp, rfl⟩ := List.mem_map.1 hmv
    have hin : p.1 ∈ o.map Prod.fst := List.mem_map.2 ⟨p, hp, rfl⟩
    refine ⟨hin, ?_⟩
    have := (hlow _ hin).1
    show getBkt inf bk (m' (.sp p.1)) = _
    rw [getBkt, if_neg (by omega)]
  have hr1 := Reach.next _ _ _ _ fuel id ids st1 h.reach hn hid
  have hm1 : ((moves inf bk m' o).map Prod.fst).Nodup := by rw [hmfst]; exact r6
  have hm2 : ∀ mv ∈ moves inf bk m' o,
      mv.2 = (cfg opn).null ∨ (mv.2 < (cfg opn).null ∧ notAfter (cfg opn) id mv.2) := by
    intro mv hmv'
    obtain ⟨h1, h2⟩ := hmv mv hmv'
    obtain ⟨_, h4, h5⟩ := hlow _ h1
    rw [h2]
    exact Or.inr ⟨h5, h4⟩
  have hm3 : ∀ mv ∈ moves inf bk m' o,
      MoveOK (cfg opn) .any (ring inf bk m) (fun v => P v ∧ ring inf bk m v ≠ id) id mv := fun _ _ => trivial
  obtain ⟨st2, hst2⟩ := move2_ok hr1 _ hm1 hm2 hm3
  refine ⟨st2, by rw [dests_eq hQ]; exact hst2, ?_⟩
  have hr2 := Reach.move2 _ _ _ _ st2 _ hr1 hm1 hm2 hm3 hst2
  have hset : setAll (ring inf bk m) (moves inf bk m' o) = ring inf bk (clear o m') := by
    funext v
    by_cases hv : v ∈ o.map Prod.fst
    · have hlt := (hlow v hv).1
      rw [← hmfst] at hv
      obtain ⟨mv, hmv1, rfl⟩ := List.mem_map.1 hv
      obtain ⟨h1, h2⟩ := hmv mv hmv1
      rw [setAll_of_mem _ _ hm1 hmv1, ring_of_lt (show clear o m' (.sp mv.1) < inf from hlt), h2]; rfl
    · have : m' (.sp v) = m (.sp v) := by
        rw [r4] at hv
        have := r1 v; omega
      rw [setAll_of_not_mem _ _ (by rw [hmfst]; exact hv), ring, ring]
      show _ = getBkt inf bk (m' (.sp v))
      rw [this]
  rw [hset] at hr2
  have hP' : ∀ v, presentAfter (cfg opn) (ring inf bk m) (fun v => P v ∧ ring inf bk m v ≠ id) (moves inf bk m' o) v ↔
      v ∈ o.map Prod.fst ∨ (P v ∧ ring inf bk m v ≠ id) := by
    intro v
    rw [presentAfter, hmfst, hset]
    by_cases hv : v ∈ o.map Prod.fst
    · rw [if_pos hv]
      obtain ⟨h1, _, h3⟩ := hlow v hv
      refine ⟨fun _ => Or.inl hv, fun _ => ?_⟩
      rw [ring_of_lt (show clear o m' (.sp v) < inf from h1)]
      show bk (m' (.sp v)) ≠ null
      omega
    · rw [if_neg hv]
      simp only [hv, false_or]
  refine ⟨_, ⟨hr2, fun d => Int.le_trans (r1 d) (h.le d), fun d hd => (r2 d hd).1, r5, Int.le_trans (r1 src) h.src,
    fun v hv => ?_, fun u hu hP v w e => ?_⟩, fun v hv => (hP' v).2 (Or.inl ((r4 v).2 hv))⟩
  · rcases (hP' v).1 hv with hin | ⟨h1, h2⟩
    · exact (hlow v hin).1
    · exact Int.lt_of_le_of_lt (r1 v) (h.pend v h1)
  · rw [hP'] at hP
    have heq : m' (.sp u) = m (.sp u) := by
      have : ¬ m' (.sp u) < m (.sp u) := fun hc => hP (Or.inl ((r4 u).2 hc))
      have := r1 u; omega
    show m' (.sp v) ≤ m' (.sp u) + w
    rw [heq]
    have hu : m (.sp u) < inf := by rw [← heq]; exact hu
    by_cases hPu : P u
    · have hmu : ring inf bk m u = id := by
        by_contra hne; exact hP (Or.inr ⟨hPu, hne⟩)
      exact r3 u v w ((hids u).2 ⟨hPu, hmu⟩) e
    · exact Int.le_trans (r1 v) (h.relaxed u hu hPu v w e)

theorem inv_init (hs : src < G.n) (hopn : 0 < opn) (hopn' : opn < null) (hinf : 0 < inf) (hbk : BkOk inf bk) :
    ∃ st, create (cfg opn) G.n (ring inf bk (mem0 inf src)) = some st ∧
      ∃ P lb, Inv G inf bk (cfg opn) src (mem0 inf src) P lb st := by
  have hsp : ∀ d, mem0 inf src (.sp d) = if d = src then 0 else inf := fun _ => rfl
  have h0 : bk 0 < null := hbk.lt 0 (Int.le_refl _) hinf
  have hr0 : ∀ d, ring inf bk (mem0 inf src) d = if d = src then bk 0 else null := by
    intro d
    rw [ring, getBkt, hsp]
    by_cases h : d = src
    · rw [if_pos h, if_neg (by omega), if_pos h]
    · rw [if_neg h, if_pos rfl, if_neg h]
  have h3 : ∀ v, ring inf bk (mem0 inf src) v ≤ (cfg opn).null := fun v => by
    show _ ≤ null
    rw [hr0]; split <;> omega
  have h4 : ∀ v, G.n ≤ v → ring inf bk (mem0 inf src) v = (cfg opn).null := fun v hv => by
    rw [hr0, if_neg (by omega)]; rfl
  obtain ⟨st, hst⟩ := create_ok (c := cfg opn) (n := G.n) hopn hopn' h3 h4 (fun h => by cases h)
  have hr := Reach.init (mode := .any) _ st hopn hopn' h3 h4 (fun h => by cases h) hst
  have hP : ∀ v, ring inf bk (mem0 inf src) v ≠ (cfg opn).null ↔ v = src := by
    intro v
    rw [hr0]
    show _ ≠ null ↔ _
    by_cases h : v = src
    · rw [if_pos h]; exact ⟨fun _ => h, fun _ => by omega⟩
    · rw [if_neg h]; exact ⟨fun h' => absurd rfl h', fun h' => absurd h' h⟩
  refine ⟨st, hst, _, _, hr, fun d => ?_, fun d hd => ?_, fun _ => rfl, ?_, fun v hv => ?_, fun u hu hPu => ?_⟩
  · rw [hsp]; split <;> omega
  · have hd' : d = src := by
      by_contra hc; rw [hsp, if_neg hc] at hd; omega
    subst hd'
    rw [hsp, if_pos rfl]; exact ⟨0, .nil⟩
  · rw [hsp, if_pos rfl]
  · rw [hsp, if_pos ((hP v).1 hv)]; exact hinf
  · have hu' : u = src := by
      by_contra hc; rw [hsp, if_neg hc] at hu; omega
    exact absurd ((hP u).2 hu') hPu

theorem after_ok (hG : G.Ok) (hs : src < G.n) (hopn : 0 < opn) (hopn' : opn < null) (hinf : 0 < inf)
    (hw : ∀ u v w, (v, w) ∈ G.fwd u → 0 ≤ w) (hbk : BkOk inf bk) {f : Nat} {m : Relax.Loc → Int} {st : BS}
    (h : After f inf bk opn G Faithful src m st) : ∃ P lb, Inv G inf bk (cfg opn) src m P lb st := by
  obtain ⟨st0, h0, hrun⟩ := h
  obtain ⟨st0', h0', P, lb, hi⟩ := inv_init (G := G) hs hopn hopn' hinf hbk
  rw [h0, Option.some.injEq] at h0'
  subst h0'
  clear h0
  generalize mem0 inf src = m0 at hrun hi
  induction hrun with
  | nil => exact ⟨P, lb, hi⟩
  | cons _ hstep ih =>
    obtain ⟨P', lb', hi'⟩ := ih
    cases hstep with
    | mk hn hid he hQ hu =>
      obtain ⟨st2, e1, P2, hi2, _⟩ := hi'.step hG hw hbk hn hid he hQ
      rw [hu, Option.some.injEq] at e1
      subst e1
      exact ⟨P2, _, hi2⟩

/-- C35, for rounds with faithful data: every vertex whose distance was lowered in an iteration is in the
structure afterwards, in the bucket of its new distance. -/
theorem delta_rebucket_partial (hG : G.Ok) (hs : src < G.n) (hopn : 0 < opn) (hopn' : opn < null) (hinf : 0 < inf)
    (hw : ∀ u v w, (v, w) ∈ G.fwd u → 0 ≤ w) (hbk : BkOk inf bk) {f : Nat} {m m' : Relax.Loc → Int} {st st' : BS}
    (h : After f inf bk opn G Faithful src m st) (hstep : Step f inf bk (cfg opn) G Faithful m st m' st') :
    ∃ P lb, Reach (cfg opn) .any G.n (ring inf bk m') P lb st' ∧
      ∀ v, m' (.sp v) < m (.sp v) → P v ∧ ring inf bk m' v = bk (m' (.sp v)) := by
  obtain ⟨P, lb, hi⟩ := after_ok hG hs hopn hopn' hinf hw hbk h
  cases hstep with
  | mk hn hid he hQ hu =>
    obtain ⟨st2, e1, P2, hi2, hlow⟩ := hi.step hG hw hbk hn hid he hQ
    rw [hu, Option.some.injEq] at e1
    subst e1
    exact ⟨P2, _, hi2.reach, fun v hv => ⟨hlow v hv, ring_of_lt (hi2.pend v (hlow v hv))⟩⟩

/-- With faithful data the result is right. -/
theorem delta_correct_partial (hG : G.Ok) (hs : src < G.n) (hopn : 0 < opn) (hopn' : opn < null) (hinf : 0 < inf)
    (hw : ∀ u v w, (v, w) ∈ G.fwd u → 0 ≤ w) (hbk : BkOk inf bk)
    (hB : ∀ v k x, WWalk G src v k x → k < G.n → x < inf) {f : Nat} {dists : Nat → Int}
    (h : DeltaStepping f inf bk opn G Faithful src dists) :
    (∀ v j x, WWalk G src v j x → MinWeight G src v (dists v)) ∧
    ∀ v, (¬ ∃ j x, WWalk G src v j x) → dists v = inf := by
  obtain ⟨m, st, ha, hm, fuel, ids, st', hn⟩ := h
  obtain ⟨P, lb, hi⟩ := after_ok hG hs hopn hopn' hinf hw hbk ha
  have hP : ∀ v, ¬ P v := (next_bucket_increasing rfl hi.reach hn).1 rfl
  have hno : ¬ NegCycle G src := by
    rintro ⟨v, j, y, k, x, _, hc, hx⟩
    have := walk_nonneg hw hc
    omega
  have hle : ∀ v j x, WWalk G src v j x → j < G.n → m (.sp v) ≤ x := by
    intro v j x hwalk
    induction hwalk with
    | nil => exact fun _ => hi.src
    | @cons u v j x w hu e ih =>
      intro hj
      have h1 := ih (by omega)
      have h2 := hB _ _ _ hu (by omega)
      have h3 := hi.relaxed u (by omega) (hP u) v w e
      omega
  have hle' : ∀ v j x, WWalk G src v j x → m (.sp v) ≤ x ∧ m (.sp v) < inf := by
    intro v j x hwalk
    obtain ⟨j', x', h1, h2, h3⟩ := short_walk hG hs hno hwalk
    have h4 := hle _ _ _ h3 h1
    have h5 := hB _ _ _ h3 (by omega)
    omega
  refine ⟨fun v j x hwalk => ?_, fun v hv => ?_⟩
  · rw [← hm]
    exact ⟨hi.good v (hle' _ _ _ hwalk).2, fun j y hy => (hle' _ _ _ hy).1⟩
  · rw [← hm]
    have := hi.le v
    by_contra hne
    obtain ⟨j, hj⟩ := hi.good v (by omega)
    exact hv ⟨j, _, hj⟩

/-! ### The race -/

/-- 0 → 1 (1), 0 → 2 (1), 1 → 3 (30), 2 → 3 (24), 3 → 4 (1). -/
def exG : Gr Int := Gr.ofLists [[(1, 1), (2, 1)], [(3, 30)], [(3, 24)], [(4, 1)], []]
  [[], [(0, 1)], [(0, 1)], [(1, 30), (2, 24)], [(3, 1)]]

theorem exG_ok : exG.Ok := Gr.ofLists_ok (by decide)

/-- `delta = 20`. -/
def bk20 (x : Int) : Nat := (x / 20).toNat

theorem bk20_ok : BkOk 2147483647 bk20 :=
  ⟨fun x y _ h => by unfold bk20; omega, fun x h1 h2 => by unfold bk20 null; omega⟩

/-- Without a race the execution is right. -/
example : ∃ dists, DeltaStepping 1 2147483647 bk20 127 exG Faithful 0 dists ∧ dists 3 = 25 ∧ dists 4 = 26 := by
  refine ⟨_, ⟨_, _, ⟨_, rfl, .cons (.cons (.cons (.cons .nil
    (.mk (fuel := 9) rfl (by decide) (edgeMap_seq (activeEdges exG _) (mem_activeEdges exG_ok) rfl) (by unfold Faithful; decide) rfl))
    (.mk (fuel := 9) rfl (by decide) (edgeMap_seq (activeEdges exG _) (mem_activeEdges exG_ok) rfl) (by unfold Faithful; decide) rfl))
    (.mk (fuel := 9) rfl (by decide) (edgeMap_seq (activeEdges exG _) (mem_activeEdges exG_ok) rfl) (by unfold Faithful; decide) rfl))
    (.mk (fuel := 9) rfl (by decide) (edgeMap_seq (activeEdges exG _) (mem_activeEdges exG_ok) rfl) (by unfold Faithful; decide) rfl)⟩,
    fun _ => rfl, 9, _, _, rfl⟩, ?_, ?_⟩ <;> decide

/-- C35 is false: the relaxations 1 → 3 and 2 → 3 of the second round race. The first one lowers the distance
of 3 to 31; the second one reads 31 as the old distance, lowers it to 25 and claims the flag, returning 31.
Buckets of 31 and 25 are the same, so the vertex is not inserted; its edges are never relaxed and
vertex 4 (at distance 26) is returned as unreached. -/
theorem delta_lost : ∃ dists, DeltaStepping 1 2147483647 bk20 127 exG (fun _ _ => True) 0 dists ∧
    dists 4 = 2147483647 ∧ WWalk exG 0 4 3 26 := by
  have hw : WWalk exG 0 4 3 26 := by
    have h1 : WWalk exG 0 2 1 (0 + 1) := .cons 1 .nil (by decide)
    have h2 : WWalk exG 0 3 2 (0 + 1 + 24) := .cons 24 h1 (by decide)
    exact .cons 1 h2 (by decide)
  refine ⟨_, ⟨_, _, ⟨_, rfl, .cons (.cons .nil
    (.mk (fuel := 9) rfl (by decide) (edgeMap_seq (activeEdges exG _) (mem_activeEdges exG_ok) rfl) trivial rfl))
    (.mk (fuel := 9) rfl (by decide)
      (edgeMap_two [⟨1, 3, 30⟩] [⟨2, 3, 24⟩] (fun e => ?_)
        [false, false, false, false, true, true, true, true, true, true, false] rfl) trivial rfl)⟩,
    fun _ => rfl, 9, _, _, rfl⟩, rfl, hw⟩
  rw [← mem_activeEdges exG_ok]
  show _ ↔ e ∈ [_, _]
  simp only [List.mem_cons, List.not_mem_nil, or_false]

end Gbbs.Delta
