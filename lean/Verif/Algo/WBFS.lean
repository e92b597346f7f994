/-
C34: weighted BFS, `benchmarks/IntegralWeightSSSP/JulienneDBS17/wBFS.h`.
-/
import Verif.Algo.Visit
import Verif.Algo.Walks
import Verif.Buckets.Reach

namespace Gbbs.WBFS

open Conc Conc.Prog Em Walks Buckets
open Atomics (Steps)

/-! ### Model -/

/-- `UINT_E_MAX`, the null bucket. -/
def null : Nat := 4294967295

/-- `get_bkt`, `wBFS.h:95-97`. -/
def getBkt (x : Nat) : Nat := if x = inf then null else x

/-- `get_ring`, `wBFS.h:98-101`. -/
def ring (m : Nat → Nat) (v : Nat) : Nat := getBkt (m v)

/-- `make_vertex_buckets(n, get_ring, increasing, num_buckets)`, `wBFS.h:102`; `opn = num_buckets - 1`. -/
def cfg (opn : Nat) : Cfg := ⟨true, opn, null⟩

/-- `vertexMap(res, apply_f)`, `wBFS.h:104-112, 132`: the effect on `dists` (`& VAL_MASK`). -/
def clear (o : List (Nat × Nat)) (m : Nat → Nat) (v : Nat) : Nat :=
  if v ∈ o.map Prod.fst then m v % top else m v

/-- The destination buckets it leaves in the vertex subset. -/
def dests (c : Cfg) (st : BS) (m : Nat → Nat) (o : List (Nat × Nat)) : List (Nat × Nat) :=
  o.map fun p => (p.1, getBucket2 c st (getBkt p.2) (getBkt (m p.1 % top)))

/-- One iteration of the loop, `wBFS.h:123-144`: extract a bucket, `edgeMapData` in any traversal and
interleaving, `apply_f`, `update_buckets`. (C15: the parallel insertion is the same as the sequential one.) -/
inductive Step (f : Nat) (c : Cfg) (G : Gr Int) : (Nat → Nat) → BS → (Nat → Nat) → BS → Prop
  | mk {m m' st st1 st2 fuel id ids o} (h : nextBucket c (ring m) fuel st = some (id, ids, st1)) (hid : id ≠ c.null)
      (he : EdgeMap (visitF f) G (fun v => decide (v ∈ ids)) m m' o)
      (hu : updateBuckets c st1 (dests c st1 m' o) = some st2) : Step f c G m st (clear o m') st2

/-- `k` iterations. -/
inductive Run (f : Nat) (c : Cfg) (G : Gr Int) : Nat → (Nat → Nat) → BS → (Nat → Nat) → BS → Prop
  | nil {m st} : Run f c G 0 m st m st
  | cons {k m st m' st' m'' st''} (h : Run f c G k m st m' st') (hs : Step f c G m' st' m'' st'') :
      Run f c G (k + 1) m st m'' st''

/-- `dists` initially, `wBFS.h:91-93`. -/
def dists0 (src : Nat) (v : Nat) : Nat := if v = src then 0 else inf

/-- The state after `k` iterations. -/
def After (f opn : Nat) (G : Gr Int) (src k : Nat) (m : Nat → Nat) (st : BS) : Prop :=
  ∃ st0, create (cfg opn) G.n (ring (dists0 src)) = some st0 ∧ Run f (cfg opn) G k (dists0 src) st0 m st

/-- `wBFS(G, src, opn + 1)`, `wBFS.h:80-156`, returned `dists` after `k` iterations. -/
def Wbfs (f opn : Nat) (G : Gr Int) (src k : Nat) (dists : Nat → Nat) : Prop :=
  ∃ st, After f opn G src k dists st ∧
    ∃ fuel ids st', nextBucket (cfg opn) (ring dists) fuel st = some (null, ids, st')

/-! ### One round -/

theorem round_ok {f : Nat} {G : Gr Int} (hG : G.Ok) {b : Nat} {ids : List Nat} {m m' : Nat → Nat}
    {o : List (Nat × Nat)} (hm : ∀ d, m d ≤ inf) (hs : ∀ v ∈ ids, m v = b)
    (hw : ∀ u v w, (v, w) ∈ G.fwd u → 0 ≤ w)
    (hB : ∀ u v w, u ∈ ids → (v, w) ∈ G.fwd u → b + w.toNat < inf)
    (hr : EdgeMap (visitF f) G (fun v => decide (v ∈ ids)) m m' o) :
    (o.map Prod.fst).Nodup ∧ (∀ p ∈ o, p.2 = m p.1) ∧
    (∀ d ∈ o.map Prod.fst, ∃ u w, u ∈ ids ∧ (d, w) ∈ G.fwd u ∧ m' d = top + (b + w.toNat) ∧ b + w.toNat < m d) ∧
    (∀ d, d ∉ o.map Prod.fst → m' d = m d) ∧
    ∀ u v w, u ∈ ids → (v, w) ∈ G.fwd u → clear o m' v ≤ b + w.toNat := by
  obtain ⟨g, out, hi, hdn, hT, hcol⟩ := edgeMap_sound (visit_spec f b m
    (Active G (fun v => decide (v ∈ ids))) hm (fun e he => hs _ (by simpa using he.1))
    (fun e he => hw _ _ _ he.2) (fun e he => hB _ _ _ (by simpa using he.1) he.2)) G hG _ (fun _ h => h)
    (VInv b m (Active G (fun v => decide (v ∈ ids))))
    (fun _ _ _ => Iff.rfl) ⟨m, fun _ => none⟩
    ⟨fun _ => rfl, fun d _ => rfl, fun _ _ h => (by cases h)⟩
    (fun i => ⟨List.nodup_nil, fun d => ⟨fun h => (by cases h), fun h => (by cases h)⟩, fun _ h => (by cases h)⟩) hr
  have hmem : ∀ d, d ∈ o.map Prod.fst ↔ ∃ i, g.own d = some i := by
    intro d
    constructor
    · intro h
      obtain ⟨⟨d', x⟩, h1, rfl⟩ := List.mem_map.1 h
      obtain ⟨i, hi'⟩ := hcol.sub _ h1
      exact ⟨i, ((hT i).2.1 _).1 (List.mem_map.2 ⟨_, hi', rfl⟩)⟩
    · rintro ⟨i, h⟩
      obtain ⟨⟨d', x⟩, h1, rfl⟩ := List.mem_map.1 (((hT i).2.1 d).2 h)
      obtain ⟨y, hy⟩ := hcol.all i _ _ h1
      exact List.mem_map.2 ⟨_, hy, rfl⟩
  have hnew : ∀ d ∈ o.map Prod.fst, ∃ u w, u ∈ ids ∧ (d, w) ∈ G.fwd u ∧ m' d = top + (b + w.toNat) ∧
      b + w.toNat < m d := by
    intro d hd
    obtain ⟨i, h⟩ := (hmem d).1 hd
    obtain ⟨e, he, rfl, h3, h4⟩ := hi.new d i h
    exact ⟨e.s, e.w, by simpa using he.1, he.2, by rw [hi.mem]; exact h3, h4⟩
  have hold : ∀ d, d ∉ o.map Prod.fst → m' d = m d := by
    intro d hd
    rw [hi.mem]
    refine hi.old d ?_
    by_contra hc
    exact hd ((hmem d).2 (Option.ne_none_iff_exists'.1 hc))
  refine ⟨?_, fun p hp => ?_, hnew, hold, fun u v w hu he => ?_⟩
  · refine hcol.nodup (fun i => (hT i).1) fun i j d x y h1 h2 => ?_
    have e1 := ((hT i).2.1 d).1 (List.mem_map.2 ⟨_, h1, rfl⟩)
    have e2 := ((hT j).2.1 d).1 (List.mem_map.2 ⟨_, h2, rfl⟩)
    rw [e1] at e2; exact Option.some.inj e2
  · obtain ⟨i, hi'⟩ := hcol.sub p hp
    exact (hT i).2.2 p hi'
  · have hdone : VDn b m g ⟨u, v, w⟩ := hdn ⟨u, v, w⟩ ⟨by simpa using hu, he⟩
    have hBw := hB u v w hu he
    by_cases hin : v ∈ o.map Prod.fst
    · obtain ⟨u', w', hu', he', h1, h2⟩ := hnew v hin
      have hBw' := hB u' v w' hu' he'
      rw [clear, if_pos hin, h1]
      rw [hi.mem] at h1
      rcases hdone with ⟨_, h⟩ | h
      · have h : g.m v ≤ top + (b + w.toNat) := h
        simp only [top, inf] at *; omega
      · have h : m v ≤ b + w.toNat := h
        simp only [top, inf] at *; omega
    · rw [clear, if_neg hin, hold v hin]
      rcases hdone with ⟨h, _⟩ | h
      · exact absurd ((hmem v).2 (Option.ne_none_iff_exists'.1 h)) hin
      · exact h

/-! ### The loop -/

/-- State after `k` iterations. -/
structure Inv (G : Gr Int) (c : Cfg) (src k : Nat) (m : Nat → Nat) (P : Nat → Prop) (lb : Nat) (st : BS) : Prop where
  reach : Reach c .earlier G.n (ring m) P lb st
  le : ∀ d, m d ≤ inf
  good : ∀ d, m d < inf → ∃ k, WWalk G src d k (m d)
  src : m src = 0
  pend : ∀ v, P v → m v < inf ∧ lb ≤ m v
  relaxed : ∀ u, m u < inf → ¬ P u → m u ≤ lb ∧ ∀ v w, (v, w) ∈ G.fwd u → m v ≤ m u + w.toNat
  count : ∃ S : Finset Nat, S.card = k ∧ ∀ v ∈ S, v < G.n ∧ ¬ P v ∧ m v < inf

variable {G : Gr Int} {src opn : Nat}

theorem no_neg (hw : ∀ u v w, (v, w) ∈ G.fwd u → 0 ≤ w) (s : Nat) : ¬ NegCycle G s := by
  rintro ⟨v, j, y, k, x, _, hc, hx⟩
  have : ∀ {s v k x}, WWalk G s v k x → 0 ≤ x := by
    intro s v k x h
    induction h with
    | nil => exact Int.le_refl _
    | cons w _ e ih => have := hw _ _ _ e; omega
  have := this hc
  omega

/-- What has been extracted is final (Dijkstra's argument). -/
theorem Inv.dijkstra (hw : ∀ u v w, (v, w) ∈ G.fwd u → 0 ≤ w) {c : Cfg} {k : Nat} {m : Nat → Nat} {P : Nat → Prop}
    {lb : Nat} {st : BS} (h : Inv G c src k m P lb st) {id : Nat} (hid : ∀ v, P v → id ≤ m v) (hid' : id ≤ inf)
    {v j : Nat} {x : Int} (hwalk : WWalk G src v j x) : (m v : Int) ≤ x ∨ (id : Int) ≤ x := by
  induction hwalk with
  | nil => rw [h.src]; exact Or.inl (Int.le_refl _)
  | @cons u v j x w _ e ih =>
    have hwn := hw _ _ _ e
    by_cases hx : (id : Int) ≤ x
    · right; omega
    · have ih := ih.resolve_right hx
      by_cases hP : P u
      · have := hid u hP; omega
      · have := (h.relaxed u (by omega) hP).2 v w e
        left; omega

theorem ring_eq_null {m : Nat → Nat} (hm : ∀ d, m d ≤ inf) (v : Nat) : ring m v = null ↔ m v = inf := by
  have := hm v
  rw [ring, getBkt]
  by_cases h : m v = inf
  · simp [h]
  · rw [if_neg h]; simp only [inf, null] at *; omega

theorem ring_of_lt {m : Nat → Nat} {v : Nat} (h : m v < inf) : ring m v = m v := by
  rw [ring, getBkt, if_neg (by omega)]

/-- The moves of an iteration. -/
def moves (m' : Nat → Nat) (o : List (Nat × Nat)) : List (Nat × Nat) := o.map fun p => (p.1, getBkt (m' p.1 % top))

theorem dests_eq {c : Cfg} {st : BS} {m m' : Nat → Nat} {o : List (Nat × Nat)} (h : ∀ p ∈ o, p.2 = m p.1) :
    updateBuckets c st (dests c st m' o) = moveTo2 c (ring m) st (moves m' o) := by
  rw [moveTo2, dests, moves, List.map_map]
  congr 1
  refine List.map_congr_left fun p hp => ?_
  show (_, _) = (_, _)
  rw [h p hp]; rfl

/-- An iteration cannot fail and keeps the invariant. -/
theorem Inv.step (hG : G.Ok) (hs : src < G.n) (hw : ∀ u v w, (v, w) ∈ G.fwd u → 0 ≤ w)
    (hB : ∀ v k x, WWalk G src v k x → k ≤ G.n → x < inf) {f k : Nat} {m m' : Nat → Nat}
    {P : Nat → Prop} {lb : Nat} {st st1 : BS} (h : Inv G (cfg opn) src k m P lb st) {fuel id : Nat} {ids : List Nat}
    (hn : nextBucket (cfg opn) (ring m) fuel st = some (id, ids, st1)) (hid : id ≠ (cfg opn).null)
    {o : List (Nat × Nat)} (he : EdgeMap (visitF f) G (fun v => decide (v ∈ ids)) m m' o) :
    ∃ st2, updateBuckets (cfg opn) st1 (dests (cfg opn) st1 m' o) = some st2 ∧
      ∃ P' lb', Inv G (cfg opn) src (k + 1) (clear o m') P' lb' st2 := by
  obtain ⟨⟨v0, hv0, hv0'⟩, hfirst, hids⟩ := (next_bucket_increasing rfl h.reach hn).2 hid
  have hring : ∀ v, P v → ring m v = m v := fun v hv => ring_of_lt (h.pend v hv).1
  have hfirst' : ∀ v, P v → id ≤ m v := fun v hv => by have := hfirst v hv; rwa [hring v hv] at this
  have hidlt : id < inf := by rw [← hv0', hring v0 hv0]; exact (h.pend v0 hv0).1
  have hlb : lb ≤ id := by rw [← hv0', hring v0 hv0]; exact (h.pend v0 hv0).2
  have hids' : ∀ v, v ∈ ids ↔ P v ∧ m v = id := fun v => by
    rw [hids]
    constructor
    · rintro ⟨h1, h2⟩; exact ⟨h1, by rwa [hring v h1] at h2⟩
    · rintro ⟨h1, h2⟩; exact ⟨h1, by rwa [hring v h1]⟩
  have hBe : ∀ u v w, u ∈ ids → (v, w) ∈ G.fwd u → id + w.toNat < inf := by
    intro u v w hu e
    obtain ⟨hP, hmu⟩ := (hids' u).1 hu
    obtain ⟨j, hj⟩ := h.good u (by omega)
    obtain ⟨j', x', h1, h2, h3⟩ := short_walk hG hs (no_neg hw src) hj
    have h4 := h.dijkstra hw hfirst' (Nat.le_of_lt hidlt) h3
    have h5 := hB _ _ _ (.cons w h3 e) (by omega)
    have := hw _ _ _ e
    omega
  obtain ⟨r1, r2, r3, r4, r5⟩ := round_ok hG h.le (fun v hv => ((hids' v).1 hv).2) hw hBe he
  have hcl : ∀ d ∈ o.map Prod.fst, ∃ u w, u ∈ ids ∧ (d, w) ∈ G.fwd u ∧ clear o m' d = id + w.toNat ∧
      m' d % top = id + w.toNat ∧ id + w.toNat < m d ∧ id + w.toNat < inf := by
    intro d hd
    obtain ⟨u, w, hu, e, h1, h2⟩ := r3 d hd
    have h3 := hBe u d w hu e
    have h4 : m' d % top = id + w.toNat := by rw [h1]; simp only [top, inf] at *; omega
    exact ⟨u, w, hu, e, by rw [clear, if_pos hd, h4], h4, h2, h3⟩
  have hcl' : ∀ d, d ∉ o.map Prod.fst → clear o m' d = m d := fun d hd => by
    rw [clear, if_neg hd, r4 d hd]
  have hle : ∀ d, clear o m' d ≤ m d := by
    intro d
    by_cases hd : d ∈ o.map Prod.fst
    · obtain ⟨_, w, _, _, h1, _, h2, _⟩ := hcl d hd; omega
    · rw [hcl' d hd]
  have hmfst : (moves m' o).map Prod.fst = o.map Prod.fst := by rw [moves, List.map_map]; rfl
  have hmv : ∀ mv ∈ moves m' o, mv.1 ∈ o.map Prod.fst ∧ mv.2 = clear o m' mv.1 ∧ mv.2 < inf := by
    intro mv hmv
    obtain ⟨p, hp, rfl⟩ := List.mem_map.1 hmv
    have hin : p.1 ∈ o.map Prod.fst := List.mem_map.2 ⟨p, hp, rfl⟩
    obtain ⟨u, w, hu, e, h1, h2, h3, h4⟩ := hcl p.1 hin
    have : getBkt (m' p.1 % top) = clear o m' p.1 := by
      rw [h2, h1, getBkt, if_neg (by omega)]
    exact ⟨hin, this, by show getBkt (m' p.1 % top) < inf; rw [this, h1]; exact h4⟩
  have hr1 := Reach.next _ _ _ _ fuel id ids st1 h.reach hn hid
  have hm1 : ((moves m' o).map Prod.fst).Nodup := by rw [hmfst]; exact r1
  have hinf : inf < (cfg opn).null := by show 2147483647 < 4294967295; decide
  have hm2 : ∀ mv ∈ moves m' o, mv.2 = (cfg opn).null ∨ (mv.2 < (cfg opn).null ∧ notAfter (cfg opn) id mv.2) := by
    intro mv hmv'
    obtain ⟨h1, h2, h3⟩ := hmv mv hmv'
    obtain ⟨_, w, _, _, h4, _⟩ := hcl _ h1
    refine Or.inr ⟨by omega, ?_⟩
    show id ≤ mv.2
    omega
  have hm3 : ∀ mv ∈ moves m' o,
      MoveOK (cfg opn) .earlier (ring m) (fun v => P v ∧ ring m v ≠ id) id mv := by
    intro mv hmv'
    obtain ⟨h1, h2, h3⟩ := hmv mv hmv'
    obtain ⟨_, w, _, _, h4, _, h5, _⟩ := hcl _ h1
    refine ⟨by omega, ?_⟩
    by_cases hx : m mv.1 = inf
    · exact Or.inl ((ring_eq_null h.le _).2 hx)
    · refine Or.inr (Or.inl ?_)
      have := h.le mv.1
      show ¬ ring m mv.1 ≤ mv.2
      rw [ring_of_lt (by omega)]; omega
  obtain ⟨st2, hst2⟩ := move2_ok hr1 _ hm1 hm2 hm3
  refine ⟨st2, by rw [dests_eq r2]; exact hst2, ?_⟩
  have hr2 := Reach.move2 _ _ _ _ st2 _ hr1 hm1 hm2 hm3 hst2
  have hset : setAll (ring m) (moves m' o) = ring (clear o m') := by
    funext v
    by_cases hv : v ∈ o.map Prod.fst
    · rw [← hmfst] at hv
      obtain ⟨mv, hmv1, rfl⟩ := List.mem_map.1 hv
      obtain ⟨h1, h2, h3⟩ := hmv mv hmv1
      rw [setAll_of_mem _ _ hm1 hmv1, ring_of_lt (by omega), h2]
    · rw [setAll_of_not_mem _ _ (by rw [hmfst]; exact hv), ring, ring, hcl' v hv]
  rw [hset] at hr2
  have hP' : ∀ v, presentAfter (cfg opn) (ring m) (fun v => P v ∧ ring m v ≠ id) (moves m' o) v ↔
      v ∈ o.map Prod.fst ∨ (P v ∧ m v ≠ id) := by
    intro v
    rw [presentAfter, hmfst, hset]
    by_cases hv : v ∈ o.map Prod.fst
    · rw [if_pos hv]
      obtain ⟨_, w, _, _, h4, _, h5, h6⟩ := hcl _ hv
      refine ⟨fun _ => Or.inl hv, fun _ => ?_⟩
      rw [ring_of_lt (by omega)]
      omega
    · rw [if_neg hv]
      simp only [hv, false_or]
      constructor
      · rintro ⟨h1, h2⟩; exact ⟨h1, by rwa [hring v h1] at h2⟩
      · rintro ⟨h1, h2⟩; exact ⟨h1, by rwa [hring v h1]⟩
  have hset' : ∀ u, m u ≤ id → clear o m' u = m u ∧ u ∉ o.map Prod.fst := by
    intro u hu
    have : u ∉ o.map Prod.fst := fun hin => by
      obtain ⟨_, w, _, _, _, _, h5, _⟩ := hcl _ hin; omega
    exact ⟨hcl' u this, this⟩
  refine ⟨_, id, hr2, fun d => Nat.le_trans (hle d) (h.le d), fun d hd => ?_, ?_, fun v hv => ?_, fun u hu hP => ?_, ?_⟩
  · by_cases hin : d ∈ o.map Prod.fst
    · obtain ⟨u, w, hu, e, h1, _, h2, h3⟩ := hcl d hin
      obtain ⟨hPu, hmu⟩ := (hids' u).1 hu
      obtain ⟨j, hj⟩ := h.good u (by omega)
      have := hw _ _ _ e
      refine ⟨j + 1, ?_⟩
      have hc := WWalk.cons w hj e
      rwa [show (m u : Int) + w = ((clear o m' d : Nat) : Int) from by omega] at hc
    · rw [hcl' d hin] at hd ⊢; exact h.good d hd
  · have := hle src
    have := h.src
    omega
  · rcases (hP' v).1 hv with hin | ⟨h1, h2⟩
    · obtain ⟨_, w, _, _, h4, _, h5, h6⟩ := hcl _ hin; omega
    · have h3 := h.pend v h1
      have h4 := hfirst' v h1
      by_cases hin : v ∈ o.map Prod.fst
      · obtain ⟨_, w, _, _, h4, _, h5, h6⟩ := hcl _ hin; omega
      · rw [hcl' v hin]; omega
  · rw [hP'] at hP
    have hnin : u ∉ o.map Prod.fst := fun hc => hP (Or.inl hc)
    rw [hcl' u hnin] at hu ⊢
    by_cases hPu : P u
    · have hmu : m u = id := by
        by_contra hne; exact hP (Or.inr ⟨hPu, hne⟩)
      refine ⟨by omega, fun v w e => ?_⟩
      rw [hmu]
      exact r5 u v w ((hids' u).2 ⟨hPu, hmu⟩) e
    · obtain ⟨h1, h2⟩ := h.relaxed u hu hPu
      refine ⟨by omega, fun v w e => Nat.le_trans (hle v) (h2 v w e)⟩
  · obtain ⟨S, hS, hSv⟩ := h.count
    have hv0S : v0 ∉ S := fun hin => (hSv v0 hin).2.1 hv0
    have hmv0 : m v0 = id := by rw [← hring v0 hv0]; exact hv0'
    refine ⟨insert v0 S, by rw [Finset.card_insert_of_notMem hv0S, hS], fun v hv => ?_⟩
    rw [hP']
    rcases Finset.mem_insert.1 hv with rfl | hv
    · obtain ⟨h1, h2⟩ := hset' v (by omega)
      obtain ⟨j, hj⟩ := h.good v (by omega)
      refine ⟨hj.lt hG hs, ?_, by omega⟩
      rintro (h3 | ⟨_, h3⟩)
      · exact h2 h3
      · exact h3 hmv0
    · obtain ⟨h3, h4, h5⟩ := hSv v hv
      obtain ⟨h1, h2⟩ := hset' v (Nat.le_trans (h.relaxed v h5 h4).1 hlb)
      refine ⟨h3, ?_, by omega⟩
      rintro (h6 | ⟨h6, _⟩)
      · exact h2 h6
      · exact h4 h6

theorem inv_init (hs : src < G.n) (hopn : 0 < opn) (hopn' : opn < null) :
    ∃ st, create (cfg opn) G.n (ring (dists0 src)) = some st ∧
      ∃ P lb, Inv G (cfg opn) src 0 (dists0 src) P lb st := by
  have hle : ∀ d, dists0 src d ≤ inf := fun d => by rw [dists0]; split <;> omega
  have hrn : ∀ d, ring (dists0 src) d ≠ null ↔ d = src := fun d => by
    rw [Ne, ring_eq_null hle, dists0]
    by_cases h : d = src
    · simp [h, inf]
    · simp [h]
  have h3 : ∀ v, ring (dists0 src) v ≤ (cfg opn).null := fun v => by
    show ring (dists0 src) v ≤ null
    have := hle v
    rw [ring, getBkt]; split
    · exact Nat.le_refl _
    · exact Nat.le_trans this (by decide)
  have h4 : ∀ v, G.n ≤ v → ring (dists0 src) v = (cfg opn).null := fun v hv => by
    by_contra hc
    have := (hrn v).1 hc
    omega
  obtain ⟨st, hst⟩ := create_ok (c := cfg opn) (n := G.n) hopn hopn' h3 h4 (fun h => by cases h)
  have hr := Reach.init (mode := .earlier) _ st hopn hopn' h3 h4 (fun h => by cases h) hst
  refine ⟨st, hst, fun v => ring (dists0 src) v ≠ (cfg opn).null, 0, ?_, hle, fun d hd => ?_, by simp [dists0], fun v hv => ?_, fun u hu hP => ?_, ∅, rfl, fun v hv => ?_⟩
  · have h0 : firstBkt (cfg opn) G.n (ring (dists0 src)) = 0 := by
      have hmin : ∀ (l : List Nat) (z x : Nat), x ∈ l → minOf z l ≤ x := by
        have hz : ∀ (l : List Nat) (z : Nat), minOf z l ≤ z := by
          intro l
          induction l with
          | nil => intro z; exact Nat.le_refl _
          | cons a l ih => intro z; exact Nat.le_trans (ih (min z a)) (Nat.min_le_left _ _)
        intro l
        induction l with
        | nil => intro z x hx; cases hx
        | cons a l ih =>
          intro z x hx
          rcases List.mem_cons.1 hx with rfl | hx
          · exact Nat.le_trans (hz l (min z x)) (Nat.min_le_right _ _)
          · exact ih (min z a) x hx
      have := hmin ((List.range G.n).map (ring (dists0 src))) (cfg opn).null 0
        (List.mem_map.2 ⟨src, List.mem_range.2 hs, by simp [ring, dists0, getBkt, inf]⟩)
      exact Nat.le_zero.1 this
    rw [h0] at hr
    exact hr
  · have hd' : d = src := by
      by_contra hc; simp [dists0, hc] at hd
    subst hd'
    refine ⟨0, ?_⟩
    rw [dists0, if_pos rfl]; exact .nil
  · have hv : v = src := (hrn v).1 hv
    subst hv
    simp [dists0, inf]
  · have hu' : u = src := by
      by_contra hc; simp [dists0, hc] at hu
    exact absurd ((hrn u).2 hu') hP
  · simp at hv

theorem after_ok (hG : G.Ok) (hs : src < G.n) (hopn : 0 < opn) (hopn' : opn < null)
    (hw : ∀ u v w, (v, w) ∈ G.fwd u → 0 ≤ w)
    (hB : ∀ v k x, WWalk G src v k x → k ≤ G.n → x < inf) {f k : Nat} {m : Nat → Nat} {st : BS}
    (h : After f opn G src k m st) : ∃ P lb, Inv G (cfg opn) src k m P lb st := by
  obtain ⟨st0, h0, hrun⟩ := h
  obtain ⟨st0', h0', P, lb, hi⟩ := inv_init (G := G) hs hopn hopn'
  rw [h0, Option.some.injEq] at h0'
  subst h0'
  generalize hm0 : dists0 src = m0 at hrun hi
  induction hrun with
  | nil => exact ⟨P, lb, hi⟩
  | cons _ hstep ih =>
    obtain ⟨P', lb', hi'⟩ := ih h0 hm0 hi
    cases hstep with
    | mk hn hid he hu =>
      obtain ⟨st2, e1, P2, lb2, hi2⟩ := hi'.step hG hs hw hB hn hid he
      rw [hu, Option.some.injEq] at e1
      subst e1
      exact ⟨P2, lb2, hi2⟩

/-! ### Theorems -/

/-- C34: `wBFS` returns the least weight of a walk for every reachable vertex and `INT_E_MAX` for the others,
for all weights that are not negative. Range hypothesis: walks of at most `n` edges weigh less than
`INT_E_MAX`. -/
theorem wbfs_correct (hG : G.Ok) (hs : src < G.n) (hopn : 0 < opn) (hopn' : opn < null)
    (hw : ∀ u v w, (v, w) ∈ G.fwd u → 0 ≤ w)
    (hB : ∀ v k x, WWalk G src v k x → k ≤ G.n → x < inf) {f k : Nat} {dists : Nat → Nat}
    (h : Wbfs f opn G src k dists) :
    (∀ v j x, WWalk G src v j x → MinWeight G src v (dists v)) ∧
    ∀ v, (¬ ∃ j x, WWalk G src v j x) → dists v = inf := by
  obtain ⟨st, ha, fuel, ids, st', hn⟩ := h
  obtain ⟨P, lb, hi⟩ := after_ok hG hs hopn hopn' hw hB ha
  have hP : ∀ v, ¬ P v := (next_bucket_increasing rfl hi.reach hn).1 rfl
  have hle : ∀ v j x, WWalk G src v j x → j < G.n → (dists v : Int) ≤ x := by
    intro v j x hwalk
    induction hwalk with
    | nil => intro _; rw [hi.src]; exact Int.le_refl _
    | @cons u v j x w hu e ih =>
      intro hj
      have h1 := ih (by omega)
      have h2 := hB _ _ _ hu (by omega)
      have h3 := (hi.relaxed u (by omega) (hP u)).2 v w e
      have := hw _ _ _ e
      omega
  have hle' : ∀ v j x, WWalk G src v j x → (dists v : Int) ≤ x ∧ dists v < inf := by
    intro v j x hwalk
    obtain ⟨j', x', h1, h2, h3⟩ := short_walk hG hs (no_neg hw src) hwalk
    have h4 := hle _ _ _ h3 h1
    have h5 := hB _ _ _ h3 (by omega)
    omega
  refine ⟨fun v j x hwalk => ⟨hi.good v (hle' _ _ _ hwalk).2, fun j y hy => (hle' _ _ _ hy).1⟩, fun v hv => ?_⟩
  have := hi.le v
  by_contra hne
  obtain ⟨j, hj⟩ := hi.good v (by omega)
  exact hv ⟨j, _, hj⟩

/-- C34: there are at most `n` iterations. -/
theorem wbfs_rounds (hG : G.Ok) (hs : src < G.n) (hopn : 0 < opn) (hopn' : opn < null)
    (hw : ∀ u v w, (v, w) ∈ G.fwd u → 0 ≤ w)
    (hB : ∀ v k x, WWalk G src v k x → k ≤ G.n → x < inf) {f k : Nat} {m : Nat → Nat} {st : BS}
    (h : After f opn G src k m st) : k ≤ G.n := by
  obtain ⟨P, lb, hi⟩ := after_ok hG hs hopn hopn' hw hB h
  obtain ⟨S, hS, hSv⟩ := hi.count
  have : S ⊆ Finset.range G.n := fun v hv => Finset.mem_range.2 (hSv v hv).1
  have := Finset.card_le_card this
  rw [Finset.card_range] at this
  omega

/-- C34: the bucket structure never fails: `next_bucket` returns, and after any `edgeMapData` the new
destinations can be inserted. -/
theorem wbfs_progress (hG : G.Ok) (hs : src < G.n) (hopn : 0 < opn) (hopn' : opn < null)
    (hw : ∀ u v w, (v, w) ∈ G.fwd u → 0 ≤ w)
    (hB : ∀ v k x, WWalk G src v k x → k ≤ G.n → x < inf) {f k : Nat} {m : Nat → Nat} {st : BS}
    (h : After f opn G src k m st) :
    ∃ fuel id ids st', nextBucket (cfg opn) (ring m) fuel st = some (id, ids, st') ∧ (id = null ∨
      ∀ m' o, EdgeMap (visitF f) G (fun v => decide (v ∈ ids)) m m' o →
        ∃ st2, updateBuckets (cfg opn) st' (dests (cfg opn) st' m' o) = some st2) := by
  obtain ⟨P, lb, hi⟩ := after_ok hG hs hopn hopn' hw hB h
  obtain ⟨fuel, ⟨id, ids, st'⟩, hr⟩ := (next_bucket_correct hi.reach).1
  refine ⟨fuel, id, ids, st', hr, ?_⟩
  by_cases hid : id = null
  · exact Or.inl hid
  · refine Or.inr fun m' o he => ?_
    obtain ⟨st2, h2, _⟩ := hi.step hG hs hw hB hr hid he
    exact ⟨st2, h2⟩

/-! ### Example -/

/-- 0 → 1 (5), 0 → 2 (2), 2 → 1 (0), 3 → 0 (1). -/
def exG : Gr Int := Gr.ofLists [[(1, 5), (2, 2)], [], [(1, 0)], [(0, 1)]] [[(3, 1)], [(0, 5), (2, 0)], [(0, 2)], []]

theorem exG_ok : exG.Ok := Gr.ofLists_ok (by decide)

theorem exG_nonneg (u v : Nat) (w : Int) (h : (v, w) ∈ exG.fwd u) : 0 ≤ w ∧ w ≤ 5 := by
  have : ∀ u, u < 4 → ∀ p ∈ exG.fwd u, 0 ≤ p.2 ∧ p.2 ≤ 5 := by decide
  exact this u (exG_ok.bound _ _ _ h).1 _ h

theorem exG_range (v k : Nat) (x : Int) (h : WWalk exG 0 v k x) (hk : k ≤ exG.n) : x < inf := by
  have : x ≤ k * 5 := by
    clear hk
    induction h with
    | nil => simp
    | @cons u v k x w _ e ih =>
      have := (exG_nonneg _ _ _ e).2
      rw [Nat.cast_succ, Int.add_mul]; omega
  have : k ≤ 4 := hk
  simp only [inf]; omega

/-- A run with two open buckets (three iterations; the second improves vertex 1 within its bucket). -/
example : ∃ dists, Wbfs 1 2 exG 0 3 dists ∧ dists 0 = 0 ∧ dists 1 = 2 ∧ dists 2 = 2 ∧ dists 3 = inf := by
  refine ⟨_, ⟨_, ⟨_, rfl, .cons (.cons (.cons .nil
    (.mk (fuel := 9) rfl (by decide) (edgeMap_seq (activeEdges exG _) (mem_activeEdges exG_ok) rfl) rfl))
    (.mk (fuel := 9) rfl (by decide) (edgeMap_seq (activeEdges exG _) (mem_activeEdges exG_ok) rfl) rfl))
    (.mk (fuel := 9) rfl (by decide) (edgeMap_seq (activeEdges exG _) (mem_activeEdges exG_ok) rfl) rfl)⟩,
    9, _, _, rfl⟩, ?_, ?_, ?_, ?_⟩ <;> decide

end Gbbs.WBFS
