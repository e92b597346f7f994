/-
C36: bucketed widest paths, `benchmarks/SSWidestPath/JulienneDBS17/SSWidestPath.h`.
-/
import Verif.Algo.WVisit
import Verif.Algo.WBFS
import Verif.Buckets.Reach

namespace Gbbs.Widest

open Conc Conc.Prog Em Buckets
open WBFS (top inf null clear)
open Atomics (Steps)

/-! ### Specification -/

/-- `x` is the bottleneck capacity (least weight of an edge) of some walk from `s` to `v`; the empty walk
has the capacity `INT_E_MAX`. -/
inductive Route (G : Gr Int) (s : Nat) : Nat → Nat → Prop
  | nil : Route G s s inf
  | cons {u v x} (w : Int) (h : Route G s u x) (e : (v, w) ∈ G.fwd u) : Route G s v (min x w.toNat)

/-- `x` is the greatest capacity of a walk, 0 if there is none. -/
def IsWidest (G : Gr Int) (s v x : Nat) : Prop := (∀ y, Route G s v y → y ≤ x) ∧ (x = 0 ∨ Route G s v x)

/-! ### Model -/

/-- `max_weight`, `SSWidestPath.h:87-96` (`write_max` from 0 over all edges). -/
def maxW (G : Gr Int) : Int := ((List.range G.n).flatMap fun u => (G.fwd u).map Prod.snd).foldl max 0

/-- `get_bkt`, `SSWidestPath.h:107-109`, in 32-bit unsigned arithmetic; `M` is `max_weight`. -/
def getBkt (M x : Nat) : Nat := (M + 4294967296 - x + 1) % 4294967296

/-- `get_ring`, `SSWidestPath.h:110-119`. -/
def ring (M : Nat) (m : Nat → Nat) (v : Nat) : Nat :=
  if m v = 0 then null else if m v = inf then 0 else getBkt M (m v)

/-- `make_vertex_buckets(n, get_ring, increasing, num_buckets)`, `SSWidestPath.h:121`; `opn = num_buckets - 1`. -/
def cfg (opn : Nat) : Cfg := ⟨true, opn, null⟩

/-- `apply_f`, `SSWidestPath.h:124-132`: the destinations. The effect on `width` is `WBFS.clear`. -/
def dests (M : Nat) (c : Cfg) (st : BS) (m : Nat → Nat) (o : List (Nat × Nat)) : List (Nat × Nat) :=
  o.map fun p => (p.1, getBucket2 c st (getBkt M p.2) (getBkt M (m p.1 % top)))

/-- One iteration of the loop, `SSWidestPath.h:142-161`. -/
inductive Step (f : Nat) (c : Cfg) (G : Gr Int) : (Nat → Nat) → BS → (Nat → Nat) → BS → Prop
  | mk {m m' st st1 st2 fuel id ids o}
      (h : nextBucket c (ring (maxW G).toNat m) fuel st = some (id, ids, st1)) (hid : id ≠ c.null)
      (he : EdgeMap (visitF f) G (fun v => decide (v ∈ ids)) m m' o)
      (hu : updateBuckets c st1 (dests (maxW G).toNat c st1 m' o) = some st2) : Step f c G m st (clear o m') st2

/-- Iterations of the loop, `SSWidestPath.h:142-161`. -/
inductive Run (f : Nat) (c : Cfg) (G : Gr Int) : (Nat → Nat) → BS → (Nat → Nat) → BS → Prop
  | nil {m st} : Run f c G m st m st
  | cons {m st m' st' m'' st''} (h : Run f c G m st m' st') (hs : Step f c G m' st' m'' st'') :
      Run f c G m st m'' st''

/-- `width` initially, `SSWidestPath.h:103-105`. -/
def width0 (src : Nat) (v : Nat) : Nat := if v = src then inf else 0

/-- The state after some iterations. -/
def After (f opn : Nat) (G : Gr Int) (src : Nat) (m : Nat → Nat) (st : BS) : Prop :=
  ∃ st0, create (cfg opn) G.n (ring (maxW G).toNat (width0 src)) = some st0 ∧
    Run f (cfg opn) G (width0 src) st0 m st

/-- `SSWidestPath(G, src, opn + 1)`, `SSWidestPath.h:76-172`, returned `width`. -/
def SSWidestPath (f opn : Nat) (G : Gr Int) (src : Nat) (width : Nat → Nat) : Prop :=
  ∃ st, After f opn G src width st ∧
    ∃ fuel ids st', nextBucket (cfg opn) (ring (maxW G).toNat width) fuel st = some (null, ids, st')

/-! ### One round -/

theorem round_ok {f : Nat} {G : Gr Int} (hG : G.Ok) {b : Nat} {ids : List Nat} {m m' : Nat → Nat}
    {o : List (Nat × Nat)} (hm : ∀ d, m d ≤ inf) (hs : ∀ v ∈ ids, m v = b)
    (hw : ∀ u v w, (v, w) ∈ G.fwd u → 0 ≤ w ∧ w ≤ inf)
    (hr : EdgeMap (visitF f) G (fun v => decide (v ∈ ids)) m m' o) :
    (o.map Prod.fst).Nodup ∧ (∀ p ∈ o, p.2 = m p.1) ∧
    (∀ d ∈ o.map Prod.fst, ∃ u w, u ∈ ids ∧ (d, w) ∈ G.fwd u ∧ m' d = top + min b w.toNat ∧ m d < min b w.toNat) ∧
    (∀ d, d ∉ o.map Prod.fst → m' d = m d) ∧
    ∀ u v w, u ∈ ids → (v, w) ∈ G.fwd u → min b w.toNat ≤ clear o m' v := by
  obtain ⟨g, out, hi, hdn, hT, hcol⟩ := edgeMap_sound (visit_spec f b m
    (Active G (fun v => decide (v ∈ ids))) hm (fun e he => hs _ (by simpa using he.1))
    (fun e he => hw _ _ _ he.2)) G hG _ (fun _ h => h)
    (VInv b m (Active G (fun v => decide (v ∈ ids))))
    (fun _ _ _ => Iff.rfl) ⟨m, fun _ => none⟩
    ⟨fun _ => rfl, fun d _ => rfl, fun _ _ h => (by cases h)⟩
    (fun i => ⟨List.nodup_nil, fun d => ⟨fun h => (by cases h), fun h => (by cases h)⟩, fun _ h => (by cases h)⟩) hr
  have hmem : ∀ d, d ∈ o.map Prod.fst ↔ ∃ i, g.own d = some i := by
    intro d
    constructor
    · intro h
      obtain ⟨⟨d', x⟩, h1, rfl⟩ := List.mem_map.1 h
      obtain ⟨i, hi'⟩ := hcol.sub _ h1
      exact ⟨i, ((hT i).2.1 _).1 (List.mem_map.2 ⟨_, hi', rfl⟩)⟩
    · rintro ⟨i, h⟩
      obtain ⟨⟨d', x⟩, h1, rfl⟩ := List.mem_map.1 (((hT i).2.1 d).2 h)
      obtain ⟨y, hy⟩ := hcol.all i _ _ h1
      exact List.mem_map.2 ⟨_, hy, rfl⟩
  have hnew : ∀ d ∈ o.map Prod.fst, ∃ u w, u ∈ ids ∧ (d, w) ∈ G.fwd u ∧ m' d = top + min b w.toNat ∧
      m d < min b w.toNat := by
    intro d hd
    obtain ⟨i, h⟩ := (hmem d).1 hd
    obtain ⟨e, he, rfl, h3, h4⟩ := hi.new d i h
    exact ⟨e.s, e.w, by simpa using he.1, he.2, by rw [hi.mem]; exact h3, h4⟩
  have hold : ∀ d, d ∉ o.map Prod.fst → m' d = m d := by
    intro d hd
    rw [hi.mem]
    refine hi.old d ?_
    by_contra hc
    exact hd ((hmem d).2 (Option.ne_none_iff_exists'.1 hc))
  refine ⟨?_, fun p hp => ?_, hnew, hold, fun u v w hu he => ?_⟩
  · refine hcol.nodup (fun i => (hT i).1) fun i j d x y h1 h2 => ?_
    have e1 := ((hT i).2.1 d).1 (List.mem_map.2 ⟨_, h1, rfl⟩)
    have e2 := ((hT j).2.1 d).1 (List.mem_map.2 ⟨_, h2, rfl⟩)
    rw [e1] at e2; exact Option.some.inj e2
  · obtain ⟨i, hi'⟩ := hcol.sub p hp
    exact (hT i).2.2 p hi'
  · have hdone : VDn b m g ⟨u, v, w⟩ := hdn ⟨u, v, w⟩ ⟨by simpa using hu, he⟩
    have hb : b ≤ inf := by rw [← hs u hu]; exact hm u
    by_cases hin : v ∈ o.map Prod.fst
    · obtain ⟨u', w', hu', he', h1, h2⟩ := hnew v hin
      rw [clear, if_pos hin, h1]
      rw [hi.mem] at h1
      rcases hdone with ⟨_, h⟩ | h
      · have h : top + min b w.toNat ≤ g.m v := h
        simp only [top, inf] at *; omega
      · have h : min b w.toNat ≤ m v := h
        simp only [top, inf] at *; omega
    · rw [clear, if_neg hin, hold v hin]
      rcases hdone with ⟨h, _⟩ | h
      · exact absurd ((hmem v).2 (Option.ne_none_iff_exists'.1 h)) hin
      · exact h

/-! ### The loop -/

theorem foldl_max_le {l : List Int} {z : Int} : z ≤ l.foldl max z ∧ ∀ x ∈ l, x ≤ l.foldl max z := by
  induction l generalizing z with
  | nil => exact ⟨Int.le_refl _, fun _ h => by cases h⟩
  | cons a l ih =>
    obtain ⟨h1, h2⟩ := ih (z := max z a)
    rw [List.foldl_cons]
    refine ⟨by omega, fun x hx => ?_⟩
    rcases List.mem_cons.1 hx with rfl | hx
    · omega
    · exact h2 x hx

theorem le_maxW {G : Gr Int} (hG : G.Ok) {u v : Nat} {w : Int} (h : (v, w) ∈ G.fwd u) : w ≤ maxW G :=
  foldl_max_le.2 w (List.mem_flatMap.2 ⟨u, List.mem_range.2 (hG.bound _ _ _ h).1, List.mem_map.2 ⟨_, h, rfl⟩⟩)

/-- The state of the loop. -/
structure Inv (G : Gr Int) (M : Nat) (c : Cfg) (src : Nat) (m : Nat → Nat) (P : Nat → Prop) (lb : Nat) (st : BS) :
    Prop where
  reach : Reach c .earlier G.n (ring M m) P lb st
  le : ∀ d, m d ≤ M ∨ m d = inf
  good : ∀ d, 0 < m d → Route G src d (m d)
  src : m src = inf
  pend : ∀ v, P v → 0 < m v
  relaxed : ∀ u, 0 < m u → ¬ P u → ∀ v w, (v, w) ∈ G.fwd u → min (m u) w.toNat ≤ m v

variable {G : Gr Int} {src opn M : Nat}

theorem getBkt_eq (hM : M < inf) {x : Nat} (hx : x ≤ M) : getBkt M x = M + 1 - x := by
  unfold getBkt; simp only [inf] at *; omega

theorem ring_eq_null (hM : M < inf) {m : Nat → Nat} (hm : ∀ d, m d ≤ M ∨ m d = inf) (v : Nat) :
    ring M m v = null ↔ m v = 0 := by
  rw [ring]
  by_cases h : m v = 0
  · simp [h]
  · rw [if_neg h]
    by_cases h' : m v = inf
    · rw [if_pos h']; simp only [null]; omega
    · rw [if_neg h', getBkt_eq hM ((hm v).resolve_right h')]
      simp only [null, inf] at *; omega

theorem ring_pos (hM : M < inf) {m : Nat → Nat} {v : Nat} (h0 : 0 < m v) (h : m v ≤ M) : ring M m v = M + 1 - m v := by
  rw [ring, if_neg (by omega), if_neg (by omega), getBkt_eq hM h]

theorem ring_inf {m : Nat → Nat} {v : Nat} (h0 : m v = inf) : ring M m v = 0 := by
  rw [ring, if_neg (by rw [h0]; decide), if_pos h0]

/-- The moves of an iteration. -/
def moves (M : Nat) (m' : Nat → Nat) (o : List (Nat × Nat)) : List (Nat × Nat) :=
  o.map fun p => (p.1, getBkt M (m' p.1 % top))

theorem nextBucket_cur {c : Cfg} {d : Nat → Nat} {fuel : Nat} {st st' : BS} {id : Nat} {ids : List Nat}
    (h : nextBucket c d fuel st = some (id, ids, st')) (hids : ids ≠ []) : id = curNum c st' := by
  induction fuel generalizing st with
  | zero => simp [nextBucket] at h
  | succ fuel ih =>
    rw [nextBucket] at h
    split at h
    · split at h
      · simp at h
      · exact ih h
    · split at h
      · simp only [Option.some.injEq, Prod.mk.injEq] at h
        exact absurd h.2.1.symm hids
      · simp only at h
        split at h
        · exact ih h
        · simp only [Option.some.injEq, Prod.mk.injEq] at h
          obtain ⟨rfl, _, rfl⟩ := h
          rfl

/-- While all buckets are open ones, the bucket `max_weight + 1` acts like the null bucket. -/
theorem dests_eq (hM : M < inf) (hopn : M + 1 < opn) (hopn' : opn < null) {st : BS} (hcur : st.curRange = 0)
    {m m' : Nat → Nat} {o : List (Nat × Nat)}
    (h : ∀ p ∈ o, p.2 = m p.1) (hle : ∀ p ∈ o, m p.1 < m' p.1 % top ∧ m' p.1 % top ≤ M) :
    updateBuckets (cfg opn) st (dests M (cfg opn) st m' o) = moveTo2 (cfg opn) (ring M m) st (moves M m' o) := by
  rw [moveTo2, dests, moves, List.map_map]
  congr 1
  refine List.map_congr_left fun p hp => ?_
  show (_, _) = (_, _)
  have hx := hle p hp
  congr 1
  rw [h p hp, getBkt_eq hM hx.2, getBkt_eq hM (by omega)]
  show getBucket2 _ _ _ _ = getBucket2 _ _ (ring M m p.1) (getBkt M (m' p.1 % top))
  rw [getBkt_eq hM hx.2]
  by_cases h0 : m p.1 = 0
  · have h1 : ring M m p.1 = null := by rw [ring, if_pos h0]
    have e1 : ∀ x, x < opn → toRange (cfg opn) st.curRange x = x := by
      intro x hx
      rw [toRange, hcur]
      show (if true = true then if x < 0 * opn then null else if x < (0 + 1) * opn then x % opn else opn else _) = x
      rw [if_pos rfl, if_neg (by omega), if_pos (by omega), Nat.mod_eq_of_lt hx]
    rw [h1, h0]
    unfold getBucket2
    simp only [e1 _ (show M + 1 - 0 < opn by omega), e1 _ (show M + 1 - m' p.1 % top < opn by omega)]
    have hn : M + 1 - m' p.1 % top ≠ (cfg opn).null := by show _ ≠ null; omega
    rw [if_pos ⟨hn, Or.inr (Or.inl (by omega))⟩, if_pos ⟨hn, Or.inl rfl⟩]
  · rw [ring_pos hM (by omega) (by omega)]

theorem Inv.step (hG : G.Ok) (hw : ∀ u v w, (v, w) ∈ G.fwd u → 0 ≤ w ∧ w ≤ M) (hM : M < inf) (hopn : M + 1 < opn)
    (hopn' : opn < null) {f : Nat} {m m' : Nat → Nat} {P : Nat → Prop} {lb : Nat} {st st1 : BS}
    (h : Inv G M (cfg opn) src m P lb st) {fuel id : Nat} {ids : List Nat}
    (hn : nextBucket (cfg opn) (ring M m) fuel st = some (id, ids, st1)) (hid : id ≠ (cfg opn).null)
    {o : List (Nat × Nat)} (he : EdgeMap (visitF f) G (fun v => decide (v ∈ ids)) m m' o) :
    ∃ st2, updateBuckets (cfg opn) st1 (dests M (cfg opn) st1 m' o) = some st2 ∧
      ∃ P', Inv G M (cfg opn) src (clear o m') P' id st2 ∧ ∀ v, m v < clear o m' v → P' v := by
  obtain ⟨⟨v0, hv0, hv0'⟩, hfirst, hids⟩ := (next_bucket_increasing rfl h.reach hn).2 hid
  have hle : ∀ d, m d ≤ inf := fun d => by have := h.le d; omega
  have hring : ∀ v, P v → (m v = inf ∧ ring M m v = 0) ∨ (m v ≤ M ∧ ring M m v = M + 1 - m v) := by
    intro v hv
    by_cases hx : m v = inf
    · exact Or.inl ⟨hx, ring_inf hx⟩
    · have := (h.le v).resolve_right hx
      exact Or.inr ⟨this, ring_pos hM (h.pend v hv) this⟩
  -- all extracted vertices have the same width
  have hb : ∀ v ∈ ids, m v = m v0 := by
    intro v hv
    obtain ⟨h1, h2⟩ := (hids v).1 hv
    have e1 := hring v h1
    have e2 := hring v0 hv0
    rw [h2] at e1
    rw [hv0'] at e2
    omega
  have hidle : id ≤ M + 1 := by have := hring v0 hv0; omega
  obtain ⟨r1, r2, r3, r4, r5⟩ := round_ok hG hle hb
    (fun u v w e => ⟨(hw u v w e).1, by have := (hw u v w e).2; omega⟩) he
  have hcur : st1.curRange = 0 := by
    have hne : ids ≠ [] := List.ne_nil_of_mem ((hids v0).2 ⟨hv0, hv0'⟩)
    have h1 := nextBucket_cur hn hne
    have h1 : id = st1.curRange * opn + st1.curBkt := h1
    by_contra hc
    have : 1 * opn ≤ st1.curRange * opn := Nat.mul_le_mul_right _ (by omega)
    omega
  have hcl : ∀ d ∈ o.map Prod.fst, ∃ u w, u ∈ ids ∧ (d, w) ∈ G.fwd u ∧ clear o m' d = min (m v0) w.toNat ∧
      m' d % top = min (m v0) w.toNat ∧ m d < min (m v0) w.toNat ∧ min (m v0) w.toNat ≤ M := by
    intro d hd
    obtain ⟨u, w, hu, e, h1, h2⟩ := r3 d hd
    have h3 := hw u d w e
    have h4 : m' d % top = min (m v0) w.toNat := by rw [h1]; simp only [top, inf] at *; omega
    exact ⟨u, w, hu, e, by rw [clear, if_pos hd, h4], h4, h2, by omega⟩
  have hcl' : ∀ d, d ∉ o.map Prod.fst → clear o m' d = m d := fun d hd => by
    rw [clear, if_neg hd, r4 d hd]
  have hge : ∀ d, m d ≤ clear o m' d := by
    intro d
    by_cases hd : d ∈ o.map Prod.fst
    · obtain ⟨_, w, _, _, h1, _, h2, _⟩ := hcl d hd; omega
    · rw [hcl' d hd]
  have hmfst : (moves M m' o).map Prod.fst = o.map Prod.fst := by rw [moves, List.map_map]; rfl
  have hmv : ∀ mv ∈ moves M m' o, mv.1 ∈ o.map Prod.fst ∧ mv.2 = M + 1 - clear o m' mv.1 ∧
      m mv.1 < clear o m' mv.1 ∧ clear o m' mv.1 ≤ M ∧ clear o m' mv.1 ≤ m v0 := by
    intro mv hmv
    obtain ⟨p, hp, rfl⟩ := List.mem_map.1 hmv
    have hin : p.1 ∈ o.map Prod.fst := List.mem_map.2 ⟨p, hp, rfl⟩
    obtain ⟨u, w, hu, e, h1, h2, h3, h4⟩ := hcl p.1 hin
    refine ⟨hin, ?_, by show m p.1 < clear o m' p.1; omega, by show clear o m' p.1 ≤ M; omega,
      by show clear o m' p.1 ≤ m v0; omega⟩
    show getBkt M (m' p.1 % top) = M + 1 - clear o m' p.1
    rw [h2, h1, getBkt_eq hM h4]
  have hidv : (m v0 = inf ∧ id = 0) ∨ (m v0 ≤ M ∧ id = M + 1 - m v0) := by
    have := hring v0 hv0; rwa [hv0'] at this
  have hr1 := Reach.next _ _ _ _ fuel id ids st1 h.reach hn hid
  have hm1 : ((moves M m' o).map Prod.fst).Nodup := by rw [hmfst]; exact r1
  have hm2 : ∀ mv ∈ moves M m' o, mv.2 = (cfg opn).null ∨ (mv.2 < (cfg opn).null ∧ notAfter (cfg opn) id mv.2) := by
    intro mv hmv'
    obtain ⟨h1, h2, h3, h4, h5⟩ := hmv mv hmv'
    refine Or.inr ⟨by show mv.2 < null; omega, ?_⟩
    show id ≤ mv.2
    omega
  have hm3 : ∀ mv ∈ moves M m' o,
      MoveOK (cfg opn) .earlier (ring M m) (fun v => P v ∧ ring M m v ≠ id) id mv := by
    intro mv hmv'
    obtain ⟨h1, h2, h3, h4, h5⟩ := hmv mv hmv'
    refine ⟨by show mv.2 ≠ null; omega, ?_⟩
    by_cases hx : m mv.1 = 0
    · exact Or.inl ((ring_eq_null hM h.le _).2 hx)
    · refine Or.inr (Or.inl ?_)
      show ¬ ring M m mv.1 ≤ mv.2
      rw [ring_pos hM (by omega) (by omega)]; omega
  obtain ⟨st2, hst2⟩ := move2_ok hr1 _ hm1 hm2 hm3
  refine ⟨st2, ?_, ?_⟩
  · rw [dests_eq hM hopn hopn' hcur r2 (fun p hp => ?_)]
    · exact hst2
    · obtain ⟨u, w, hu, e, h1, h2, h3, h4⟩ := hcl p.1 (List.mem_map.2 ⟨p, hp, rfl⟩)
      omega
  have hr2 := Reach.move2 _ _ _ _ st2 _ hr1 hm1 hm2 hm3 hst2
  have hset : setAll (ring M m) (moves M m' o) = ring M (clear o m') := by
    funext v
    by_cases hv : v ∈ o.map Prod.fst
    · rw [← hmfst] at hv
      obtain ⟨mv, hmv1, rfl⟩ := List.mem_map.1 hv
      obtain ⟨h1, h2, h3, h4, h5⟩ := hmv mv hmv1
      rw [setAll_of_mem _ _ hm1 hmv1, ring_pos hM (by omega) h4, h2]
    · rw [setAll_of_not_mem _ _ (by rw [hmfst]; exact hv), ring, ring, hcl' v hv]
  rw [hset] at hr2
  have hP' : ∀ v, presentAfter (cfg opn) (ring M m) (fun v => P v ∧ ring M m v ≠ id) (moves M m' o) v ↔
      v ∈ o.map Prod.fst ∨ (P v ∧ ring M m v ≠ id) := by
    intro v
    rw [presentAfter, hmfst, hset]
    by_cases hv : v ∈ o.map Prod.fst
    · rw [if_pos hv]
      obtain ⟨_, w, _, _, h4, _, h5, h6⟩ := hcl _ hv
      refine ⟨fun _ => Or.inl hv, fun _ => ?_⟩
      rw [ring_pos hM (by omega) (by omega)]
      show _ ≠ null
      omega
    · rw [if_neg hv]
      simp only [hv, false_or]
  refine ⟨_, ⟨hr2, fun d => ?_, fun d hd => ?_, ?_, fun v hv => ?_, fun u hu hP v w e => ?_⟩, fun v hv => ?_⟩
  · by_cases hin : d ∈ o.map Prod.fst
    · obtain ⟨_, w, _, _, h4, _, h5, h6⟩ := hcl _ hin; omega
    · rw [hcl' d hin]; exact h.le d
  · by_cases hin : d ∈ o.map Prod.fst
    · obtain ⟨u, w, hu, e, h1, _, h2, h3⟩ := hcl d hin
      have hmu := hb u hu
      rw [h1, ← hmu]
      exact .cons w (h.good u (h.pend u ((hids u).1 hu).1)) e
    · rw [hcl' d hin] at hd ⊢; exact h.good d hd
  · by_cases hin : src ∈ o.map Prod.fst
    · obtain ⟨_, w, _, _, h4, _, h5, h6⟩ := hcl _ hin
      have := h.src; omega
    · rw [hcl' src hin]; exact h.src
  · rcases (hP' v).1 hv with hin | ⟨h1, h2⟩
    · obtain ⟨_, w, _, _, h4, _, h5, h6⟩ := hcl _ hin; omega
    · exact Nat.lt_of_lt_of_le (h.pend v h1) (hge v)
  · rw [hP'] at hP
    have hnin : u ∉ o.map Prod.fst := fun hc => hP (Or.inl hc)
    rw [hcl' u hnin] at hu ⊢
    by_cases hPu : P u
    · have hmu : ring M m u = id := by
        by_contra hne; exact hP (Or.inr ⟨hPu, hne⟩)
      have hin := (hids u).2 ⟨hPu, hmu⟩
      rw [hb u hin]
      exact r5 u v w hin e
    · exact Nat.le_trans (h.relaxed u hu hPu v w e) (hge v)
  · refine (hP' v).2 (Or.inl ?_)
    by_contra hc
    rw [hcl' v hc] at hv; omega

theorem inv_init (hs : src < G.n) (hM : M < inf) (hopn : 0 < opn) (hopn' : opn < null) :
    ∃ st, create (cfg opn) G.n (ring M (width0 src)) = some st ∧
      ∃ P lb, Inv G M (cfg opn) src (width0 src) P lb st := by
  have hr0 : ∀ d, ring M (width0 src) d = if d = src then 0 else null := by
    intro d
    rw [ring, width0]
    by_cases h : d = src
    · simp [h, inf]
    · simp [h]
  have h3 : ∀ v, ring M (width0 src) v ≤ (cfg opn).null := fun v => by
    show _ ≤ null
    rw [hr0]; split <;> omega
  have h4 : ∀ v, G.n ≤ v → ring M (width0 src) v = (cfg opn).null := fun v hv => by
    rw [hr0, if_neg (by omega)]; rfl
  obtain ⟨st, hst⟩ := create_ok (c := cfg opn) (n := G.n) hopn hopn' h3 h4 (fun h => by cases h)
  have hr := Reach.init (mode := .earlier) _ st hopn hopn' h3 h4 (fun h => by cases h) hst
  have hP : ∀ v, ring M (width0 src) v ≠ (cfg opn).null ↔ v = src := by
    intro v
    rw [hr0]
    show _ ≠ null ↔ _
    by_cases h : v = src
    · rw [if_pos h]; exact ⟨fun _ => h, fun _ => by decide⟩
    · rw [if_neg h]; exact ⟨fun h' => absurd rfl h', fun h' => absurd h' h⟩
  refine ⟨st, hst, _, _, hr, fun d => ?_, fun d hd => ?_, ?_, fun v hv => ?_, fun u hu hPu => ?_⟩
  · rw [width0]; split
    · exact Or.inr rfl
    · exact Or.inl (Nat.zero_le _)
  · have hd' : d = src := by
      by_contra hc; rw [width0, if_neg hc] at hd; omega
    subst hd'
    rw [width0, if_pos rfl]; exact .nil
  · rw [width0, if_pos rfl]
  · rw [width0, if_pos ((hP v).1 hv)]; decide
  · have hu' : u = src := by
      by_contra hc; rw [width0, if_neg hc] at hu; omega
    exact absurd ((hP u).2 hu') hPu

theorem after_ok (hG : G.Ok) (hs : src < G.n) (hw : ∀ u v w, (v, w) ∈ G.fwd u → 0 ≤ w)
    (hM : (maxW G).toNat + 1 < opn) (hM' : (maxW G).toNat < inf) (hopn' : opn < null) {f : Nat} {m : Nat → Nat}
    {st : BS} (h : After f opn G src m st) :
    ∃ P lb, Inv G (maxW G).toNat (cfg opn) src m P lb st := by
  have hw' : ∀ u v w, (v, w) ∈ G.fwd u → 0 ≤ w ∧ w ≤ ((maxW G).toNat : Int) := fun u v w e => by
    have := hw u v w e
    have := le_maxW hG e
    omega
  obtain ⟨st0, h0, hrun⟩ := h
  obtain ⟨st0', h0', P, lb, hi⟩ := inv_init (G := G) hs hM' (by omega) hopn'
  rw [h0, Option.some.injEq] at h0'
  subst h0'
  clear h0
  generalize width0 src = m0 at hrun hi
  induction hrun with
  | nil => exact ⟨P, lb, hi⟩
  | cons _ hstep ih =>
    obtain ⟨P', lb', hi'⟩ := ih
    cases hstep with
    | mk hn hid he hu =>
      obtain ⟨st2, e1, P2, hi2, _⟩ := hi'.step hG hw' hM' hM hopn' hn hid he
      rw [hu, Option.some.injEq] at e1
      subst e1
      exact ⟨P2, _, hi2⟩

/-! ### Theorems -/

/-- C36 when `max_weight + 1` is less than the number of open buckets: every vertex whose width was raised is in
the structure after the iteration. -/
theorem widest_rebucket_partial (hG : G.Ok) (hs : src < G.n) (hw : ∀ u v w, (v, w) ∈ G.fwd u → 0 ≤ w)
    (hM : (maxW G).toNat + 1 < opn) (hM' : (maxW G).toNat < inf) (hopn' : opn < null) {f : Nat} {m m' : Nat → Nat}
    {st st' : BS} (h : After f opn G src m st) (hstep : Step f (cfg opn) G m st m' st') :
    ∃ P lb, Reach (cfg opn) .earlier G.n (ring (maxW G).toNat m') P lb st' ∧ ∀ v, m v < m' v → P v := by
  have hw' : ∀ u v w, (v, w) ∈ G.fwd u → 0 ≤ w ∧ w ≤ ((maxW G).toNat : Int) := fun u v w e => by
    have := hw u v w e
    have := le_maxW hG e
    omega
  obtain ⟨P, lb, hi⟩ := after_ok hG hs hw hM hM' hopn' h
  cases hstep with
  | mk hn hid he hu =>
    obtain ⟨st2, e1, P2, hi2, hlow⟩ := hi.step hG hw' hM' hM hopn' hn hid he
    rw [hu, Option.some.injEq] at e1
    subst e1
    exact ⟨P2, _, hi2.reach, hlow⟩

/-- C36 under the same hypothesis: the result is right. -/
theorem widest_correct_partial (hG : G.Ok) (hs : src < G.n) (hw : ∀ u v w, (v, w) ∈ G.fwd u → 0 ≤ w)
    (hM : (maxW G).toNat + 1 < opn) (hM' : (maxW G).toNat < inf) (hopn' : opn < null) {f : Nat} {width : Nat → Nat}
    (h : SSWidestPath f opn G src width) : ∀ v, IsWidest G src v (width v) := by
  obtain ⟨st, ha, fuel, ids, st', hn⟩ := h
  obtain ⟨P, lb, hi⟩ := after_ok hG hs hw hM hM' hopn' ha
  have hP : ∀ v, ¬ P v := (next_bucket_increasing rfl hi.reach hn).1 rfl
  refine fun v => ⟨fun y hy => ?_, ?_⟩
  · induction hy with
    | nil => rw [hi.src]
    | @cons u v x w _ e ih =>
      by_cases h0 : width u = 0
      · omega
      · have := hi.relaxed u (by omega) (hP u) v w e
        omega
  · by_cases h0 : width v = 0
    · exact Or.inl h0
    · exact Or.inr (hi.good v (by omega))

/-! ### Examples -/

/-- 0 → 1 (1), 1 → 2 (1), 0 → 2 (5), 2 → 1 (3), and an edge 3 → 0 of weight `w`. -/
def exG (w : Int) : Gr Int := Gr.ofLists [[(1, 1), (2, 5)], [(2, 1)], [(1, 3)], [(0, w)]]
  [[(3, w)], [(0, 1), (2, 3)], [(1, 1), (0, 5)], []]

theorem exG_ok : (exG 7).Ok := Gr.ofLists_ok (by decide)

example : (maxW (exG 7)).toNat + 1 < 10 ∧
    ∃ width, SSWidestPath 1 10 (exG 7) 0 width ∧ width 1 = 3 ∧ width 2 = 5 ∧ width 3 = 0 := by
  refine ⟨by decide, _, ⟨_, ⟨_, rfl, .cons (.cons (.cons .nil
    (.mk (fuel := 19) rfl (by decide) (edgeMap_seq (activeEdges (exG 7) _) (mem_activeEdges exG_ok) rfl) rfl))
    (.mk (fuel := 19) rfl (by decide) (edgeMap_seq (activeEdges (exG 7) _) (mem_activeEdges exG_ok) rfl) rfl))
    (.mk (fuel := 19) rfl (by decide) (edgeMap_seq (activeEdges (exG 7) _) (mem_activeEdges exG_ok) rfl) rfl)⟩,
    19, _, _, rfl⟩, ?_, ?_, ?_⟩ <;> decide

/-- 0 → 1 (1), 1 → 2 (1), 3 → 0 (200). -/
def badG : Gr Int := Gr.ofLists [[(1, 1)], [(2, 1)], [], [(0, 200)]] [[(3, 200)], [(0, 1)], [(1, 1)], []]

theorem badG_ok : badG.Ok := Gr.ofLists_ok (by decide)

/-- C36 is false: with the default 128 buckets and a maximum weight of 200, vertex 1 is reached in the first
iteration but `get_bucket(201, 200)` sees the overflow bucket twice and does not insert it; vertex 2 is
returned with width 0 although 0 → 1 → 2 has capacity 1. -/
theorem widest_lost : ∃ width, SSWidestPath 1 127 badG 0 width ∧ width 1 = 1 ∧ width 2 = 0 ∧ Route badG 0 2 1 := by
  have hw : Route badG 0 2 1 := by
    have h1 : Route badG 0 1 1 := Route.cons (x := inf) 1 .nil (by decide)
    exact Route.cons (x := 1) 1 h1 (by decide)
  refine ⟨_, ⟨_, ⟨_, rfl, .cons .nil
    (.mk (fuel := 9) rfl (by decide) (edgeMap_seq (activeEdges badG _) (mem_activeEdges badG_ok) rfl) rfl)⟩,
    9, _, _, rfl⟩, ?_, ?_, hw⟩ <;> decide

end Gbbs.Widest
