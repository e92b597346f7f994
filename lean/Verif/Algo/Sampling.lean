/-
C73: sampling by breadth-first search and by low-diameter decomposition,
`benchmarks/Connectivity/ConnectIt/sampling.h`.
-/
import Verif.EdgeMap.Rounds
import Verif.Algo.LabelProp
import Verif.Algo.LDD

namespace Gbbs.Sampling

open Conc Conc.Prog Em Comp
open Atomics (Steps)

variable {W : Type}

/-! ### Model -/

/-- `BFS_ComponentLabel_F`, `sampling.h:342-361`: here "unreached" is `Parents[d] == d`. -/
def bfsF (src : Nat) : Func W Nat Nat Unit where
  cond d := read d fun x => ret (x == d)
  updA _ d _ := cas d d src fun b => ret (if b then some () else none)
  upd _ d _ := read d fun x => if x ≠ src then write d src (ret (some ())) else ret none

/-- The edges out of a frontier, with repetitions if vertices are repeated. -/
def edgesOf (G : Gr W) (F : List Nat) : List (Edge W) := F.flatMap fun s => (G.fwd s).map fun x => ⟨s, x.1, x.2⟩

/-- `numEdges`, the length of the edge array. -/
def numEdges (G : Gr W) : Nat := (edgesOf G (List.range G.n)).length

/-- One call of `edgeMap` by `BFS_ComponentLabel`, with the choice of the traversal of `edge_map_data.h:138-185` (threshold
`numEdges / 20`). `isD`: the frontier is in dense representation. The sparse traversal divides the edges among `ids`
threads (C18) and concatenates their outputs. -/
inductive Round (G : Gr W) (src : Nat) : Bool → List Nat → (Nat → Nat) → Bool → List Nat → (Nat → Nat) → Prop
  | dense {isD F m m' o out} (hc : isD = true ∧ G.n / 10 < F.length ∨ numEdges G / 20 < F.length + (edgesOf G F).length)
      (h : Steps Step (⟨m, denseProg (bfsF src) G (fun v => decide (v ∈ F)) true⟩ : Conf (Nat × Nat) Nat Nat (List (Nat × Unit)))
        ⟨m', fun i => ret (out i)⟩) (hcol : Collect out o) : Round G src isD F m true (o.map Prod.fst) m'
  | sparse {isD F m m'} (hc : F.length + (edgesOf G F).length ≤ numEdges G / 20) (ids : List (Nat × Nat))
      (work : Nat × Nat → List (Edge W)) (hids : ids.Nodup) (hw : (ids.flatMap work).Perm (edgesOf G F)) (hout : ∀ i, i ∉ ids → work i = [])
      {out : Nat × Nat → List (Nat × Unit)}
      (h : Steps Step (⟨m, fun i => sparseRun (bfsF src) (work i) []⟩ : Conf (Nat × Nat) Nat Nat (List (Nat × Unit)))
        ⟨m', fun i => ret (out i)⟩) : Round G src isD F m false ((ids.flatMap out).map Prod.fst) m'

/-- The loop `sampling.h:375-382`, `k` rounds. -/
inductive Loop (G : Gr W) (src : Nat) : Bool → List Nat → (Nat → Nat) → Nat → (Nat → Nat) → Prop
  | done (isD m) : Loop G src isD [] m 0 m
  | round {isD F m isD' F' m' k m''} (hF : F ≠ []) (h : Round G src isD F m isD' F' m')
      (hl : Loop G src isD' F' m' k m'') : Loop G src isD F m (k + 1) m''

/-- `BFS_ComponentLabel(G, src)`, `sampling.h:364-384`. -/
def Bfs (G : Gr W) (src k : Nat) (par : Nat → Nat) : Prop := Loop G src false [src] (fun x => x) k par

/-! ### Specification -/

/-- There is an edge from `u` to `v`. -/
abbrev Adj (G : Gr W) (u v : Nat) : Prop := LabelProp.Adj G u v

/-! ### Proof -/

theorem mem_edgesOf {G : Gr W} {F : List Nat} (e : Edge W) : e ∈ edgesOf G F ↔ Active G (fun v => decide (v ∈ F)) e := by
  obtain ⟨s, d, w⟩ := e
  simp only [edgesOf, List.mem_flatMap, List.mem_map, Active, decide_eq_true_eq]
  constructor
  · rintro ⟨s', h1, x, h2, h3⟩
    injection h3 with h3 h4 h5
    subst h3; subst h4; subst h5
    exact ⟨h1, h2⟩
  · rintro ⟨h1, h2⟩
    exact ⟨s, h1, (d, w), h2, rfl⟩

/-- Every round is a call of `edgeMap` in the sense of the framework. -/
theorem Round.edgeMap {G : Gr W} {src : Nat} {isD isD' : Bool} {F F' : List Nat} {m m' : Nat → Nat}
    (h : Round G src isD F m isD' F' m') :
    ∃ o, F' = o.map Prod.fst ∧ EdgeMap (bfsF src) G (fun v => decide (v ∈ F)) m m' o := by
  cases h with
  | dense _ h hcol => exact ⟨_, rfl, _, .dense true, _, h, hcol⟩
  | sparse _ ids work hids hw hout h =>
    rename_i out
    have hnil : ∀ i, i ∉ ids → out i = [] := by
      intro i hi
      obtain ⟨_, -, -, h3⟩ := safe_reach (ι := Nat × Nat) (G := Unit)
        ⟨fun _ _ => True, fun _ _ _ => True, fun _ _ _ => True, fun _ _ => trivial, fun _ _ _ _ _ _ => trivial, fun _ _ _ _ _ _ => trivial⟩
        (fun i _ l => i ∉ ids → l = []) h () trivial fun i => by
          by_cases hi : i ∈ ids
          · have any : ∀ {α : Type} (p : Prog Nat Nat α) (P : Unit → α → Prop), (∀ a, P () a) → Safe (ι := Nat × Nat) (G := Unit)
                ⟨fun _ _ => True, fun _ _ _ => True, fun _ _ _ => True, fun _ _ => trivial, fun _ _ _ _ _ _ => trivial,
                  fun _ _ _ _ _ _ => trivial⟩ i P p () := by
              intro α p P hP
              induction p with
              | ret a => exact fun _ _ => hP a
              | stuck => trivial
              | read x k ih => exact fun _ _ _ _ => ⟨(), trivial, trivial, ih _⟩
              | write x v k ih => exact fun _ _ _ _ => ⟨(), trivial, trivial, ih⟩
              | cas x o n k ih => exact fun _ _ _ _ => ⟨fun _ => ⟨(), trivial, trivial, ih _⟩, fun _ => ⟨(), trivial, trivial, ih _⟩⟩
            exact any _ _ fun a h => absurd hi h
          · show Safe _ i _ (sparseRun (bfsF src) (work i) []) _
            rw [hout i hi]
            exact fun _ _ _ => rfl
      exact h3 i _ rfl hi
    refine ⟨_, rfl, _, .chunked work fun e => ?_, out, h, ?_, ?_, ?_⟩
    · rw [← mem_edgesOf, ← hw.mem_iff, List.mem_flatMap]
      constructor
      · rintro ⟨i, hi⟩
        by_cases h : i ∈ ids
        · exact ⟨i, h, hi⟩
        · rw [hout i h] at hi; cases hi
      · rintro ⟨i, -, hi⟩; exact ⟨i, hi⟩
    · intro x hx
      obtain ⟨i, -, hi⟩ := List.mem_flatMap.1 hx
      exact ⟨i, hi⟩
    · intro i d x hx
      refine ⟨x, List.mem_flatMap.2 ⟨i, ?_, hx⟩⟩
      by_contra hc
      rw [hnil i hc] at hx; cases hx
    · intro h1 h2
      rw [List.map_flatMap]
      rw [List.nodup_flatMap]
      refine ⟨fun i _ => h1 i, hids.imp_of_mem fun {i j} _ _ hne => ?_⟩
      intro d hd1 hd2
      obtain ⟨⟨d1, x⟩, hx, rfl⟩ := List.mem_map.1 hd1
      obtain ⟨⟨d2, y⟩, hy, h3⟩ := List.mem_map.1 hd2
      simp only at h3
      subst h3
      exact hne (h2 i j _ x y hx hy)

structure Gh where
  p : Nat → Nat
  own : Nat → Option (Nat × Nat)

structure GInv (src : Nat) (m0 : Nat → Nat) (Ac : Edge W → Prop) (g : Gh) (m : Nat → Nat) : Prop where
  mem : g.p = m
  old : ∀ d, g.p d ≠ m0 d → ∃ i, g.own d = some i
  two : ∀ d, g.p d = d ∨ g.p d = src
  new : ∀ d, g.p d = m0 d ∨ g.p d = src ∧ ∃ e, Ac e ∧ e.d = d

def brg (src : Nat) (m0 : Nat → Nat) (Ac : Edge W → Prop) (_ : Nat × Nat → Nat → Prop) : RG (Nat × Nat) Gh Nat Nat where
  Inv := GInv src m0 Ac
  R i g g' := (∀ d, g'.own d = some i ↔ g.own d = some i) ∧ ∀ d, g.p d = src → g'.p d = src
  Gu i g g' := (∀ d j, j ≠ i → (g'.own d = some j ↔ g.own d = some j)) ∧ ∀ d, g.p d = src → g'.p d = src
  refl _ _ := ⟨fun _ => Iff.rfl, fun _ h => h⟩
  trans _ _ _ _ h1 h2 := ⟨fun d => (h2.1 d).trans (h1.1 d), fun d h => h2.2 d (h1.2 d h)⟩
  compat i j _ _ hne h := ⟨fun d => h.1 d j (Ne.symm hne), h.2⟩

def BT (src : Nat) (m0 : Nat → Nat) (Ac : Edge W → Prop) (i : Nat × Nat) (g : Gh) (l : List (Nat × Unit)) : Prop :=
  (∀ d, g.own d = some i → d ∈ l.map Prod.fst) ∧ ∀ d ∈ l.map Prod.fst, g.p d = src ∧ (m0 d = src → d = src) ∧ ∃ e, Ac e ∧ e.d = d

section
variable {src : Nat} {m0 : Nat → Nat} {Ac : Edge W → Prop} {may : Nat × Nat → Nat → Prop}

theorem BT.stable {i : Nat × Nat} {g g' : Gh} {l : List (Nat × Unit)} (hr : (brg src m0 Ac may).R i g g')
    (h : BT src m0 Ac i g l) : BT src m0 Ac i g' l :=
  ⟨fun d hd => h.1 d ((hr.1 d).1 hd), fun d hd => ⟨hr.2 d (h.2 d hd).1, (h.2 d hd).2⟩⟩

/-- The ghost state after thread `i` labels `d`. -/
def Gh.label (g : Gh) (src : Nat) (i : Nat × Nat) (d : Nat) : Gh :=
  ⟨put g.p d src, fun x => if x = d ∧ g.own d = none then some i else g.own x⟩

theorem label_ok {i : Nat × Nat} {g : Gh} {m : Nat → Nat} (hi : GInv src m0 Ac g m) {e : Edge W} (he : Ac e)
    (hnew : m0 e.d = src → e.d = src) {l : List (Nat × Unit)} (hT : BT src m0 Ac i g l) :
    (brg src m0 Ac may).Gu i g (g.label src i e.d) ∧ GInv src m0 Ac (g.label src i e.d) (put m e.d src) ∧
    BT src m0 Ac i (g.label src i e.d) (emit e.d (some ()) l) ∧ (g.label src i e.d).p e.d = src := by
  have hp : ∀ d, g.p d = src → (g.label src i e.d).p d = src := by
    intro d hd
    by_cases h : d = e.d
    · subst h; exact put_same _ _ _
    · exact (put_ne _ _ h).trans hd
  refine ⟨⟨fun d j hj => ?_, hp⟩, ⟨?_, fun d hd => ?_, fun d => ?_, fun d => ?_⟩, ⟨fun d hd => ?_, fun d hd => ?_⟩, put_same _ _ _⟩
  · simp only [Gh.label]
    split
    · rename_i h
      rw [h.1, h.2]
      simp [Ne.symm hj]
    · exact Iff.rfl
  · show put g.p e.d src = put m e.d src
    rw [hi.mem]
  · by_cases h : d = e.d
    · subst h
      simp only [Gh.label]
      split
      · exact ⟨i, rfl⟩
      · rename_i h
        simp only [true_and] at h
        exact Option.ne_none_iff_exists'.1 h
    · simp only [Gh.label, h, false_and, if_false]
      exact hi.old d (by rw [← put_ne g.p src h]; exact hd)
  · by_cases h : d = e.d
    · subst h; exact .inr (put_same _ _ _)
    · have : (g.label src i e.d).p d = g.p d := put_ne _ _ h
      rw [this]; exact hi.two d
  · by_cases h : d = e.d
    · subst h; exact .inr ⟨put_same _ _ _, e, he, rfl⟩
    · have : (g.label src i e.d).p d = g.p d := put_ne _ _ h
      rw [this]; exact hi.new d
  · rw [emit, List.map_cons, List.mem_cons]
    by_cases h : d = e.d
    · exact .inl h
    · simp only [Gh.label, h, false_and, if_false] at hd
      exact .inr (hT.1 d hd)
  · rw [emit, List.map_cons, List.mem_cons] at hd
    rcases hd with hd | hd
    · have hd : d = e.d := hd
      subst hd; exact ⟨put_same _ _ _, hnew, e, he, rfl⟩
    · exact ⟨hp d (hT.2 d hd).1, (hT.2 d hd).2⟩

theorem gu_refl (i : Nat × Nat) (g : Gh) : (brg src m0 Ac may).Gu i g g := ⟨fun _ _ _ => Iff.rfl, fun _ h => h⟩

theorem hnew {g : Gh} {m : Nat → Nat} (hi : GInv src m0 Ac g m) {d : Nat} (h : m d = src → d = src) :
    m0 d = src → d = src := by
  intro h0
  refine h ?_
  rw [← hi.mem]
  rcases hi.new d with h' | h'
  · exact h'.trans h0
  · exact h'.1

theorem bfs_spec (src : Nat) (m0 : Nat → Nat) (Ac : Edge W → Prop) :
    FSpec (brg src m0 Ac) (bfsF src) Ac (BT src m0 Ac) (fun g e => g.p e.d = src) where
  keep may i e := ⟨fun _ _ hr h => hr.2 _ h, fun _ _ hr h => hr.2 _ h⟩
  stable may i l g g' hr h := h.stable hr
  cond may i l g d hT := by
    intro g1 m1 hr1 hi1
    refine ⟨g1, gu_refl _ _, hi1, fun g2 hr2 => ⟨(hT.stable hr1).stable hr2, fun hb e _ he => hr2.2 _ ?_⟩⟩
    subst he
    rcases hi1.two e.d with h | h
    · rw [hi1.mem] at h; simp [h] at hb
    · exact h
  updA may i l g e he hm hT := by
    intro g1 m1 hr1 hi1
    have hT1 := hT.stable hr1
    refine ⟨fun hu => ?_, fun hu => ?_⟩
    · obtain ⟨h1, h2, h3, h4⟩ := label_ok (may := may) hi1 he (hnew hi1 fun h => hu.symm.trans h) hT1
      exact ⟨_, h1, h2, fun g2 hr2 => ⟨h3.stable hr2, hr2.2 _ h4⟩⟩
    · refine ⟨g1, gu_refl _ _, hi1, fun g2 hr2 => ⟨hT1.stable hr2, hr2.2 _ ?_⟩⟩
      rcases hi1.two e.d with h | h
      · rw [hi1.mem] at h; exact absurd h hu
      · exact h
  upd may i l g e he hm hx hT := by
    intro g1 m1 hr1 hi1
    have hT1 := hT.stable hr1
    refine ⟨g1, gu_refl _ _, hi1, ?_⟩
    beta_reduce
    split
    · rename_i h
      intro g2 m2 hr2 hi2
      obtain ⟨h1, h2, h3, h4⟩ := label_ok (may := may) hi2 he (hnew hi1 fun h' => absurd h' h) (hT1.stable hr2)
      exact ⟨_, h1, h2, fun g3 hr3 => ⟨h3.stable hr3, hr3.2 _ h4⟩⟩
    · rename_i h
      rw [Decidable.not_not, ← hi1.mem] at h
      exact fun g2 hr2 => ⟨hT1.stable hr2, hr2.2 _ h⟩
end

/-- What a round does: the targets of the edges of the frontier are labelled; the new frontier has all newly labelled
vertices, and only targets. -/
theorem round_spec {G : Gr W} (hG : G.Ok) {src : Nat} {isD isD' : Bool} {F F' : List Nat} {m m' : Nat → Nat}
    (h2 : ∀ d, m d = d ∨ m d = src) (h : Round G src isD F m isD' F' m') :
    (∀ d, m' d = d ∨ m' d = src) ∧ (∀ d, m' d = src ↔ m d = src ∨ ∃ u ∈ F, Adj G u d) ∧
    (∀ d, m' d ≠ m d → d ∈ F') ∧ ∀ d ∈ F', m' d = src ∧ (m d = src → d = src) ∧ ∃ u ∈ F, Adj G u d := by
  obtain ⟨o, rfl, hr⟩ := h.edgeMap
  obtain ⟨g, out, hi, hdn, hT, hcol⟩ := edgeMap_sound (bfs_spec src m (Active G fun v => decide (v ∈ F))) G hG _
    (fun _ h => h) (GInv src m (Active G fun v => decide (v ∈ F))) (fun _ _ _ => Iff.rfl) ⟨m, fun _ => none⟩
    ⟨rfl, fun _ h => absurd rfl h, h2, fun _ => .inl rfl⟩
    (fun i => ⟨fun d h => (by cases h), fun d h => (by cases h)⟩) hr
  obtain ⟨p, own⟩ := g
  obtain rfl : p = m' := hi.mem
  have hact : ∀ e, Active G (fun v => decide (v ∈ F)) e → ∃ u ∈ F, Adj G u e.d := fun e he =>
    ⟨e.s, by simpa using he.1, e.w, he.2⟩
  refine ⟨hi.two, fun d => ⟨fun hd => ?_, fun hd => ?_⟩, fun d hd => ?_, fun d hd => ?_⟩
  · rcases hi.new d with h | ⟨-, e, he, rfl⟩
    · exact .inl (h.symm.trans hd)
    · exact .inr (hact e he)
  · rcases hd with hd | ⟨u, hu, w, hw⟩
    · rcases hi.new d with h | h
      · exact h.trans hd
      · exact h.1
    · exact hdn ⟨u, d, w⟩ ⟨by simpa using hu, hw⟩
  · obtain ⟨i, hi'⟩ := hi.old d hd
    obtain ⟨⟨d', x⟩, hx, rfl⟩ := List.mem_map.1 ((hT i).1 d hi')
    obtain ⟨y, hy⟩ := hcol.all i _ _ hx
    exact List.mem_map.2 ⟨_, hy, rfl⟩
  · obtain ⟨⟨d', x⟩, hx, rfl⟩ := List.mem_map.1 hd
    obtain ⟨i, hi'⟩ := hcol.sub _ hx
    obtain ⟨h3, h5, e, he, h4⟩ := (hT i).2 d' (List.mem_map.2 ⟨_, hi', rfl⟩)
    exact ⟨h3, h5, by have := hact e he; rw [h4] at this; exact this⟩

/-- The state of the search. -/
structure Inv (G : Gr W) (src : Nat) (m : Nat → Nat) (F : List Nat) : Prop where
  two : ∀ d, m d = d ∨ m d = src
  sound : ∀ d, m d = src → Conn (Adj G) src d
  self : m src = src
  front : ∀ d ∈ F, m d = src
  closed : ∀ v, m v = src → v ∉ F → ∀ u, Adj G v u → m u = src

theorem Inv.step {G : Gr W} (hG : G.Ok) {src : Nat} {isD isD' : Bool} {F F' : List Nat} {m m' : Nat → Nat}
    (h : Inv G src m F) (hr : Round G src isD F m isD' F' m') : Inv G src m' F' := by
  obtain ⟨h1, h2, h3, h4⟩ := round_spec hG h.two hr
  refine ⟨h1, fun d hd => ?_, (h2 _).2 (.inl h.self), fun d hd => (h4 d hd).1, fun v hv hF u hu => ?_⟩
  · rcases (h2 d).1 hd with hd | ⟨u, hu, ha⟩
    · exact h.sound d hd
    · exact (conn_equiv _).trans (h.sound u (h.front u hu)) (.rel _ _ ha)
  · have hmv : m v = src := by
      by_contra hc
      exact hF (h3 v fun he => hc (he.symm.trans hv))
    rw [h2]
    by_cases hvF : v ∈ F
    · exact .inr ⟨v, hvF, hu⟩
    · exact .inl (h.closed v hmv hvF u hu)

theorem loop_inv {G : Gr W} (hG : G.Ok) {src : Nat} {isD : Bool} {m m' : Nat → Nat} {F : List Nat} {k : Nat}
    (hl : Loop G src isD F m k m') (h : Inv G src m F) : Inv G src m' [] := by
  induction hl with
  | done _ m => exact h
  | round _ hr _ ih => exact ih (h.step hG hr)

theorem inv_init (G : Gr W) (src : Nat) : Inv G src (fun x => x) [src] :=
  ⟨fun _ => .inl rfl, fun d hd => hd ▸ (conn_equiv _).refl _, rfl, fun d hd => List.mem_singleton.1 hd,
    fun v hv hF => absurd (List.mem_singleton.2 hv) hF⟩

/-- C73 (`_partial`: if the search ends): a search that ends labels exactly the component of its source with it. -/
theorem bfs_partial {G : Gr W} (hG : G.Ok) (hsym : ∀ u v, Adj G u v → Adj G v u) {src k : Nat} (hs : src < G.n)
    {par : Nat → Nat} (h : Bfs G src k par) :
    (∀ v, par v = if par v = src then src else v) ∧ (∀ v, par v = src ↔ Conn (Adj G) src v) ∧ Start G.n (Adj G) par := by
  have hi := loop_inv hG h (inv_init G src)
  have hc : ∀ v, par v = src ↔ Conn (Adj G) src v := by
    refine fun v => ⟨hi.sound v, fun hc => ?_⟩
    refine (conn_closed (S := fun z => par z = src) (fun a b hab => ?_) hc).1 hi.self
    exact ⟨fun ha => hi.closed a ha (by simp) b hab, fun hb => hi.closed b hb (by simp) a (hsym _ _ hab)⟩
  refine ⟨fun v => ?_, hc, fun x hx => ?_, fun x => ?_, fun x => ?_, fun x hx => ?_⟩
  · split
    · assumption
    · rename_i hne; exact (hi.two v).resolve_right hne
  · rcases hi.two x with h | h <;> rw [h]
    · exact hx
    · exact hs
  · rcases hi.two x with h | h <;> rw [h]
    · exact h
    · exact hi.self
  · rcases hi.two x with h | h
    · rw [h]; exact (conn_equiv _).refl _
    · rw [h]; exact (conn_equiv _).symm (hi.sound x h)
  · rcases hi.two x with h | h
    · exact h
    · have hc := hi.sound x h
      have hlt := (conn_closed (adj := Adj G) (S := fun z => z < G.n) (fun a b ⟨w, hw⟩ => by
        have := hG.bound _ _ _ hw; exact ⟨fun _ => this.2, fun _ => this.1⟩) hc).1 hs
      omega

/-- Vertices not yet labelled. -/
def unseen (n src : Nat) (m : Nat → Nat) : Nat := ((List.range n).filter fun v => decide (m v ≠ src)).length

theorem unseen_le {n src : Nat} {m m' : Nat → Nat} (h : ∀ d, m d = src → m' d = src) : unseen n src m' ≤ unseen n src m := by
  unfold unseen
  rw [← List.countP_eq_length_filter, ← List.countP_eq_length_filter]
  refine List.countP_mono_left fun v _ hv => ?_
  simp only [decide_eq_true_eq] at hv ⊢
  exact fun hc => hv (h v hc)

theorem countP_lt {l : List Nat} {p q : Nat → Bool} (h : ∀ v ∈ l, p v = true → q v = true) {d : Nat} (hd : d ∈ l)
    (h1 : p d = false) (h2 : q d = true) : l.countP p < l.countP q := by
  induction l with
  | nil => cases hd
  | cons a l ih =>
    rw [List.countP_cons, List.countP_cons]
    have hle : l.countP p ≤ l.countP q := List.countP_mono_left fun v hv => h v (List.mem_cons_of_mem _ hv)
    rcases List.mem_cons.1 hd with rfl | hd
    · simp [h1, h2]; omega
    · have := ih (fun v hv => h v (List.mem_cons_of_mem _ hv)) hd
      have ha := h a List.mem_cons_self
      cases hp : p a <;> simp [hp] at ha ⊢
      · omega
      · simp [ha]; omega

theorem unseen_lt {n src : Nat} {m m' : Nat → Nat} (h : ∀ d, m d = src → m' d = src) {d : Nat} (hd : d < n)
    (h1 : m d ≠ src) (h2 : m' d = src) : unseen n src m' < unseen n src m := by
  unfold unseen
  rw [← List.countP_eq_length_filter, ← List.countP_eq_length_filter]
  refine countP_lt (fun v _ hv => ?_) (List.mem_range.2 hd) (by simpa using h2) (by simpa using h1)
  simp only [decide_eq_true_eq] at hv ⊢
  exact fun hc => hv (h v hc)

/-- Once the neighbours of the source are labelled, every round labels another vertex, except for the last two. -/
theorem loop_bound {G : Gr W} (hG : G.Ok) {src : Nat} (hself : ¬ Adj G src src) {isD : Bool} {m m' : Nat → Nat} {F : List Nat}
    {k : Nat} (hl : Loop G src isD F m k m') (h : Inv G src m F) (hnb : ∀ u, Adj G src u → m u = src) :
    k ≤ unseen G.n src m + 2 ∧ ((∀ v ∈ F, v = src) → k ≤ 1) := by
  induction hl with
  | done _ m => exact ⟨by omega, fun _ => by omega⟩
  | @round isD F m isD' F' m1 k m2 hF hr hl ih =>
    obtain ⟨h1, h2, h3, h4⟩ := round_spec hG h.two hr
    obtain ⟨ih1, ih2⟩ := ih (h.step hG hr) fun u hu => (h2 u).2 (.inl (hnb u hu))
    refine ⟨?_, fun hall => ?_⟩
    · by_cases hex : ∃ d ∈ F', d ≠ src
      · obtain ⟨d, hd, hne⟩ := hex
        obtain ⟨h5, h6, u, hu, w, hw⟩ := h4 d hd
        have := unseen_lt (n := G.n) (fun d hd => (h2 d).2 (.inl hd)) (hG.bound _ _ _ hw).2 (fun hc => hne (h6 hc)) h5
        omega
      · have := ih2 fun v hv => by
          by_contra hc
          exact hex ⟨v, hv, hc⟩
        omega
    · have hnil : F' = [] := by
        rw [List.eq_nil_iff_forall_not_mem]
        intro d hd
        obtain ⟨h5, h6, u, hu, ha⟩ := h4 d hd
        rw [hall u hu] at ha
        rw [h6 (hnb d ha)] at ha
        exact hself ha
      subst hnil
      cases hl with
      | done => omega
      | round hne => exact absurd rfl hne

/-- C73: if the source has no edge to itself, the search has at most `n + 2` rounds. -/
theorem bfs_rounds {G : Gr W} (hG : G.Ok) {src k : Nat} (hs : src < G.n) (hself : ¬ Adj G src src) {par : Nat → Nat}
    (h : Bfs G src k par) : k ≤ G.n + 2 := by
  cases h with
  | @round _ _ _ isD' F' m1 k m2 hF hr hl =>
    obtain ⟨h1, h2, h3, h4⟩ := round_spec hG (inv_init G src).two hr
    have := (loop_bound hG hself hl ((inv_init G src).step hG hr) fun u hu => (h2 u).2 (.inr ⟨src, by simp, hu⟩)).1
    have h6 : unseen G.n src m1 < G.n := by
      unfold unseen
      rw [← List.countP_eq_length_filter]
      have := countP_lt (l := List.range G.n) (p := fun v => decide (m1 v ≠ src)) (q := fun _ => true) (fun _ _ _ => rfl)
        (List.mem_range.2 hs) (by simpa using (h2 src).2 (.inl rfl)) rfl
      simpa using this
    omega

/-! ### The search does not end on an edge from the source to itself -/

def selfRG (src : Nat) : RG (Nat × Nat) (Nat → Nat) Nat Nat where
  Inv g m := g = m ∧ m src = src
  R _ _ _ := True
  Gu _ _ _ := True
  refl _ _ := trivial
  trans _ _ _ _ _ _ := trivial
  compat _ _ _ _ _ _ := trivial

theorem self_safe (src : Nat) (i : Nat × Nat) (es : List (Edge W)) (hes : ∀ e ∈ es, e.d = src) (l : List (Nat × Unit)) (g : Nat → Nat) :
    Safe (selfRG src) i (fun _ l' => l'.length = es.length + l.length ∧ ((∀ x ∈ l, x.1 = src) → ∀ x ∈ l', x.1 = src))
      (sparseRun (bfsF src) es l) g := by
  induction es generalizing l g with
  | nil => exact fun _ _ => ⟨by simp, fun h => h⟩
  | cons e es ih =>
    have he := hes e List.mem_cons_self
    rintro g1 m1 - ⟨rfl, h1⟩
    refine ⟨g1, trivial, ⟨rfl, h1⟩, ?_⟩
    beta_reduce
    rw [he, h1]
    show Safe _ _ _ (if (src == src) = true then _ else _) _
    rw [if_pos (by simp)]
    rintro g2 m2 - ⟨rfl, h2⟩
    refine ⟨fun _ => ⟨_, trivial, ⟨rfl, put_same _ _ _⟩, ?_⟩, fun hc => absurd h2 hc⟩
    refine (ih (fun e he => hes e (List.mem_cons_of_mem _ he)) _ _).weaken fun l' _ hl => ⟨?_, fun hl0 => hl.2 fun x hx => ?_⟩
    · have := hl.1
      simp only [emit, if_true, List.length_cons] at this ⊢
      omega
    · rcases List.mem_cons.1 hx with rfl | hx
      · rfl
      · exact hl0 x hx

/-- C73 (negation): if the only edge of the source leads to itself and the graph has at least 40 edges, the search does not end. -/
theorem bfs_hangs {G : Gr W} {src : Nat} {w : W} (hs : G.fwd src = [(src, w)]) (hm : 40 ≤ numEdges G)
    (k : Nat) (par : Nat → Nat) : ¬ Bfs G src k par := by
  have he : edgesOf G [src] = [⟨src, src, w⟩] := by simp [edgesOf, hs]
  suffices hk : ∀ m, m src = src → ¬ Loop G src false [src] m k par from hk _ rfl
  induction k with
  | zero => intro m _ h; cases h
  | succ k ih =>
    intro m hsrc h
    cases h with
    | @round _ _ _ isD' F' m1 _ _ hF hr hl =>
      cases hr with
      | dense hc =>
        rw [he] at hc
        rcases hc with hc | hc
        · exact absurd hc.1 (by decide)
        · simp only [List.length_cons, List.length_nil] at hc; omega
      | sparse hc ids work hids hw hout hst =>
        rename_i out
        rw [he] at hw
        have hwk : ∀ i, ∀ e ∈ work i, e.d = src := by
          intro i e hi
          by_cases h : i ∈ ids
          · have := hw.mem_iff.1 (List.mem_flatMap.2 ⟨i, h, hi⟩)
            rw [List.mem_singleton] at this
            rw [this]
          · rw [hout i h] at hi; cases hi
        obtain ⟨g, ⟨hg, hsrc'⟩, -, h3⟩ := safe_reach (selfRG src) (fun i _ l' => l'.length = (work i).length ∧ ∀ x ∈ l', x.1 = src)
          hst m ⟨rfl, hsrc⟩ fun i => (self_safe src i (work i) (hwk i) [] _).weaken fun l' _ hl => ⟨by simpa using hl.1, hl.2 (by simp)⟩
        have hlen : ((ids.flatMap out).map Prod.fst).length = 1 := by
          have h5 := hw.length_eq
          rw [List.length_map, List.length_flatMap]
          rw [List.length_flatMap] at h5
          rw [show (ids.map fun i => (out i).length) = ids.map fun i => (work i).length from
            List.map_congr_left fun i _ => (h3 i _ rfl).1]
          exact h5
        obtain ⟨x, hx⟩ := List.length_eq_one_iff.1 hlen
        have hxs : x = src := by
          have : x ∈ (ids.flatMap out).map Prod.fst := by rw [hx]; exact List.mem_singleton.2 rfl
          obtain ⟨y, hy, rfl⟩ := List.mem_map.1 this
          obtain ⟨i, -, hi⟩ := List.mem_flatMap.1 hy
          exact (h3 i _ rfl).2 y hi
        rw [hx, hxs] at hl
        exact ih m1 hsrc' hl

/-! ### Compositions -/

/-- C73: label propagation after a breadth-first search that ends. -/
theorem bfs_lp {G : Gr W} (hG : G.Ok) (hn : G.n ≤ LabelProp.big) (hsym : ∀ u v, Adj G u v → Adj G v u) {src k r c : Nat} (hs : src < G.n)
    {m par : Nat → Nat} (h : Bfs G src k m) (hp : LabelProp.Sampled G c m r par) : IsCC G.n (Adj G) par := by
  obtain ⟨-, -, hs0⟩ := bfs_partial hG hsym hs h
  refine (LabelProp.lp_sampled hG hsym (fun u v _ _ he => ?_) (fun v hv hb => ?_) hp).1
  · have h1 := hs0.sound u
    rw [he] at h1
    exact (conn_equiv _).trans h1 ((conn_equiv _).symm (hs0.sound v))
  · have := hs0.lt v hv
    rw [hb] at this
    omega

theorem walk_conn {G : Gr W} {orc : Nat → Nat → W → Bool} {m : Nat → Nat} {c v k : Nat} (h : LDD.ClWalk G orc m c v k) : Conn (Adj G) c v := by
  induction h with
  | nil _ => exact (conn_equiv _).refl _
  | cons w _ he _ _ ih => exact (conn_equiv _).trans ih (.rel _ _ ⟨w, he⟩)

/-- C73: `LDDSamplingTemplate::initial_components` (`sampling.h:427-443`) yields labels to start from, and label propagation from them the
components. -/
theorem ldd_lp {G : Gr W} (hG : G.Ok) (hn : G.n ≤ LabelProp.big) (hsym : ∀ u v, Adj G u v → Adj G v u) {orc : Nat → Nat → W → Bool}
    {perm : Nat → Nat} (hp : ∀ i, i < G.n → perm i < G.n) (hj : ∀ i j, i < G.n → j < G.n → perm i = perm j → i = j)
    (hs : ∀ v, v < G.n → ∃ i, i < G.n ∧ perm i = v) {sh : List Nat} (hsh : LDD.Shifts G.n sh) {res : Option (Nat → Nat)}
    (hr : LDD.Ldd G orc perm sh res) : ∃ m, res = some m ∧ Start G.n (Adj G) (fun x => if x < G.n then m x else x) ∧
      ∀ c r par, LabelProp.Sampled G c m r par → IsCC G.n (Adj G) par := by
  obtain ⟨m, hm, h⟩ := LDD.ldd_correct hG hn hp hj hs hsh hr
  have hc : ∀ v, v < G.n → Conn (Adj G) v (m v) := fun v hv => by
    obtain ⟨-, -, k, -, hw⟩ := h v hv
    exact (conn_equiv _).symm (walk_conn hw)
  refine ⟨m, hm, ⟨fun x hx => ?_, fun x => ?_, fun x => ?_, fun x hx => ?_⟩, fun c r par hl => ?_⟩
  · rw [if_pos hx]; exact (h x hx).1
  · by_cases hx : x < G.n
    · simp only [if_pos hx, if_pos (h x hx).1]; exact (h x hx).2.1
    · simp only [if_neg hx]
  · split
    · rename_i hx; exact hc x hx
    · exact (conn_equiv _).refl _
  · rw [if_neg (by omega)]
  · refine (LabelProp.lp_sampled hG hsym (fun u v hu hv he => ?_) (fun v hv hb => ?_) hl).1
    · have h1 := hc u hu
      rw [he] at h1
      exact (conn_equiv _).trans h1 ((conn_equiv _).symm (hc v hv))
    · have := (h v hv).1
      rw [hb] at this
      omega

/-! ### Examples -/

/-- A sparse round with one thread. -/
theorem sparse_seq {G : Gr W} {src : Nat} {isD : Bool} {F : List Nat} {m m' : Nat → Nat} {o : List (Nat × Unit)}
    (hc : F.length + (edgesOf G F).length ≤ numEdges G / 20)
    (h : exec (sparseRun (bfsF src) (edgesOf G F) []) m = some (o, m')) : Round G src isD F m false (o.map Prod.fst) m' := by
  have := exec_steps (sparseRun (bfsF src) (edgesOf G F) []) ((0, 0) : Nat × Nat) (fun _ => ret []) h
  have e1 : (fun j : Nat × Nat => if j = (0, 0) then sparseRun (bfsF src) (edgesOf G F) [] else ret []) =
      fun i => sparseRun (bfsF src) (if i = (0, 0) then edgesOf G F else []) [] := by
    funext j; by_cases hj : j = (0, 0) <;> simp [hj, sparseRun]
  have e2 : (fun j : Nat × Nat => if j = (0, 0) then (ret o : Prog Nat Nat (List (Nat × Unit))) else ret []) =
      fun i => ret (if i = (0, 0) then o else []) := by
    funext j; by_cases hj : j = (0, 0) <;> simp [hj]
  rw [e1, e2] at this
  have hr := Round.sparse (isD := isD) hc [(0, 0)] (fun i => if i = (0, 0) then edgesOf G F else []) (by simp) (by simp)
    (fun i hi => if_neg (by simpa using hi)) this
  simpa using hr

/-- 0 only has an edge to itself, the others form a star with 20 leaves: the hypotheses of `bfs_hangs`. -/
def exL : List (List (Nat × Unit)) := [(0, ())] :: ((List.range 20).map fun i => (i + 2, ())) :: List.replicate 20 [(1, ())]

def exG : Gr Unit := Gr.ofLists exL exL

example : exG.Ok ∧ (∀ k par, ¬ Bfs exG 0 k par) :=
  ⟨Gr.ofLists_ok (by decide +kernel), fun k par => bfs_hangs (w := ()) (by decide +kernel) (by decide +kernel) k par⟩

/-- 0 and 1 are connected by an edge, beside the star: the search from 0 ends, and has 0 twice in its frontiers. -/
def exL2 : List (List (Nat × Unit)) :=
  [(1, ())] :: [(0, ())] :: ((List.range 20).map fun i => (i + 3, ())) :: List.replicate 20 [(2, ())]

def exG2 : Gr Unit := Gr.ofLists exL2 exL2

example : exG2.Ok ∧ ¬ Adj exG2 0 0 ∧ ∃ par, Bfs exG2 0 3 par ∧ par 1 = 0 ∧ par 2 = 2 := by
  refine ⟨Gr.ofLists_ok (by decide +kernel), fun ⟨w, hw⟩ => absurd hw (by decide +revert), _, .round (by simp) (sparse_seq (o := [(1, ())]) (by decide +kernel) rfl)
    (.round (by simp) (sparse_seq (o := [(0, ())]) (by decide +kernel) rfl)
    (.round (by simp) (sparse_seq (o := []) (by decide +kernel) rfl) (.done _ _))), by decide, by decide⟩

end Gbbs.Sampling
