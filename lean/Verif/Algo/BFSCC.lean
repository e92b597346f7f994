/-
C68: connected components by breadth-first searches, `benchmarks/Connectivity/BFSCC/Connectivity.h`.
-/
import Verif.EdgeMap.Claim
import Verif.Algo.Components
import Mathlib.Data.Fin.VecNotation

namespace Gbbs.BFSCC

open Conc Conc.Prog Em Comp
open Atomics (Steps)

variable {W : Type}

/-! ### Model -/

/-- `UINT_E_MAX`. -/
def none32 : Nat := 4294967295

/-- `BFS_ComponentLabel_F`, `Connectivity.h:32-53`. Unlike other clients, `update` tests for `src` instead of
`UINT_E_MAX`. -/
def ccF (src : Nat) : Func W Nat Nat Unit where
  cond d := read d fun x => ret (x == none32)
  updA _ d _ := cas d none32 src fun b => ret (if b then some () else none)
  upd _ d _ := read d fun x => if x ≠ src then write d src (ret (some ())) else ret none

/-- The loop `Connectivity.h:65-76`. -/
inductive Loop (G : Gr W) (src : Nat) : (Nat → Nat) → List Nat → (Nat → Nat) → Prop
  | done (m) : Loop G src m [] m
  | round {m F m' o m''} (hF : F ≠ []) (h : EdgeMap (ccF src) G (fun v => decide (v ∈ F)) m m' o)
      (hl : Loop G src m' (o.map Prod.fst) m'') : Loop G src m F m''

/-- `BFS_ComponentLabel(G, src, parents)`, `Connectivity.h:57-78`. -/
inductive Label (G : Gr W) (src : Nat) : (Nat → Nat) → (Nat → Nat) → Prop
  | skip {m} (h : G.fwd src = []) : Label G src m m
  | run {m m'} (h : G.fwd src ≠ []) (hl : Loop G src (put m src src) [src] m') : Label G src m m'

/-- The loop of `CC` from vertex `i` on, `Connectivity.h:84-88`. -/
inductive Outer (G : Gr W) : Nat → (Nat → Nat) → (Nat → Nat) → Prop
  | done (m) : Outer G G.n m m
  | seen {i m m'} (hi : i < G.n) (h : m i ≠ none32) (hl : Outer G (i + 1) m m') : Outer G i m m'
  | bfs {i m m1 m'} (hi : i < G.n) (h : m i = none32) (hb : Label G i m m1) (hl : Outer G (i + 1) m1 m') :
      Outer G i m m'

/-- `CC(G)`, `Connectivity.h:80-90`. -/
def CC (G : Gr W) (par : Nat → Nat) : Prop := Outer G 0 (fun _ => none32) par

/-! ### Specification -/

/-- There is an edge from `u` to `v`. -/
def Adj (G : Gr W) (u v : Nat) : Prop := ∃ w, (v, w) ∈ G.fwd u

/-! ### Proof -/

theorem cc_spec (src : Nat) (hs : src ≠ none32) (p0 : Nat → Nat) (Ac : Edge W → Prop) :
    FSpecC (crg none32 p0 Ac fun _ _ _ => src) (ccF src) Ac CT (fun g e => g.p e.d ≠ none32)
      (fun d g => g.p d = none32) where
  keep := (claim_spec none32 p0 Ac (fun _ _ _ => src) fun _ _ => hs).keep
  stable := (claim_spec none32 p0 Ac (fun _ _ _ => src) fun _ _ => hs).stable
  cond may i l g d hT := by
    intro g1 m1 hr1 hi1
    refine ⟨g1, crg_gu_refl _ _, hi1, ?_⟩
    intro g2 hr2
    refine ⟨(hT.stable hr1).stable hr2, fun hb e _ he => ?_, fun hb hx => ?_⟩
    · subst he
      have hne : g1.p e.d ≠ none32 := by
        rw [← hi1.mem]
        simpa using hb
      rw [hr2.2.1 _ hne]; exact hne
    · rw [hr2.2.2 _ hx, ← hi1.mem]
      simpa using hb
  updA := (claim_spec none32 p0 Ac (fun _ _ _ => src) fun _ _ => hs).updA
  upd may i l g e he hm hx hc hT := by
    intro g1 m1 hr1 hi1
    have hT1 := hT.stable hr1
    refine ⟨g1, crg_gu_refl _ _, hi1, ?_⟩
    beta_reduce
    have hu : m1 e.d = none32 := by rw [hi1.mem, hr1.2.2 _ hx]; exact hc
    rw [if_pos (by rw [hu]; exact Ne.symm hs)]
    intro g2 m2 hr2 hi2
    have hu2 : m2 e.d = none32 := by rw [hi2.mem, hr2.2.2 _ hx, ← hi1.mem]; exact hu
    obtain ⟨h1, h2, h3, h4⟩ := claim_ok (fun _ _ => hs) hi2 he hm hu2 (hT1.stable hr2)
    refine ⟨_, h1, h2, fun g3 hr3 => ⟨h3.stable hr3, ?_⟩⟩
    rw [hr3.2.1 _ h4]; exact h4

/-- The state of one search, started on `m0` where the whole component of `src` is unset. -/
structure Inv (G : Gr W) (src : Nat) (m0 m : Nat → Nat) (F : List Nat) : Prop where
  out : ∀ v, ¬ Conn (Adj G) src v → m v = m0 v
  inn : ∀ v, Conn (Adj G) src v → m v = none32 ∨ m v = src
  self : m src = src
  front : ∀ v ∈ F, m v = src ∧ Conn (Adj G) src v
  closed : ∀ v, Conn (Adj G) src v → m v = src → v ∉ F → ∀ u, Adj G v u → m u = src

theorem Inv.step {G : Gr W} (hG : G.Ok) {src : Nat} (hs : src ≠ none32) {m0 m m' : Nat → Nat} {F : List Nat}
    {o : List (Nat × Unit)} (h : Inv G src m0 m F)
    (hr : EdgeMap (ccF src) G (fun v => decide (v ∈ F)) m m' o) : Inv G src m0 m' (o.map Prod.fst) := by
  obtain ⟨-, h2, h3, h4⟩ := claim_round_of _ _ G hG _ (cc_spec src hs m (Active G fun v => decide (v ∈ F))) hr
  have h3 : ∀ d, d ∈ o.map Prod.fst → m' d = src ∧ Conn (Adj G) src d := by
    intro d hd
    obtain ⟨e, he, rfl, hm⟩ := h3 d hd
    refine ⟨hm, ?_⟩
    have he1 : e.s ∈ F := by simpa using he.1
    exact (conn_equiv _).trans (h.front _ he1).2 (.rel _ _ ⟨_, he.2⟩)
  have hsrc : ∀ d, m d = src → m' d = src := by
    intro d hd
    by_cases hin : d ∈ o.map Prod.fst
    · exact (h3 d hin).1
    · rw [h4 d hin]; exact hd
  refine ⟨fun v hv => ?_, fun v hv => ?_, hsrc _ h.self, h3, fun v hv hm hF u hu => ?_⟩
  · rw [h4 v fun hin => hv (h3 v hin).2]; exact h.out v hv
  · by_cases hin : v ∈ o.map Prod.fst
    · exact .inr (h3 v hin).1
    · rw [h4 v hin]; exact h.inn v hv
  · rw [h4 v hF] at hm
    by_cases hvF : v ∈ F
    · by_cases hu' : u ∈ o.map Prod.fst
      · exact (h3 u hu').1
      · rw [h4 u hu']
        rcases h.inn u ((conn_equiv _).trans hv (.rel _ _ hu)) with hn | hn
        · obtain ⟨w, hw⟩ := hu
          exact absurd ((h2 u).2 ⟨hn, ⟨v, u, w⟩, ⟨by simpa using hvF, hw⟩, rfl⟩) hu'
        · exact hn
    · exact hsrc _ (h.closed v hv hm hvF u hu)

theorem loop_inv {G : Gr W} (hG : G.Ok) {src : Nat} (hs : src ≠ none32) {m0 m m' : Nat → Nat} {F : List Nat}
    (hl : Loop G src m F m') (h : Inv G src m0 m F) : Inv G src m0 m' [] := by
  induction hl with
  | done m => exact h
  | round _ hr _ ih => exact ih (h.step hG hs hr)

/-- The state before vertex `i` of the outer loop. -/
structure OInv (G : Gr W) (i : Nat) (m : Nat → Nat) : Prop where
  whole : ∀ u v, Conn (Adj G) u v → m u = m v
  least : ∀ v, m v ≠ none32 → Conn (Adj G) v (m v) ∧ ∀ u, Conn (Adj G) v u → m v ≤ u
  done : ∀ v, v < i → G.fwd v ≠ [] → m v ≠ none32
  alone : ∀ v, G.fwd v = [] → m v = none32

theorem isolated {G : Gr W} (hsym : ∀ u v, Adj G u v → Adj G v u) {v : Nat} (h : G.fwd v = []) {u : Nat}
    (hc : Conn (Adj G) v u) : u = v := by
  refine conn_isolated (fun y _ => ?_) hc
  have h1 : ¬ Adj G v y := by
    rintro ⟨w, hw⟩
    rw [h] at hw; cases hw
  exact ⟨h1, fun h2 => h1 (hsym _ _ h2)⟩

theorem label_inv {G : Gr W} (hG : G.Ok) (hn : G.n ≤ none32) (hsym : ∀ u v, Adj G u v → Adj G v u) {i : Nat}
    (hi : i < G.n) {m m' : Nat → Nat} (h : OInv G i m) (hu : m i = none32) (hl : Label G i m m') :
    OInv G (i + 1) m' := by
  have hs : i ≠ none32 := by omega
  cases hl with
  | skip hd =>
    refine ⟨h.whole, h.least, fun v hv hne => ?_, h.alone⟩
    rcases Nat.lt_succ_iff_lt_or_eq.1 hv with hlt | rfl
    · exact h.done v hlt hne
    · exact absurd hd hne
  | run hd hl =>
    have hself := (conn_equiv (Adj G)).refl i
    have hI : Inv G i m (put m i i) [i] := by
      refine ⟨fun v hv => ?_, fun v hv => ?_, put_same .., fun v hv => ?_, fun v hv hm hF => ?_⟩
      · exact put_ne _ _ fun he => hv (he ▸ hself)
      · by_cases he : v = i
        · subst he; exact .inr (put_same ..)
        · rw [put_ne _ _ he]; exact .inl ((h.whole _ _ hv).symm.trans hu)
      · rw [List.mem_singleton.1 hv]; exact ⟨put_same .., hself⟩
      · have he : v ≠ i := fun he => hF (by simp [he])
        rw [put_ne _ _ he, ← h.whole _ _ hv, hu] at hm
        exact absurd hm.symm hs
    have hE := loop_inv hG hs hl hI
    have hall : ∀ v, Conn (Adj G) i v → m' v = i := by
      intro v hv
      have : (Conn (Adj G) i i ∧ m' i = i) ↔ (Conn (Adj G) i v ∧ m' v = i) := by
        refine conn_closed (S := fun v => Conn (Adj G) i v ∧ m' v = i) (fun x y hxy => ?_) hv
        constructor
        · rintro ⟨h1, h2⟩
          exact ⟨(conn_equiv _).trans h1 (.rel _ _ hxy), hE.closed x h1 h2 (by simp) y hxy⟩
        · rintro ⟨h1, h2⟩
          exact ⟨(conn_equiv _).trans h1 (.rel _ _ (hsym _ _ hxy)), hE.closed y h1 h2 (by simp) x (hsym _ _ hxy)⟩
      exact (this.1 ⟨hself, hE.self⟩).2
    refine ⟨fun u v hc => ?_, fun v hv => ?_, fun v hv hne => ?_, fun v hv => ?_⟩
    · by_cases h1 : Conn (Adj G) i u
      · rw [hall u h1, hall v ((conn_equiv _).trans h1 hc)]
      · rw [hE.out u h1, hE.out v fun h2 => h1 ((conn_equiv _).trans h2 ((conn_equiv _).symm hc))]
        exact h.whole u v hc
    · by_cases h1 : Conn (Adj G) i v
      · rw [hall v h1]
        refine ⟨(conn_equiv _).symm h1, fun u huv => ?_⟩
        by_contra hlt
        have h2 := (conn_equiv _).trans h1 huv
        refine h.done u (by omega) (fun he => ?_) ((h.whole _ _ h2).symm.trans hu)
        have := isolated hsym he ((conn_equiv _).symm h2)
        omega
      · rw [hE.out v h1] at hv ⊢
        exact h.least v hv
    · by_cases h1 : Conn (Adj G) i v
      · rw [hall v h1]; exact hs
      · rw [hE.out v h1]
        rcases Nat.lt_succ_iff_lt_or_eq.1 hv with hlt | rfl
        · exact h.done v hlt hne
        · exact absurd hself h1
    · have h1 : ¬ Conn (Adj G) i v := fun h1 => by
        have := isolated hsym hv ((conn_equiv _).symm h1)
        exact hd (this ▸ hv)
      rw [hE.out v h1]; exact h.alone v hv

theorem outer_inv {G : Gr W} (hG : G.Ok) (hn : G.n ≤ none32) (hsym : ∀ u v, Adj G u v → Adj G v u) {i : Nat}
    {m m' : Nat → Nat} (hl : Outer G i m m') (h : OInv G i m) : OInv G G.n m' := by
  induction hl with
  | done m => exact h
  | @seen i m m' hi hne _ ih =>
    refine ih ⟨h.whole, h.least, fun v hv => ?_, h.alone⟩
    rcases Nat.lt_succ_iff_lt_or_eq.1 hv with hlt | rfl
    · exact h.done v hlt
    · exact fun _ => hne
  | bfs hi hu hb _ ih => exact ih (label_inv hG hn hsym hi h hu hb)

theorem cc_inv {G : Gr W} (hG : G.Ok) (hn : G.n ≤ none32) (hsym : ∀ u v, Adj G u v → Adj G v u) {par : Nat → Nat}
    (h : CC G par) : OInv G G.n par :=
  outer_inv hG hn hsym h ⟨fun _ _ _ => rfl, fun _ h => absurd rfl h, fun _ h => absurd h (Nat.not_lt_zero _),
    fun _ _ => rfl⟩

/-- C68, the part that holds: on a symmetric graph, in every traversal and interleaving, a vertex with an edge is
labelled with the least vertex of its component, so two vertices with edges have equal labels exactly if they
are connected. Missing: vertices without edges, see `bfscc_refuted`. -/
theorem bfscc_partial {G : Gr W} (hG : G.Ok) (hn : G.n ≤ none32) (hsym : ∀ u v, Adj G u v → Adj G v u)
    {par : Nat → Nat} (h : CC G par) :
    (∀ v, v < G.n → G.fwd v ≠ [] → Conn (Adj G) v (par v) ∧ ∀ u, Conn (Adj G) v u → par v ≤ u) ∧
    ∀ u v, u < G.n → v < G.n → G.fwd u ≠ [] → G.fwd v ≠ [] → (par u = par v ↔ Conn (Adj G) u v) := by
  have hi := cc_inv hG hn hsym h
  refine ⟨fun v hv hd => hi.least v (hi.done v hv hd), fun u v hu hv hdu hdv => ⟨fun he => ?_, hi.whole u v⟩⟩
  have h1 := (hi.least u (hi.done u hu hdu)).1
  rw [he] at h1
  exact (conn_equiv _).trans h1 ((conn_equiv _).symm (hi.least v (hi.done v hv hdv)).1)

/-- The whole property holds exactly when at most one vertex has no edges. -/
theorem bfscc_iff {G : Gr W} (hG : G.Ok) (hn : G.n ≤ none32) (hsym : ∀ u v, Adj G u v → Adj G v u)
    {par : Nat → Nat} (h : CC G par) :
    IsCC G.n (Adj G) par ↔ ∀ u v, u < G.n → v < G.n → G.fwd u = [] → G.fwd v = [] → u = v := by
  have hi := cc_inv hG hn hsym h
  constructor
  · intro hc u v hu hv hdu hdv
    have := (hc u v hu hv).1 ((hi.alone u hdu).trans (hi.alone v hdv).symm)
    exact (isolated hsym hdu this).symm
  · intro ha u v hu hv
    refine ⟨fun he => ?_, hi.whole u v⟩
    by_cases hdu : G.fwd u = []
    · by_cases hdv : G.fwd v = []
      · rw [ha u v hu hv hdu hdv]; exact (conn_equiv _).refl v
      · exact absurd (he.symm.trans (hi.alone u hdu)) (hi.done v hv hdv)
    · by_cases hdv : G.fwd v = []
      · exact absurd (he.trans (hi.alone v hdv)) (hi.done u hu hdu)
      · exact ((bfscc_partial hG hn hsym h).2 u v hu hv hdu hdv).1 he

/-- C68 fails: in every run, on every symmetric graph, two different vertices without edges get the same label
`UINT_E_MAX`, although they are not connected, and the label is not a vertex. -/
theorem bfscc_refuted {G : Gr W} (hG : G.Ok) (hn : G.n ≤ none32) (hsym : ∀ u v, Adj G u v → Adj G v u)
    {par : Nat → Nat} (h : CC G par) {u v : Nat} (hu : u < G.n) (hv : v < G.n) (hne : u ≠ v) (hdu : G.fwd u = [])
    (hdv : G.fwd v = []) : par u = none32 ∧ par v = none32 ∧ G.n ≤ par u ∧ ¬ IsCC G.n (Adj G) par := by
  have hi := cc_inv hG hn hsym h
  refine ⟨hi.alone u hdu, hi.alone v hdv, by rw [hi.alone u hdu]; exact hn, fun hc => ?_⟩
  exact hne ((bfscc_iff hG hn hsym h).1 hc u v hu hv hdu hdv)

/-! ### Example -/

/-- A path `1 - 3 - 4`; 0 and 2 have no edges. -/
def exG : Gr Unit := let l := [[], [(3, ())], [], [(1, ()), (4, ())], [(3, ())]]; Gr.ofLists l l

theorem exG_ok : exG.Ok := Gr.ofLists_ok (by decide)

theorem exG_sym : ∀ u v, Adj exG u v → Adj exG v u := by
  rintro u v ⟨⟨⟩, h⟩
  have hb := exG_ok.bound _ _ _ h
  have hb1 : u < 5 := hb.1
  have hb2 : v < 5 := hb.2
  refine ⟨(), ?_⟩
  revert h
  interval_cases u <;> interval_cases v <;> decide

/-- A run on it. -/
theorem exG_run : ∃ par, CC exG par ∧ par 0 = none32 ∧ par 1 = 1 ∧ par 2 = none32 ∧ par 3 = 1 ∧ par 4 = 1 := by
  refine ⟨_, .bfs (by decide) rfl (.skip rfl) (.bfs (by decide) rfl (.run (by decide)
    (.round (by decide) (edgeMap_seq (activeEdges exG _) (mem_activeEdges exG_ok) rfl)
    (.round (by decide) (edgeMap_seq (activeEdges exG _) (mem_activeEdges exG_ok) rfl)
    (.round (by decide) (edgeMap_seq (activeEdges exG _) (mem_activeEdges exG_ok) rfl) (.done _)))))
    (.bfs (by decide) rfl (.skip rfl) (.seen (by decide) (by decide) (.seen (by decide) (by decide) (.done _))))),
    ?_, ?_, ?_, ?_, ?_⟩ <;> decide

example : ∃ par, CC exG par ∧ ¬ IsCC exG.n (Adj exG) par := by
  obtain ⟨par, h, -⟩ := exG_run
  exact ⟨par, h, (bfscc_refuted exG_ok (by decide) exG_sym h (u := 0) (v := 2) (by decide) (by decide) (by decide) rfl
    rfl).2.2.2⟩

end Gbbs.BFSCC
