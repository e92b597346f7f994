/-
C93, C94: what the spanning forest framework returns, and the edges recorded by its BFS sampling,
`benchmarks/SpanningForest/Framework/sampling.h` and `bfs_sampling.h`.
-/
import Verif.Algo.SVSF
import Verif.EdgeMap.Rounds

namespace Gbbs.SFFrame

open Conc Conc.Prog Em Comp SF SVSF
open Relation

variable {W : Type}

/-! ### C93: the result of the framework -/

/-- `NoSamplingAlgorithmTemplate::spanning_forest`, `sampling.h:56-65`, and
`SamplingAlgorithmTemplate::spanning_forest`, `sampling.h:25-47`, for the Shiloach-Vishkin algorithm started from `P0`, `Ed0`
(`frq` is `none` without sampling): line 42 and line 62 return all `n` entries of `Edges`; the filter after them is not
reached. -/
def Framework (G : UG) (frq : Option Nat) (P0 : Nat → Nat) (Ed0 : Nat → Nat × Nat) (k : Nat) (es : List (Nat × Nat)) : Prop :=
  ∃ par Ed, Compute G frq P0 Ed0 k par Ed ∧ es = (List.range G.n).map Ed

/-- `n` edges on `n > 0` vertices are never a forest: nothing of the form that the framework returns, for whichever algorithm,
is a spanning forest. -/
theorem raw_not_sf {n : Nat} (hn : 0 < n) {adj : Nat → Nat → Prop} (hb : ∀ x y, adj x y → x < n ∧ y < n)
    (Ed : Nat → Nat × Nat) : ¬ IsSF adj ((List.range n).map Ed) := by
  intro h
  have hB : Forest.Below n (((List.range n).map Ed).map toE) := by
    intro e he
    obtain ⟨e', h1, rfl⟩ := List.mem_map.1 he
    exact hb _ _ (h.sub _ h1)
  have hf : Forest.IsForest (((List.range n).map Ed).map toE) := by
    intro pre e post hpe hc
    obtain ⟨pre', rest, h1, h2, h3⟩ := List.map_eq_append_iff.1 hpe
    obtain ⟨e', post', h4, h5, h6⟩ := List.map_eq_cons_iff.1 h3
    subst h2 h5 h6 h4
    refine h.forest pre' e' post' h1 ((lconn_iff _ _ _).2 ?_)
    rwa [List.map_append]
  have := Forest.forest_lt hB hf hn
  simp at this

/-- C93 fails for every graph with a vertex. -/
theorem framework_refuted {G : UG} (hG : G.Sym) (hn : 0 < G.n) {frq : Option Nat} {P0 : Nat → Nat} {Ed0 : Nat → Nat × Nat}
    {k : Nat} {es : List (Nat × Nat)} (h : Framework G frq P0 Ed0 k es) : ¬ IsSF (SV.Adj G) es := by
  obtain ⟨par, Ed, -, rfl⟩ := h
  exact raw_not_sf hn (fun x y hxy => hG.bound x y hxy) Ed

/-- C93 (`_partial`: without the empty entries, which the caller has to remove): the other entries are a spanning forest. -/
theorem framework_partial {G : UG} (hG : G.Sym) (hn : G.n ≤ 4294967295) {frq : Option Nat} {P0 : Nat → Nat}
    {Ed0 : Nat → Nat × Nat} (h0 : FStart G P0 Ed0) {k : Nat} {es : List (Nat × Nat)} (h : Framework G frq P0 Ed0 k es) :
    IsSF (SV.Adj G) (es.filter fun e => decide (e ≠ empty)) := by
  obtain ⟨par, Ed, hc, rfl⟩ := h
  exact (sv_sf_sampled hG hn h0 hc).1

/-! ### C94: BFS sampling -/

/-- `BFS_ComponentLabel_F`, `bfs_sampling.h:4-28`. -/
def bfsF (src : Nat) : Func W Nat Nat Unit where
  cond d := read d fun x => ret (x == d)
  updA _ d _ := read d fun x => if x ≠ src then cas d d src fun b => ret (if b then some () else none) else ret none
  upd _ d _ := read d fun x => if x ≠ src then write d src (ret (some ())) else ret none

/-- The loop `bfs_sampling.h:43-50`. -/
inductive Loop (G : Gr W) (src : Nat) : (Nat → Nat) → List Nat → (Nat → Nat) → Prop
  | done (m) : Loop G src m [] m
  | round {m F m' o m''} (hF : F ≠ []) (h : EdgeMap (bfsF src) G (fun v => decide (v ∈ F)) m m' o)
      (hl : Loop G src m' (o.map Prod.fst) m'') : Loop G src m F m''

/-- The loop `bfs_sampling.h:51-56`. -/
def bfsEdges (par : Nat → Nat) (i : Nat) : Nat × Nat := if par i ≠ i then (i, par i) else empty

/-- `BFS_ComponentLabel(G, src)`, `bfs_sampling.h:33-60`. -/
def Bfs (G : Gr W) (src : Nat) (par : Nat → Nat) (Ed : Nat → Nat × Nat) : Prop :=
  Loop G src (fun x => x) [src] par ∧ Ed = bfsEdges par

/-- There is an edge from `u` to `v`. -/
def Adj (G : Gr W) (u v : Nat) : Prop := ∃ w, (v, w) ∈ G.fwd u

/-- The labels during the search. -/
def Lab (G : Gr W) (src : Nat) (m : Nat → Nat) : Prop := ∀ d, m d = d ∨ m d = src ∧ Conn (Adj G) src d

def bRG (G : Gr W) (src : Nat) (_ : Nat × Nat → Nat → Prop) : RG (Nat × Nat) Unit Nat Nat where
  Inv _ m := Lab G src m
  R _ _ _ := True
  Gu _ _ _ := True
  refl _ _ := trivial
  trans _ _ _ _ _ _ := trivial
  compat _ _ _ _ _ _ := trivial

theorem lab_put {G : Gr W} {src d : Nat} {m : Nat → Nat} (h : Lab G src m) (hd : Conn (Adj G) src d) : Lab G src (put m d src) := by
  intro x
  by_cases hx : x = d
  · subst hx; rw [put_same]; exact .inr ⟨rfl, hd⟩
  · rw [put_ne _ _ hx]; exact h x

theorem bfs_spec (G : Gr W) (src : Nat) (inF : Nat → Bool) (hF : ∀ v, inF v = true → Conn (Adj G) src v) :
    FSpec (bRG G src) (bfsF src) (Active G inF) (fun _ _ l => ∀ d ∈ l.map Prod.fst, Conn (Adj G) src d) (fun _ _ => True) where
  keep _ _ _ := ⟨fun _ _ _ h => h, fun _ _ _ h => h⟩
  stable _ _ _ _ _ _ h := h
  cond may i l g d hT := fun g1 m1 _ hi => ⟨(), trivial, hi, fun _ _ => ⟨hT, fun _ _ _ _ => trivial⟩⟩
  updA may i l g e he hm hT := by
    have hd : Conn (Adj G) src e.d := (conn_equiv _).trans (hF _ he.1) (.rel _ _ ⟨_, he.2⟩)
    intro g1 m1 _ hi
    refine ⟨(), trivial, hi, ?_⟩
    beta_reduce
    split
    · intro g2 m2 _ hi2
      refine ⟨fun hu => ⟨(), trivial, lab_put hi2 hd, fun _ _ => ⟨fun d h => ?_, trivial⟩⟩,
        fun hu => ⟨(), trivial, hi2, fun _ _ => ⟨hT, trivial⟩⟩⟩
      rcases List.mem_cons.1 h with rfl | h
      · exact hd
      · exact hT d h
    · exact fun _ _ => ⟨hT, trivial⟩
  upd may i l g e he hm hx hT := by
    have hd : Conn (Adj G) src e.d := (conn_equiv _).trans (hF _ he.1) (.rel _ _ ⟨_, he.2⟩)
    intro g1 m1 _ hi
    refine ⟨(), trivial, hi, ?_⟩
    beta_reduce
    split
    · intro g2 m2 _ hi2
      refine ⟨(), trivial, lab_put hi2 hd, fun _ _ => ⟨fun d h => ?_, trivial⟩⟩
      rcases List.mem_cons.1 h with rfl | h
      · exact hd
      · exact hT d h
    · exact fun _ _ => ⟨hT, trivial⟩

theorem loop_lab {G : Gr W} (hG : G.Ok) {src : Nat} {m m' : Nat → Nat} {F : List Nat} (hl : Loop G src m F m') (h : Lab G src m)
    (hF : ∀ v ∈ F, Conn (Adj G) src v) : Lab G src m' := by
  induction hl with
  | done m => exact h
  | round _ hr _ ih =>
    rename_i m F m1 o m2 _ _
    obtain ⟨g, out, hi, -, hT, hcol⟩ := edgeMap_soundC (bfs_spec G src (fun v => decide (v ∈ F)) fun v hv => hF v (by simpa using hv)).toC
      G hG _ (fun _ h => h) (fun _ m => Lab G src m) (fun _ _ _ => Iff.rfl) () h (fun i d hd => by cases hd) hr
    refine ih hi fun v hv => ?_
    obtain ⟨x, hx, rfl⟩ := List.mem_map.1 hv
    obtain ⟨i, hi'⟩ := hcol.sub _ hx
    exact hT i _ (List.mem_map.2 ⟨_, hi', rfl⟩)

/-- C94 (`_partial`: the recorded edges need not be edges of the graph, see `bfs_edges_refuted`): whatever the interleaving,
the recorded edges are a forest that connects exactly the vertices with the same label, and both ends of each are connected
in the graph. -/
theorem bfs_edges_partial {G : Gr W} (hG : G.Ok) (hn : G.n ≤ 4294967295) {src : Nat} (hs : src < G.n) {par : Nat → Nat} {Ed : Nat → Nat × Nat}
    (h : Bfs G src par Ed) :
    (∀ e ∈ edges G.n Ed, Conn (Adj G) e.1 e.2) ∧ IsSF (fun a b => (a, b) ∈ edges G.n Ed) (edges G.n Ed) ∧
    ∀ x y, x < G.n → y < G.n → (LConn (edges G.n Ed) x y ↔ par x = par y) := by
  obtain ⟨hl, rfl⟩ := h
  have hp := loop_lab hG hl (fun _ => .inl rfl) fun v hv => by
    rw [List.mem_singleton.1 hv]; exact (conn_equiv _).refl _
  have hmem : ∀ e, e ∈ edges G.n (bfsEdges par) ↔ e.1 < G.n ∧ par e.1 ≠ e.1 ∧ e.2 = par e.1 := by
    intro e
    rw [mem_edges]
    constructor
    · rintro ⟨h1, x, hx, rfl⟩
      rw [bfsEdges] at h1 ⊢
      by_cases hx2 : par x ≠ x
      · rw [if_pos hx2]; exact ⟨hx, hx2, rfl⟩
      · rw [if_neg hx2] at h1; exact absurd rfl h1
    · rintro ⟨h1, h2, h3⟩
      have : bfsEdges par e.1 = e := by rw [bfsEdges, if_pos h2, ← h3]
      refine ⟨fun he => ?_, e.1, h1, this⟩
      have : e.1 = 4294967295 := by rw [he]; rfl
      omega
  have hroot : ∀ x, par (par x) = par x := by
    intro x
    rcases hp x with h | ⟨h, -⟩
    · rw [h]; exact h
    · rw [h]
      rcases hp src with h | ⟨h, -⟩ <;> exact h
  have hlt : ∀ x, x < G.n → par x < G.n := by
    intro x hx
    rcases hp x with h | ⟨h, -⟩ <;> rw [h]
    · exact hx
    · exact hs
  have hconn : ∀ x, x < G.n → LConn (edges G.n (bfsEdges par)) x (par x) := by
    intro x hx
    by_cases h : par x = x
    · rw [h]; exact (lconn_equiv _).refl _
    · exact .rel _ _ ((hmem _).2 ⟨hx, h, rfl⟩)
  have hsame : ∀ x y, (x, y) ∈ edges G.n (bfsEdges par) → par x = par y := by
    intro x y hxy
    have h3 : y = par x := ((hmem _).1 hxy).2.2
    rw [h3, hroot]
  refine ⟨fun e he => ?_, isSF_of_count (n := G.n) (fun x y hxy => ?_) (fun e he => he) par (fun x hx => ⟨hlt x hx, hroot x⟩) hconn hsame ?_,
    fun x y hx hy => ⟨fun hc => ?_, fun hxy => ?_⟩⟩
  · obtain ⟨h1, h2, h3⟩ := (hmem e).1 he
    rcases hp e.1 with h | ⟨h, hc⟩
    · exact absurd h h2
    · rw [h3, h]; exact (conn_equiv _).symm hc
  · obtain ⟨h1, h2, h3⟩ := (hmem _).1 hxy
    have h3 : y = par x := h3
    exact ⟨h1, by rw [h3]; exact hlt x h1⟩
  · rw [edges_eq]
    refine count_le _ par fun x hx hne h => hne ?_
    simp [bfsEdges, h]
  · exact conn_le (s := fun a b => par a = par b) ⟨fun _ => rfl, fun h => h.symm, fun h h' => h.trans h'⟩ hsame hc
  · refine (lconn_equiv _).trans (hconn x hx) ((lconn_equiv _).symm ?_)
    rw [hxy]; exact hconn y hy

/-- The path `0 - 1 - 2`. -/
def exG : Gr Unit := let l := [[(1, ())], [(0, ()), (2, ())], [(1, ())]]; Gr.ofLists l l

theorem exG_ok : exG.Ok := Gr.ofLists_ok (by decide)

/-- C94 fails: on the path `0 - 1 - 2`, the BFS from 0 records the edge `(2, 0)`, which the graph does not have. -/
theorem bfs_edges_refuted : ∃ par Ed, Bfs exG 0 par Ed ∧ Ed 2 = (2, 0) ∧ (2, 0) ∈ edges exG.n Ed ∧ ¬ Adj exG 2 0 := by
  refine ⟨_, _, ⟨.round (by simp) (edgeMap_seq (activeEdges exG fun v => decide (v ∈ [0])) (mem_activeEdges exG_ok)
    (o := [(1, ())]) rfl) (.round (by simp) (edgeMap_seq (activeEdges exG fun v => decide (v ∈ [1])) (mem_activeEdges exG_ok)
    (o := [(2, ())]) rfl) (.round (by simp) (edgeMap_seq (activeEdges exG fun v => decide (v ∈ [2])) (mem_activeEdges exG_ok)
    (o := []) rfl) (.done _))), rfl⟩, by decide, by decide, ?_⟩
  rintro ⟨w, hw⟩
  exact absurd hw (by decide +revert)

/-- The hypotheses of `bfs_edges_partial` are met by that run. -/
example : exG.Ok ∧ exG.n ≤ 4294967295 ∧ ∃ par Ed, Bfs exG 0 par Ed ∧ edges exG.n Ed = [(1, 0), (2, 0)] := by
  refine ⟨exG_ok, by decide, _, _, ⟨.round (by simp) (edgeMap_seq (activeEdges exG fun v => decide (v ∈ [0])) (mem_activeEdges exG_ok)
    (o := [(1, ())]) rfl) (.round (by simp) (edgeMap_seq (activeEdges exG fun v => decide (v ∈ [1])) (mem_activeEdges exG_ok)
    (o := [(2, ())]) rfl) (.round (by simp) (edgeMap_seq (activeEdges exG fun v => decide (v ∈ [2])) (mem_activeEdges exG_ok)
    (o := []) rfl) (.done _))), rfl⟩, by decide⟩

/-- A run of the framework, on the graph with the components `0 - 3 - 1` and `2 - 4`. -/
example : SV.exG.Sym ∧ Framework SV.exG none (fun x => x) (fun _ => empty) 3 [empty, (1, 3), empty, (0, 3), (2, 4)] := by
  refine ⟨SV.exG_sym, _, _, execLoop_sound SV.exE_mem (fun e he => ⟨he.1, SV.UG_lt SV.exG_sym he.2.2, he.2.2⟩) 4
    (⟨rfl, (start_id SV.exG).start, fun _ _ h => h, fun h => h⟩ : SV.SInv SV.exG (fun x => x) (fun x => x) (fun x => x)) rfl, ?_⟩
  decide +kernel

end Gbbs.SFFrame
