/-
C101: the spanner, `benchmarks/Spanner/MPXV15/Spanner.h:29-295`.
-/
import Verif.Algo.SDB14SF
import Verif.Conc.SimpleUnion
import Verif.EdgeMap.Total

namespace Gbbs.Spanner

open Em SDB14SF
open Contract (Adj inter emp tabSize)

variable {W : Type}

/-! ### Model -/

/-- The size of the table of pairs of clusters: `num_clusters * 5` in `fetch_intercluster` (`:100-142`), or, when that aborts, the number of arcs
to a larger cluster in `fetch_intercluster_te` (`:42-98`). -/
inductive Size (G : Gr W) (cl : Nat → Nat) (nc : Nat) (k : Nat) : Prop
  | main (h : k = tabSize (nc * 5))
  | te (h : k = tabSize (inter G cl).length)

/-- `tree_edges`, `:150-156`. -/
def treeEdges (n : Nat) (m : LDDE.Loc → Nat) : List (Nat × Nat) :=
  ((List.range n).map fun i => (i, m (.ed i))).filter fun e => decide (e.1 ≠ e.2)

/-- `tree_and_intercluster_edges`, `:144-178`: the tree edges, then an arc for every entry of the table. The count of clusters (`:161-172`) is that of
`num_cc`. -/
def Edges (G : Gr W) (m : LDDE.Loc → Nat) (L : List (Nat × Nat)) : Prop :=
  ∃ (s : List Nat) (k : Nat) (hash : Nat × Nat → Nat) (c : Hash.Conf (Nat × Nat) (Nat × Nat) (Fin ((interV G (LDDE.lab m) id).map Prod.fst).length)),
    Sched G.n s ∧ Size G (LDDE.lab m) (UF.numCC G.n (LDDE.lab m) s) k ∧ InsertV k hash (interV G (LDDE.lab m) id) c ∧
    L = treeEdges G.n m ++ (Hash.entries ⟨k, hash, emp⟩ c.tab c.val).map Prod.snd

/-- `Spanner(G, beta)`, `:266-294`, with the shifts `sh`: `LDD_parents` (`:208-263`, `LDD_Parents_F` `:180-206`) is the loop of `LDDE.Run`, with the
two arrays in one; it starts new centres with themselves as parents. -/
inductive Spanner (sh : List Nat) (G : Gr W) : Option (List (Nat × Nat)) → Prop
  | ub {perm} (hp : SDB14.IsPerm G.n true perm) (hl : LDDE.Ldde G true perm sh none) : Spanner sh G none
  | run {perm m L} (hp : SDB14.IsPerm G.n true perm) (hl : LDDE.Ldde G true perm sh (some m)) (he : Edges G m L) : Spanner sh G (some L)

/-! ### Specification -/

/-- A walk of `k` edges of the list, each in either direction. -/
inductive Walk (L : List (Nat × Nat)) (u : Nat) : Nat → Nat → Prop
  | nil : Walk L u u 0
  | cons {v w k} (h : Walk L u v k) (he : (v, w) ∈ L ∨ (w, v) ∈ L) : Walk L u w (k + 1)

/-- A walk of `k` arcs of the graph. -/
inductive GWalk (G : Gr W) (u : Nat) : Nat → Nat → Prop
  | nil : GWalk G u u 0
  | cons {v w k} (h : GWalk G u v k) (he : Adj G v w) : GWalk G u w (k + 1)

/-! ### Proof -/

theorem Walk.trans {L : List (Nat × Nat)} {u v w k l : Nat} (h1 : Walk L u v k) (h2 : Walk L v w l) : Walk L u w (k + l) := by
  induction h2 with
  | nil => exact h1
  | cons h he ih => exact .cons ih he

theorem Walk.symm {L : List (Nat × Nat)} {u v k : Nat} (h : Walk L u v k) : Walk L v u k := by
  induction h with
  | nil => exact .nil
  | @cons v w k h he ih =>
    have h1 : Walk L w v 1 := .cons .nil he.symm
    rw [Nat.add_comm]
    exact h1.trans ih

section
variable {G : Gr W} {m : LDDE.Loc → Nat}

/-- A vertex that is not a centre has another vertex as its parent. -/
theorem parent_ne {c v k : Nat} (h : LDDE.TWalkN G m c v k) (hne : v ≠ c) : m (.ed v) ≠ v := by
  induction k generalizing v with
  | zero => cases h; exact absurd rfl hne
  | succ k ih =>
    cases h with
    | cons w h he hd hm hne' =>
      intro heq
      rw [hd] at heq
      rw [heq] at h hd
      exact ih h hne hd

theorem mem_tree {n v : Nat} (hv : v < n) (h : m (.ed v) ≠ v) : (v, m (.ed v)) ∈ treeEdges n m := by
  rw [treeEdges, List.mem_filter, List.mem_map]
  exact ⟨⟨v, List.mem_range.2 hv, rfl⟩, by simpa using fun h' => h h'.symm⟩

theorem tree_walk (hG : G.Ok) {L : List (Nat × Nat)} (hL : ∀ e ∈ treeEdges G.n m, e ∈ L) {c v k : Nat} (h : LDDE.TWalkN G m c v k) : Walk L c v k := by
  induction h with
  | nil => exact .nil
  | @cons u v k w h he hd hm hne ih =>
    refine .cons ih (Or.inr ?_)
    rw [← hd]
    exact hL _ (mem_tree (hG.bound _ _ _ he).2 (parent_ne (.cons w h he hd hm hne) hne))

end

/-- The number of tree edges. -/
theorem tree_length (n : Nat) (m : LDDE.Loc → Nat) {c : Nat → Nat} (h : ∀ v, v < n → (m (.ed v) = v ↔ c v = v)) :
    (treeEdges n m).length + ((Finset.range n).filter fun v => c v = v).card = n := by
  have h1 : (treeEdges n m).length = ((Finset.range n).filter fun v => ¬ c v = v).card := by
    rw [treeEdges, List.filter_map, List.length_map, ← List.toFinset_card_of_nodup (List.nodup_range.filter _)]
    congr 1
    ext v
    simp only [List.mem_toFinset, List.mem_filter, List.mem_range, Function.comp, decide_eq_true_eq, Finset.mem_filter, Finset.mem_range]
    constructor
    · rintro ⟨h1, h2⟩; exact ⟨h1, fun hc => h2 ((h v h1).2 hc).symm⟩
    · rintro ⟨h1, h2⟩; exact ⟨h1, fun hc => h2 ((h v h1).1 hc.symm)⟩
  rw [h1, Nat.add_comm, Finset.card_filter_add_card_filter_not, Finset.card_range]

/-- The pairs of clusters with an arc between them. -/
noncomputable def pairs (G : Gr W) (c : Nat → Nat) : Finset (Nat × Nat) := by
  classical
  exact (Finset.range G.n ×ˢ Finset.range G.n).filter fun p => p.1 < p.2 ∧ ∃ u v, Adj G u v ∧ c u = p.1 ∧ c v = p.2

/-- C101: the edges returned are arcs of the graph; for every arc `u v` there is a walk of at most `4 (|sh| - 2) + 1` of them between `u` and `v`; their
number is that of the vertices that are not the centre of a cluster and of the pairs of clusters with an arc between them. There is no undefined
behaviour. -/
theorem spanner_correct {G : Gr W} (hG : G.Ok) (hsym : ∀ u v, Adj G u v → Adj G v u) (hn : G.n ≤ LDD.none32) {sh : List Nat} (hsh : LDD.Shifts G.n sh)
    {res : Option (List (Nat × Nat))} (h : Spanner sh G res) :
    ∃ L, res = some L ∧ (∀ e ∈ L, Adj G e.1 e.2) ∧ (∀ u v, Adj G u v → ∃ k, k ≤ 4 * (sh.length - 2) + 1 ∧ Walk L u v k) ∧
      ∃ c : Nat → Nat, (∀ v, v < G.n → c v < G.n ∧ c (c v) = c v) ∧
        L.length + ((Finset.range G.n).filter fun v => c v = v).card = G.n + (pairs G c).card := by
  cases h with
  | ub hp hl =>
    obtain ⟨m, h1, _⟩ := LDDE.ldde_depth hG hn hp.lt hp.inj hp.onto hsh hl
    cases h1
  | @run perm m L hp hl he =>
    obtain ⟨m', h1, h2⟩ := LDDE.ldde_depth hG hn hp.lt hp.inj hp.onto hsh hl
    obtain rfl := Option.some.inj h1
    obtain ⟨s, k, hash, c, hs, hsz, hins, rfl⟩ := he
    have hk : 0 < k := by cases hsz <;> (rename_i h; rw [h]; exact Contract.tabSize_pos _)
    have hkey : ∀ p ∈ interV G (LDDE.lab m) id, p.1 ≠ emp := fun p hp =>
      Contract.inter_ne_emp (G := G) (cl := LDDE.lab m) (by rw [← interV_keys G (LDDE.lab m) id]; exact List.mem_map_of_mem hp)
    obtain ⟨hw, hall, hin⟩ := insertV_spec hk hkey hins
    obtain ⟨hnd, hmem⟩ := Hash.entries_spec (P := ⟨k, hash, emp⟩) c.val hw
    have hent : ∀ p ∈ Hash.entries ⟨k, hash, emp⟩ c.tab c.val, p ∈ interV G (LDDE.lab m) id := by
      rintro ⟨a, b⟩ hp
      obtain ⟨hne, s, hs, rfl, rfl⟩ := (hmem a b).1 hp
      exact hin s hs hne
    have hed : ∀ v, v < G.n → (m (.ed v) = v ↔ LDDE.lab m v = v) := by
      intro v hv
      obtain ⟨_, _, ⟨k, _, hwk⟩, hcen⟩ := h2 v hv
      constructor
      · intro he
        by_contra hc
        exact parent_ne hwk (fun h => hc h.symm) he
      · intro hc; rw [hcen hc]; rfl
    refine ⟨_, rfl, ?_, ?_, LDDE.lab m, fun v hv => ⟨(h2 v hv).1, (h2 v hv).2.1⟩, ?_⟩
    · intro e he
      rcases List.mem_append.1 he with he | he
      · rw [treeEdges, List.mem_filter, List.mem_map] at he
        obtain ⟨⟨v, hv, rfl⟩, hne⟩ := he
        rw [List.mem_range] at hv
        obtain ⟨_, _, ⟨k, _, hwk⟩, hcen⟩ := h2 v hv
        have hne : v ≠ m (.ed v) := by simpa using hne
        have hc : v ≠ LDDE.lab m v := fun hc => hne ((hed v hv).2 hc.symm).symm
        refine hsym _ _ ?_
        generalize LDDE.lab m v = b at hwk hc
        cases hwk with
        | nil => exact absurd rfl hc
        | cons w h he hd hm hne' => exact ⟨w, by rw [hd]; exact he⟩
      · obtain ⟨p, hp, rfl⟩ := List.mem_map.1 he
        obtain ⟨u, v, ha, _, hpv⟩ := mem_interV hG (hent p hp)
        rw [hpv]; exact ha
    · have hdep : ∀ v, v < G.n → ∃ l, l ≤ sh.length - 2 ∧ Walk (treeEdges G.n m ++ (Hash.entries ⟨k, hash, emp⟩ c.tab c.val).map Prod.snd) (LDDE.lab m v) v l := by
        intro v hv
        obtain ⟨_, _, ⟨k', hk', hwk⟩, _⟩ := h2 v hv
        exact ⟨k', by omega, tree_walk hG (fun e he => List.mem_append_left _ he) hwk⟩
      have key : ∀ u v, Adj G u v → LDDE.lab m u < LDDE.lab m v →
          ∃ l, l ≤ 4 * (sh.length - 2) + 1 ∧ Walk (treeEdges G.n m ++ (Hash.entries ⟨k, hash, emp⟩ c.tab c.val).map Prod.snd) u v l := by
        intro u v ha hlt
        obtain ⟨hu, hv⟩ := SDB14.adj_lt hG ha
        have hp : (LDDE.lab m u, LDDE.lab m v) ∈ inter G (LDDE.lab m) := (Contract.mem_inter hG).2 ⟨hlt, u, v, ha, rfl, rfl⟩
        rw [← interV_keys G (LDDE.lab m) id] at hp
        obtain ⟨p, hp, hpe⟩ := List.mem_map.1 hp
        obtain ⟨s, hs, hts⟩ := hall p hp
        have hne : c.tab s ≠ emp := by rw [hts]; exact hkey p hp
        have hmemE : (c.tab s, c.val s) ∈ Hash.entries ⟨k, hash, emp⟩ c.tab c.val := (hmem _ _).2 ⟨hne, s, hs, rfl, rfl⟩
        obtain ⟨x, y, hxy, h3, h4⟩ := mem_interV hG (hent _ hmemE)
        have h3 : c.tab s = (LDDE.lab m x, LDDE.lab m y) := h3
        have h4 : c.val s = (x, y) := h4
        rw [hts, hpe, Prod.mk.injEq] at h3
        obtain ⟨hx, hy⟩ := SDB14.adj_lt hG hxy
        obtain ⟨k1, l1, w1⟩ := hdep u hu
        obtain ⟨k2, l2, w2⟩ := hdep x hx
        obtain ⟨k3, l3, w3⟩ := hdep y hy
        obtain ⟨k4, l4, w4⟩ := hdep v hv
        rw [← h3.1] at w2
        rw [← h3.2] at w3
        have hedge : (x, y) ∈ treeEdges G.n m ++ (Hash.entries ⟨k, hash, emp⟩ c.tab c.val).map Prod.snd :=
          List.mem_append_right _ (List.mem_map.2 ⟨_, hmemE, h4⟩)
        exact ⟨_, by omega, ((w1.symm.trans w2).cons (Or.inl hedge)).trans (w3.symm.trans w4)⟩
      intro u v ha
      obtain ⟨hu, hv⟩ := SDB14.adj_lt hG ha
      rcases Nat.lt_trichotomy (LDDE.lab m u) (LDDE.lab m v) with hlt | heq | hlt
      · exact key u v ha hlt
      · obtain ⟨k1, l1, w1⟩ := hdep u hu
        obtain ⟨k4, l4, w4⟩ := hdep v hv
        rw [← heq] at w4
        exact ⟨_, by omega, w1.symm.trans w4⟩
      · obtain ⟨l, hl, hw⟩ := key v u (hsym _ _ ha) hlt
        exact ⟨l, hl, hw.symm⟩
    · have h5 := tree_length G.n m hed
      have h6 : (Hash.entries ⟨k, hash, emp⟩ c.tab c.val).length = (pairs G (LDDE.lab m)).card := by
        rw [← List.length_map (f := Prod.fst), ← List.toFinset_card_of_nodup hnd]
        congr 1
        ext ⟨a, b⟩
        simp only [pairs, List.mem_toFinset, Finset.mem_filter, Finset.mem_product, Finset.mem_range]
        constructor
        · intro hp
          obtain ⟨p, hp, hpe⟩ := List.mem_map.1 hp
          have : (a, b) ∈ inter G (LDDE.lab m) := by
            rw [← interV_keys G (LDDE.lab m) id, ← hpe]; exact List.mem_map_of_mem (hent p hp)
          obtain ⟨hlt, u, v, ha, h7, h8⟩ := (Contract.mem_inter hG).1 this
          obtain ⟨hu, hv⟩ := SDB14.adj_lt hG ha
          have h7 : LDDE.lab m u = a := h7
          have h8 : LDDE.lab m v = b := h8
          exact ⟨⟨by rw [← h7]; exact (h2 u hu).1, by rw [← h8]; exact (h2 v hv).1⟩, hlt, u, v, ha, h7, h8⟩
        · rintro ⟨-, hlt, u, v, ha, h7, h8⟩
          have : (a, b) ∈ inter G (LDDE.lab m) := (Contract.mem_inter hG).2 ⟨hlt, u, v, ha, h7, h8⟩
          rw [← interV_keys G (LDDE.lab m) id] at this
          obtain ⟨p, hp, hpe⟩ := List.mem_map.1 this
          obtain ⟨s, hs, hts⟩ := hall p hp
          have hne : c.tab s ≠ emp := by rw [hts]; exact hkey p hp
          exact List.mem_map.2 ⟨(c.tab s, c.val s), (hmem _ _).2 ⟨hne, s, hs, rfl, rfl⟩, by show c.tab s = _; rw [hts, hpe]⟩
      rw [List.length_append, List.length_map, h6]
      omega

/-- Distances grow by the same factor at most. -/
theorem spanner_stretch {G : Gr W} (hG : G.Ok) (hsym : ∀ u v, Adj G u v → Adj G v u) (hn : G.n ≤ LDD.none32) {sh : List Nat} (hsh : LDD.Shifts G.n sh)
    {L : List (Nat × Nat)} (h : Spanner sh G (some L)) {u v d : Nat} (hw : GWalk G u v d) :
    ∃ k, k ≤ (4 * (sh.length - 2) + 1) * d ∧ Walk L u v k := by
  obtain ⟨L', h1, _, h3, _⟩ := spanner_correct hG hsym hn hsh h
  obtain rfl := Option.some.inj h1
  induction hw with
  | nil => exact ⟨0, Nat.zero_le _, .nil⟩
  | cons h he ih =>
    obtain ⟨k, hk, w1⟩ := ih
    obtain ⟨l, hl, w2⟩ := h3 _ _ he
    exact ⟨k + l, by rw [Nat.mul_succ]; omega, w1.trans w2⟩

/-! ### There are calls -/

section exist
variable {V : Type} {k : Nat} {keys : List (Nat × Nat)} {hash : Nat × Nat → Nat} {v : Fin keys.length → V} {v0 : Nat → V}

theorem one_insert (hk : ∀ p ∈ keys, p ≠ emp) (hm : keys.length < k) (f : Nat) :
    ∀ (c : Hash.Conf (Nat × Nat) V (Fin keys.length)) (i : Fin keys.length) (j : Nat), k ≤ f + j →
    Atomics.Steps (Hash.Step ⟨k, hash, emp⟩ (fun _ x => x) false (fun i => keys[i]) v) ⟨fun _ => emp, v0, fun _ => .read1 0⟩ c → c.pc i = .read1 j →
    ∃ c', Atomics.Steps (Hash.Step ⟨k, hash, emp⟩ (fun _ x => x) false (fun i => keys[i]) v) ⟨fun _ => emp, v0, fun _ => .read1 0⟩ c' ∧
      (∃ j w, c'.pc i = .done j w) ∧ ∀ i', i' ≠ i → c'.pc i' = c.pc i' := by
  induction f with
  | zero =>
    intro c i j hf h hj
    have := Contract.insert_free hk hm (steps_forget h) i hj
    omega
  | succ f ih =>
    intro c i j hf h hj
    by_cases he : c.tab (Hash.slot ⟨k, hash, emp⟩ keys[i] j) = emp
    · have s1 := h.tail (.read1E c i j hj he)
      have s2 := s1.tail (.casT _ i j (by simp [Atomics.set]) he)
      have s3 := s2.tail (.post _ i j true (by simp [Atomics.set]))
      refine ⟨_, s3, ⟨j, true, by simp [Atomics.set]⟩, fun k hki => ?_⟩
      simp [Atomics.set, hki]
    · have s1 := h.tail (.read1N c i j hj he)
      by_cases hq : c.tab (Hash.slot ⟨k, hash, emp⟩ keys[i] j) = keys[i]
      · have s2 := s1.tail (.read2E _ i j (by simp [Atomics.set]) hq)
        refine ⟨_, s2, ⟨j, false, by simp [Atomics.set]⟩, fun k hki => ?_⟩
        simp [Atomics.set, hki]
      · have s2 := s1.tail (.read2N _ i j (by simp [Atomics.set]) hq)
        obtain ⟨c', h1, h2, h3⟩ := ih _ i (j + 1) (by omega) s2 (by simp [Atomics.set])
        refine ⟨c', h1, h2, fun k hki => (h3 k hki).trans ?_⟩
        simp [Atomics.set, hki]

theorem all_insert (hk : ∀ p ∈ keys, p ≠ emp) (hm : keys.length < k) (l : List (Fin keys.length)) :
    l.Nodup → ∃ c, Atomics.Steps (Hash.Step ⟨k, hash, emp⟩ (fun _ x => x) false (fun i => keys[i]) v) ⟨fun _ => emp, v0, fun _ => .read1 0⟩ c ∧
      (∀ i ∈ l, ∃ j w, c.pc i = .done j w) ∧ ∀ i, i ∉ l → c.pc i = .read1 0 := by
  induction l with
  | nil => exact fun _ => ⟨_, .refl _, fun i hi => (by cases hi), fun _ _ => rfl⟩
  | cons a l ih =>
    intro hnd
    rw [List.nodup_cons] at hnd
    obtain ⟨c, h1, h2, h3⟩ := ih hnd.2
    obtain ⟨c', h4, h5, h6⟩ := one_insert hk hm k c a 0 (by omega) h1 (h3 a hnd.1)
    refine ⟨c', h4, fun i hi => ?_, fun i hi => ?_⟩
    · by_cases hia : i = a
      · subst hia; exact h5
      · rw [h6 i hia]
        exact h2 i ((List.mem_cons.1 hi).resolve_left hia)
    · rw [List.mem_cons, not_or] at hi
      rw [h6 i hi.1]
      exact h3 i hi.2

end exist

theorem ldde_cond_total (d : Nat) : Total ((LDDE.lddeF (W := W)).cond d) := fun _ => ⟨_, rfl⟩

theorem ldde_upd_total (s d : Nat) (w : W) : Total ((LDDE.lddeF (W := W)).updA s d w) := by
  intro m
  simp only [LDDE.lddeF, exec]
  split <;> exact ⟨_, rfl⟩

theorem run_exists {G : Gr W} (hG : G.Ok) (cw : Bool) (perm : Nat → Nat) (sh : List Nat) (f : Nat) :
    ∀ r vis add m F, sh.length ≤ r + f → ∃ res, LDDE.Run G cw perm sh r vis add m F res := by
  induction f with
  | zero =>
    intro r vis add m F hf
    by_cases h : vis < G.n
    · exact ⟨_, .range h (.inl (List.getElem?_eq_none (by omega)))⟩
    · exact ⟨_, .stop h⟩
  | succ f ih =>
    intro r vis add m F hf
    by_cases h : vis < G.n
    · cases ha : sh[r]? with
      | none => exact ⟨_, .range h (.inl ha)⟩
      | some a =>
        cases hb : sh[r + 1]? with
        | none => exact ⟨_, .range h (.inr hb)⟩
        | some b =>
          by_cases hw : min b G.n < a
          · exact ⟨_, .wrap h ha hb hw⟩
          by_cases hp : G.n < add + (min b G.n - a)
          · exact ⟨_, .perm h ha hb (by omega) hp⟩
          by_cases hv : G.n ≤ vis + (F ++ LDD.centers perm (LDDE.lab m) add (min b G.n - a)).length
          · exact ⟨_, .last h ha hb (by omega) hp rfl hv⟩
          obtain ⟨m', o, he⟩ := edgeMap_exists ldde_cond_total ldde_upd_total hG
            (fun v => decide (v ∈ F ++ LDD.centers perm (LDDE.lab m) add (min b G.n - a)))
            (LDDE.claimed2 cw m (LDD.centers perm (LDDE.lab m) add (min b G.n - a)))
          obtain ⟨res, hr⟩ := ih (r + 1) (vis + (F ++ LDD.centers perm (LDDE.lab m) add (min b G.n - a)).length) (add + (min b G.n - a)) m' (o.map Prod.fst) (by omega)
          exact ⟨res, .round h ha hb (by omega) hp rfl hv he hr⟩
    · exact ⟨_, .stop h⟩

/-- Whatever the shifts and the first clusters: a call can return. -/
theorem spanner_exists {G : Gr W} (hG : G.Ok) (sh : List Nat) {perm : Nat → Nat} (hp : SDB14.IsPerm G.n true perm) :
    ∃ res, Spanner sh G res := by
  obtain ⟨res, hr⟩ := run_exists hG true perm sh sh.length 0 0 0 (fun _ => LDD.none32) [] (by omega)
  cases res with
  | none => exact ⟨_, .ub hp hr⟩
  | some m =>
    obtain ⟨c, h1, h2, -⟩ := all_insert (k := tabSize (inter G (LDDE.lab m)).length) (keys := (interV G (LDDE.lab m) id).map Prod.fst)
      (hash := fun p => p.1 + p.2) (v := fun i => ((interV G (LDDE.lab m) id)[i.1]'(by simpa using i.2)).2) (v0 := fun _ => emp)
      (by rw [interV_keys]; exact fun _ => Contract.inter_ne_emp) (by rw [interV_keys]; exact Contract.tabSize_gt _)
      (List.finRange _) (List.nodup_finRange _)
    exact ⟨_, .run hp hr ⟨List.range G.n, _, _, c, sched_range _, .te rfl, ⟨h1, fun i => h2 i (List.mem_finRange i)⟩, rfl⟩⟩

/-- A cycle of five vertices; the first ball starts at vertex 0, the others one and two rounds later. -/
def cyc : Gr Unit := .ofLists [[(1, ()), (4, ())], [(0, ()), (2, ())], [(1, ()), (3, ())], [(2, ()), (4, ())], [(0, ()), (3, ())]]
  [[(1, ()), (4, ())], [(0, ()), (2, ())], [(1, ()), (3, ())], [(2, ()), (4, ())], [(0, ()), (3, ())]]

theorem cyc_ok : cyc.Ok := Gr.ofLists_ok (by decide)

theorem cyc_sym (u v : Nat) (h : Adj cyc u v) : Adj cyc v u := by
  obtain ⟨⟨⟩, h⟩ := h
  exact ⟨(), (cyc_ok.same u v ()).1 h⟩

example : ∃ L, Spanner [0, 1, 3, 6] cyc (some L) ∧ (∀ e ∈ L, Adj cyc e.1 e.2) ∧ ∃ k, k ≤ 9 ∧ Walk L 2 3 k := by
  obtain ⟨res, h⟩ := spanner_exists cyc_ok [0, 1, 3, 6] (perm := fun i => i)
    ⟨fun _ h => h, fun _ _ _ _ h => h, fun v hv => ⟨v, hv, rfl⟩, fun _ _ _ => rfl⟩
  obtain ⟨L, rfl, h1, h2, _⟩ := spanner_correct cyc_ok cyc_sym (by decide) (by refine ⟨rfl, by simp, 6, by simp, by decide⟩) h
  exact ⟨L, h, h1, h2 2 3 ⟨(), by decide⟩⟩

end Gbbs.Spanner
