/-
C97: the work-efficient spanning forest, `benchmarks/SpanningForest/SDB14/SpanningForest.h` and `contract_sf.h`.
-/
import Verif.Algo.SDB14
import Verif.Algo.LDDEdges
import Verif.Algo.SpanForest
import Mathlib.Tactic.ByContra
import Mathlib.Tactic.IntervalCases

namespace Gbbs.SDB14SF

open Conc Conc.Prog Em Comp SF
open Atomics (Steps)
open Contract (Adj QAdj Touch IsContraction emp inter tabSize mark symEdges)
open SDB14 (toGr IsPerm LevelOk)

variable {W : Type}

/-! ### Model -/

/-- What `map_f` inserts (`contract_sf.h:67-75`, 120-128, 155-163): for each edge to a larger cluster, the pair of clusters with the
image `φ` of the edge (`edge_mapping`). -/
def interV (G : Gr W) (cl : Nat → Nat) (φ : Nat × Nat → Nat × Nat) : List ((Nat × Nat) × (Nat × Nat)) :=
  ((List.range G.n).flatMap fun u => (G.fwd u).map fun x => ((cl u, cl x.1), φ (u, x.1))).filter fun p => decide (p.1.1 < p.1.2)

/-- Concurrent `insert` of all pairs into an empty table with `m` slots (the model of C20). -/
def InsertV (m : Nat) (hash : Nat × Nat → Nat) (kvs : List ((Nat × Nat) × (Nat × Nat)))
    (c : Hash.Conf (Nat × Nat) (Nat × Nat) (Fin (kvs.map Prod.fst).length)) : Prop :=
  Hash.Complete ⟨m, hash, emp⟩ (fun _ x => x) false (fun i => (kvs.map Prod.fst)[i])
    (fun i => (kvs[i.1]'(by simpa using i.2)).2) (fun _ => emp) (fun _ => emp) c

/-- The size of the table: the choice at `contract_sf.h:180-183` and the three functions `fetch_intercluster_small` (47-80),
`fetch_intercluster` (134-171) and `fetch_intercluster_te` (82-132); see `Contract.Fetch`. -/
inductive Size (G : Gr W) (cl : Nat → Nat) (nc : Nat) (m : Nat) : Prop
  | small (h : nc < 2048) (hm : m = tabSize 2048)
  | main (h : ¬ nc < 2048) (hm : m = tabSize (nc * 5))
  | te (h : ¬ nc < 2048) (hm : m = tabSize (inter G cl).length)

/-- The key under which an edge is looked up and stored: `SpanningForest.h:174-176`, `contract_sf.h:233-237`. -/
def ordKey (u v : Nat) : Nat × Nat := (min u v, max u v)

/-- `contract(GA, clusters, num_clusters, edge_mapping)`, `contract_sf.h:173-244`: the contracted graph as in `contract.h` (the model
of C74), and the new mapping `ψ`: a lookup in `ret_table`, into which the entries are inserted under the names of the clusters in the
contracted graph (`contract_sf.h:225-239`, `SpanningForest.h:172-179`; `ψ` is only applied to edges of `GC`). -/
def ContractV (G : Gr W) (cl : Nat → Nat) (nc : Nat) (φ : Nat × Nat → Nat × Nat) (GC : Csr.Graph Unit) (flags mapping : Nat → Nat)
    (ψ : Nat × Nat → Nat × Nat) : Prop :=
  ∃ (m : Nat) (hash hash2 : Nat × Nat → Nat) (c : Hash.Conf (Nat × Nat) (Nat × Nat) (Fin ((interV G cl φ).map Prod.fst).length))
    (ents : List ((Nat × Nat) × (Nat × Nat))) (E : List (Nat × Nat)) (fl : Nat → Nat) (o : Nat → Unit) (order : List Nat) (g : Nat → Nat)
    (sorted : List (Csr.Edge Unit)) (ws : List (Nat × Nat)) (kvs : List ((Nat × Nat) × (Nat × Nat)))
    (c2 : Hash.Conf (Nat × Nat) (Nat × Nat) (Fin (kvs.map Prod.fst).length)), Size G cl nc m ∧
    InsertV m hash (interV G cl φ) c ∧
    ents = Hash.entries ⟨m, hash, emp⟩ c.tab c.val ∧ E = ents.map Prod.fst ∧
    Par (fun i => match E[i]? with | none => ret () | some e => mark e) (fun _ => 0) fl o ∧
    flags = exScan fl ∧
    Sched nc order ∧ mapping = order.foldl (fun a i => if flags i ≠ flags (i + 1) then upd a (flags i) i else a) g ∧
    ((E = [] ∧ GC = ⟨flags nc, 0, fun _ => 0, fun _ => 0, []⟩) ∨
     (E ≠ [] ∧ Csr.IsSort (Csr.bothDirs (symEdges E flags)) sorted ∧
      ws.Perm (Csr.allOffsetWrites (flags nc) (Csr.srcAt (Csr.dedupe sorted)) (Csr.dedupe sorted).length) ∧
      GC = Csr.fromEdges (flags nc) sorted ws)) ∧
    kvs = ents.map (fun e => (ordKey (flags e.1.1) (flags e.1.2), e.2)) ∧
    InsertV (tabSize m) hash2 kvs c2 ∧
    ∀ x y, Adj (toGr GC) x y → Hash.find ⟨tabSize m, hash2, emp⟩ c2.tab c2.val (ordKey x y) emp (tabSize m) 0 = some (ψ (x, y))

/-- The tree edges of this level, `SpanningForest.h:136-139`. -/
def tree (n : Nat) (m : LDDE.Loc → Nat) : List (Nat × Nat) :=
  ((List.range n).map fun i => (m (.ed i), i)).filter fun e => decide (e.1 ≠ e.2)

/-- Lines 126-164: the tree edges, and what `contract` returns. -/
def Level (sh : Nat → List Nat) (permute : Bool) (G : Gr W) (φ : Nat × Nat → Nat × Nat) (T : List (Nat × Nat)) (GC : Csr.Graph Unit)
    (ψ : Nat × Nat → Nat × Nat) : Prop :=
  ∃ (perm : Nat → Nat) (m : LDDE.Loc → Nat) (c : Relabel.Conf) (order : List Nat) (cl : Nat → Nat) (nc : Nat) (flags mapping : Nat → Nat),
    IsPerm G.n permute perm ∧ LDDE.Ldde G true perm (sh G.n) (some m) ∧
    Steps (Relabel.Step G.n (LDDE.lab m)) Relabel.init c ∧ (∀ i, i < G.n → c.pc i = .done) ∧ Sched G.n order ∧
    cl = (Relabel.finish G.n c.flag order (LDDE.lab m)).1 ∧ nc = (Relabel.finish G.n c.flag order (LDDE.lab m)).2 ∧
    T = tree G.n m ∧ ContractV G cl nc φ GC flags mapping ψ

/-- `SpanningForest_Impl`, lines 122-185, with the number of levels. `edges` is `T.map φ`. At the last level the result starts with
`edges.size()` default edges (lines 166-170: `D` is created with that length, and then `edges` are appended). -/
inductive Impl (sh : Nat → List Nat) : Nat → Bool → (W : Type) → Gr W → (Nat × Nat → Nat × Nat) → Option (List (Nat × Nat)) → Prop
  | ldd {permute W} {G : Gr W} {φ} {perm : Nat → Nat} (hp : IsPerm G.n permute perm)
      (hl : LDDE.Ldde G true perm (sh G.n) none) : Impl sh 1 permute W G φ none
  | last {permute W} {G : Gr W} {φ T GC ψ} (h : Level sh permute G φ T GC ψ) (hm : GC.m = 0) :
      Impl sh 1 permute W G φ (some (List.replicate (T.map φ).length (0, 0) ++ T.map φ))
  | next {permute W} {G : Gr W} {φ T GC ψ k l} (h : Level sh permute G φ T GC ψ) (hm : GC.m ≠ 0)
      (hr : Impl sh k true Unit (toGr GC) ψ (some l)) : Impl sh (k + 1) permute W G φ (some (l ++ T.map φ))
  | sub {permute W} {G : Gr W} {φ T GC ψ k} (h : Level sh permute G φ T GC ψ) (hm : GC.m ≠ 0)
      (hr : Impl sh k true Unit (toGr GC) ψ none) : Impl sh (k + 1) permute W G φ none

/-- `SpanningForest(G)`, lines 190-195. -/
def Sf (sh : Nat → List Nat) (permute : Bool) (G : Gr W) (res : Option (List (Nat × Nat))) : Prop :=
  ∃ k, Impl sh k permute W G id res

/-! ### The table -/

theorem interV_keys (G : Gr W) (cl : Nat → Nat) (φ : Nat × Nat → Nat × Nat) : (interV G cl φ).map Prod.fst = inter G cl := by
  have hf : ∀ l : List ((Nat × Nat) × (Nat × Nat)), (l.filter fun p => decide (p.1.1 < p.1.2)).map Prod.fst =
      (l.map Prod.fst).filter fun p => decide (p.1 < p.2) := fun l => by
    induction l with
    | nil => rfl
    | cons a l ih => by_cases h : a.1.1 < a.1.2 <;> simp [h, ih]
  rw [interV, hf, inter, List.map_flatMap]
  congr 2
  funext u
  rw [List.map_map]
  rfl

theorem mem_interV {G : Gr W} (hG : G.Ok) {cl : Nat → Nat} {φ : Nat × Nat → Nat × Nat} {p : (Nat × Nat) × (Nat × Nat)}
    (h : p ∈ interV G cl φ) : ∃ u v, Adj G u v ∧ p.1 = (cl u, cl v) ∧ p.2 = φ (u, v) := by
  simp only [interV, List.mem_filter, List.mem_flatMap, List.mem_range, List.mem_map] at h
  obtain ⟨⟨u, hu, x, hx, rfl⟩, -⟩ := h
  exact ⟨u, x.1, ⟨x.2, hx⟩, rfl, rfl⟩

section table
variable {K V ι : Type} [DecidableEq K] [DecidableEq ι]

/-- Without the values, a run is a run. -/
theorem steps_forget {P : Hash.Par K} {key : ι → K} {v : ι → V} {c c' : Hash.Conf K V ι}
    (h : Steps (Hash.Step P (fun _ x => x) false key v) c c') :
    Steps (Hash.Step P (fun _ x => x) false key fun _ => ()) ⟨c.tab, fun _ => (), c.pc⟩ ⟨c'.tab, fun _ => (), c'.pc⟩ := by
  induction h with
  | refl => exact .refl _
  | tail _ hs ih =>
    refine ih.tail ?_
    cases hs with
    | read1E i j h he => exact .read1E _ i j h he
    | read1N i j h he => exact .read1N _ i j h he
    | casT i j h he => exact .casT _ i j h he
    | casF i j h he => exact .casF _ i j h he
    | read2E i j h he => exact .read2E _ i j h he
    | read2N i j h he => exact .read2N _ i j h he
    | post i j w h => exact .post _ i j w h

/-- A present key is found, however full the table is. -/
theorem find_present {P : Hash.Par K} {tab : Nat → K} (val : Nat → V) (hw : Hash.WF P tab) {s : Nat} (hs : s < P.m)
    (hne : tab s ≠ P.emp) (dflt : V) : Hash.find P tab val (tab s) dflt P.m 0 = some (val s) := by
  obtain ⟨j, hj, h1, h2⟩ := hw s hs hne
  have key : ∀ d j0 f, j0 + d = j → d < f → Hash.find P tab val (tab s) dflt f j0 = some (val s) := by
    intro d
    induction d with
    | zero =>
      intro j0 f h hf
      obtain ⟨f, rfl⟩ : ∃ f', f = f' + 1 := ⟨f - 1, by omega⟩
      have : j0 = j := by omega
      subst this
      simp [Hash.find, h1]
    | succ d ih =>
      intro j0 f h hf
      obtain ⟨f, rfl⟩ : ∃ f', f = f' + 1 := ⟨f - 1, by omega⟩
      obtain ⟨a, b⟩ := h2 j0 (by omega)
      simp only [Hash.find, a, b, if_false]
      exact ih _ _ (by omega) (by omega)
  exact key j 0 P.m (by omega) hj

end table

/-- The entries are the keys with the value of one of their insertions. -/
theorem insertV_spec {m : Nat} (hm : 0 < m) {hash : Nat × Nat → Nat} {kvs : List ((Nat × Nat) × (Nat × Nat))}
    (hk : ∀ p ∈ kvs, p.1 ≠ emp) {c : Hash.Conf (Nat × Nat) (Nat × Nat) (Fin (kvs.map Prod.fst).length)} (h : InsertV m hash kvs c) :
    Hash.WF ⟨m, hash, emp⟩ c.tab ∧ (∀ p ∈ kvs, ∃ s, s < m ∧ c.tab s = p.1) ∧
    (∀ s, s < m → c.tab s ≠ emp → (c.tab s, c.val s) ∈ kvs) := by
  have hkey : ∀ i : Fin (kvs.map Prod.fst).length, (kvs.map Prod.fst)[i] ≠ emp := fun i => by
    obtain ⟨p, hp, he⟩ := List.mem_map.1 (List.getElem_mem i.2)
    exact fun h => hk p hp (he.trans h)
  have hw0 : Hash.WF (⟨m, hash, emp⟩ : Hash.Par (Nat × Nat)) (fun _ => emp) := fun _ _ h => absurd rfl h
  obtain ⟨h1, h2, -, h4, -, h6⟩ := Hash.insert_keys (P := ⟨m, hash, emp⟩) hm hkey hw0 h
  obtain ⟨h7, -⟩ := Hash.insert_values (P := ⟨m, hash, emp⟩) hm hkey hw0 h
  refine ⟨h1, fun p hp => ?_, fun s hs hne => ?_⟩
  · obtain ⟨i, hi, rfl⟩ := List.getElem_of_mem hp
    obtain ⟨s, ⟨hs, hs2⟩, -⟩ := h2 ⟨i, by simpa using hi⟩
    exact ⟨s, hs, by simpa using hs2⟩
  · rcases (h4 (c.tab s) hne).1 ⟨s, hs, rfl⟩ with ⟨t, _, ht⟩ | ⟨i, hi⟩
    · exact absurd ht.symm hne
    · obtain ⟨i', ⟨h8, j, h9⟩, -⟩ := h6 i (fun ⟨t, _, ht⟩ => hkey i ht.symm)
      have hv := h7 i' j s h9 hs (by rw [h8, hi])
      have hlt : i'.1 < kvs.length := by simpa using i'.2
      have : (c.tab s, c.val s) = kvs[i'.1] := by
        rw [hv, ← hi, ← h8]
        simp
      rw [this]
      exact List.getElem_mem _

theorem contractV_contract {G : Gr W} {cl : Nat → Nat} {nc : Nat} {φ ψ : Nat × Nat → Nat × Nat} {GC : Csr.Graph Unit} {flags mapping : Nat → Nat}
    (h : ContractV G cl nc φ GC flags mapping ψ) : Contract.Contract G cl nc GC flags mapping := by
  obtain ⟨m, hash, hash2, c, ents, E, fl, o, order, g, sorted, ws, kvs, c2, hsz, hins, rfl, rfl, h1, h2, h3, h4, h5, -⟩ := h
  have hi : Contract.Insert m (inter G cl) ((Hash.entries ⟨m, hash, emp⟩ c.tab c.val).map Prod.fst) := by
    rw [← interV_keys G cl φ]
    refine ⟨hash, ⟨c.tab, fun _ => (), c.pc⟩, ⟨steps_forget hins.1, hins.2⟩, ?_⟩
    simp [Hash.entries, Function.comp_def]
  refine ⟨_, fl, o, order, g, sorted, ws, ?_, h1, h2, h3, h4, h5⟩
  cases hsz with
  | small h hm => exact .small h (hm ▸ hi)
  | main h hm => exact .main h (hm ▸ hi)
  | te h hm => exact .te h (hm ▸ hi)

theorem ordKey_comm (u v : Nat) : ordKey u v = ordKey v u := by simp [ordKey, Nat.min_comm, Nat.max_comm]

theorem ordKey_eq {a b x y : Nat} (h : ordKey a b = ordKey x y) : a = x ∧ b = y ∨ a = y ∧ b = x := by
  simp only [ordKey, Prod.mk.injEq] at h
  omega

/-- The new mapping gives, for an edge of the contracted graph, the image of an edge between the two clusters. -/
theorem lift_spec {G : Gr W} (hG : G.Ok) (hsym : ∀ u v, Adj G u v → Adj G v u) {cl : Nat → Nat} {nc : Nat} {φ ψ : Nat × Nat → Nat × Nat}
    {GC : Csr.Graph Unit} {flags mapping : Nat → Nat} (h : ContractV G cl nc φ GC flags mapping ψ) (hcl : ∀ v, v < G.n → cl v < nc)
    (hn : GC.n ≤ 4294967295) (hc : IsContraction G cl nc GC flags mapping) {x y : Nat} (ha : Adj (toGr GC) x y) :
    ∃ u v, Adj G u v ∧ ψ (x, y) = φ (u, v) ∧ (cl u = mapping x ∧ cl v = mapping y ∨ cl u = mapping y ∧ cl v = mapping x) := by
  obtain ⟨m, hash, hash2, c, ents, E, fl, o, order, g, sorted, ws, kvs, c2, hsz, hins, rfl, rfl, h1, h2, h3, h4, h5, rfl, hins2, hfind⟩ := h
  have hm : 0 < m := by cases hsz <;> (rename_i hm; rw [hm]; exact Contract.tabSize_pos _)
  have hk : ∀ p ∈ interV G cl φ, p.1 ≠ emp := fun p hp =>
    Contract.inter_ne_emp (G := G) (cl := cl) (by rw [← interV_keys G cl φ]; exact List.mem_map_of_mem hp)
  obtain ⟨w1, w2, w3⟩ := insertV_spec hm hk hins
  have hent : ∀ k x, (k, x) ∈ Hash.entries ⟨m, hash, emp⟩ c.tab c.val → (k, x) ∈ interV G cl φ := fun k x hx => by
    obtain ⟨hne, s, hs, rfl, rfl⟩ := ((Hash.entries_spec c.val w1).2 k x).1 hx
    exact w3 s hs hne
  have hq : ∀ p ∈ interV G cl φ, QAdj G cl p.1.1 p.1.2 := fun p hp => by
    obtain ⟨u, v, h1, h2, -⟩ := mem_interV hG hp
    have hlt : p.1.1 < p.1.2 := by
      have := (List.mem_filter.1 hp).2
      simpa using this
    exact ⟨by omega, u, v, h1, by rw [h2], by rw [h2]⟩
  have hqlt : ∀ {a b}, QAdj G cl a b → a < nc ∧ b < nc := fun {a b} h => by
    obtain ⟨-, u, v, h1, rfl, rfl⟩ := h
    have := SDB14.adj_lt hG h1
    exact ⟨hcl _ this.1, hcl _ this.2⟩
  have hfl : ∀ {a b}, QAdj G cl a b → flags a < GC.n ∧ flags b < GC.n ∧ mapping (flags a) = a ∧ mapping (flags b) = b := fun {a b} h => by
    have hl := hqlt h
    have ta : Touch G cl a := ⟨b, h⟩
    have tb : Touch G cl b := ⟨a, SDB14.qadj_symm hsym h⟩
    exact ⟨hc.lt _ hl.1 ta, hc.lt _ hl.2 tb, hc.map _ hl.1 ta, hc.map _ hl.2 tb⟩
  have hk2 : ∀ p ∈ (Hash.entries ⟨m, hash, emp⟩ c.tab c.val).map (fun e => (ordKey (flags e.1.1) (flags e.1.2), e.2)), p.1 ≠ emp := by
    intro p hp he
    obtain ⟨e, he', rfl⟩ := List.mem_map.1 hp
    have := hfl (hq _ (hent e.1 e.2 he'))
    dsimp only at this
    simp only [ordKey, emp, Prod.mk.injEq] at he
    omega
  obtain ⟨z1, z2, z3⟩ := insertV_spec (Contract.tabSize_pos m) hk2 hins2
  -- the edge has an entry
  obtain ⟨hx, hy, hq'⟩ := (SDB14.adj_iff hc).1 ha
  have hpres : ∃ s, s < tabSize m ∧ c2.tab s = ordKey x y := by
    have key : ∀ a b, QAdj G cl a b → a < b → ordKey (flags a) (flags b) = ordKey x y → ∃ s, s < tabSize m ∧ c2.tab s = ordKey x y := by
      intro a b hab hlt heq
      have hin : (a, b) ∈ (interV G cl φ).map Prod.fst := by
        rw [interV_keys, Contract.mem_inter hG]
        exact ⟨hlt, hab.2⟩
      obtain ⟨p, hp, hpe⟩ := List.mem_map.1 hin
      obtain ⟨s, hs, hs2⟩ := w2 p hp
      have he := ((Hash.entries_spec c.val w1).2 (c.tab s) (c.val s)).2 ⟨hs2 ▸ hk p hp, s, hs, rfl, rfl⟩
      obtain ⟨t, ht, ht2⟩ := z2 _ (List.mem_map_of_mem he)
      refine ⟨t, ht, ht2.trans ?_⟩
      simp only [hs2, hpe]
      exact heq
    have e1 := (hc.inv x hx).2.2
    have e2 := (hc.inv y hy).2.2
    rcases Nat.lt_or_ge (mapping x) (mapping y) with hlt | hge
    · exact key _ _ hq' hlt (by rw [e1, e2])
    · exact key _ _ (SDB14.qadj_symm hsym hq') (by have := hq'.1; omega) (by rw [e1, e2, ordKey_comm])
  obtain ⟨s, hs, hs2⟩ := hpres
  have hne : c2.tab s ≠ emp := by
    rw [hs2]
    simp only [ordKey, emp, ne_eq, Prod.mk.injEq]
    omega
  have h1 := find_present c2.val z1 hs hne emp
  rw [hs2] at h1
  have h2 := (hfind x y ha).symm.trans h1
  have h3 := z3 s hs hne
  obtain ⟨e, he, he2⟩ := List.mem_map.1 h3
  obtain ⟨u, v, hadj, g1, g2⟩ := mem_interV hG (hent e.1 e.2 he)
  obtain ⟨f1, f2, f3, f4⟩ := hfl (hq _ (hent e.1 e.2 he))
  rw [hs2, Prod.mk.injEq] at he2
  refine ⟨u, v, hadj, ?_, ?_⟩
  · rw [Option.some.inj h2, ← he2.2]; exact g2
  · have g3 : e.1 = (cl u, cl v) := g1
    rw [g3] at f3 f4
    rw [g3] at he2
    rcases ordKey_eq he2.1 with ⟨k1, k2⟩ | ⟨k1, k2⟩
    · exact .inl ⟨by rw [← k1]; exact f3.symm, by rw [← k2]; exact f4.symm⟩
    · exact .inr ⟨by rw [← k1]; exact f3.symm, by rw [← k2]; exact f4.symm⟩

/-! ### One level -/

/-- What makes a list a spanning forest. -/
structure Cert (n : Nat) (adj : Nat → Nat → Prop) (L : List (Nat × Nat)) (root : Nat → Nat) : Prop where
  sub : ∀ e ∈ L, adj e.1 e.2
  lt : ∀ x, x < n → root x < n ∧ root (root x) = root x
  conn : ∀ x, x < n → LConn L x (root x)
  eq : ∀ x y, adj x y → root x = root y
  count : L.length + ((Finset.range n).filter fun x => root x = x).card ≤ n

/-- What a level computes: centres `c`, the tree edges, and the contracted graph with the lifted edges. -/
structure Facts (G : Gr W) (φ : Nat × Nat → Nat × Nat) (T : List (Nat × Nat)) (GC : Csr.Graph Unit) (ψ : Nat × Nat → Nat × Nat)
    (c cl : Nat → Nat) (nc : Nat) (flags mapping : Nat → Nat) : Prop where
  lt : ∀ v, v < G.n → c v < G.n ∧ c (c v) = c v
  cl_iff : ∀ u v, u < G.n → v < G.n → (cl u = cl v ↔ c u = c v)
  level : LevelOk G cl nc
  con : IsContraction G cl nc GC flags mapping
  sub : ∀ e ∈ T, Adj G e.1 e.2
  conn : ∀ v, v < G.n → LConn T v (c v)
  count : T.length + ((Finset.range G.n).filter fun x => c x = x).card ≤ G.n
  lift : ∀ x y, Adj (toGr GC) x y → ∃ u v, Adj G u v ∧ ψ (x, y) = φ (u, v) ∧
    (cl u = mapping x ∧ cl v = mapping y ∨ cl u = mapping y ∧ cl v = mapping x)
  edge : GC.m ≠ 0 → ∃ x y, Adj (toGr GC) x y ∧ x ≠ y

theorem contractV_edge {G : Gr W} (hG : G.Ok) {cl : Nat → Nat} {nc : Nat} {φ ψ : Nat × Nat → Nat × Nat} {GC : Csr.Graph Unit}
    {flags mapping : Nat → Nat} (h : ContractV G cl nc φ GC flags mapping ψ) (hm : GC.m ≠ 0) : ∃ u v, Adj G u v ∧ cl u ≠ cl v := by
  obtain ⟨m, hash, hash2, c, ents, E, fl, o, order, g, sorted, ws, kvs, c2, hsz, hins, rfl, rfl, -, -, -, -, h5, -⟩ := h
  rcases h5 with ⟨-, rfl⟩ | ⟨hne, -⟩
  · exact absurd rfl hm
  · by_contra hno
    push Not at hno
    have h0 : interV G cl φ = [] := by
      refine List.eq_nil_iff_forall_not_mem.2 fun p hp => ?_
      obtain ⟨u, v, h1, h2, -⟩ := mem_interV hG hp
      have hlt : p.1.1 < p.1.2 := by simpa using (List.mem_filter.1 hp).2
      rw [h2] at hlt
      have := hno u v h1
      dsimp only at hlt
      omega
    have hm0 : 0 < m := by cases hsz <;> (rename_i hm; rw [hm]; exact Contract.tabSize_pos _)
    obtain ⟨w1, -, w3⟩ := insertV_spec hm0 (fun p hp => by rw [h0] at hp; cases hp) hins
    obtain ⟨k, hk⟩ := List.exists_mem_of_ne_nil _ hne
    obtain ⟨⟨k, x⟩, hx, -⟩ := List.mem_map.1 hk
    obtain ⟨hk, s, hs, rfl, rfl⟩ := ((Hash.entries_spec c.val w1).2 k x).1 hx
    exact absurd (w3 s hs hk) (List.eq_nil_iff_forall_not_mem.1 h0 _)

theorem mem_tree {n : Nat} {m : LDDE.Loc → Nat} {e : Nat × Nat} : e ∈ tree n m ↔ e.2 < n ∧ m (.ed e.2) = e.1 ∧ e.1 ≠ e.2 := by
  simp only [tree, List.mem_filter, List.mem_map, List.mem_range, decide_eq_true_eq]
  constructor
  · rintro ⟨⟨i, hi, rfl⟩, hne⟩
    exact ⟨hi, rfl, hne⟩
  · rintro ⟨h1, h2, h3⟩
    exact ⟨⟨e.2, h1, by rw [h2]⟩, h3⟩

theorem twalk_lconn {G : Gr W} (hG : G.Ok) {m : LDDE.Loc → Nat} {c v : Nat} (h : LDDE.TWalk G m c v) : LConn (tree G.n m) v c := by
  induction h with
  | nil _ => exact (lconn_equiv _).refl _
  | @cons u v w _ he hd _ _ ih =>
    by_cases hne : u = v
    · rw [← hne]; exact ih
    · refine (lconn_equiv _).trans ((lconn_equiv _).symm (.rel _ _ ?_)) ih
      exact mem_tree.2 ⟨(hG.bound _ _ _ he).2, hd, hne⟩

theorem tree_length (n : Nat) (m : LDDE.Loc → Nat) (c : Nat → Nat) (h : ∀ v, v < n → c v = v → m (.ed v) = v) :
    (tree n m).length + ((Finset.range n).filter fun x => c x = x).card ≤ n := by
  induction n with
  | zero => simp [tree]
  | succ n ih =>
    have h1 := ih fun v hv => h v (by omega)
    have h2 : (tree (n + 1) m).length = (tree n m).length + if m (.ed n) = n then 0 else 1 := by
      simp only [tree, List.range_succ, List.map_append, List.map_cons, List.map_nil, List.filter_append, List.length_append]
      by_cases he : m (.ed n) = n <;> simp [he]
    rw [h2, Finset.range_add_one, Finset.filter_insert]
    by_cases hc : c n = n
    · rw [if_pos hc, if_pos (h n (by omega) hc), Finset.card_insert_of_notMem (by simp)]
      omega
    · rw [if_neg hc]
      split <;> omega

theorem level_facts {sh : Nat → List Nat} (hsh : ∀ n, LDD.Shifts n (sh n)) {permute : Bool} {G : Gr W} (hG : G.Ok) (hn : G.n ≤ LDD.none32)
    (hsym : ∀ u v, Adj G u v → Adj G v u) {φ ψ : Nat × Nat → Nat × Nat} {T : List (Nat × Nat)} {GC : Csr.Graph Unit}
    (h : Level sh permute G φ T GC ψ) : ∃ c cl nc flags mapping, Facts G φ T GC ψ c cl nc flags mapping := by
  obtain ⟨perm, m, cf, order, cl, nc, flags, mapping, hp, hl, hs, hd, ho, rfl, rfl, rfl, hc⟩ := h
  obtain ⟨m', h1, h2⟩ := LDDE.ldde_correct hG hn hp.lt hp.inj hp.onto (hsh _) hl
  obtain rfl := Option.some.inj h1
  have hr := Relabel.relabel_correct G.n (LDDE.lab m) (fun i hi => (h2 i hi).1) cf hs hd order ho
  have hcon := Contract.contract_partial hG hsym hr.range (contractV_contract hc)
  have hw : ∀ v, v < G.n → Conn (Adj G) v (LDDE.lab m v) := fun v hv => by
    have : ∀ {c v}, LDDE.TWalk G m c v → Conn (Adj G) v c := fun {c v} h => by
      induction h with
      | nil _ => exact (conn_equiv _).refl _
      | cons w _ he _ _ _ ih => exact (conn_equiv _).trans ((conn_equiv _).symm (.rel _ _ ⟨w, he⟩)) ih
    exact this (h2 v hv).2.2.1
  have hle : (Relabel.finish G.n cf.flag order (LDDE.lab m)).2 ≤ G.n := by
    rw [hr.count]
    exact Finset.card_image_le.trans (by simp)
  refine ⟨LDDE.lab m, _, _, flags, mapping, fun v hv => ⟨(h2 v hv).1, (h2 v hv).2.1⟩, hr.eq_iff,
    ⟨hle, hr.range, hr.onto, fun u v hu hv he => ?_⟩, hcon, fun e he => ?_, fun v hv => twalk_lconn hG (h2 v hv).2.2.1,
    tree_length _ _ _ fun v hv hc => (h2 v hv).2.2.2 hc, fun x y ha => ?_, fun hm => ?_⟩
  · have := hw u hu
    rw [(hr.eq_iff u v hu hv).1 he] at this
    exact (conn_equiv _).trans this ((conn_equiv _).symm (hw v hv))
  · obtain ⟨he1, he2, he3⟩ := mem_tree.1 he
    obtain ⟨-, -, h3, h4⟩ := h2 _ he1
    obtain ⟨a, b⟩ := e
    dsimp only at he1 he2 he3 h3 h4 ⊢
    generalize hcb : LDDE.lab m b = cb at h3 h4
    cases h3 with
    | nil h =>
      exfalso
      have := h4 rfl
      simp only [if_true] at this
      exact he3 (he2.symm.trans this)
    | cons w _ hw hd _ _ =>
      rw [hd] at he2
      exact ⟨w, he2 ▸ hw⟩
  · have := SDB14.size_le hcon
    exact lift_spec hG hsym hc hr.range (by have : LDD.none32 = 4294967295 := rfl; omega) hcon ha
  · obtain ⟨u, v, ha, hne⟩ := contractV_edge hG hc hm
    obtain ⟨hu, hv⟩ := SDB14.adj_lt hG ha
    have hg := SDB14.qadj_gc hsym hcon (hr.range u hu) (hr.range v hv) ⟨hne, u, v, ha, rfl, rfl⟩
    exact ⟨_, _, hg, fun he => ((SDB14.adj_iff hcon).1 hg).2.2.1 (by rw [he])⟩

section step
variable {G : Gr W} {φ ψ : Nat × Nat → Nat × Nat} {T : List (Nat × Nat)} {GC : Csr.Graph Unit} {c cl : Nat → Nat} {nc : Nat}
  {flags mapping : Nat → Nat}

theorem last_cert (hG : G.Ok) (hsym : ∀ u v, Adj G u v → Adj G v u) (h : Facts G φ T GC ψ c cl nc flags mapping) (hm : GC.m = 0) :
    Cert G.n (Adj G) T c := by
  refine ⟨h.sub, h.lt, h.conn, fun x y ha => ?_, h.count⟩
  obtain ⟨hx, hy⟩ := SDB14.adj_lt hG ha
  exact (h.cl_iff x y hx hy).1 ((SDB14.last_ok hG hsym h.level h.con hm x y hx hy).2 (.rel _ _ ha))

theorem next_cert (hG : G.Ok) (hsym : ∀ u v, Adj G u v → Adj G v u) (h : Facts G φ T GC ψ c cl nc flags mapping)
    {L' : List (Nat × Nat)} {root' : Nat → Nat} (hc : Cert GC.n (Adj (toGr GC)) L' root') :
    ∃ L root, L.length = L'.length ∧ L'.map ψ = L.map φ ∧ Cert G.n (Adj G) (L ++ T) root := by
  classical
  -- the centre of a cluster
  have hctr : ∃ ctr : Nat → Nat, ∀ a, a < nc → ctr a < G.n ∧ cl (ctr a) = a ∧ c (ctr a) = ctr a := by
    have : ∀ a, ∃ v, a < nc → v < G.n ∧ cl v = a ∧ c v = v := fun a => by
      by_cases ha : a < nc
      · obtain ⟨v, hv, hva⟩ := h.level.onto a ha
        obtain ⟨h1, h2⟩ := h.lt v hv
        exact ⟨c v, fun _ => ⟨h1, by rw [← hva]; exact (h.cl_iff _ _ h1 hv).2 h2, h2⟩⟩
      · exact ⟨0, fun h => absurd h ha⟩
    exact ⟨fun a => (this a).choose, fun a => (this a).choose_spec⟩
  obtain ⟨ctr, hctr⟩ := hctr
  have hcc : ∀ v, v < G.n → c v = ctr (cl v) := fun v hv => by
    obtain ⟨h1, h2, h3⟩ := hctr _ (h.level.lt v hv)
    rw [← h3]
    exact (h.cl_iff _ _ hv h1).1 h2.symm
  -- lifted edges
  have hlift : ∃ lift : Nat × Nat → Nat × Nat, ∀ e, Adj (toGr GC) e.1 e.2 → Adj G (lift e).1 (lift e).2 ∧ ψ e = φ (lift e) ∧
      (cl (lift e).1 = mapping e.1 ∧ cl (lift e).2 = mapping e.2 ∨ cl (lift e).1 = mapping e.2 ∧ cl (lift e).2 = mapping e.1) := by
    have : ∀ e : Nat × Nat, ∃ d : Nat × Nat, Adj (toGr GC) e.1 e.2 → Adj G d.1 d.2 ∧ ψ e = φ d ∧
      (cl d.1 = mapping e.1 ∧ cl d.2 = mapping e.2 ∨ cl d.1 = mapping e.2 ∧ cl d.2 = mapping e.1) := fun e => by
      by_cases ha : Adj (toGr GC) e.1 e.2
      · obtain ⟨u, v, h1⟩ := h.lift _ _ ha
        exact ⟨(u, v), fun _ => h1⟩
      · exact ⟨e, fun h => absurd h ha⟩
    exact ⟨fun a => (this a).choose, fun a => (this a).choose_spec⟩
  obtain ⟨lift, hlift⟩ := hlift
  have inv := h.con.inv
  -- what is known about the end points
  have tou : ∀ v, v < G.n → Touch G cl (cl v) → flags (cl v) < GC.n ∧ mapping (flags (cl v)) = cl v := fun v hv t =>
    ⟨h.con.lt _ (h.level.lt v hv) t, h.con.map _ (h.level.lt v hv) t⟩
  let root : Nat → Nat := fun v => if Touch G cl (cl v) then ctr (mapping (root' (flags (cl v)))) else c v
  have rt : ∀ v, Touch G cl (cl v) → root v = ctr (mapping (root' (flags (cl v)))) := fun v t => if_pos t
  have rn : ∀ v, ¬ Touch G cl (cl v) → root v = c v := fun v t => if_neg t
  -- the centre of the cluster of a vertex of the contracted graph
  have cm : ∀ y, y < GC.n → ctr (mapping y) < G.n ∧ cl (ctr (mapping y)) = mapping y ∧ c (ctr (mapping y)) = ctr (mapping y) ∧
      root (ctr (mapping y)) = ctr (mapping (root' y)) := fun y hy => by
    obtain ⟨i1, i2, i3⟩ := inv y hy
    obtain ⟨h1, h2, h3⟩ := hctr _ i1
    refine ⟨h1, h2, h3, ?_⟩
    rw [rt _ (by rw [h2]; exact i2), h2, i3]
  have eT := lconn_equiv (L'.map lift ++ T)
  have mT : ∀ {x y}, LConn T x y → LConn (L'.map lift ++ T) x y := fun h => lconn_mono (fun e he => List.mem_append_right _ he) h
  have toc : ∀ v, v < G.n → LConn (L'.map lift ++ T) v (ctr (cl v)) := fun v hv => by
    rw [← hcc v hv]
    exact mT (h.conn v hv)
  have up : ∀ x y, LConn L' x y → LConn (L'.map lift ++ T) (ctr (mapping x)) (ctr (mapping y)) := fun x y hxy => by
    refine conn_le (adj := fun a b => (a, b) ∈ L') (s := fun x y => LConn (L'.map lift ++ T) (ctr (mapping x)) (ctr (mapping y)))
      ⟨fun _ => eT.refl _, eT.symm, eT.trans⟩ (fun a b hab => ?_) hxy
    obtain ⟨h1, -, h3⟩ := hlift _ (hc.sub _ hab)
    obtain ⟨b1, b2⟩ := SDB14.adj_lt hG h1
    have he : LConn (L'.map lift ++ T) (lift (a, b)).1 (lift (a, b)).2 :=
      .rel _ _ (List.mem_append_left _ (List.mem_map_of_mem hab))
    have t1 := toc _ b1
    have t2 := toc _ b2
    rcases h3 with ⟨k1, k2⟩ | ⟨k1, k2⟩
    · rw [k1] at t1; rw [k2] at t2
      exact eT.trans (eT.symm t1) (eT.trans he t2)
    · rw [k1] at t1; rw [k2] at t2
      exact eT.symm (eT.trans (eT.symm t1) (eT.trans he t2))
  refine ⟨L'.map lift, root, by simp, ?_, ⟨?_, ?_, ?_, ?_, ?_⟩⟩
  · rw [List.map_map]
    exact List.map_congr_left fun e he => (hlift e (hc.sub e he)).2.1
  · intro e he
    rcases List.mem_append.1 he with he | he
    · obtain ⟨d, hd, rfl⟩ := List.mem_map.1 he
      exact (hlift d (hc.sub d hd)).1
    · exact h.sub e he
  · intro x hx
    by_cases t : Touch G cl (cl x)
    · obtain ⟨f1, f2⟩ := tou x hx t
      obtain ⟨r1, r2⟩ := hc.lt _ f1
      obtain ⟨g1, g2, g3, g4⟩ := cm _ r1
      rw [rt x t, g4, r2]
      exact ⟨g1, rfl⟩
    · obtain ⟨l1, l2⟩ := h.lt x hx
      rw [rn x t, rn (c x) (by rwa [(h.cl_iff _ _ l1 hx).2 l2])]
      exact ⟨l1, l2⟩
  · intro x hx
    by_cases t : Touch G cl (cl x)
    · obtain ⟨f1, f2⟩ := tou x hx t
      rw [rt x t]
      have := up _ _ (hc.conn _ f1)
      rw [f2] at this
      exact eT.trans (toc x hx) this
    · rw [rn x t]
      exact mT (h.conn x hx)
  · intro x y ha
    obtain ⟨hx, hy⟩ := SDB14.adj_lt hG ha
    rcases SDB14.adj_cl (cl := cl) ha with he | hq
    · have := (h.cl_iff x y hx hy).1 he
      simp only [root, he, this]
    · have hg := SDB14.qadj_gc hsym h.con (h.level.lt x hx) (h.level.lt y hy) hq
      rw [rt x ⟨_, hq⟩, rt y ⟨_, SDB14.qadj_symm hsym hq⟩, hc.eq _ _ hg]
  · have hcount : ((Finset.range G.n).filter fun x => root x = x).card + ((Finset.range GC.n).filter fun y => ¬ root' y = y).card ≤
        ((Finset.range G.n).filter fun x => c x = x).card := by
      have inj : Set.InjOn (fun y => ctr (mapping y)) ((Finset.range GC.n).filter fun y => ¬ root' y = y) := by
        intro x hx y hy he
        have hx := Finset.mem_range.1 (Finset.mem_filter.1 hx).1
        have hy := Finset.mem_range.1 (Finset.mem_filter.1 hy).1
        have he : ctr (mapping x) = ctr (mapping y) := he
        have := congrArg cl he
        rw [(cm x hx).2.1, (cm y hy).2.1] at this
        rw [← (inv x hx).2.2, ← (inv y hy).2.2, this]
      rw [← Finset.card_image_of_injOn inj, ← Finset.card_union_of_disjoint]
      · refine Finset.card_le_card fun x hx => ?_
        rcases Finset.mem_union.1 hx with hx | hx
        · obtain ⟨h1, h2⟩ := Finset.mem_filter.1 hx
          have h1 := Finset.mem_range.1 h1
          refine Finset.mem_filter.2 ⟨Finset.mem_range.2 h1, ?_⟩
          by_cases t : Touch G cl (cl x)
          · obtain ⟨f1, f2⟩ := tou x h1 t
            have := (cm _ (hc.lt _ f1).1).2.2.1
            rw [← rt x t, h2] at this
            exact this
          · rw [← rn x t]; exact h2
        · obtain ⟨y, hy, rfl⟩ := Finset.mem_image.1 hx
          have hy := Finset.mem_range.1 (Finset.mem_filter.1 hy).1
          exact Finset.mem_filter.2 ⟨Finset.mem_range.2 (cm y hy).1, (cm y hy).2.2.1⟩
      · rw [Finset.disjoint_left]
        intro x hx hx'
        obtain ⟨y, hy, rfl⟩ := Finset.mem_image.1 hx'
        obtain ⟨hy, hne⟩ := Finset.mem_filter.1 hy
        have hy := Finset.mem_range.1 hy
        have h1 := (Finset.mem_filter.1 hx).2
        rw [(cm y hy).2.2.2] at h1
        have := congrArg cl h1
        rw [(cm y hy).2.1, (cm _ (hc.lt y hy).1).2.1] at this
        refine hne ?_
        rw [← (inv _ (hc.lt y hy).1).2.2, this, (inv y hy).2.2]
    have h1 := h.count
    have h2 := hc.count
    have h3 := Finset.card_filter_add_card_filter_not (s := Finset.range GC.n) (fun y => root' y = y)
    rw [Finset.card_range] at h3
    rw [List.length_append, List.length_map]
    omega

end step

/-! ### Theorems -/

/-- The result is a number of copies of the edge `(0, 0)` before the images of a spanning forest. -/
theorem impl_partial {sh : Nat → List Nat} (hsh : ∀ n, LDD.Shifts n (sh n)) {k : Nat} {permute : Bool} {G : Gr W} (hG : G.Ok)
    (hn : G.n ≤ LDD.none32) (hsym : ∀ u v, Adj G u v → Adj G v u) {φ : Nat × Nat → Nat × Nat} {res : Option (List (Nat × Nat))}
    (h : Impl sh k permute W G φ res) :
    ∃ j L root, res = some (List.replicate j (0, 0) ++ L.map φ) ∧ Cert G.n (Adj G) L root ∧ ((∃ x y, Adj G x y ∧ x ≠ y) → 0 < j) := by
  have tpos : ∀ {W : Type} {G : Gr W} {φ ψ T GC c cl nc flags mapping}, G.Ok → (∀ u v, Adj G u v → Adj G v u) →
      Facts G φ T GC ψ c cl nc flags mapping → GC.m = 0 → (∃ x y, Adj G x y ∧ x ≠ y) → 0 < T.length := by
    intro W G φ ψ T GC c cl nc flags mapping hG hsym hf hm ⟨x, y, ha, hne⟩
    obtain ⟨hx, hy⟩ := SDB14.adj_lt hG ha
    have he := (last_cert hG hsym hf hm).eq x y ha
    by_contra h0
    have hT : T = [] := List.eq_nil_of_length_eq_zero (by omega)
    have nil : ∀ {x y}, LConn [] x y → x = y := fun {x y} h =>
      conn_le (adj := fun a b => (a, b) ∈ ([] : List (Nat × Nat))) (s := fun x y => x = y) ⟨fun _ => rfl, Eq.symm, Eq.trans⟩
        (fun a b hab => by cases hab) h
    have h1 := hf.conn x hx
    have h2 := hf.conn y hy
    rw [hT] at h1 h2
    exact hne ((nil h1).trans (he.trans (nil h2).symm))
  induction h with
  | ldd hp hl =>
    obtain ⟨m, h1, -⟩ := LDDE.ldde_correct hG hn hp.lt hp.inj hp.onto (hsh _) hl
    cases h1
  | @last permute W G φ T GC ψ h hm =>
    obtain ⟨c, cl, nc, flags, mapping, hf⟩ := level_facts hsh hG hn hsym h
    exact ⟨_, T, c, rfl, last_cert hG hsym hf hm, fun hx => by rw [List.length_map]; exact tpos hG hsym hf hm hx⟩
  | @next permute W G φ T GC ψ k l h hm hr ih =>
    obtain ⟨c, cl, nc, flags, mapping, hf⟩ := level_facts hsh hG hn hsym h
    have hle : (toGr GC).n ≤ LDD.none32 := ((SDB14.size_le hf.con).trans hf.level.le).trans hn
    obtain ⟨j, L', root', h1, h2, h3⟩ := ih (SDB14.toGr_ok hsym hf.con) hle (SDB14.toGr_sym hsym hf.con)
    obtain ⟨L, root, -, h4, h5⟩ := next_cert hG hsym hf h2
    refine ⟨j, L ++ T, root, ?_, h5, fun _ => h3 ?_⟩
    · rw [Option.some.inj h1, h4, List.map_append, List.append_assoc]
    · exact hf.edge hm
  | @sub permute W G φ T GC ψ k h hm hr ih =>
    obtain ⟨c, cl, nc, flags, mapping, hf⟩ := level_facts hsh hG hn hsym h
    have hle : (toGr GC).n ≤ LDD.none32 := ((SDB14.size_le hf.con).trans hf.level.le).trans hn
    obtain ⟨j, L', root', h1, -⟩ := ih (SDB14.toGr_ok hsym hf.con) hle (SDB14.toGr_sym hsym hf.con)
    cases h1

/-- `SpanningForest` on a symmetric graph: if it ends, its result is a spanning forest after some copies of the edge `(0, 0)`. -/
theorem sf_partial {sh : Nat → List Nat} (hsh : ∀ n, LDD.Shifts n (sh n)) {permute : Bool} {G : Gr W} (hG : G.Ok)
    (hn : G.n ≤ LDD.none32) (hsym : ∀ u v, Adj G u v → Adj G v u) {res : Option (List (Nat × Nat))} (h : Sf sh permute G res) :
    ∃ j L, res = some (List.replicate j (0, 0) ++ L) ∧ IsSF (Adj G) L := by
  obtain ⟨k, h⟩ := h
  obtain ⟨j, L, root, h1, h2, -⟩ := impl_partial hsh hG hn hsym h
  exact ⟨j, L, by rw [h1, List.map_id], isSF_of_count (fun _ _ => SDB14.adj_lt hG) h2.sub root h2.lt h2.conn h2.eq h2.count⟩

/-- There is at least one such copy whenever there is an edge between two vertices: the result is never a spanning forest. -/
theorem sf_refuted {sh : Nat → List Nat} (hsh : ∀ n, LDD.Shifts n (sh n)) {permute : Bool} {G : Gr W} (hG : G.Ok)
    (hn : G.n ≤ LDD.none32) (hsym : ∀ u v, Adj G u v → Adj G v u) {l : List (Nat × Nat)} (h : Sf sh permute G (some l))
    (he : ∃ x y, Adj G x y ∧ x ≠ y) : ¬ IsSF (Adj G) l := by
  obtain ⟨k, h⟩ := h
  obtain ⟨j, L, root, h1, -, h2⟩ := impl_partial hsh hG hn hsym h
  obtain ⟨j, rfl⟩ : ∃ i, j = i + 1 := ⟨j - 1, by have := h2 he; omega⟩
  intro hsf
  refine hsf.forest [] (0, 0) (List.replicate j (0, 0) ++ L) ?_ ((lconn_equiv _).refl _)
  rw [Option.some.inj h1, List.map_id, List.replicate_succ]
  rfl

/-! ### Example -/

/-- Without edges between different clusters, nothing is inserted. -/
theorem contractV_nil {G : Gr W} (hG : G.Ok) {cl : Nat → Nat} {nc : Nat} (hnc : nc < 2048) (h : ∀ u v, Adj G u v → cl u = cl v)
    (φ : Nat × Nat → Nat × Nat) : ∃ GC flags mapping ψ, ContractV G cl nc φ GC flags mapping ψ ∧ GC.m = 0 := by
  have h0 : interV G cl φ = [] := by
    refine List.eq_nil_iff_forall_not_mem.2 fun p hp => ?_
    obtain ⟨u, v, h1, h2, -⟩ := mem_interV hG hp
    have hlt : p.1.1 < p.1.2 := by simpa using (List.mem_filter.1 hp).2
    rw [h2, h u v h1] at hlt
    exact Nat.lt_irrefl _ hlt
  have hl : ((interV G cl φ).map Prod.fst).length = 0 := by rw [h0]; rfl
  have hent : ∀ m, Hash.entries ⟨m, fun p => p.1 + p.2, emp⟩ (fun _ => emp) (fun _ => emp) = [] := fun m => by simp [Hash.entries]
  have hp : Par (fun _ : Nat => (ret () : Prog Nat Nat Unit)) (fun _ => 0) (fun _ => 0) fun _ => () :=
    runSeq_par _ (fun _ => ()) [] List.nodup_nil (fun _ _ => rfl) rfl
  refine ⟨⟨exScan (fun _ => 0) nc, 0, fun _ => 0, fun _ => 0, []⟩, exScan fun _ => 0, _, id, ⟨tabSize 2048, fun p => p.1 + p.2, fun p => p.1 + p.2,
    ⟨fun _ => emp, fun _ => emp, fun _ => .read1 0⟩, [], [], fun _ => 0, fun _ => (), List.range nc, fun _ => 0, [], [], [],
    ⟨fun _ => emp, fun _ => emp, fun _ => .read1 0⟩, .small hnc rfl, ⟨.refl _, fun i => ?_⟩, (hent _).symm, rfl, hp, rfl, sched_range _, rfl,
    .inl ⟨rfl, rfl⟩, rfl, ⟨.refl _, fun i => i.elim0⟩, fun x y ha => ?_⟩, rfl⟩
  · have := i.2
    omega
  · have := (SDB14.adj_toGr.1 ha).2
    simp [Csr.Graph.nbrs] at this

/-- The path 1 - 0 - 2. -/
def exG : Gr Unit := .ofLists [[(1, ()), (2, ())], [(0, ())], [(0, ())]] [[(1, ()), (2, ())], [(0, ())], [(0, ())]]

theorem exG_ok : exG.Ok := Gr.ofLists_ok (by decide)

theorem exG_sym (u v : Nat) (h : Adj exG u v) : Adj exG v u := by
  obtain ⟨w, h⟩ := h
  exact ⟨w, (exG_ok.same u v w).1 h⟩

/-- Shifts that add one centre in the first round. -/
def exSh (n : Nat) : List Nat := [0, 1, n + 1]

theorem exSh_ok (n : Nat) : LDD.Shifts n (exSh n) := by
  refine ⟨rfl, ?_, n + 1, by simp [exSh], by omega⟩
  simp [exSh]

/-- A run: the two edges of the tree come after two edges `(0, 0)`. -/
theorem ex_run : Sf exSh false exG (some [(0, 0), (0, 0), (0, 1), (0, 2)]) := by
  have hp : IsPerm exG.n false fun i => i := ⟨fun _ h => h, fun _ _ _ _ h => h, fun v hv => ⟨v, hv, rfl⟩, fun _ _ _ => rfl⟩
  obtain ⟨m, hm, h0, h1, h2, hT⟩ : ∃ m, LDDE.Ldde exG true (fun i => i) (exSh exG.n) (some m) ∧ LDDE.lab m 0 = 0 ∧ LDDE.lab m 1 = 0 ∧
      LDDE.lab m 2 = 0 ∧ tree exG.n m = [(0, 1), (0, 2)] := by
    refine ⟨_, .round (by decide) rfl rfl (by decide) (by decide) rfl (by decide)
      (edgeMap_seq (activeEdges exG _) (mem_activeEdges exG_ok) rfl)
      (.last (by decide) rfl rfl (by decide) (by decide) rfl (by decide)), ?_, ?_, ?_, ?_⟩ <;> decide
  have hz : ∀ v, v < exG.n → LDDE.lab m v = 0 := by
    intro v hv
    have hv : v < 3 := hv
    interval_cases v <;> assumption
  obtain ⟨c, hc, hd, -⟩ := SDB14.relabel_exists exG.n (LDDE.lab m) exG.n (Nat.le_refl _)
  have hr := Relabel.relabel_correct exG.n (LDDE.lab m) (fun i hi => by rw [hz i hi]; decide) c hc hd (List.range exG.n) (sched_range _)
  have hnc : (Relabel.finish exG.n c.flag (List.range exG.n) (LDDE.lab m)).2 < 2048 := by
    rw [hr.count]
    exact Nat.lt_of_le_of_lt Finset.card_image_le (by simp; decide)
  obtain ⟨GC, flags, mapping, ψ, hk, hm0⟩ := contractV_nil exG_ok hnc (fun u v ha => by
    obtain ⟨hu, hv⟩ := SDB14.adj_lt exG_ok ha
    exact (hr.eq_iff u v hu hv).2 (by rw [hz u hu, hz v hv])) id
  have := Impl.last (sh := exSh) (φ := id) ⟨_, m, c, List.range exG.n, _, _, flags, mapping, hp, hm, hc, hd, sched_range _, rfl, rfl, hT.symm, hk⟩ hm0
  exact ⟨1, this⟩

example : ∃ j L, some [(0, 0), (0, 0), (0, 1), (0, 2)] = some (List.replicate j (0, 0) ++ L) ∧ IsSF (Adj exG) L :=
  sf_partial exSh_ok exG_ok (by decide) exG_sym ex_run

example : ¬ IsSF (Adj exG) [(0, 0), (0, 0), (0, 1), (0, 2)] :=
  sf_refuted exSh_ok exG_ok (by decide) exG_sym ex_run ⟨0, 1, ⟨(), by decide⟩, by decide⟩

end Gbbs.SDB14SF
