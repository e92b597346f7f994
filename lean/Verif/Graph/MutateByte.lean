/-
C28 for byte-compressed graphs: `filter_graph` of `gbbs/graph_mutation.h:82-156`.
-/
import Verif.Common
import Verif.Encoding.ByteTheorems

namespace Gbbs.MutateByte

open Gbbs Gbbs.Byte EncSpec

variable {W : Type}

/-! ### Model -/

/-- State of the sizing pass at one vertex, `graph_mutation.h:94-97`. -/
structure Sz where
  total : Nat
  last : Nat
  deg : Nat

/-- The callback of the sizing pass, `graph_mutation.h:98-112`; `tmp` is the scratch buffer, always
written from position 0. `v - last_ngh` is a `uintE` subtraction. -/
def sizeStep (c : WCodec W) (pred : Nat → Nat → W → Bool) (tmp : Mem) (u : Nat) (s : Sz)
    (e : Nat × W) : Sz :=
  if pred u e.1 e.2 then
    let p := if s.deg = 0 then compressFirstEdge tmp 0 u e.1
      else compressEdge tmp 0 ((e.1 + (uintEMod - s.last)) % uintEMod)
    ⟨s.total + (c.compress p.1 p.2 e.2).2, e.1, s.deg + 1⟩
  else s

/-- Sizing pass over the neighbours of `u`, `graph_mutation.h:93-118`. -/
def sizePass (c : WCodec W) (pred : Nat → Nat → W → Bool) (tmp : Mem) (adj : Nat → List (Nat × W))
    (u : Nat) : Sz :=
  (adj u).foldl (sizeStep c pred tmp u) ⟨0, 0, 0⟩

/-- A compressed graph, `graph.h:50-70` with `csv_byte` vertices. -/
structure BGraph where
  edges : Mem
  off : Nat → Nat
  deg : Nat → Nat
  /-- the number of edges the graph object is constructed with -/
  m : Nat

/-- `filter_graph` (byte version) followed by the construction of the graph in `interface.h:106-125`:
sizes, exclusive scan, encoding of the surviving neighbours of the vertices with positive new degree in
the order `order`, vertex data. The neighbours of the input graph are given as lists; the filtering
iterator (`bridge.h:384-409`) yields the elements satisfying the predicate, in order. `junk` is the
newly allocated array. -/
def filterGraphByte (c : WCodec W) (n : Nat) (pred : Nat → Nat → W → Bool) (tmp junk : Mem)
    (order : List Nat) (adj : Nat → List (Nat × W)) : BGraph :=
  let degrees := fun v => (sizePass c pred tmp adj v).deg
  let offs := exScan fun v => (sizePass c pred tmp adj v).total
  let edges := order.foldl (fun m i =>
    if degrees i > 0 then
      (sequentialCompressEdgeSet c m (offs i) i ((adj i).filter fun e => pred i e.1 e.2)).1
    else m) junk
  ⟨edges, offs, degrees, offs n⟩

/-! ### Proofs -/

variable {c : WCodec W} {ok : W → Prop}

theorem validList_filter {l : List (Nat × W)} (p : Nat × W → Bool) (h : ValidList l) :
    ValidList (l.filter p) :=
  ⟨h.sorted.sublist (List.filter_sublist.map _), fun e he => h.bounded e (List.mem_filter.1 he).1⟩

/-- The sizing pass computes the number of bytes the encoder writes and the new degree. -/
theorem sizePass_rest (L : Lawful c ok) (pred : Nat → Nat → W → Bool) (tmp : Mem) (u : Nat)
    (l : List (Nat × W)) (s : Sz) (hd : s.deg ≠ 0)
    (hc : Chain ok s.last (l.filter fun e => pred u e.1 e.2)) :
    (l.foldl (sizeStep c pred tmp u) s).total =
        s.total + (encRest L s.last (l.filter fun e => pred u e.1 e.2)).length ∧
      (l.foldl (sizeStep c pred tmp u) s).deg =
        s.deg + (l.filter fun e => pred u e.1 e.2).length := by
  induction l generalizing s with
  | nil => simp [encRest]
  | cons e l ih =>
    obtain ⟨v, w⟩ := e
    rw [List.foldl_cons]
    by_cases hp : pred u v w = true
    · rw [List.filter_cons_of_pos (by simpa using hp)] at hc ⊢
      obtain ⟨h1, h2, h3, h4⟩ := hc
      have hs : sizeStep c pred tmp u s (v, w) =
          ⟨s.total + ((encEdge (v - s.last)).length + (L.enc w).length), v, s.deg + 1⟩ := by
        simp only [sizeStep, hp, if_true, if_neg hd, compressEdge_eq, diff_eq h1 h2,
          L.compress_eq _ _ _ h3, Nat.zero_add]
      rw [hs]
      obtain ⟨a, b⟩ := ih ⟨_, v, s.deg + 1⟩ (Nat.succ_ne_zero _) h4
      rw [a, b]
      simp only [encRest, List.length_append, List.length_cons]
      constructor <;> omega
    · rw [List.filter_cons_of_neg (by simpa using hp)] at hc ⊢
      have hs : sizeStep c pred tmp u s (v, w) = s := by simp [sizeStep, hp]
      rw [hs]
      exact ih s hd hc

theorem sizePass_spec (L : Lawful c ok) (pred : Nat → Nat → W → Bool) (tmp : Mem)
    (adj : Nat → List (Nat × W)) (u : Nat) (hu : u < uintEMod) (hv : ValidList (adj u))
    (hok : ∀ e ∈ adj u, ok e.2) :
    (sizePass c pred tmp adj u).total =
        (encList L u ((adj u).filter fun e => pred u e.1 e.2)).length ∧
      (sizePass c pred tmp adj u).deg = ((adj u).filter fun e => pred u e.1 e.2).length := by
  unfold sizePass
  have hvf := validList_filter (fun e => pred u e.1 e.2) hv
  have hokf : ∀ e ∈ (adj u).filter fun e => pred u e.1 e.2, ok e.2 :=
    fun e he => hok e (List.mem_filter.1 he).1
  generalize adj u = l at hvf hokf
  clear hv hok
  induction l with
  | nil => simp [encList]
  | cons e l ih =>
    obtain ⟨v, w⟩ := e
    rw [List.foldl_cons]
    by_cases hp : pred u v w = true
    · rw [List.filter_cons_of_pos (by simpa using hp)] at hvf hokf ⊢
      have hvb : v < uintEMod := hvf.2 (v, w) List.mem_cons_self
      have hs : sizeStep c pred tmp u ⟨0, 0, 0⟩ (v, w) =
          ⟨(encSigned ((v : Int) - u)).length + (L.enc w).length, v, 1⟩ := by
        simp only [sizeStep, hp, if_true]
        rw [compressFirstEdge_eq _ _ _ _ (by omega)]
        simp only [L.compress_eq _ _ _ (hokf (v, w) List.mem_cons_self), Nat.zero_add]
      rw [hs]
      obtain ⟨a, b⟩ := sizePass_rest L pred tmp u l ⟨_, v, 1⟩ Nat.one_ne_zero
        (chain_of_valid hvf (fun e he => hokf e (List.mem_cons_of_mem _ he)))
      rw [a, b]
      simp only [encList, List.length_append, List.length_cons]
      constructor <;> omega
    · rw [List.filter_cons_of_neg (by simpa using hp)] at hvf hokf ⊢
      have hs : sizeStep c pred tmp u ⟨0, 0, 0⟩ (v, w) = ⟨0, 0, 0⟩ := by simp [sizeStep, hp]
      rw [hs]
      exact ih hvf hokf

/-- C28, byte-compressed graphs: for every schedule, decoding vertex `v` of the filtered graph visits
exactly the neighbours of `v` satisfying the predicate, in order, with their weights; the stored degree
is their number. (The number of edges of the resulting graph object is wrong: `filterGraphByte_m`.) -/
theorem filterGraphByte_lists_partial (L : Lawful c ok) (n : Nat) (hn : n < uintEMod)
    (pred : Nat → Nat → W → Bool) (tmp junk : Mem) (order : List Nat) (hs : Sched n order)
    (adj : Nat → List (Nat × W)) (hv : ∀ v, v < n → ValidList (adj v))
    (hok : ∀ v, v < n → ∀ e ∈ adj v, ok e.2) (v : Nat) (hvn : v < n) :
    let r := filterGraphByte c n pred tmp junk order adj
    let kept := (adj v).filter fun e => pred v e.1 e.2
    r.deg v = kept.length ∧
    ∀ (σ : Type) (t : σ → Nat → Nat → W → Nat → σ × Bool) (s : σ),
      decode c t r.edges (r.off v) v (r.deg v) s = some (visit t v 0 kept s) := by
  intro r kept
  have hsz := fun i (hi : i < n) => sizePass_spec L pred tmp adj i (by omega) (hv i hi) (hok i hi)
  have hdeg : r.deg v = kept.length := (hsz v hvn).2
  refine ⟨hdeg, fun σ t s => ?_⟩
  rw [hdeg]
  apply decode_eq L t _ v _ kept s (by omega) (validList_filter _ (hv v hvn))
    (fun e he => hok v hvn e (List.mem_filter.1 he).1)
  -- the bytes of vertex v are in place
  set sz : Nat → Nat := fun v => (sizePass c pred tmp adj v).total with hszd
  have key : ∀ (order : List Nat) (m : Mem), order.Nodup → (∀ i ∈ order, i < n) → v ∈ order →
      Mem.Has (order.foldl (fun m i => if (sizePass c pred tmp adj i).deg > 0 then
        (sequentialCompressEdgeSet c m (exScan sz i) i
          ((adj i).filter fun e => pred i e.1 e.2)).1 else m) m)
        (exScan sz v) (encList L v kept) := by
    intro order
    induction order with
    | nil => intro m _ _ h; cases h
    | cons i order ih =>
      intro m hnd hlt hmem
      rw [List.foldl_cons]
      have hnd := List.nodup_cons.1 hnd
      by_cases hin : v ∈ order
      · exact ih _ hnd.2 (fun j hj => hlt j (List.mem_cons_of_mem _ hj)) hin
      · have hvi : v = i := (List.mem_cons.1 hmem).resolve_right hin
        subst hvi
        -- later iterations leave these bytes alone
        have later : ∀ (order : List Nat) (m : Mem), (∀ i ∈ order, i < n ∧ i ≠ v) → ∀ x,
            exScan sz v ≤ x → x < exScan sz v + sz v →
            (order.foldl (fun m i => if (sizePass c pred tmp adj i).deg > 0 then
              (sequentialCompressEdgeSet c m (exScan sz i) i
                ((adj i).filter fun e => pred i e.1 e.2)).1 else m) m) x = m x := by
          intro order
          induction order with
          | nil => intro m _ x _ _; rfl
          | cons j order ihj =>
            intro m hj x h1 h2
            rw [List.foldl_cons, ihj _ (fun i hi => hj i (List.mem_cons_of_mem _ hi)) x h1 h2]
            obtain ⟨hjn, hjv⟩ := hj j List.mem_cons_self
            split
            · rw [sequentialCompressEdgeSet_eq L _ _ _ _ (by omega) (validList_filter _ (hv j hjn))
                (fun e he => hok j hjn e (List.mem_filter.1 he).1)]
              apply Mem.write_outside
              rw [← (hsz j hjn).1]
              show x < exScan sz j ∨ exScan sz j + sz j ≤ x
              rcases Nat.lt_or_gt_of_ne hjv with h | h
              · have := exScan_mono sz (show j + 1 ≤ v by omega)
                simp only [exScan] at this; omega
              · have := exScan_mono sz (show v + 1 ≤ j by omega)
                simp only [exScan] at this; omega
            · rfl
        have hlen : sz v = (encList L v kept).length := (hsz v hvn).1
        refine Mem.has_of_agree (m := if (sizePass c pred tmp adj v).deg > 0 then
          (sequentialCompressEdgeSet c m (exScan sz v) v kept).1 else m)
          (fun x h1 h2 => (later order _ (fun j hj => ⟨hlt j (List.mem_cons_of_mem _ hj),
            fun he => hin (he ▸ hj)⟩) x h1 (by omega)).symm) ?_
        split
        · rw [sequentialCompressEdgeSet_eq L _ _ _ _ (by omega) (validList_filter _ (hv v hvn))
            (fun e he => hok v hvn e (List.mem_filter.1 he).1)]
          exact Mem.write_has _ _ _
        · rename_i h0
          have h0' : kept.length = 0 := by
            have := (hsz v hvn).2
            change _ = kept.length at this
            omega
          rw [List.length_eq_zero_iff.1 h0']
          trivial
  exact key order junk hs.1 (fun i hi => (hs.2 i).1 hi) ((hs.2 v).2 hvn)

/-- The edge count given to the new graph is the number of encoded *bytes*
(`graph_mutation.h:155`, `interface.h:115-120`). -/
theorem filterGraphByte_m (L : Lawful c ok) (n : Nat) (hn : n < uintEMod)
    (pred : Nat → Nat → W → Bool) (tmp junk : Mem) (order : List Nat)
    (adj : Nat → List (Nat × W)) (hv : ∀ v, v < n → ValidList (adj v))
    (hok : ∀ v, v < n → ∀ e ∈ adj v, ok e.2) :
    (filterGraphByte c n pred tmp junk order adj).m =
      exScan (fun v => (encList L v ((adj v).filter fun e => pred v e.1 e.2)).length) n :=
  exScan_congr fun i hi => (sizePass_spec L pred tmp adj i (by omega) (hv i hi) (hok i hi)).1

/-- A graph on 101 vertices with the edge {0,100}. -/
def far (v : Nat) : List (Nat × Unit) := if v = 0 then [(100, ())] else if v = 100 then [(0, ())] else []

/-- C28 fails for byte-compressed graphs as to the number of edges: a filter that keeps everything
gives a graph claiming 4 edges although there are 2. -/
theorem filterGraphByte_wrong_m :
    (∀ v, v < 101 → ValidList (far v)) ∧
    ∀ (tmp junk : Mem) (order : List Nat),
      let r := filterGraphByte emptyCodec 101 (fun _ _ _ => true) tmp junk order far
      exScan r.deg 101 = 2 ∧ r.m = 4 := by
  have hval : ∀ v, v < 101 → ValidList (far v) := by
    intro v _
    unfold far
    split
    · exact ⟨by simp, by simp⟩
    · split
      · exact ⟨by simp, by simp⟩
      · exact ⟨by simp, by simp⟩
  refine ⟨hval, fun tmp junk order => ⟨?_, ?_⟩⟩
  · have : exScan (filterGraphByte emptyCodec 101 (fun _ _ _ => true) tmp junk order far).deg 101 =
        exScan (fun v => (far v).length) 101 := by
      apply exScan_congr
      intro i hi
      have := (sizePass_spec emptyLawful (fun _ _ _ => true) tmp far i (by simp only [uintEMod]; omega) (hval i hi)
        (fun _ _ => trivial)).2
      rw [List.filter_true] at this
      exact this
    rw [this]
    decide +kernel
  · have h := filterGraphByte_m emptyLawful 101 (by decide) (fun _ _ _ => true) tmp junk order far hval
      (fun _ _ _ _ => trivial)
    simp only [List.filter_true] at h
    rw [h]
    decide +kernel

/-- The hypotheses of `filterGraphByte_lists_partial` are satisfiable and the result is not empty. -/
example : let r := filterGraphByte emptyCodec 101 (fun u _ _ => u == 0) (fun _ => 0) (fun _ => 7) [100, 0] far
    decode emptyCodec (fun s _ v _ _ => (s ++ [v], true)) r.edges (r.off 0) 0 (r.deg 0) [] = some [100] ∧
    r.deg 100 = 0 := by
  decide +kernel

end Gbbs.MutateByte
