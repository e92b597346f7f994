import Verif.Graph.MutateByte
import Verif.Encoding.AmIter

/-!
C28 for compressed graphs, continued: `filter_graph` (`gbbs/graph_mutation.h:82-156`) reading its input
through the iterators of `bytepd_amortized` lists.
-/

namespace Gbbs.MutateByte

open Gbbs Gbbs.Byte EncSpec

variable {W : Type} {c : WCodec W} {ok : W → Prop}

/-- `filter_graph` as in `filterGraphByte`, but the second pass (`graph_mutation.h:124-142`) reads the
encoded lists of the input graph in `M` (list of vertex `v` at `at_ v`, degree `deg v`) through `iter`
and `filter_iter`.  The sizing pass is given the lists a traversal sees (C51). -/
def filterGraphIter (c : WCodec W) (n : Nat) (pred : Nat → Nat → W → Bool) (tmp junk M : Mem)
    (at_ deg : Nat → Nat) (order : List Nat) (adj : Nat → List (Nat × W)) : Option BGraph :=
  let degrees := fun v => (sizePass c pred tmp adj v).deg
  let offs := exScan fun v => (sizePass c pred tmp adj v).total
  let edges := order.foldlM (fun m i =>
    if degrees i > 0 then
      (AM.filterCompress c M (at_ i) i (deg i) (fun e => pred i e.1 e.2) m (offs i) (degrees i)).map Prod.fst
    else some m) junk
  edges.map fun edges => ⟨edges, offs, degrees, offs n⟩

theorem filterGraphIter_eq (L : Lawful c ok) (n : Nat) (hn : n < uintEMod)
    (pred : Nat → Nat → W → Bool) (tmp junk M : Mem) (at_ ext vd : Nat → Nat)
    (order : List Nat) (ho : ∀ v ∈ order, v < n) (adj : Nat → List (Nat × W))
    (hv : ∀ v, v < n → ValidList (adj v)) (hok : ∀ v, v < n → ∀ e ∈ adj v, ok e.2)
    (hlen : ∀ v, v < n → (adj v).length < uintEMod)
    (hrep : ∀ v, v < n → adj v ≠ [] → AM.Represents L M (at_ v) v (ext v) (vd v) (adj v)) :
    filterGraphIter c n pred tmp junk M at_ (fun v => (adj v).length) order adj =
      some (filterGraphByte c n pred tmp junk order adj) := by
  have key : ∀ m, order.foldlM (fun m i =>
      if (sizePass c pred tmp adj i).deg > 0 then
        (AM.filterCompress c M (at_ i) i (adj i).length (fun e => pred i e.1 e.2) m
          (exScan (fun v => (sizePass c pred tmp adj v).total) i)
          (sizePass c pred tmp adj i).deg).map Prod.fst
      else some m) m =
      some (order.foldl (fun m i =>
        if (sizePass c pred tmp adj i).deg > 0 then
          (sequentialCompressEdgeSet c m (exScan (fun v => (sizePass c pred tmp adj v).total) i) i
            ((adj i).filter fun e => pred i e.1 e.2)).1
        else m) m) := by
    induction order with
    | nil => intro m; rfl
    | cons i order ih =>
      intro m
      have hi : i < n := ho i (by simp)
      rw [List.foldlM_cons, List.foldl_cons]
      by_cases hd : (sizePass c pred tmp adj i).deg > 0
      · have hsz := (sizePass_spec L pred tmp adj i (by omega) (hv i hi) (hok i hi)).2
        have hne : (adj i).filter (fun e => pred i e.1 e.2) ≠ [] := by
          intro h0; rw [h0] at hsz; simp at hsz; omega
        have hne' : adj i ≠ [] := by intro h0; rw [h0] at hne; exact hne rfl
        have := (AM.filter_spec (hrep i hi hne') (hlen i hi) (fun e => pred i e.1 e.2)).2 hne m
          (exScan (fun v => (sizePass c pred tmp adj v).total) i)
        rw [if_pos hd, if_pos hd, hsz, this]
        exact ih (fun v h => ho v (by simp [h])) _
      · rw [if_neg hd, if_neg hd]
        exact ih (fun v h => ho v (by simp [h])) m
  simp only [filterGraphIter, filterGraphByte, key, Option.map_some]

/-- C28, compressed graphs, read through the iterators: if every non-empty list of the input graph is a
`bytepd_amortized` list (freshly encoded, or packed any number of times), filtering is defined for every
schedule, and decoding vertex `v` of the result visits exactly the neighbours of `v` satisfying the
predicate, in order, with their weights. -/
theorem filterGraphIter_lists_partial (L : Lawful c ok) (n : Nat) (hn : n < uintEMod)
    (pred : Nat → Nat → W → Bool) (tmp junk M : Mem) (at_ ext vd : Nat → Nat) (order : List Nat)
    (hs : Sched n order) (adj : Nat → List (Nat × W))
    (hv : ∀ v, v < n → ValidList (adj v)) (hok : ∀ v, v < n → ∀ e ∈ adj v, ok e.2)
    (hlen : ∀ v, v < n → (adj v).length < uintEMod)
    (hrep : ∀ v, v < n → adj v ≠ [] → AM.Represents L M (at_ v) v (ext v) (vd v) (adj v)) :
    ∃ r, filterGraphIter c n pred tmp junk M at_ (fun v => (adj v).length) order adj = some r ∧
      ∀ v, v < n → r.deg v = ((adj v).filter fun e => pred v e.1 e.2).length ∧
        ∀ (σ : Type) (t : σ → Nat → Nat → W → Nat → σ × Bool) (s : σ),
          decode c t r.edges (r.off v) v (r.deg v) s =
            some (visit t v 0 ((adj v).filter fun e => pred v e.1 e.2) s) :=
  ⟨_, filterGraphIter_eq L n hn pred tmp junk M at_ ext vd order (fun v h => (hs.2 v).1 h) adj hv hok hlen
    hrep, fun v hvn => filterGraphByte_lists_partial L n hn pred tmp junk order hs adj hv hok v hvn⟩

/-- The hypotheses are satisfiable: vertex 0 of a graph with two vertices has the encoded list `[1]`. -/
example : ∃ M ext, AM.Represents emptyLawful M 0 0 ext 1 [(1, ())] := by
  obtain ⟨m', b, h1, _, _, _, h4⟩ := AM.encode_spec emptyLawful (fun w _ => Blk.emptyLawful_len w) (fun _ => 0)
    0 0 [(1, ())] (by decide) ⟨by simp, by simp⟩ (fun _ _ => trivial) (by simp)
  obtain ⟨offs, cap, lay⟩ := h4 (by simp) m' (fun _ _ _ => rfl)
  exact ⟨m', _, offs, cap, _, _, lay, AM.live_block _⟩

end Gbbs.MutateByte
