/-
C141: counting cliques with colourful sparsification, `benchmarks/CliqueCounting/relabel.h:216-231`, `Clique.cc:124-137`.
-/
import Verif.Clique.Neigh
import Mathlib.Data.Fintype.Pi
import Mathlib.Data.Fintype.BigOperators
import Mathlib.Algebra.BigOperators.Ring.Finset
import Mathlib.Algebra.Group.Action.Defs
import Mathlib.Data.Finset.Fin

namespace Gbbs.Clique

/-! ### Model -/

/-- `uintE numColors = std::max((size_t)1, denom)`, `relabel.h:221`, cut to 32 bits. -/
def numColors (denom : Nat) : Nat := max 1 denom % 4294967296

/-- `pack_predicate`, `:225-228`: 0 for ends of the same colour. -/
def clrPred (col : Nat → Nat) (u v : Nat) : Nat := if col u = col v then 0 else 1

/-- The graph after `filter_edges(GA, pack_predicate)`, `:230`: edges with value 0 stay (`gbbs/graph_mutation.h:181-184`; C28: in order). -/
def sparse (G : UG) (col : Nat → Nat) : UG := ⟨G.n, fun u => (G.nb u).filter fun v => decide (clrPred col u v = 0)⟩

/-- `AppKCore_runner` with `--sparse --colors denom`, `Clique.cc:124-132`: the graph is sparsified, the cliques are counted, and the count is multiplied by
`pow(denom, k - 1)` (here without rounding). `hash i` is `hash64_2((uintE)seed + i)`; `none` is a division by zero in `% numColors` or a failure of
`Clique`. -/
def sparseCount (count : UG → Option Nat) (hash : Nat → Nat) (G : UG) (k denom : Nat) : Option Nat :=
  if numColors denom = 0 ∧ 0 < G.n then none
  else (count (sparse G fun i => hash i % numColors denom)).map fun c => c * denom ^ (k - 1)

/-- A call of `Clique(GA, k, …)` for the total count, `Clique.h:158-206` for `k ≥ 4`: the order depends on the graph. -/
def cliqueCall (rank : UG → Nat → Nat) (k space : Nat) (filter label : Bool) (c2 : Nat → Nat → Caps) (ws : UG → List (Caps × List Nat)) (G : UG) : Option Nat :=
  (cliqueCount (directed G k (rank G) filter) G.n k space 0 label c2 (ws G)).map Prod.fst

/-! ### Specification -/

/-- The cliques whose vertices have one colour. -/
def mono (G : UG) (k : Nat) (col : Nat → Nat) : Finset (Finset Nat) := (cliques G k).filter fun S => ∀ u ∈ S, ∀ v ∈ S, col u = col v

/-! ### The sparsified graph -/

theorem sparse_mem {G : UG} {col : Nat → Nat} {u v : Nat} : v ∈ (sparse G col).nb u ↔ v ∈ G.nb u ∧ col u = col v := by
  show v ∈ (G.nb u).filter _ ↔ _
  rw [List.mem_filter, decide_eq_true_eq, clrPred]
  by_cases h : col u = col v <;> simp [h]

/-- The result is again a symmetric graph. -/
theorem sparse_sym {G : UG} (hG : G.Sym) (col : Nat → Nat) : (sparse G col).Sym := by
  refine ⟨fun u v => ?_, fun u v h => hG.bound u v (sparse_mem.1 h).1⟩
  have key : ∀ u v, ((sparse G col).nb u).count v = if col u = col v then (G.nb u).count v else 0 := fun u v => by
    by_cases h : col u = col v
    · rw [if_pos h]
      exact List.count_filter (decide_eq_true (by rw [clrPred, if_pos h]))
    · rw [if_neg h, List.count_eq_zero]
      exact fun hc => h (sparse_mem.1 hc).2
  rw [key, key, hG.sym u v]
  by_cases h : col u = col v
  · rw [if_pos h, if_pos h.symm]
  · rw [if_neg h, if_neg fun hc => h hc.symm]

/-- Its cliques are the cliques of one colour. -/
theorem cliques_sparse (G : UG) {k : Nat} (col : Nat → Nat) : cliques (sparse G col) k = mono G k col := by
  ext S
  rw [mono, cliques, cliques, Finset.mem_filter, Finset.mem_filter, Finset.mem_filter]
  show (S ∈ (Finset.range G.n).powersetCard k ∧ _) ↔ _
  constructor
  · rintro ⟨h1, h2⟩
    refine ⟨⟨h1, fun u hu v hv hne => (sparse_mem.1 (h2 u hu v hv hne)).1⟩, fun u hu v hv => ?_⟩
    by_cases hne : u = v
    · rw [hne]
    · exact (sparse_mem.1 (h2 u hu v hv hne)).2
  · rintro ⟨⟨h1, h2⟩, h3⟩
    exact ⟨h1, fun u hu v hv hne => sparse_mem.2 ⟨h2 u hu v hv hne, h3 u hu v hv⟩⟩

/-- A second round on the sparsified graph (`-rounds`) does not change it. -/
theorem sparse_twice (G : UG) (col : Nat → Nat) : sparse (sparse G col) col = sparse G col := by
  simp only [sparse, UG.mk.injEq, true_and]
  funext u
  rw [List.filter_filter]
  exact List.filter_congr fun v _ => by rw [Bool.and_self]

/-- **C141.** With `1 ≤ denom < 2^32` colours, for the space types and graphs of C140 (space type 6 apart): the result is `denom^(k-1)` times the number of cliques
whose vertices have one colour. With one colour it is the number of cliques. -/
theorem C141_sparse_count_partial {G : UG} {k : Nat} {rank : UG → Nat → Nat} {filter label : Bool} {hash : Nat → Nat} {denom : Nat} (h1 : 1 ≤ denom)
    (h2 : denom < 4294967296) (hG : G.Sym) (hnd : ∀ u, (G.nb u).Nodup) (hr : ∀ H : UG, ((List.range H.n).map (rank H)).Perm (List.range H.n))
    (hs : label = false → filter = true → ∀ u, (G.nb u).Pairwise (· < ·)) (hk : 4 ≤ k) (hk2 : k ≤ 129) {d : Nat} (hd : ∀ u, (G.nb u).length ≤ d) (hd2 : d < 10000)
    {ws : UG → List (Caps × List Nat)} (hc : ∀ H, ∀ w ∈ ws H, FitsAll w.1 d (k - 1) H.n) (hc2 : ∀ H, ∀ w ∈ ws H, H.n ≤ w.1.lab)
    (hp : ∀ H, ((ws H).flatMap Prod.snd).Perm (List.range H.n)) (c2 : Nat → Nat → Caps) {space : Nat} (hsp : space = 2 ∨ space = 3 ∨ space = 5) :
    sparseCount (cliqueCall rank k space filter label c2 ws) hash G k denom =
        some ((mono G k fun i => hash i % denom).card * denom ^ (k - 1)) ∧
      (denom = 1 → sparseCount (cliqueCall rank k space filter label c2 ws) hash G k denom = some (cliques G k).card) := by
  have hn : numColors denom = denom := by
    rw [numColors, Nat.max_eq_right h1, Nat.mod_eq_of_lt h2]
  have hS := sparse_sym hG (fun i => hash i % denom)
  have hSn : ∀ u, ((sparse G fun i => hash i % denom).nb u).Nodup := fun u => (hnd u).filter _
  have hSs : label = false → filter = true → ∀ u, ((sparse G fun i => hash i % denom).nb u).Pairwise (· < ·) := fun a b u => (hs a b u).filter _
  have hSd : ∀ x, (directed (sparse G fun i => hash i % denom) k (rank (sparse G fun i => hash i % denom)) filter x).length ≤ d := by
    have h3 : ∀ u, (filterN (sparse G fun i => hash i % denom) k (rank (sparse G fun i => hash i % denom)) u).length ≤ d := fun u =>
      Nat.le_trans (List.length_filter_le _ _) (Nat.le_trans (List.length_filter_le _ _) (hd u))
    intro x
    rw [directed]
    split
    · exact h3 x
    · rw [relabelN]
      split
      · rw [List.length_mergeSort, List.length_map]; exact h3 _
      · exact Nat.zero_le _
  have hcount : cliqueCall rank k space filter label c2 ws (sparse G fun i => hash i % denom) = some (mono G k fun i => hash i % denom).card := by
    rw [← cliques_sparse, cliqueCall]
    generalize hH : sparse G (fun i => hash i % denom) = H at *
    rcases hsp with rfl | rfl | rfl
    · obtain ⟨l, h1, _⟩ := C140_intersection_partial (filter := filter) hS hSn (hr H) hk hSd hd2 (ws := ws H)
        (fun w hw => ⟨(hc H w hw).base.ind, hc2 H w hw, (hc H w hw).base.num⟩) (hp H)
      rw [cliqueCount, if_pos rfl, h1]; rfl
    · rw [cliqueCount, if_neg (by omega), if_pos rfl, C140_neighborhood_partial (filter := filter) hS hSn (hr H) hk hSd (by omega) (hc H) (hp H)]; rfl
    · obtain ⟨l, h1, _⟩ := clique_count (filter := filter) (label := label) hS hSn (hr H) hSs hk hk2 hSd (lev := 0) (c2 := c2) (Or.inl rfl) (hc H) (hp H)
      rw [cliqueCount, if_neg (by omega), if_neg (by omega), if_pos rfl, h1]; rfl
  have hmain : sparseCount (cliqueCall rank k space filter label c2 ws) hash G k denom = some ((mono G k fun i => hash i % denom).card * denom ^ (k - 1)) := by
    rw [sparseCount, hn, if_neg (by omega), hcount]; rfl
  refine ⟨hmain, fun h => ?_⟩
  rw [hmain, h, Nat.one_pow, Nat.mul_one, mono, Finset.filter_true_of_mem]
  intro S _ u _ v _
  rw [Nat.mod_one, Nat.mod_one]

/-! ### The mean over all colourings -/

/-- The colourings that are constant on a set of `k` vertices. -/
theorem card_constant {n C k : Nat} (hk : 1 ≤ k) (S : Finset (Fin n)) (hS : S.card = k) :
    (Finset.univ.filter fun f : Fin n → Fin C => ∀ u ∈ S, ∀ v ∈ S, f u = f v).card = C * C ^ (n - k) := by
  classical
  obtain ⟨x, hx⟩ := Finset.card_pos.1 (by omega : 0 < S.card)
  have h1 : (Finset.univ.filter fun f : Fin n → Fin C => ∀ u ∈ S, ∀ v ∈ S, f u = f v) =
      Finset.univ.biUnion fun a : Fin C => Fintype.piFinset fun u : Fin n => if u ∈ S then {a} else Finset.univ := by
    ext f
    simp only [Finset.mem_filter, Finset.mem_univ, true_and, Finset.mem_biUnion, Fintype.mem_piFinset]
    constructor
    · intro h
      refine ⟨f x, fun u => ?_⟩
      by_cases hu : u ∈ S
      · rw [if_pos hu, Finset.mem_singleton]; exact h u hu x hx
      · rw [if_neg hu]; exact Finset.mem_univ _
    · rintro ⟨a, h⟩ u hu v hv
      have h2 := h u
      have h3 := h v
      rw [if_pos hu, Finset.mem_singleton] at h2
      rw [if_pos hv, Finset.mem_singleton] at h3
      rw [h2, h3]
  rw [h1, Finset.card_biUnion]
  · have h2 : ∀ a : Fin C, (Fintype.piFinset fun u : Fin n => if u ∈ S then {a} else Finset.univ).card = C ^ (n - k) := by
      intro a
      rw [Fintype.card_piFinset]
      have : ∀ u : Fin n, (if u ∈ S then ({a} : Finset (Fin C)) else Finset.univ).card = if u ∈ S then 1 else C := fun u => by
        split
        · exact Finset.card_singleton _
        · exact Finset.card_fin C
      rw [Finset.prod_congr rfl fun u _ => this u, Finset.prod_ite, Finset.prod_const_one, Nat.one_mul, Finset.prod_const]
      congr 1
      have h3 : (Finset.univ.filter fun u : Fin n => u ∉ S) = Finset.univ \ S := by ext u; simp
      rw [h3, Finset.card_sdiff_of_subset (Finset.subset_univ S), Finset.card_fin, hS]
    rw [Finset.sum_congr rfl fun a _ => h2 a, Finset.sum_const, Finset.card_fin, smul_eq_mul]
  · intro a _ b _ hab
    refine Finset.disjoint_left.2 fun f hf hg => hab ?_
    have h2 := Fintype.mem_piFinset.1 hf x
    have h3 := Fintype.mem_piFinset.1 hg x
    rw [if_pos hx, Finset.mem_singleton] at h2 h3
    rw [← h2, ← h3]

/-- A colouring of the vertices as a function on numbers. -/
def ext0 {n C : Nat} (f : Fin n → Fin C) (i : Nat) : Nat := if h : i < n then (f ⟨i, h⟩).1 else 0

/-- **C141: the result is right on average.** Over all colourings of the vertices with `C` colours, the mean of the result is the number of cliques. -/
theorem C141_mean {G : UG} {k C : Nat} (hk : 1 ≤ k) :
    (Finset.univ.sum fun f : Fin G.n → Fin C => (mono G k (ext0 f)).card * C ^ (k - 1)) = (cliques G k).card * C ^ G.n := by
  classical
  have h1 : ∀ f : Fin G.n → Fin C, (mono G k (ext0 f)).card = (cliques G k).sum fun S => if ∀ u ∈ S, ∀ v ∈ S, ext0 f u = ext0 f v then 1 else 0 := fun f => by
    rw [mono, Finset.card_filter]
  rw [← Finset.sum_mul, Finset.sum_congr rfl fun f _ => h1 f, Finset.sum_comm]
  have h2 : ∀ S ∈ cliques G k, (Finset.univ.sum fun f : Fin G.n → Fin C => if ∀ u ∈ S, ∀ v ∈ S, ext0 f u = ext0 f v then 1 else 0) = C * C ^ (G.n - k) := by
    intro S hS
    have hS1 := Finset.mem_powersetCard.1 (Finset.mem_filter.1 hS).1
    have hlt : ∀ u ∈ S, u < G.n := fun u hu => Finset.mem_range.1 (hS1.1 hu)
    rw [← Finset.card_filter, ← card_constant hk (S.attachFin hlt) (by rw [Finset.card_attachFin]; exact hS1.2)]
    congr 1
    ext f
    simp only [Finset.mem_filter, Finset.mem_univ, true_and]
    constructor
    · intro h u hu v hv
      have := h u.1 (Finset.mem_attachFin hlt |>.1 hu) v.1 (Finset.mem_attachFin hlt |>.1 hv)
      rw [ext0, ext0, dif_pos u.2, dif_pos v.2] at this
      exact Fin.ext this
    · intro h u hu v hv
      rw [ext0, ext0, dif_pos (hlt u hu), dif_pos (hlt v hv)]
      exact congrArg Fin.val (h ⟨u, hlt u hu⟩ ((Finset.mem_attachFin hlt).2 hu) ⟨v, hlt v hv⟩ ((Finset.mem_attachFin hlt).2 hv))
  rw [Finset.sum_congr rfl h2, Finset.sum_const, smul_eq_mul, Nat.mul_assoc]
  by_cases h0 : (cliques G k).card = 0
  · rw [h0, Nat.zero_mul, Nat.zero_mul]
  · congr 1
    obtain ⟨S, hS⟩ := Finset.card_pos.1 (Nat.pos_of_ne_zero h0)
    have hS1 := Finset.mem_powersetCard.1 (Finset.mem_filter.1 hS).1
    have hkn : k ≤ G.n := by
      have := Finset.card_le_card hS1.1
      rw [Finset.card_range] at this
      omega
    rw [← Nat.pow_succ', ← Nat.pow_add]
    congr 1
    omega

/-! ### Where it fails -/

/-- **C141, refuted: `--sparse` without `--colors`** (`Clique.cc:80-81`: the default is 0). All edges are kept, but the result is 0 whatever the count. -/
theorem C141_default_colours {count : UG → Option Nat} {hash : Nat → Nat} {G : UG} {k : Nat} (hk : 2 ≤ k) :
    sparse G (fun i => hash i % numColors 0) = G ∧ ∀ r, sparseCount count hash G k 0 = some r → r = 0 := by
  have hn : numColors 0 = 1 := rfl
  refine ⟨?_, fun r hr => ?_⟩
  · obtain ⟨n, nb⟩ := G
    simp only [sparse, UG.mk.injEq, true_and]
    funext u
    refine List.filter_eq_self.2 fun v _ => decide_eq_true ?_
    rw [clrPred, hn, Nat.mod_one, Nat.mod_one, if_pos rfl]
  · rw [sparseCount, if_neg (by rw [hn]; omega)] at hr
    obtain ⟨c, _, rfl⟩ := Option.map_eq_some_iff.1 hr
    rw [Nat.zero_pow (by omega), Nat.mul_zero]

/-- **C141, refuted: a multiple of 2^32 colours.** The number is cut to 0, and the program divides by zero. -/
theorem C141_cut_colours {count : UG → Option Nat} {hash : Nat → Nat} {G : UG} (hn : 0 < G.n) {k : Nat} (t : Nat) :
    sparseCount count hash G k ((t + 1) * 4294967296) = none := by
  have : numColors ((t + 1) * 4294967296) = 0 := by
    rw [numColors, Nat.max_eq_right (by omega), Nat.mul_mod_left]
  rw [sparseCount, this, if_pos ⟨rfl, hn⟩]

/-! ### Examples -/

/-- Five vertices with a clique of four, two colours: no clique of one colour if the colours alternate, one if they do not. -/
example : (mono exK 4 fun i => i % 2) = ∅ ∧ (mono exK 4 fun i => i / 4) = {{0, 1, 2, 3}} ∧ (mono exK 3 fun i => i / 3) = {{0, 1, 2}} := by decide +kernel

/-- Arrays and a distribution of the vertices that meet the hypotheses of `C141_sparse_count_partial`. -/
example (hash : Nat → Nat) (label : Bool) : sparseCount (cliqueCall (fun _ => id) 4 5 false label (fun _ _ => alloc none 0 0 0)
    fun H => [(⟨9, H.n + 3, 3, 3, 9, H.n, 3⟩, List.range H.n)]) hash exK 4 2 = some ((mono exK 4 fun i => hash i % 2).card * 8) := by
  have hb : ∀ u < 5, (exK.nb u).Nodup ∧ (exK.nb u).length ≤ 3 := by decide
  have hout : ∀ u, ¬ u < 5 → exK.nb u = [] := fun u hu => by
    show [[1, 2, 3], [0, 2, 3], [0, 1, 3], [0, 1, 2], []].getD u [] = []
    rw [List.getD_eq_getElem?_getD, List.getElem?_eq_none (by simp; omega)]; rfl
  refine (C141_sparse_count_partial (G := exK) (k := 4) (d := 3) (by omega) (by omega) (UG.ofLists_sym (by decide)) (fun u => ?_) (fun H => by simp) (fun _ h => by cases h)
    (by omega) (by omega) (fun u => ?_) (by omega) (fun H w hw => ?_) (fun H w hw => ?_) (fun H => by simp) _ (Or.inr (Or.inr rfl))).1
  · by_cases hu : u < 5
    · exact (hb u hu).1
    · rw [hout u hu]; exact List.nodup_nil
  · by_cases hu : u < 5
    · exact (hb u hu).2
    · rw [hout u hu]; exact Nat.zero_le _
  · rw [List.mem_singleton.1 hw]
    exact ⟨⟨Nat.le_refl _, Nat.le_add_left _ _, Nat.le_refl _⟩, Nat.le_refl _, Nat.le_refl _, Nat.le_refl _, Nat.le_refl _⟩
  · rw [List.mem_singleton.1 hw]
    exact Nat.le_add_right _ _

/-- The mean over the 32 colourings with two colours: two make the clique one-coloured on its four vertices, times two for vertex 4. -/
example : (Finset.univ.sum fun f : Fin exK.n → Fin 2 => (mono exK 4 (ext0 f)).card * 2 ^ 3) = 1 * 2 ^ 5 := by
  have := C141_mean (G := exK) (k := 4) (C := 2) (by decide)
  rw [this]
  have : (cliques exK 4).card = 1 := by decide +kernel
  rw [this]; rfl

example : sparseCount (fun G => some (cliques G 4).card) (fun i => i / 4) exK 4 2 = some 8 ∧ sparseCount (fun G => some (cliques G 4).card) (fun i => i / 4) exK 4 0 = some 0 := by
  decide +kernel

end Gbbs.Clique
