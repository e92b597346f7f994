/-
C104: where clique counting fails, and examples.
-/
import Verif.Clique.Graph

namespace Gbbs.Clique

/-! ### Labels are `char` -/

theorem loop_zero {α β σ : Type} {f : α → σ → Option (Nat × List β × σ)} {Inv : σ → Prop} : ∀ {l : List α},
    (∀ v ∈ l, ∀ st r, Inv st → f v st = some r → r.1 = 0 ∧ Inv r.2.2) → ∀ st r, Inv st → loop f l st = some r → r.1 = 0 ∧ Inv r.2.2 := by
  intro l
  induction l with
  | nil => intro _ st r hi h; cases h; exact ⟨rfl, hi⟩
  | cons v vs ih =>
    intro hf st r hi h
    rw [loop] at h
    split at h
    · cases h
    · rename_i a b st' hv
      obtain ⟨h1, h2⟩ := hf v List.mem_cons_self st _ hi hv
      split at h
      · cases h
      · rename_i a' b' st'' hl
        obtain ⟨h3, h4⟩ := ih (fun w hw => hf w (List.mem_cons_of_mem _ hw)) st' _ h2 hl
        cases h
        have h1 : a = 0 := h1
        have h3 : a' = 0 := h3
        exact ⟨by show a + a' = 0; omega, h4⟩

theorem chr_ne (x : Nat) : chr x ≠ 128 := by
  rw [chr]; split <;> omega

/-- No label reads back as 128. -/
def No128 (lab : Nat → Nat) : Prop := ∀ x, lab x ≠ 128

theorem no128_set {lab : Nat → Nat} (h : No128 lab) (l : List Nat) (x : Nat) : No128 (setLab lab l x) := fun v => by
  rw [setLab]; split
  · exact chr_ne x
  · exact h v

theorem outOf_128 {E : Nat → List Nat} {lab : Nat → Nat} (h : No128 lab) (v : Nat) : outOf E lab 128 v = [] :=
  List.filter_eq_nil_iff.2 fun w _ => by simpa using h w

theorem level_zero {β : Type} {E : Nat → List Nat} {c : Caps} {kidx : Nat} {prev : List Nat} {lab : Nat → Nat} (hl : No128 lab)
    {body : (Nat → Nat) → Option (Nat × List β × (Nat → Nat))} (hb : ∀ lab r, No128 lab → body lab = some r → r.1 = 0 ∧ No128 r.2.2)
    {r : Nat × List β × (Nat → Nat)} (h : level E c kidx prev lab body = some r) : r.1 = 0 ∧ No128 r.2.2 := by
  rw [level] at h
  split at h
  · cases h; exact ⟨rfl, hl⟩
  split at h
  · cases h
  obtain ⟨r', h1, rfl⟩ := Option.map_eq_some_iff.1 h
  obtain ⟨h2, h3⟩ := hb _ _ (no128_set hl _ _) h1
  exact ⟨h2, no128_set h3 _ _⟩

theorem go_zero {E : Nat → List Nat} {nn : Nat} {rl : Nat → Nat} {c2 : Nat → Caps} : ∀ (j kidx : Nat) (c : Caps) (prev : List Nat) (lab : Nat → Nat) r,
    1 ≤ kidx → kidx ≤ 128 → 128 ≤ kidx + j → No128 lab → go E nn rl c2 j kidx 0 c prev lab = some r → r.1 = 0 ∧ No128 r.2.2 := by
  intro j
  induction j with
  | zero =>
    intro kidx c prev lab r _ h1 h2 hl h
    have : kidx = 128 := by omega
    subst this
    rw [go] at h
    refine level_zero hl (fun lab1 r' hl1 hr => ?_) h
    refine loop_zero (Inv := No128) (fun v _ st r'' hst hr'' => ?_) lab1 r' hl1 hr
    rw [outOf_128 hst] at hr''
    cases hr''
    exact ⟨rfl, hst⟩
  | succ j ih =>
    intro kidx c prev lab r h0 h1 h2 hl h
    rw [go] at h
    refine level_zero hl (fun lab1 r' hl1 hr => ?_) h
    rw [if_pos (Or.inl (by omega))] at hr
    refine loop_zero (Inv := No128) (fun v _ st r'' hst hr'' => ?_) lab1 r' hl1 hr
    split at hr''
    · cases hr''
    split at hr''
    · rename_i hlen
      obtain ⟨r3, h3, rfl⟩ := Option.map_eq_some_iff.1 hr''
      by_cases hk : kidx = 128
      · subst hk
        rw [outOf_128 hst] at hlen
        exact absurd hlen (by simp)
      · exact ih (kidx + 1) c _ st r3 (by omega) (by omega) (by omega) hst h3
    · cases hr''; exact ⟨rfl, hst⟩

/-- **C104, refuted: large cliques.** From `k = 130` on, the count is 0 for every graph: the level 128 is stored in a `char` and does not compare
equal when read back. -/
theorem clique_zero {N : Nat → List Nat} {k : Nat} (hk : 130 ≤ k) {label : Bool} {c2 : Nat → Nat → Caps} {ws : List (Caps × List Nat)} {r : Nat × Incs}
    (h : countV N (k - 1) 0 label c2 ws = some r) : r.1 = 0 := by
  obtain ⟨r1, h1, rfl⟩ := Option.map_eq_some_iff.1 h
  refine (loop_zero (Inv := fun _ => True) (fun w _ _ r2 _ h2 => ?_) () r1 trivial h1).1
  obtain ⟨r3, h3, rfl⟩ := Option.map_eq_some_iff.1 h2
  refine ⟨(loop_zero (Inv := fun st : (Nat → Nat) × (Nat → Nat) => No128 st.1) (fun i _ st r4 hst h4 => ?_) _ r3 (fun _ => (by decide : (0 : Nat) ≠ 128)) h3).1, trivial⟩
  rw [iterV] at h4
  split at h4
  · cases h4; exact ⟨rfl, hst⟩
  split at h4
  · cases h4
  obtain ⟨r5, h5, rfl⟩ := Option.map_eq_some_iff.1 h4
  obtain ⟨h6, h7⟩ := go_zero _ _ _ _ _ r5 (Nat.le_refl _) (by omega) (by omega) hst h5
  exact ⟨h6, h7⟩

/-- The complete graph on `n` vertices has a clique of `n` vertices. -/
def complete (n : Nat) : UG := ⟨n, fun u => if u < n then (List.range n).filter (fun v => decide (v ≠ u)) else []⟩

theorem complete_clique (n : Nat) : (cliques (complete n) n).card = 1 := by
  have : cliques (complete n) n = {Finset.range n} := by
    ext S
    rw [cliques, Finset.mem_filter, Finset.mem_powersetCard, Finset.mem_singleton]
    constructor
    · rintro ⟨⟨h1, h2⟩, _⟩
      exact Finset.eq_of_subset_of_card_le h1 (by rw [h2]; exact Nat.le_of_eq (Finset.card_range n))
    · rintro rfl
      refine ⟨⟨fun _ h => h, Finset.card_range n⟩, fun u hu v hv huv => ?_⟩
      show v ∈ if u < n then (List.range n).filter (fun v => decide (v ≠ u)) else []
      rw [if_pos (Finset.mem_range.1 hu)]
      exact List.mem_filter.2 ⟨List.mem_range.2 (Finset.mem_range.1 hv), decide_eq_true (Ne.symm huv)⟩
  rw [this]; rfl

theorem complete_sym (n : Nat) : (complete n).Sym ∧ ∀ u, ((complete n).nb u).Nodup := by
  have hnd : ∀ u, ((complete n).nb u).Nodup := fun u => by
    show (if u < n then (List.range n).filter (fun v => decide (v ≠ u)) else []).Nodup
    split
    · exact List.nodup_range.filter _
    · exact List.nodup_nil
  have hm : ∀ u v, v ∈ (complete n).nb u ↔ u < n ∧ v < n ∧ v ≠ u := by
    intro u v
    show v ∈ (if u < n then (List.range n).filter (fun v => decide (v ≠ u)) else []) ↔ _
    split
    · rename_i h; simp [h]
    · rename_i h; simp [h]
  refine ⟨⟨fun u v => ?_, fun u v h => ⟨((hm u v).1 h).1, ((hm u v).1 h).2.1⟩⟩, hnd⟩
  by_cases h : v ∈ (complete n).nb u
  · obtain ⟨h1, h2, h3⟩ := (hm u v).1 h
    rw [List.count_eq_one_of_mem (hnd u) h, List.count_eq_one_of_mem (hnd v) ((hm v u).2 ⟨h2, h1, Ne.symm h3⟩)]
  · rw [List.count_eq_zero_of_not_mem h, List.count_eq_zero_of_not_mem fun hc => h ?_]
    obtain ⟨h1, h2, h3⟩ := (hm v u).1 hc
    exact (hm u v).2 ⟨h2, h1, Ne.symm h3⟩

/-- The complete graph on `k ≥ 130` vertices: one clique, and the result is 0. -/
theorem complete_wrong {k : Nat} (hk : 130 ≤ k) {rank : Nat → Nat} {filter label : Bool} {c2 : Nat → Nat → Caps} {ws : List (Caps × List Nat)}
    {r : Nat × Incs} (h : countV (directed (complete k) k rank filter) (k - 1) 0 label c2 ws = some r) : r.1 ≠ (cliques (complete k) k).card := by
  rw [clique_zero hk h, complete_clique]; decide

/-! ### Spaces are kept from one call to the next -/

theorem loop_none {α β σ : Type} {f : α → σ → Option (Nat × List β × σ)} : ∀ {l : List α} {v : α}, v ∈ l → (∀ st, f v st = none) → ∀ st, loop f l st = none := by
  intro l
  induction l with
  | nil => intro v hv; cases hv
  | cons w vs ih =>
    intro v hv hf st
    rw [loop]
    rcases List.mem_cons.1 hv with rfl | hv
    · rw [hf st]
    · cases hw : f w st with
      | none => rfl
      | some r =>
        obtain ⟨a, b, st'⟩ := r
        simp only [ih hv hf st']

/-- **C104, refuted: a second call.** A worker that has run an earlier call with largest out-degree `d₁` and size `K₁` keeps its arrays
(`thread_local`, `alloc` only replaces null pointers). A vertex of out-degree more than `K₁ d₁` in the later call is written out of bounds. -/
theorem clique_reuse {N : Nat → List Nat} {K lev d₁ K₁ n₁ d n : Nat} {label : Bool} {c2 : Nat → Nat → Caps} {ws : List (Caps × List Nat)} {is : List Nat} {i : Nat}
    (hw : (alloc (some (alloc none d₁ K₁ n₁)) d K n, is) ∈ ws) (hi : i ∈ is) (hd : K₁ * d₁ < (N i).length) : countV N K lev label c2 ws = none := by
  rw [countV, workers, loop_none hw fun _ => ?_]
  · rfl
  · rw [loop_none hi fun st => ?_]
    · rfl
    · rw [iterV, if_neg (by intro hc; rw [hc] at hd; simp at hd), if_pos (show Bad _ _ _ _ _ _ from Or.inl hd)]

/-- Two blocks: the path `0 → 1 → 2` with `0 → 2`, and the complete graph on `3, …, 7`. -/
def exD (v : Nat) : List Nat := [[1, 2], [2], [], [4, 5, 6, 7], [5, 6, 7], [6, 7], [7], []].getD v []

/-- **C104, refuted: `recursive_level ≥ 2`.** The inner spaces are kept from one vertex to the next, too: one worker runs vertex 0 (2 neighbours) and
then vertex 3 (4 neighbours) of a graph in which it should count 5 cliques of size 4, with fresh outer arrays; the inner arrays are those for vertex 0. -/
theorem clique_level : countV exD 3 2 true (fun i _ => alloc (if i = 0 then none else some (alloc none (exD 0).length 2 8)) (exD i).length 2 8)
    [(alloc none 4 3 8, [0, 1, 2, 3, 4, 5, 6, 7])] = none ∧ (seqs exD 4 (List.range 8)).length = 5 := by
  decide +kernel

/-! ### Iterating over arcs without labels -/

theorem fillLoop_none {nn : Nat} (h : 0 < nn) : ∀ fuel, fillLoop nn 0 fuel = none := by
  intro fuel
  induction fuel with
  | zero => rfl
  | succ f ih => rw [fillLoop, if_pos h]; exact ih

/-- **C104, refuted: `recursive_level = 1` with `saveSpace`.** If some arc of the directed graph is in a triangle, the call does not return. -/
theorem clique_endless {N : Nat → List Nat} (hs : ∀ v, (N v).Pairwise (· < ·)) {K : Nat} {ws : List (Caps × List (Nat × Nat))} {c : Caps}
    {as : List (Nat × Nat)} (hw : (c, as) ∈ ws) {i l x : Nat} (ha : (i, l) ∈ as) (h1 : x ∈ N i) (h2 : x ∈ N l) : ∀ fuel, countE N K false fuel ws = none := by
  intro fuel
  have hpos : 0 < (isect 0 (N i) (N l)).length := by
    have := (isect_spec (full := N i) 0 (N i) (N l) (by simp) (hs i) (hs l)).2
    have hl := congrArg List.length this
    rw [List.length_map] at hl
    rw [hl]
    exact List.length_pos_of_mem (List.mem_filter.2 ⟨h2, decide_eq_true h1⟩)
  rw [countE, workers, loop_none hw fun _ => ?_]
  · rfl
  · rw [loop_none ha fun st => ?_]
    · rfl
    · have : setupIE N fuel i l = none := by
        show (fillLoop (isect 0 (N i) (N l)).length 0 fuel).map _ = none
        rw [fillLoop_none hpos]; rfl
      rw [iterE]
      simp only [Bool.false_eq_true, if_false]
      rw [this]

/-! ### Names of vertices in the enumeration -/

/-- A complete graph on `0, 1, 2, 3` and an isolated vertex. -/
def exK : UG := UG.ofLists [[1, 2, 3], [0, 2, 3], [0, 1, 3], [0, 1, 2], []]

/-- A rank that exchanges 3 and 4. -/
def exRank (v : Nat) : Nat := [0, 1, 2, 4, 3].getD v v

/-- **C104, refuted: `Clique_enum` with `filter = false`.** `base_f` gets the names of the relabelled graph: here a list with vertex 4, which has no
neighbours. -/
theorem enum_names {label : Bool} {ws : List (Caps × List Nat)} (hc : ∀ w ∈ ws, FitsAll w.1 5 3 5) (hp : (ws.flatMap Prod.snd).Perm (List.range 5)) :
    ∃ r, enumV (directed exK 4 exRank false) 3 label ws = some r ∧ r.1 = 1 ∧ ∀ s ∈ r.2, 4 ∈ s := by
  have hG : exK.Sym := UG.ofLists_sym (by decide)
  have hnd : ∀ u, (exK.nb u).Nodup := by
    intro u
    by_cases hu : u < 5
    · have : ∀ u < 5, (exK.nb u).Nodup := by decide
      exact this u hu
    · show ([[1, 2, 3], [0, 2, 3], [0, 1, 3], [0, 1, 2], []].getD u [] : List Nat).Nodup
      rw [List.getD_eq_getElem?_getD, List.getElem?_eq_none (by simp; omega)]
      exact List.nodup_nil
  have hr : ((List.range exK.n).map exRank).Perm (List.range exK.n) := by decide
  have hD := dir_directed (k := 4) (filter := false) hG.bound hnd hr
  obtain ⟨L, h1, h2, h3, h4⟩ := clique_enum (G := exK) (k := 4) (rank := exRank) (filter := false) (label := label) hG hnd hr (fun _ h => by cases h)
    (by omega) (by omega) (d := 5) (fun x => length_bound (hD.nodup x) fun w hw => (hD.bound x w hw).2) hc hp (τ := exRank) (by decide)
  have hcl : cliques exK 4 = {{0, 1, 2, 3}} := by decide +kernel
  refine ⟨_, h1, by rw [hcl]; rfl, fun s hs => ?_⟩
  have hmem : (s.map exRank).toFinset ∈ cliques exK 4 := by
    rw [← h3, List.mem_toFinset]
    exact List.mem_map_of_mem (f := fun s => (s.map exRank).toFinset) hs
  rw [hcl, Finset.mem_singleton] at hmem
  have h3' : 3 ∈ (s.map exRank).toFinset := by rw [hmem]; decide
  obtain ⟨x, hx, he⟩ := List.mem_map.1 (List.mem_toFinset.1 h3')
  have : x = 4 := by
    by_cases hx5 : x < 5
    · have : ∀ x < 5, exRank x = 3 → x = 4 := by decide
      exact this x hx5 he
    · have : exRank x = x := by
        rw [exRank, List.getD_eq_getElem?_getD, List.getElem?_eq_none (by simp; omega)]; rfl
      omega
  exact this ▸ hx

/-! ### Examples -/

/-- The hypotheses of the theorems about counting are met by fresh arrays; the counts of a graph with five cliques of size four, with one and with two
workers, with labels, over arcs, and with a fresh inner space per vertex. -/
example : FitsAll (alloc none 4 3 8) 4 3 8 := alloc_fits 4 3 8

example : ((countV exD 3 0 true (fun _ _ => alloc none 0 0 0) [(alloc none 4 3 8, [0, 1, 2, 3, 4, 5, 6, 7])]).map Prod.fst = some 5) ∧
    ((countV exD 3 2 true (fun _ _ => alloc none 4 3 8) [(alloc none 4 3 8, [3, 1]), (alloc none 4 3 8, [0, 2, 7, 6, 5, 4])]).map Prod.fst = some 5) ∧
    ((countE exD 3 true 0 [(alloc none 4 3 8, arcs exD 8)]).map Prod.fst = some 5) ∧
    ((countV exD 3 0 true (fun _ _ => alloc none 0 0 0) [(alloc none 4 3 8, [0, 1, 2, 3, 4, 5, 6, 7])]).map fun r => (List.range 8).map (incTot r.2)) =
      some [0, 0, 0, 4, 4, 4, 4, 4] := by decide +kernel

/-- The enumeration lists them. -/
example : (enumV exD 3 true [(alloc none 4 3 8, [0, 1, 2, 3, 4, 5, 6, 7])]).map Prod.snd =
    some [[3, 4, 5, 6], [3, 4, 5, 7], [3, 4, 6, 7], [3, 5, 6, 7], [4, 5, 6, 7]] := by decide +kernel

/-- A graph that meets the hypotheses of `clique_count`, with a rank. -/
example : exK.Sym ∧ ((List.range exK.n).map exRank).Perm (List.range exK.n) ∧ (cliques exK 4).card = 1 := ⟨UG.ofLists_sym (by decide), by decide, by decide +kernel⟩

end Gbbs.Clique
