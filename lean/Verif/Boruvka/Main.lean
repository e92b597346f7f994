/-
C106: Boruvka's algorithm with filtering returns a minimum spanning forest.
-/
import Verif.Boruvka.Round

namespace Gbbs.Boruvka

open Forest Relation
open Conc (Par compress Ranked IsRoot compress_par)
open Conc.Prog (ret)

/-- The same edge from its other end. -/
def rev (e : E) : E := (e.2.1, e.1, e.2.2)

/-- A symmetric graph on `n` vertices without self-loops, with weights that fit into an `int32_t`, and fewer arcs than
would set the top bit of an edge number. -/
structure Input (n : Nat) (A : List E) : Prop where
  lt : ∀ e ∈ A, e.1 < n ∧ e.2.1 < n
  sym : ∀ e ∈ A, rev e ∈ A
  loop : ∀ e ∈ A, e.1 ≠ e.2.1
  wle : ∀ e ∈ A, e.2.2 ≤ infW
  small : A.length ≤ 2 ^ 31

/-- The invariant of the outer loop. -/
structure OInv (n : Nat) (A : List E) (k : Nat) (o : OSt) : Prop where
  pp : ∀ x, o.p (o.p x) = o.p x
  hi : ∀ x, n ≤ x → o.p x = x
  first : k = 0 → ∀ x, o.p x = x
  conn : ∀ x y, o.p x = o.p y ↔ Conn o.F x y
  vt : ∀ v, v ∈ o.vt ↔ v < n ∧ o.p v = v
  lt : ∀ x, x < n → o.p x < n
  vn : o.vt.Nodup
  ex : ∀ v, o.ex v = false
  sub : ∀ e ∈ o.F, e ∈ A
  forest : IsForest o.F
  gsub : ∀ e ∈ o.G, e ∈ A ∧ o.p e.1 ≠ o.p e.2.1
  glen : o.G.length ≤ 2 ^ 31
  shape : (∀ e ∈ o.G, rev e ∈ o.G) ∨ ∀ e ∈ o.G, ¬ e.2.1 < e.1
  cover : ∀ e ∈ A, e ∈ o.G ∨ rev e ∈ o.G ∨ Conn (o.F.filter fun f => decide (f.2.2 ≤ e.2.2)) e.1 e.2.1
  low : ∀ e ∈ o.G, ∀ f ∈ o.F, f.2.2 ≤ e.2.2

variable {n k : Nat} {A : List E} {o : OSt} {ch : Option (Int × (E → Bool))}

/-- What a round takes: edges of the graph, none heavier than what remains, and of every edge one direction is taken or
remains. -/
theorem take_spec (G : List E) (hs : (∀ e ∈ G, rev e ∈ G) ∨ ∀ e ∈ G, ¬ e.2.1 < e.1) :
    (take k ch G).1.Sublist G ∧ (take k ch G).2.Sublist G ∧
    (∀ e ∈ G, (e ∈ (take k ch G).1 ∨ rev e ∈ (take k ch G).1) ∨ (e ∈ (take k ch G).2 ∨ rev e ∈ (take k ch G).2)) ∧
    (∀ e ∈ (take k ch G).2, ¬ e.2.1 < e.1) ∧
    ∀ e ∈ (take k ch G).1, ∀ e' ∈ (take k ch G).2, e.2.2 ≤ e'.2.2 := by
  have all : G.Sublist G ∧ ([] : List E).Sublist G ∧ (∀ e ∈ G, (e ∈ G ∨ rev e ∈ G) ∨ (e ∈ ([] : List E) ∨ rev e ∈ ([] : List E))) ∧
      (∀ e ∈ ([] : List E), ¬ e.2.1 < e.1) ∧ ∀ e ∈ G, ∀ e' ∈ ([] : List E), e.2.2 ≤ e'.2.2 :=
    ⟨List.Sublist.refl _, List.nil_sublist _, fun e he => Or.inl (Or.inl he), fun e he => (by cases he), fun e _ e' he => (by cases he)⟩
  unfold take
  split
  · rename_i ws h
    by_cases hk : k < 5
    · rw [if_pos hk]
      refine ⟨List.filter_sublist, List.filter_sublist, fun e he => ?_, fun e he => ?_, fun e he e' he' => ?_⟩
      · have key : ∀ e ∈ G, ¬ e.2.1 < e.1 → e ∈ G.filter (fun e => decide (splitPred ws h e = 2)) ∨ e ∈ G.filter (fun e => decide (splitPred ws h e = 0)) := by
          intro e he hlt
          have : splitPred ws h e = 2 ∨ splitPred ws h e = 0 := by
            unfold splitPred
            rw [if_neg hlt]
            split
            · exact Or.inl rfl
            · split
              · split
                · exact Or.inl rfl
                · exact Or.inr rfl
              · exact Or.inr rfl
          rcases this with h1 | h1
          · exact Or.inl (List.mem_filter.2 ⟨he, by simp [h1]⟩)
          · exact Or.inr (List.mem_filter.2 ⟨he, by simp [h1]⟩)
        by_cases hlt : e.2.1 < e.1
        · rcases hs with hs | hs
          · rcases key (rev e) (hs e he) (by simp only [rev]; omega) with h1 | h1
            · exact Or.inl (Or.inr h1)
            · exact Or.inr (Or.inr h1)
          · exact absurd hlt (hs e he)
        · rcases key e he hlt with h1 | h1
          · exact Or.inl (Or.inl h1)
          · exact Or.inr (Or.inl h1)
      · intro hlt
        have := (List.mem_filter.1 he).2
        simp [splitPred, hlt] at this
      · have h1 : splitPred ws h e = 2 := by simpa using (List.mem_filter.1 he).2
        have h2 : splitPred ws h e' = 0 := by simpa using (List.mem_filter.1 he').2
        have h3 : e.2.2 ≤ ws := by
          unfold splitPred at h1
          split at h1
          · cases h1
          · split at h1
            · omega
            · split at h1
              · omega
              · cases h1
        have h4 : ws ≤ e'.2.2 := by
          unfold splitPred at h2
          split at h2
          · cases h2
          · split at h2
            · cases h2
            · omega
        exact h3.trans h4
    · rw [if_neg hk]; exact all
  · exact all

theorem edgeAt_mem {l : List E} {i : Nat} (h : i < l.length) : edgeAt l i ∈ l := by
  rw [edgeAt, List.getD_eq_getElem?_getD, List.getElem?_eq_getElem h]; exact List.getElem_mem h

theorem exists_edgeAt {l : List E} {e : E} (h : e ∈ l) : ∃ i, i < l.length ∧ edgeAt l i = e := by
  obtain ⟨i, hi, rfl⟩ := List.mem_iff_getElem.1 h
  exact ⟨i, hi, by rw [edgeAt, List.getD_eq_getElem?_getD, List.getElem?_eq_getElem hi]; rfl⟩

theorem OInv.batch (h : OInv n A k o) (hA : Input n A) {l : List E} (hl : l.Sublist o.G) : Batch n l.length (edgeAt l) where
  small := hl.length_le.trans h.glen
  lt i hi := hA.lt _ (h.gsub _ (hl.subset (edgeAt_mem hi))).1
  wle i hi := hA.wle _ (h.gsub _ (hl.subset (edgeAt_mem hi))).1

theorem OInv.start (h : OInv n A k o) {l : List E} (hl : l.Sublist o.G) :
    Inv n l.length (edgeAt l) o.F o.p (start k o l) where
  rk := ⟨fun x => if o.p x = x then 0 else 1, fun x => by
    by_cases hx : o.p x = x
    · exact Or.inl hx
    · right; show (if o.p (o.p x) = o.p x then 0 else 1) < (if o.p x = x then 0 else 1)
      rw [if_pos (h.pp x), if_neg hx]; omega⟩
  root := ⟨h.pp, h.pp, fun x => ⟨1, rfl⟩⟩
  hi := h.hi
  act x hx := Or.inl ((h.vt _).2 ⟨h.lt x hx, h.pp x⟩)
  vr v hv := ⟨((h.vt v).1 hv).2, ((h.vt v).1 hv).1, h.ex v⟩
  er v hv := by have := h.ex v; rw [show o.ex v = true from hv] at this; cases this
  vn := h.vn
  idn := List.nodup_range
  idm i hi := List.mem_range.1 hi
  ed i _ := by
    show (if 0 < k then _ else _) = _
    split
    · rfl
    · rw [h.first (by omega), h.first (by omega)]
  ne i hi := (h.gsub _ (hl.subset (edgeAt_mem (List.mem_range.1 hi)))).2
  out i hi hn := absurd (List.mem_range.2 hi) hn
  exn v hv := by have := h.ex v; rw [show o.ex v = true from hv] at this; cases this
  conn x y := by
    rw [h.conn]
    show _ ↔ Conn (o.F ++ []) x y
    rw [List.append_nil]
  cut f hf := by cases hf
  tn := List.nodup_nil

/-- A round of the outer loop keeps the invariant. -/
theorem OInv.iter (h : OInv n A k o) (hA : Input n A) {o' : OSt} (hi : Iter n k ch o o') : OInv n A (k + 1) o' := by
  obtain ⟨s, p', hl, hj, rfl⟩ := hi
  obtain ⟨t1, t2, t3, t4, t5⟩ := take_spec (k := k) (ch := ch) o.G h.shape
  generalize (take k ch o.G).1 = l at *
  generalize (take k ch o.G).2 = G1 at *
  have hb := h.batch hA t1
  obtain ⟨rt, hv, hids⟩ := Inv.loop hl hb ⟨_, h.start t1⟩
  obtain ⟨mu, hmu⟩ := hv.rk
  obtain ⟨j1, j2, j3, j4⟩ := hj.spec hmu hv.root
  have hp : ∀ x, p' x = rt x := by
    intro x
    by_cases hx : x < n
    · exact j1 x (by simpa using hx)
    · rw [j2 x (by simpa using hx), hv.hi x (by omega), hv.root.of_root (hv.hi x (by omega))]
  have hpe : p' = rt := funext hp
  subst hpe
  clear j1 j2 hp
  have hT : ∀ t ∈ s.T, t < l.length := fun t ht => (hv.cut t ht).1
  have hTG : ∀ f ∈ s.T.map (edgeAt l), f ∈ l := by
    intro f hf
    obtain ⟨t, ht, rfl⟩ := List.mem_map.1 hf
    exact edgeAt_mem (hT t ht)
  have hid : ∀ x, p' (p' x) = p' x := fun x => hv.root.of_root (hv.root.root x)
  have hlow : ∀ e ∈ G1, ∀ f ∈ o.F ++ s.T.map (edgeAt l), f.2.2 ≤ e.2.2 := by
    intro e he f hf
    rcases List.mem_append.1 hf with hf | hf
    · exact h.low e (t2.subset he) f hf
    · exact t5 f (hTG f hf) e he
  -- an edge of the batch
  have hbatch : ∀ e ∈ l, Conn ((o.F ++ s.T.map (edgeAt l)).filter fun f => decide (f.2.2 ≤ e.2.2)) e.1 e.2.1 := by
    intro e he
    obtain ⟨i, hi, rfl⟩ := exists_edgeAt he
    have h1 : p' (edgeAt l i).1 = p' (edgeAt l i).2.1 := hv.out i hi (by rw [hids]; exact List.not_mem_nil)
    refine conn_mono (fun f hf => ?_) (hv.cut.below hi ((hv.conn _ _).1 h1))
    rcases List.mem_append.1 hf with hf | hf
    · exact List.mem_filter.2 ⟨List.mem_append_left _ hf, by simpa using h.low _ (t1.subset he) f hf⟩
    · obtain ⟨t, ht, rfl⟩ := List.mem_map.1 hf
      obtain ⟨ht, hc⟩ := List.mem_filter.1 ht
      refine List.mem_filter.2 ⟨List.mem_append_right _ (List.mem_map.2 ⟨t, ht, rfl⟩), ?_⟩
      simp only [decide_eq_true_eq] at hc ⊢
      rcases hc with rfl | hc
      · exact Int.le_refl _
      · exact hc
  have hrest : ∀ e ∈ G1, p' e.1 = p' e.2.1 → Conn ((o.F ++ s.T.map (edgeAt l)).filter fun f => decide (f.2.2 ≤ e.2.2)) e.1 e.2.1 := by
    intro e he hpe
    refine conn_mono (fun f hf => List.mem_filter.2 ⟨hf, by simpa using hlow e he f hf⟩) ((hv.conn _ _).1 hpe)
  have hsym : ∀ e : E, ∀ L, Conn L (rev e).1 (rev e).2.1 → Conn L e.1 e.2.1 := fun e L hc => (conn_equiv L).symm hc
  refine ⟨hid, ?_, fun h => absurd h (Nat.succ_ne_zero k), hv.conn, ?_, ?_, ?_, ?_, ?_, ?_, ?_, ?_, ?_, ?_, ?_⟩
  · exact fun x hx => hv.root.of_root (hv.hi x hx)
  · intro v
    constructor
    · intro hm
      rcases List.mem_append.1 hm with hm | hm
      · exact ⟨(hv.vr v hm).2.1, hv.root.of_root (hv.vr v hm).1⟩
      · obtain ⟨-, he⟩ := List.mem_filter.1 hm
        exact ⟨(hv.er v he).2, hv.root.of_root (hv.er v he).1⟩
    · rintro ⟨hn, hpv⟩
      rcases hv.act v hn with ha | ha
      · exact List.mem_append_left _ (by rw [← hpv]; exact ha)
      · exact List.mem_append_right _ (List.mem_filter.2 ⟨List.mem_range.2 hn, by rw [← hpv]; exact ha⟩)
  · intro x hx
    rcases hv.act x hx with ha | ha
    · exact (hv.vr _ ha).2.1
    · exact (hv.er _ ha).2
  · refine List.nodup_append.2 ⟨hv.vn, List.nodup_range.filter _, ?_⟩
    rintro v hm w hw rfl
    have := (List.mem_filter.1 hw).2
    rw [(hv.vr v hm).2.2] at this; cases this
  · intro v
    dsimp only
    split
    · rfl
    · rw [Bool.eq_false_iff]; exact fun hc => ‹¬ v < n› (hv.er v hc).2
  · intro e he
    rcases List.mem_append.1 he with he | he
    · exact h.sub e he
    · exact (h.gsub e (t1.subset (hTG e he))).1
  · exact hv.cut.forest hv.tn h.forest
  · intro e he
    obtain ⟨he, hne⟩ := List.mem_filter.1 he
    exact ⟨(h.gsub e (t2.subset he)).1, by simpa using hne⟩
  · exact (List.length_filter_le _ _).trans (t2.length_le.trans h.glen)
  · exact Or.inr fun e he => t4 e (List.mem_filter.1 he).1
  · intro e he
    have key : ∀ e ∈ o.G, (e ∈ G1.filter fun e => decide (p' e.1 ≠ p' e.2.1)) ∨ (rev e ∈ G1.filter fun e => decide (p' e.1 ≠ p' e.2.1)) ∨
        Conn ((o.F ++ s.T.map (edgeAt l)).filter fun f => decide (f.2.2 ≤ e.2.2)) e.1 e.2.1 := by
      intro e he
      rcases t3 e he with (h1 | h1) | h1 | h1
      · exact Or.inr (Or.inr (hbatch e h1))
      · exact Or.inr (Or.inr (hsym e _ (hbatch _ h1)))
      · by_cases hc : p' e.1 = p' e.2.1
        · exact Or.inr (Or.inr (hrest e h1 hc))
        · exact Or.inl (List.mem_filter.2 ⟨h1, by simpa using hc⟩)
      · by_cases hc : p' (rev e).1 = p' (rev e).2.1
        · exact Or.inr (Or.inr (hsym e _ (hrest _ h1 hc)))
        · exact Or.inr (Or.inl (List.mem_filter.2 ⟨h1, by simpa using hc⟩))
    rcases h.cover e he with h1 | h1 | h1
    · exact key e h1
    · rcases key _ h1 with h2 | h2 | h2
      · exact Or.inr (Or.inl h2)
      · exact Or.inl h2
      · exact Or.inr (Or.inr (hsym e _ h2))
    · refine Or.inr (Or.inr (conn_mono (fun f hf => ?_) h1))
      obtain ⟨hf, hc⟩ := List.mem_filter.1 hf
      exact List.mem_filter.2 ⟨List.mem_append_left _ hf, hc⟩
  · exact fun e he => hlow e (List.mem_filter.1 he).1

theorem OInv.init (hA : Input n A) : OInv n A 0 { G := A, F := [], p := fun v => v, vt := List.range n, ex := fun _ => false } where
  pp _ := rfl
  hi _ _ := rfl
  first _ _ := rfl
  conn x y := by
    constructor
    · rintro rfl; exact (conn_equiv []).refl _
    · exact fun hc => conn_le (l := []) (s := fun x y => x = y) ⟨fun _ => rfl, fun h => h.symm, fun h h' => h.trans h'⟩ (fun e he => (by cases he)) hc
  vt v := by simp
  lt x hx := hx
  vn := List.nodup_range
  ex _ := rfl
  sub e he := by cases he
  forest pre e post hl := by simp at hl
  gsub e he := ⟨he, hA.loop e he⟩
  glen := hA.small
  shape := Or.inl hA.sym
  cover e he := Or.inl he
  low e _ f hf := by cases hf

theorem OInv.rounds {ch : Nat → Option (Int × (E → Bool))} {F : List E} (hr : Rounds n ch k o F) (hA : Input n A) (h : OInv n A k o) :
    IsMSF A F := by
  induction hr with
  | @done k o hg =>
    refine isMSF_of_span hA.lt h.sub h.forest fun e he => ?_
    rcases h.cover e he with h1 | h1 | h1
    · rw [hg] at h1; cases h1
    · rw [hg] at h1; cases h1
    · exact h1
  | step _ hi _ ih => exact ih (h.iter hA hi)

/-- C106. Whatever edges the sampling takes in each round, in every interleaving of the `write_min`s and of the pointer
jumping, the result is a minimum spanning forest. -/
theorem Run.correct {ch : Nat → Option (Int × (E → Bool))} {F : List E} (hA : Input n A) (h : Run n ch A F) : IsMSF A F :=
  OInv.rounds h hA (OInv.init hA)

/-- `mst` (line 398) holds `n` edge numbers: the forest is smaller. -/
theorem Run.size {ch : Nat → Option (Int × (E → Bool))} {F : List E} (hA : Input n A) (h : Run n ch A F) (hn : 0 < n) : F.length < n := by
  have hm := (h.correct hA).1
  exact forest_lt (fun e he => hA.lt e (hm.sub e he)) hm.forest hn

/-! ### Every execution can be completed -/

theorem OInv.iter_exists (h : OInv n A k o) (hA : Input n A) (ch : Option (Int × (E → Bool))) : ∃ o', Iter n k ch o o' := by
  obtain ⟨t1, -⟩ := take_spec (k := k) (ch := ch) o.G h.shape
  have hb := h.batch hA t1
  obtain ⟨s, hl⟩ := (h.start t1).loop_exists hb
  obtain ⟨rt, hv, -⟩ := Inv.loop hl hb ⟨_, h.start t1⟩
  obtain ⟨mu, hmu⟩ := hv.rk
  obtain ⟨p', hp'⟩ := jump_exists (List.range n) List.nodup_range hmu hv.root
  have e : (fun u => decide (u ∈ List.range n)) = fun u => decide (u < n) := by funext u; simp
  rw [e] at hp'
  exact ⟨_, s, p', hl, hp', rfl⟩

/-- From the sixth round on the graph is empty. -/
theorem Iter.empties {o' : OSt} (h : Iter n k ch o o') (hk : 5 ≤ k) : o'.G = [] := by
  obtain ⟨s, p', -, -, rfl⟩ := h
  have : (take k ch o.G).2 = [] := by
    unfold take
    split
    · rw [if_neg (by omega)]
    · rfl
  dsimp only
  rw [this]; rfl

theorem OInv.rounds_exists (ch : Nat → Option (Int × (E → Bool))) (hA : Input n A) (j : Nat) (h : OInv n A k o) (hk : k + j = 5) :
    ∃ F, Rounds n ch k o F := by
  induction j generalizing k o with
  | zero =>
    by_cases hg : o.G = []
    · exact ⟨_, .done hg⟩
    · obtain ⟨o', hi⟩ := h.iter_exists hA (ch k)
      exact ⟨_, .step hg hi (.done (hi.empties (by omega)))⟩
  | succ j ih =>
    by_cases hg : o.G = []
    · exact ⟨_, .done hg⟩
    · obtain ⟨o', hi⟩ := h.iter_exists hA (ch k)
      obtain ⟨F, hF⟩ := ih (h.iter hA hi) (by omega)
      exact ⟨F, .step hg hi hF⟩

/-- Whatever the sampling takes, the program can return. -/
theorem run_exists (ch : Nat → Option (Int × (E → Bool))) (hA : Input n A) : ∃ F, Run n ch A F :=
  OInv.rounds_exists ch hA 5 (OInv.init hA) rfl

/-- No execution of `Boruvka` on a batch has more rounds than active vertices. -/
theorem loop_bound {m : Nat} {e0 : Nat → E} {F0 : List E} {rt : Nat → Nat} (hb : Batch n m e0) (c : Nat → St) (K : Nat)
    (h0 : Inv n m e0 F0 rt (c 0)) (hc : ∀ k < K, 0 < (c k).ids.length ∧ Round (c k) (c (k + 1))) : K ≤ (c 0).vt.length := by
  have : ∀ k, k ≤ K → k + (c k).vt.length ≤ (c 0).vt.length ∧ ∃ rt, Inv n m e0 F0 rt (c k) := by
    intro k
    induction k with
    | zero => exact fun _ => ⟨by omega, rt, h0⟩
    | succ k ih =>
      intro hk
      obtain ⟨h1, rt, h2⟩ := ih (by omega)
      obtain ⟨h3, h4⟩ := hc k (by omega)
      have := h2.fewer hb h4 h3
      exact ⟨by omega, h2.round hb h4⟩
  have := (this K (Nat.le_refl _)).1
  omega

end Gbbs.Boruvka
