/-
C140: clique counting with space type 2, `benchmarks/CliqueCounting/induced_intersection.h:19-135`.
-/
import Verif.Clique.Split

namespace Gbbs.Clique

/-! ### Model -/

/-- One level: nothing for an empty set (line 26), `intersect` is set to `k_idx` on `prev_induced` (28-30), and to `k_idx - 1` at the end (62-64, 92-94).
`intersect` is an array of `int`, indexed by the vertices. -/
def level2 (N : Nat → List Nat) (c : Caps) (kidx : Nat) (prev : List Nat) (lab : Nat → Nat)
    (body : (Nat → Nat) → Option (Nat × Incs × (Nat → Nat))) : Option (Nat × Incs × (Nat → Nat)) :=
  if prev = [] then some (0, [], lab)
  else if ∃ v ∈ prev, c.lab ≤ v ∨ ∃ w ∈ N v, c.lab ≤ w then none
  else (body (setAll lab prev kidx)).map fun r => (r.1, r.2.1, setAll r.2.2 prev (kidx - 1))

/-- `out_neighbors().filter(pred, out_f, tmp)`, `gbbs/vertex.h:190-211`: for a degree of at least `kAllocThreshold` the calls of `out_f` are made in
parallel (line 208); `out_f` increments a variable of the caller without synchronisation (`induced_intersection.h:43-46,74-77`), so two calls are a data race. -/
def Racy (N : Nat → List Nat) (lab : Nat → Nat) (kidx v : Nat) : Prop := 10000 ≤ (N v).length ∧ 2 ≤ (outOf N lab kidx v).length

instance (N : Nat → List Nat) (lab : Nat → Nat) (kidx v : Nat) : Decidable (Racy N lab kidx v) := inferInstanceAs (Decidable (_ ∧ _))

/-- `KCliqueDir_fast_rec(DG, k_idx, k, induced, base_f, use_base)`, `induced_intersection.h:19-96`, for `k = k_idx + 1 + j`; `nn` is `num_induced[0]`. `none` is
an access out of bounds or a data race (undefined behaviour). The calls of `base_f` are listed as with `use_base` (calls with count 0 left in). -/
def go2 (N : Nat → List Nat) (nn : Nat) (c : Caps) : Nat → Nat → List Nat → (Nat → Nat) → Option (Nat × Incs × (Nat → Nat))
  | 0, kidx, prev, lab => level2 N c kidx prev lab fun lab1 =>
      loop (fun v lab =>
        if Racy N lab kidx v then none
        else some ((outOf N lab kidx v).length, (outOf N lab kidx v).map (fun w => (w, 1)) ++ [(v, (outOf N lab kidx v).length)], lab)) prev lab1
  | j + 1, kidx, prev, lab => level2 N c kidx prev lab fun lab1 =>
      loop (fun v lab =>
        if Racy N lab kidx v then none
        else if c.ind < nn * kidx + (outOf N lab kidx v).length ∨ c.num ≤ kidx then none
        else if (outOf N lab kidx v).length > 0 then
          (go2 N nn c j (kidx + 1) (outOf N lab kidx v) lab).map fun r => (r.1, r.2.1 ++ [(v, r.1)], r.2.2)
        else some (0, [], lab)) prev lab1

/-- An iteration of `CountCliques`, `:113-131`; `use_f` is always true (`Clique.h:96`). -/
def iter2 (N : Nat → List Nat) (K : Nat) (c : Caps) (i : Nat) (st : (Nat → Nat) × (Nat → Nat)) : Option (Nat × Incs × ((Nat → Nat) × (Nat → Nat))) :=
  if N i = [] then some (0, [], st)
  else if c.ind < (N i).length ∨ c.num = 0 then none
  else (go2 N (N i).length c (K - 2) 1 (N i) st.1).map fun r => (r.1, r.2.1 ++ [(i, r.1)], (r.2.2, st.2))

/-- `induced_intersection::CountCliques(DG, K, use_f, base_f, use_base)`, `:98-135`. The arrays of a worker are `induced`, `num_induced` and `intersect`
(`intersect.h:472-481`): `c.ind`, `c.num` and `c.lab` elements. -/
def interV (N : Nat → List Nat) (K : Nat) (ws : List (Caps × List Nat)) : Option (Nat × Incs) := workers (iter2 N K) ws

/-- `InducedSpace_lw::alloc(max_deg, k, n)` for a space without arrays, `intersect.h:472-481`. -/
def alloc2 (maxDeg k n : Nat) : Caps := ⟨k * maxDeg, n, k, 0, 0, 0, 0⟩

/-! ### Labels -/

theorem pre_filter2 {lab : Nat → Nat} {prev : List Nat} {kidx : Nat} (h : Pre lab prev kidx) (N : Nat → List Nat) (v : Nat) :
    outOf N (setAll lab prev kidx) kidx v = (N v).filter fun w => decide (w ∈ prev) := by
  refine List.filter_congr fun w _ => decide_eq_decide.2 ?_
  rw [setAll]
  split
  · rename_i hw; exact ⟨fun _ => hw, fun _ => rfl⟩
  · rename_i hw
    have := h.2 w
    exact ⟨fun hc => by omega, fun hc => absurd hc hw⟩

theorem pre_reset2 {lab : Nat → Nat} {prev : List Nat} {kidx : Nat} (h : Pre lab prev kidx) :
    setAll (setAll lab prev kidx) prev (kidx - 1) = lab := by
  funext x
  rw [setAll]
  split
  · rename_i hx; rw [h.1 x hx]
  · rename_i hx; rw [setAll, if_neg hx]

theorem pre_next2 {lab : Nat → Nat} {prev out : List Nat} {kidx : Nat} (h : Pre lab prev kidx) (ho : ∀ x ∈ out, x ∈ prev) :
    Pre (setAll lab prev kidx) out (kidx + 1) := by
  refine ⟨fun x hx => ?_, fun x => ?_⟩
  · rw [setAll, if_pos (ho x hx)]; omega
  · rw [setAll]
    split
    · omega
    · have := h.2 x; omega

/-! ### The recursion -/

/-- **The recursion** stays within its arrays, counts the sequences of `j + 2` elements, reports them per vertex, and restores the labels. -/
theorem go2_spec {N : Nat → List Nat} {n : Nat} (hnd : ∀ v, (N v).Nodup) (hb : ∀ x, ∀ w ∈ N x, x < n ∧ w < n) (hd : ∀ v, (N v).length < 10000)
    {nn : Nat} {c : Caps} (hcl : n ≤ c.lab) : ∀ (j kidx : Nat) (prev : List Nat) (lab : Nat → Nat), (∀ v ∈ prev, v < n) → prev.Nodup → prev.length ≤ nn →
    1 ≤ kidx → Pre lab prev kidx → (kidx + 1 + j) * nn ≤ c.ind → kidx + 1 + j ≤ c.num →
    ∃ l, go2 N nn c j kidx prev lab = some ((seqs N (j + 2) prev).length, l, lab) ∧ ∀ x, incTot l x = occ id (seqs N (j + 2) prev) x := by
  intro j
  induction j with
  | zero =>
    intro kidx prev lab hp hpn hpl h1 hpre hc1 hc2
    rw [go2, level2]
    by_cases hnil : prev = []
    · rw [if_pos hnil, hnil]; exact ⟨[], rfl, fun _ => rfl⟩
    rw [if_neg hnil, if_neg (by
      rintro ⟨v, hv, h | ⟨w, hw, h⟩⟩
      · have := hp v hv; omega
      · have := (hb v w hw).2; omega)]
    obtain ⟨b, hl, hb'⟩ := loop_incs (st := setAll lab prev kidx) (l := prev)
      (f := fun v lab => if Racy N lab kidx v then none
        else some ((outOf N lab kidx v).length, (outOf N lab kidx v).map (fun w => (w, 1)) ++ [(v, (outOf N lab kidx v).length)], lab))
      (a := fun v => (seqs N 1 ((N v).filter fun w => decide (w ∈ prev))).length)
      (g := fun v x => occ id ((seqs N 1 ((N v).filter fun w => decide (w ∈ prev))).map (v :: ·)) x) (fun v hv => by
        rw [if_neg fun h => absurd h.1 (by have := hd v; omega), pre_filter2 hpre]
        refine ⟨_, by rw [seqs_one, List.length_map], fun x => ?_⟩
        rw [incTot_append, incTot_single, occ_cons, seqs_one, List.length_map]
        congr 1
        generalize (N v).filter (fun w => decide (w ∈ prev)) = l
        rw [incTot, occ, List.map_map, List.map_map]
        congr 1
        refine List.map_congr_left fun w _ => ?_
        simp only [Function.comp, List.map_cons, List.map_nil, List.count_singleton, beq_iff_eq, id])
    rw [hl]
    refine ⟨b, by rw [length_seqs, Option.map_some, pre_reset2 hpre], fun x => ?_⟩
    rw [hb' x, seqs, occ_flatMap]
  | succ j ih =>
    intro kidx prev lab hp hpn hpl h1 hpre hc1 hc2
    rw [go2, level2]
    by_cases hnil : prev = []
    · rw [if_pos hnil, hnil]; exact ⟨[], rfl, fun _ => rfl⟩
    rw [if_neg hnil, if_neg (by
      rintro ⟨v, hv, h | ⟨w, hw, h⟩⟩
      · have := hp v hv; omega
      · have := (hb v w hw).2; omega)]
    have hsub : ∀ v, ∀ w ∈ (N v).filter (fun w => decide (w ∈ prev)), w ∈ prev := fun v w hw => of_decide_eq_true (List.mem_filter.1 hw).2
    have hlen : ∀ v, ((N v).filter fun w => decide (w ∈ prev)).length ≤ nn := fun v =>
      Nat.le_trans (List.subperm_of_subset ((hnd v).filter _) (hsub v)).length_le hpl
    have hmul : nn * kidx + nn ≤ (kidx + 1 + (j + 1)) * nn := by
      calc nn * kidx + nn = (kidx + 1) * nn := by rw [Nat.add_mul, Nat.mul_comm, Nat.one_mul]
        _ ≤ _ := Nat.mul_le_mul_right _ (by omega)
    obtain ⟨b, hl, hb'⟩ := loop_incs (st := setAll lab prev kidx) (l := prev)
      (f := fun v lab => if Racy N lab kidx v then none
        else if c.ind < nn * kidx + (outOf N lab kidx v).length ∨ c.num ≤ kidx then none
        else if (outOf N lab kidx v).length > 0 then
          (go2 N nn c j (kidx + 1) (outOf N lab kidx v) lab).map fun r => (r.1, r.2.1 ++ [(v, r.1)], r.2.2)
        else some (0, [], lab))
      (a := fun v => (seqs N (j + 2) ((N v).filter fun w => decide (w ∈ prev))).length)
      (g := fun v x => occ id ((seqs N (j + 2) ((N v).filter fun w => decide (w ∈ prev))).map (v :: ·)) x) (fun v hv => by
        rw [if_neg fun h => absurd h.1 (by have := hd v; omega), pre_filter2 hpre, if_neg (by
          have := hlen v
          rintro (h | h) <;> omega)]
        by_cases hl : ((N v).filter fun w => decide (w ∈ prev)).length > 0
        · rw [if_pos hl]
          obtain ⟨l, hl1, hl2⟩ := ih (kidx + 1) ((N v).filter fun w => decide (w ∈ prev)) (setAll lab prev kidx) (fun w hw => hp w (hsub v w hw))
            ((hnd v).filter _) (hlen v) (by omega) (pre_next2 hpre (hsub v)) (by rw [show kidx + 1 + 1 + j = kidx + 1 + (j + 1) by omega]; exact hc1) (by omega)
          rw [hl1]
          refine ⟨_, rfl, fun x => ?_⟩
          rw [incTot_append, incTot_single, occ_cons, hl2]
          rfl
        · rw [if_neg hl, List.length_eq_zero_iff.1 (by omega : ((N v).filter fun w => decide (w ∈ prev)).length = 0)]
          exact ⟨[], rfl, fun _ => rfl⟩)
    rw [hl]
    refine ⟨b, by rw [length_seqs, Option.map_some, pre_reset2 hpre], fun x => ?_⟩
    rw [hb' x, seqs, occ_flatMap]

theorem interV_spec {N : Nat → List Nat} {n : Nat} (hnd : ∀ v, (N v).Nodup) (hb : ∀ x, ∀ w ∈ N x, x < n ∧ w < n)
    (hd : ∀ v, (N v).length < 10000) {K d : Nat} (hK : 2 ≤ K) (hdd : ∀ v, (N v).length ≤ d) {ws : List (Caps × List Nat)}
    (hc : ∀ w ∈ ws, K * d ≤ w.1.ind ∧ n ≤ w.1.lab ∧ K ≤ w.1.num) (hp : (ws.flatMap Prod.snd).Perm (List.range n)) :
    ∃ l, interV N K ws = some ((seqs N (K + 1) (List.range n)).length, l) ∧ ∀ x, incTot l x = occ id (seqs N (K + 1) (List.range n)) x := by
  have hf : ∀ v, (N v).filter (fun w => decide (w ∈ List.range n)) = N v := fun v =>
    List.filter_eq_self.2 fun w hw => decide_eq_true (List.mem_range.2 (hb v w hw).2)
  obtain ⟨b, h1, h3⟩ := workers_incs (f := iter2 N K) (a := fun i => (seqs N K (N i)).length)
    (g := fun i x => occ id ((seqs N K (N i)).map (i :: ·)) x) hp (fun w hw i _ => by
      rw [iter2]
      by_cases hnil : N i = []
      · rw [if_pos hnil, hnil]
        obtain ⟨m, rfl⟩ : ∃ m, K = m + 1 := ⟨K - 1, by omega⟩
        exact ⟨[], rfl, fun _ => rfl⟩
      obtain ⟨k1, k2, k3⟩ := hc w hw
      have k4 : K * (N i).length ≤ w.1.ind := Nat.le_trans (Nat.mul_le_mul_left _ (hdd i)) k1
      have k5 : (N i).length ≤ K * (N i).length := Nat.le_mul_of_pos_left _ (by omega)
      rw [if_neg hnil, if_neg (by rintro (h | h) <;> omega)]
      obtain ⟨l, hl1, hl2⟩ := go2_spec hnd hb hd k2 (K - 2) 1 (N i) (fun _ => 0) (fun v hv => (hb i v hv).2) (hnd i) (Nat.le_refl _) (Nat.le_refl _)
        (pre_zero _) (by rw [show 1 + 1 + (K - 2) = K by omega]; exact k4) (by omega)
      rw [show K - 2 + 2 = K by omega] at hl1 hl2
      simp only []
      rw [hl1]
      refine ⟨l ++ [(i, (seqs N K (N i)).length)], rfl, fun x => ?_⟩
      rw [incTot_append, incTot_single, occ_cons, hl2]
      rfl)
  refine ⟨b, ?_, fun x => ?_⟩
  · rw [interV, h1, length_seqs]; simp only [hf]
  · rw [h3 x, seqs, occ_flatMap]; simp only [hf]

/-- **C140, space type 2.** If all out-degrees are below 10000, `Clique` counts the sets of `k` pairwise adjacent vertices, for every `k ≥ 4`, and for every
vertex those that contain it. -/
theorem C140_intersection_partial {G : UG} {k : Nat} {rank : Nat → Nat} {filter : Bool} (hG : G.Sym) (hnd : ∀ u, (G.nb u).Nodup)
    (hr : ((List.range G.n).map rank).Perm (List.range G.n)) (hk : 4 ≤ k) {d : Nat} (hd : ∀ x, (directed G k rank filter x).length ≤ d) (hd2 : d < 10000)
    {ws : List (Caps × List Nat)} (hc : ∀ w ∈ ws, (k - 1) * d ≤ w.1.ind ∧ G.n ≤ w.1.lab ∧ k - 1 ≤ w.1.num)
    (hp : (ws.flatMap Prod.snd).Perm (List.range G.n)) :
    ∃ l, interV (directed G k rank filter) (k - 1) ws = some ((cliques G k).card, l) ∧
      ∀ u < G.n, incTot l (name rank filter u) = ((cliques G k).filter fun S => u ∈ S).card := by
  have hsym : ∀ u v, v ∈ G.nb u → u ∈ G.nb v := fun u v h => by
    rw [← List.count_pos_iff] at h ⊢; rw [hG.sym]; exact h
  have hinj : ∀ u < G.n, ∀ v < G.n, rank u = rank v → u = v := fun u hu v hv he =>
    List.inj_on_of_nodup_map (hr.nodup_iff.2 List.nodup_range) (List.mem_range.2 hu) (List.mem_range.2 hv) he
  have hD := dir_directed (k := k) (filter := filter) hG.bound hnd hr
  obtain ⟨l, h3, h4⟩ := interV_spec hD.nodup hD.bound (fun v => Nat.lt_of_le_of_lt (hd v) hd2) (K := k - 1) (by omega) hd hc hp
  obtain ⟨h5, h6⟩ := seqs_counts hsym hinj hD
  rw [show k - 1 + 1 = k by omega] at h3 h4
  exact ⟨l, by rw [h3, h5], fun u hu => by rw [h4, h6 u hu]⟩

/-! ### The data race -/

theorem loop_none_inv {α β σ : Type} {f : α → σ → Option (Nat × List β × σ)} {st : σ} : ∀ {l : List α} {v : α}, v ∈ l →
    (∀ v ∈ l, ∀ r, f v st = some r → r.2.2 = st) → f v st = none → loop f l st = none := by
  intro l
  induction l with
  | nil => intro v hv; cases hv
  | cons a l ih =>
    intro v hv hf h0
    rw [loop]
    cases ha : f a st with
    | none => rfl
    | some r =>
      have h1 : r.2.2 = st := hf a List.mem_cons_self r ha
      have hv' : v ∈ l := by
        rcases List.mem_cons.1 hv with rfl | h
        · rw [h0] at ha; cases ha
        · exact h
      obtain ⟨x, y, z⟩ := r
      simp only at h1 ⊢
      rw [h1, ih hv' (fun w hw => hf w (List.mem_cons_of_mem _ hw)) h0]

theorem loop_keeps {α β σ : Type} {f : α → σ → Option (Nat × List β × σ)} {st : σ} : ∀ {l : List α},
    (∀ v ∈ l, ∀ r, f v st = some r → r.2.2 = st) → ∀ r, loop f l st = some r → r.2.2 = st := by
  intro l
  induction l with
  | nil => intro _ r hr; rw [loop] at hr; cases hr; rfl
  | cons a l ih =>
    intro hf r hr
    rw [loop] at hr
    cases ha : f a st with
    | none => rw [ha] at hr; cases hr
    | some q =>
      have h1 : q.2.2 = st := hf a List.mem_cons_self q ha
      obtain ⟨x, y, z⟩ := q
      rw [ha] at hr
      simp only at h1 hr
      rw [h1] at hr
      cases hb : loop f l st with
      | none => rw [hb] at hr; cases hr
      | some q =>
        rw [hb] at hr
        cases hr
        exact ih (fun v hv => hf v (List.mem_cons_of_mem _ hv)) q hb

/-- A level that returns restores the labels. -/
theorem level2_keeps {N : Nat → List Nat} {c : Caps} {kidx : Nat} {prev : List Nat} {lab : Nat → Nat} (hpre : Pre lab prev kidx)
    {body : (Nat → Nat) → Option (Nat × Incs × (Nat → Nat))} (hb : ∀ r, body (setAll lab prev kidx) = some r → r.2.2 = setAll lab prev kidx) :
    ∀ r, level2 N c kidx prev lab body = some r → r.2.2 = lab := by
  intro r hr
  rw [level2] at hr
  split at hr
  · cases hr; rfl
  split at hr
  · cases hr
  cases hq : body (setAll lab prev kidx) with
  | none => rw [hq] at hr; cases hr
  | some q => rw [hq] at hr; cases hr; show setAll q.2.2 prev (kidx - 1) = lab; rw [hb q hq, pre_reset2 hpre]

theorem go2_keeps {N : Nat → List Nat} {nn : Nat} {c : Caps} : ∀ (j kidx : Nat) (prev : List Nat) (lab : Nat → Nat), Pre lab prev kidx →
    ∀ r, go2 N nn c j kidx prev lab = some r → r.2.2 = lab := by
  intro j
  induction j with
  | zero =>
    intro kidx prev lab hpre
    rw [go2]
    refine level2_keeps hpre (loop_keeps fun v _ r hr => ?_)
    split at hr
    · cases hr
    · cases hr; rfl
  | succ j ih =>
    intro kidx prev lab hpre
    rw [go2]
    refine level2_keeps hpre (loop_keeps fun v _ r hr => ?_)
    split at hr
    · cases hr
    split at hr
    · cases hr
    split at hr
    · cases hq : go2 N nn c j (kidx + 1) (outOf N (setAll lab prev kidx) kidx v) (setAll lab prev kidx) with
      | none => rw [hq] at hr; cases hr
      | some q =>
        rw [hq] at hr; cases hr
        refine ih _ _ _ (pre_next2 hpre fun x hx => ?_) q hq
        rw [pre_filter2 hpre] at hx
        exact of_decide_eq_true (List.mem_filter.1 hx).2
    · cases hr; rfl

/-- **C140, refuted: space type 2 with large degrees.** If a vertex `u` has an out-neighbour `v` of out-degree at least 10000, and they have two common
out-neighbours, the program has a data race on the counter. -/
theorem C140_intersection_races {N : Nat → List Nat} {K : Nat} {ws : List (Caps × List Nat)} {w : Caps × List Nat} (hw : w ∈ ws) {u v : Nat} (hu : u ∈ w.2)
    (hv : v ∈ N u) (hd : 10000 ≤ (N v).length) (h2 : 2 ≤ ((N v).filter fun x => decide (x ∈ N u)).length) : interV N K ws = none := by
  have hgo : ∀ (c : Caps), go2 N (N u).length c (K - 2) 1 (N u) (fun _ => 0) = none := by
    intro c
    have hne : N u ≠ [] := List.ne_nil_of_mem hv
    have hr : Racy N (setAll (fun _ => 0) (N u) 1) 1 v := ⟨hd, by rw [pre_filter2 (pre_zero _)]; exact h2⟩
    cases hj : K - 2 with
    | zero =>
      rw [go2, level2, if_neg hne]
      split
      · rfl
      · rw [loop_none_inv hv]
        · rfl
        · intro x _ r hr
          split at hr
          · cases hr
          · cases hr; rfl
        · rw [if_pos hr]
    | succ j =>
      rw [go2, level2, if_neg hne]
      split
      · rfl
      · rw [loop_none_inv hv]
        · rfl
        · intro x _ r hr
          split at hr
          · cases hr
          split at hr
          · cases hr
          split at hr
          · cases hq : go2 N (N u).length c j (1 + 1) (outOf N (setAll (fun _ => 0) (N u) 1) 1 x) (setAll (fun _ => 0) (N u) 1) with
            | none => rw [hq] at hr; cases hr
            | some q =>
              rw [hq] at hr; cases hr
              refine go2_keeps _ _ _ _ (pre_next2 (pre_zero _) fun y hy => ?_) q hq
              rw [pre_filter2 (pre_zero _)] at hy
              exact of_decide_eq_true (List.mem_filter.1 hy).2
          · cases hr; rfl
        · rw [if_pos hr]
  have hit : ∀ w : Caps × List Nat, u ∈ w.2 → loop (iter2 N K w.1) w.2 (fun _ => 0, fun _ => 0) = none := by
    intro w hu
    refine loop_none_inv hu (fun i _ r hr => ?_) ?_
    · rw [iter2] at hr
      split at hr
      · cases hr; rfl
      split at hr
      · cases hr
      simp only at hr
      cases hq : go2 N (N i).length w.1 (K - 2) 1 (N i) (fun _ => 0) with
      | none => rw [hq] at hr; cases hr
      | some q =>
        rw [hq] at hr; cases hr
        show (q.2.2, _) = _
        rw [go2_keeps _ _ _ _ (pre_zero _) q hq]
    · rw [iter2, if_neg (List.ne_nil_of_mem hv)]
      split
      · rfl
      · simp only []
        rw [hgo]; rfl
  rw [interV, workers]
  rw [loop_none (v := w) hw]
  · rfl
  · intro st
    rw [hit w hu]; rfl

/-- For instance the complete graph on 10002 vertices or more, in the given order, with `k = 4`. -/
theorem C140_intersection_complete {n : Nat} (hn : 10002 ≤ n) {ws : List (Caps × List Nat)} (hp : (ws.flatMap Prod.snd).Perm (List.range n)) :
    interV (directed (complete n) 4 id true) 3 ws = none := by
  have hlen : ∀ u < n, ((complete n).nb u).length = n - 1 := by
    intro u hu
    show (if u < n then (List.range n).filter (fun v => decide (v ≠ u)) else []).length = _
    rw [if_pos hu, ← List.countP_eq_length_filter]
    have h1 := List.length_eq_countP_add_countP (fun v => decide (v = u)) (l := List.range n)
    have h2 : (List.range n).countP (fun v => decide (v = u)) = 1 := by
      have := List.count_eq_one_of_mem (List.nodup_range (n := n)) (List.mem_range.2 hu)
      rw [← this, List.count]
      refine List.countP_congr fun x _ => ?_
      simp
    have h3 : (List.range n).countP (fun v => decide (v ≠ u)) = (List.range n).countP (fun v => decide ¬ decide (v = u) = true) :=
      List.countP_congr fun x _ => by simp
    rw [List.length_range] at h1
    omega
  have hdir : ∀ u < n, directed (complete n) 4 id true u = (List.range n).filter fun v => decide (u < v) := by
    intro u hu
    show ((complete n).nb u).filter _ = _
    have : (complete n).nb u = (List.range n).filter (fun v => decide (v ≠ u)) := by
      show (if u < n then _ else _) = _
      rw [if_pos hu]
    have e : ∀ v, v < n → decide (id u < id v ∧ 4 - 1 ≤ ((complete n).nb u).length ∧ 4 - 1 ≤ ((complete n).nb v).length) = decide (u < v) := fun v hv => by
      refine decide_eq_decide.2 ⟨fun h => h.1, fun h => ⟨h, ?_, ?_⟩⟩
      · rw [hlen u hu]; omega
      · rw [hlen v hv]; omega
    rw [this, List.filter_filter]
    refine List.filter_congr fun v hv => ?_
    rw [← this, e v (List.mem_range.1 hv)]
    by_cases h : u < v
    · simp [h]; omega
    · simp [h]
  have hgt : ∀ u < n, ∀ v, v ∈ directed (complete n) 4 id true u ↔ u < v ∧ v < n := fun u hu v => by
    rw [hdir u hu, List.mem_filter, List.mem_range, decide_eq_true_eq]
    exact and_comm
  have h1 : 10000 ≤ (directed (complete n) 4 id true 1).length := by
    have hs : (List.range' 2 10000).Subperm (directed (complete n) 4 id true 1) := List.subperm_of_subset List.nodup_range' fun x hx => by
      rw [List.mem_range'_1] at hx
      exact (hgt 1 (by omega) x).2 (by omega)
    have := hs.length_le
    rwa [List.length_range'] at this
  obtain ⟨w, hw, hu⟩ := List.mem_flatMap.1 (hp.mem_iff.2 (List.mem_range.2 (show 0 < n by omega)))
  refine C140_intersection_races hw hu ((hgt 0 (by omega) 1).2 (by omega)) h1 ?_
  have : (directed (complete n) 4 id true 1).filter (fun x => decide (x ∈ directed (complete n) 4 id true 0)) = directed (complete n) 4 id true 1 :=
    List.filter_eq_self.2 fun x hx => decide_eq_true ((hgt 0 (by omega) x).2 (by have := (hgt 1 (by omega) x).1 hx; omega))
  rw [this]; omega

/-! ### Examples -/

example : (interV exD 3 [(alloc2 4 3 8, [3, 1]), (alloc2 4 3 8, [0, 2, 7, 6, 5, 4])]).map (fun r => (r.1, (List.range 8).map (incTot r.2))) =
    some (5, [0, 0, 0, 4, 4, 4, 4, 4]) := by decide +kernel

/-- Fresh arrays meet the hypotheses of the theorem; with arrays from a smaller call the program leaves them. -/
example : (3 * 4 ≤ (alloc2 4 3 8).ind ∧ 8 ≤ (alloc2 4 3 8).lab ∧ 3 ≤ (alloc2 4 3 8).num) ∧ interV exD 3 [(alloc2 2 3 3, [0, 1, 2, 3, 4, 5, 6, 7])] = none := by
  decide +kernel

end Gbbs.Clique
