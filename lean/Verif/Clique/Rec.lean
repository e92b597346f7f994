/-
C104: the recursion of clique counting, `benchmarks/CliqueCounting/induced_hybrid.h:20-175` and `induced_intersection.h:19-96`.
-/
import Verif.Common
import Verif.Clique.Seqs

namespace Gbbs.Clique

/-! ### Model -/

/-- A loop that adds up counts and collects calls of `base_f`; `none` is an access out of bounds. -/
def loop {α β σ : Type} (f : α → σ → Option (Nat × List β × σ)) : List α → σ → Option (Nat × List β × σ)
  | [], st => some (0, [], st)
  | v :: vs, st =>
    match f v st with
    | none => none
    | some (a, b, st') =>
      match loop f vs st' with
      | none => none
      | some (a', b', st'') => some (a + a', b ++ b', st'')

/-- A `size_t` stored in a `char` and read back (`static_cast<size_t>`, `induced_hybrid.h:30,42`): `char` is signed, 8 bits, sign-extended to 64. -/
def chr (x : Nat) : Nat := if x % 256 < 128 then x % 256 else 18446744073709551360 + x % 256

/-- `labels[prev_induced[i]] = k_idx` for all `i`, `:29-31,52-54,111-113`. The array holds the values as they are read back. -/
def setLab (lab : Nat → Nat) (l : List Nat) (x : Nat) : Nat → Nat := fun v => if v ∈ l then chr x else lab v

/-- Numbers of elements allocated for the arrays of `HybridSpace_lw` (`intersect.h:15-57`): `induced`, `labels`, `num_induced`, `induced_degs`,
`induced_edges`, `old_labels`, `relabel`. -/
structure Caps where
  ind : Nat
  lab : Nat
  num : Nat
  degs : Nat
  edges : Nat
  old : Nat
  rel : Nat

/-- Calls of `base_f(vtx, count)`. -/
abbrev Incs := List (Nat × Nat)

/-- What `per_vert[x]` gets from the calls (`Clique.h:115-117`). -/
def incTot (l : Incs) (x : Nat) : Nat := (l.map fun p => if p.1 = x then p.2 else 0).sum

/-- The induced neighbours of `vtx`: lines 62-71, `:90-99`. -/
def outOf (E : Nat → List Nat) (lab : Nat → Nat) (kidx v : Nat) : List Nat := (E v).filter fun w => decide (lab w = kidx)

/-- One level: nothing for an empty set (lines 25-26), the labels are set to `k_idx` (29-31), and to `k_idx - 1` at the end (52-54, 111-113); `body`
is the rest. The labels of `prev` and of the neighbours of its elements are accessed. -/
def level {β : Type} (E : Nat → List Nat) (c : Caps) (kidx : Nat) (prev : List Nat) (lab : Nat → Nat)
    (body : (Nat → Nat) → Option (Nat × List β × (Nat → Nat))) : Option (Nat × List β × (Nat → Nat)) :=
  if prev = [] then some (0, [], lab)
  else if ∃ v ∈ prev, c.lab ≤ v ∨ ∃ w ∈ E v, c.lab ≤ w then none
  else (body (setLab lab prev kidx)).map fun r => (r.1, r.2.1, setLab r.2.2 prev (kidx - 1))

/-- `KCliqueDir_fast_hybrid_rec(DG, k_idx, k, induced, base_f, recursive_level)`, `induced_hybrid.h:20-116`, for `k = k_idx + 1 + j`. The induced
graph is `E` on `0 … nn - 1`, `rl` is `relabel`, `prev` is `prev_induced`. The calls of `base_f` are listed as with `use_base` (with count 0 left
in: it adds nothing). `c` are the capacities of the arrays; `c2 v` those of the space of the worker that runs the iteration of `v` in the
parallel loop (`:76-109`). The labels of that space are 0 before every iteration: from `calloc`, or restored by the previous iteration (`go_spec`). -/
def go (E : Nat → List Nat) (nn : Nat) (rl : Nat → Nat) (c2 : Nat → Caps) : Nat → Nat → Nat → Caps → List Nat → (Nat → Nat) → Option (Nat × Incs × (Nat → Nat))
  | 0, kidx, _, c, prev, lab => level E c kidx prev lab fun lab1 =>
      loop (fun v lab => some ((outOf E lab kidx v).length, (outOf E lab kidx v).map (fun w => (rl w, 1)) ++ [(rl v, (outOf E lab kidx v).length)], lab))
        prev lab1
  | j + 1, kidx, lev, c, prev, lab => level E c kidx prev lab fun lab1 =>
      if lev < kidx ∨ prev.length < 2 then
        loop (fun v lab =>
          if c.ind < nn * kidx + (outOf E lab kidx v).length ∨ c.num ≤ kidx then none
          else if (outOf E lab kidx v).length > j + 1 then
            (go E nn rl c2 j (kidx + 1) lev c (outOf E lab kidx v) lab).map fun r => (r.1, r.2.1 ++ [(rl v, r.1)], r.2.2)
          else some (0, [], lab)) prev lab1
      else
        loop (fun v lab =>
          if (c2 v).ind < (outOf E lab kidx v).length ∨ (c2 v).num = 0 then none
          else if (outOf E lab kidx v).length > j + 1 then
            (go E nn rl c2 j 1 0 (c2 v) (outOf E lab kidx v) (fun _ => 0)).map fun r => (r.1, r.2.1 ++ [(rl v, r.1)], lab)
          else some (0, [], lab)) prev lab1

/-- The same level for the enumeration, with the sequence `base` in the state. -/
def levelE {β : Type} (E : Nat → List Nat) (c : Caps) (kidx : Nat) (prev : List Nat) (st : (Nat → Nat) × (Nat → Nat))
    (body : (Nat → Nat) × (Nat → Nat) → Option (Nat × List β × ((Nat → Nat) × (Nat → Nat)))) : Option (Nat × List β × ((Nat → Nat) × (Nat → Nat))) :=
  if prev = [] then some (0, [], st)
  else if ∃ v ∈ prev, c.lab ≤ v ∨ ∃ w ∈ E v, c.lab ≤ w then none
  else (body (setLab st.1 prev kidx, st.2)).map fun r => (r.1, r.2.1, (setLab r.2.2.1 prev (kidx - 1), r.2.2.2))

/-- `KCliqueDir_fast_hybrid_rec_enum`, `induced_hybrid.h:121-175`: the calls `base_f(base)` with the contents of `base` (size `k + 1`). -/
def goE (E : Nat → List Nat) (nn : Nat) (rl : Nat → Nat) (k : Nat) (c : Caps) : Nat → Nat → List Nat → (Nat → Nat) × (Nat → Nat) →
    Option (Nat × List (List Nat) × ((Nat → Nat) × (Nat → Nat)))
  | 0, kidx, prev, st => levelE E c kidx prev st fun st1 =>
      loop (fun v (st : (Nat → Nat) × (Nat → Nat)) =>
        loop (fun w (st : (Nat → Nat) × (Nat → Nat)) => some (1, [(List.range (k + 1)).map (upd st.2 k (rl w))], (st.1, upd st.2 k (rl w))))
          (outOf E st.1 kidx v) (st.1, upd st.2 kidx (rl v))) prev st1
  | j + 1, kidx, prev, st => levelE E c kidx prev st fun st1 =>
      loop (fun v (st : (Nat → Nat) × (Nat → Nat)) =>
        if c.ind < nn * kidx + (outOf E st.1 kidx v).length ∨ c.num ≤ kidx then none
        else if (outOf E st.1 kidx v).length > j + 1 then goE E nn rl k c j (kidx + 1) (outOf E st.1 kidx v) (st.1, upd st.2 kidx (rl v))
        else some (0, [], st)) prev st1

/-! ### Loops -/

theorem loop_spec {α β σ : Type} {f : α → σ → Option (Nat × List β × σ)} {Inv : σ → Prop} {a : α → Nat} {Q : α → List β → Prop} :
    ∀ {l : List α}, (∀ v ∈ l, ∀ st, Inv st → ∃ b st', f v st = some (a v, b, st') ∧ Inv st' ∧ Q v b) → ∀ st, Inv st →
    ∃ bs st', loop f l st = some ((l.map a).sum, bs.flatten, st') ∧ Inv st' ∧ List.Forall₂ Q l bs := by
  intro l
  induction l with
  | nil => exact fun _ st h => ⟨[], st, rfl, h, List.Forall₂.nil⟩
  | cons v vs ih =>
    intro hf st hi
    obtain ⟨b, st1, h1, h2, h3⟩ := hf v List.mem_cons_self st hi
    obtain ⟨bs, st2, h4, h5, h6⟩ := ih (fun w hw => hf w (List.mem_cons_of_mem _ hw)) st1 h2
    refine ⟨b :: bs, st2, ?_, h5, List.Forall₂.cons h3 h6⟩
    rw [loop, h1]
    simp only [h4, List.map_cons, List.sum_cons, List.flatten_cons]

/-- The sums of calls. -/
theorem loop_incs {α σ : Type} {f : α → σ → Option (Nat × Incs × σ)} {st : σ} {a : α → Nat} {g : α → Nat → Nat} {l : List α}
    (h : ∀ v ∈ l, ∃ b, f v st = some (a v, b, st) ∧ ∀ x, incTot b x = g v x) :
    ∃ b, loop f l st = some ((l.map a).sum, b, st) ∧ ∀ x, incTot b x = (l.map fun v => g v x).sum := by
  obtain ⟨bs, st', h1, h2, h3⟩ := loop_spec (Inv := fun s => s = st) (Q := fun v b => ∀ x, incTot b x = g v x) (l := l) (f := f) (a := a)
    (fun v hv s hs => by
      subst hs
      obtain ⟨b, h1, h2⟩ := h v hv
      exact ⟨b, s, h1, rfl, h2⟩) st rfl
  subst h2
  refine ⟨bs.flatten, h1, fun x => ?_⟩
  clear h1 h
  induction h3 with
  | nil => rfl
  | cons hq _ ih =>
    rw [List.flatten_cons, incTot, List.map_append, List.sum_append, List.map_cons, List.sum_cons, ← hq x, ← ih]
    rfl

/-- The lists of calls. -/
theorem loop_lists {α β σ : Type} {f : α → σ → Option (Nat × List β × σ)} {Inv : σ → Prop} {a : α → Nat} {B : α → List β} {l : List α}
    (h : ∀ v ∈ l, ∀ st, Inv st → ∃ st', f v st = some (a v, B v, st') ∧ Inv st') {st : σ} (hi : Inv st) :
    ∃ st', loop f l st = some ((l.map a).sum, l.flatMap B, st') ∧ Inv st' := by
  obtain ⟨bs, st', h1, h2, h3⟩ := loop_spec (Inv := Inv) (Q := fun v b => b = B v) (l := l) (f := f) (a := a)
    (fun v hv s hs => by
      obtain ⟨s', h1, h2⟩ := h v hv s hs
      exact ⟨B v, s', h1, h2, rfl⟩) st hi
  have : bs = l.map B := by
    clear h1 h
    induction h3 with
    | nil => rfl
    | cons hq _ ih => rw [hq, ih]; rfl
  rw [this] at h1
  exact ⟨st', by rw [h1, List.flatMap_def], h2⟩

theorem incTot_append (l m : Incs) (x : Nat) : incTot (l ++ m) x = incTot l x + incTot m x := by
  rw [incTot, List.map_append, List.sum_append]; rfl

theorem incTot_single (u a x : Nat) : incTot [(u, a)] x = if u = x then a else 0 := by
  simp [incTot]

/-! ### The recursion -/

theorem chr_small {x : Nat} (h : x < 128) : chr x = x := by
  have : x % 256 = x := Nat.mod_eq_of_lt (by omega)
  rw [chr, this, if_pos h]

/-- Labels before a call at level `kidx`. -/
def Pre (lab : Nat → Nat) (prev : List Nat) (kidx : Nat) : Prop := (∀ x ∈ prev, lab x = kidx - 1) ∧ ∀ x, lab x < kidx

theorem pre_filter {lab : Nat → Nat} {prev : List Nat} {kidx : Nat} (h : Pre lab prev kidx) (hk : kidx < 128) (E : Nat → List Nat) (v : Nat) :
    outOf E (setLab lab prev kidx) kidx v = (E v).filter fun w => decide (w ∈ prev) := by
  refine List.filter_congr fun w _ => decide_eq_decide.2 ?_
  rw [setLab]
  split
  · rename_i hw; exact ⟨fun _ => hw, fun _ => chr_small hk⟩
  · rename_i hw
    have := h.2 w
    exact ⟨fun hc => by omega, fun hc => absurd hc hw⟩

theorem pre_reset {lab : Nat → Nat} {prev : List Nat} {kidx : Nat} (h : Pre lab prev kidx) (hk : kidx < 128) :
    setLab (setLab lab prev kidx) prev (kidx - 1) = lab := by
  funext x
  rw [setLab]
  split
  · rename_i hx; rw [h.1 x hx, chr_small (by omega)]
  · rename_i hx; rw [setLab, if_neg hx]

theorem pre_next {lab : Nat → Nat} {prev out : List Nat} {kidx : Nat} (h : Pre lab prev kidx) (hk : kidx < 128) (ho : ∀ x ∈ out, x ∈ prev) :
    Pre (setLab lab prev kidx) out (kidx + 1) := by
  refine ⟨fun x hx => ?_, fun x => ?_⟩
  · rw [setLab, if_pos (ho x hx), chr_small hk]; omega
  · rw [setLab]
    split
    · rw [chr_small hk]; omega
    · have := h.2 x; omega

theorem pre_zero (out : List Nat) : Pre (fun _ => 0) out 1 := ⟨fun _ _ => rfl, fun _ => Nat.one_pos⟩

/-- The arrays are large enough for `k` levels over `nn` elements. -/
structure Fits (c : Caps) (nn k : Nat) : Prop where
  ind : k * nn ≤ c.ind
  lab : nn ≤ c.lab
  num : k ≤ c.num

theorem Fits.mono {c : Caps} {nn k k' : Nat} (h : Fits c nn k) (hk : k' ≤ k) : Fits c nn k' :=
  ⟨Nat.le_trans (Nat.mul_le_mul_right _ hk) h.ind, h.lab, Nat.le_trans hk h.num⟩

/-- The weight of a vertex in a list of sequences. -/
def occ (rl : Nat → Nat) (L : List (List Nat)) (x : Nat) : Nat := (L.map fun s => (s.map rl).count x).sum

theorem occ_cons (rl : Nat → Nat) (v : Nat) (L : List (List Nat)) (x : Nat) :
    occ rl (L.map (v :: ·)) x = occ rl L x + if rl v = x then L.length else 0 := by
  rw [occ, occ, List.map_map]
  induction L with
  | nil => simp
  | cons s L ih =>
    rw [List.map_cons, List.sum_cons, ih, List.map_cons, List.sum_cons, List.length_cons]
    simp only [Function.comp, List.map_cons, List.count_cons, beq_iff_eq]
    split <;> omega

theorem occ_flatMap (rl : Nat → Nat) {α : Type} (l : List α) (f : α → List (List Nat)) (x : Nat) :
    occ rl (l.flatMap f) x = (l.map fun v => occ rl (f v) x).sum := by
  rw [occ, List.map_flatMap, List.flatMap_def, List.sum_flatten, List.map_map]
  rfl

theorem length_bound {l : List Nat} {nn : Nat} (hn : l.Nodup) (hb : ∀ v ∈ l, v < nn) : l.length ≤ nn := by
  have := (List.subperm_of_subset hn (fun v hv => List.mem_range.2 (hb v hv))).length_le
  rwa [List.length_range] at this

/-- **The recursion** stays within its arrays, counts the sequences of `j + 2` elements, reports them per vertex, and restores the labels. -/
theorem go_spec {E : Nat → List Nat} {nn : Nat} {rl : Nat → Nat} {c2 : Nat → Caps} {rk : Nat → Nat} (hrk : ∀ v, ∀ w ∈ E v, rk v < rk w)
    (hnd : ∀ v, (E v).Nodup) (hb : ∀ v < nn, ∀ w ∈ E v, w < nn) : ∀ (j kidx lev : Nat) (c : Caps) (prev : List Nat) (lab : Nat → Nat),
    (∀ v ∈ prev, v < nn) → prev.Nodup → 1 ≤ kidx → kidx + j < 128 → Pre lab prev kidx → Fits c nn (kidx + 1 + j) →
    (lev < kidx ∨ ∀ v, Fits (c2 v) nn (kidx + 1 + j)) →
    ∃ l, go E nn rl c2 j kidx lev c prev lab = some ((seqs E (j + 2) prev).length, l, lab) ∧ ∀ x, incTot l x = occ rl (seqs E (j + 2) prev) x := by
  intro j
  induction j with
  | zero =>
    intro kidx lev c prev lab hp hpn h1 hk hpre hc h2
    rw [go, level]
    by_cases hnil : prev = []
    · rw [if_pos hnil, hnil]; exact ⟨[], rfl, fun _ => rfl⟩
    rw [if_neg hnil, if_neg (by
      rintro ⟨v, hv, h | ⟨w, hw, h⟩⟩
      · have := hp v hv; have := hc.lab; omega
      · have := hb v (hp v hv) w hw; have := hc.lab; omega)]
    obtain ⟨b, hl, hb'⟩ := loop_incs (st := setLab lab prev kidx) (l := prev)
      (f := fun v lab => some ((outOf E lab kidx v).length, (outOf E lab kidx v).map (fun w => (rl w, 1)) ++ [(rl v, (outOf E lab kidx v).length)], lab))
      (a := fun v => (seqs E 1 ((E v).filter fun w => decide (w ∈ prev))).length)
      (g := fun v x => occ rl ((seqs E 1 ((E v).filter fun w => decide (w ∈ prev))).map (v :: ·)) x) (fun v hv => by
        rw [pre_filter hpre (by omega)]
        refine ⟨_, by rw [seqs_one, List.length_map], fun x => ?_⟩
        rw [incTot_append, incTot_single, occ_cons, seqs_one, List.length_map]
        congr 1
        generalize (E v).filter (fun w => decide (w ∈ prev)) = l
        rw [incTot, occ, List.map_map, List.map_map]
        congr 1
        refine List.map_congr_left fun w _ => ?_
        simp only [Function.comp, List.map_cons, List.map_nil, List.count_singleton, beq_iff_eq])
    rw [hl]
    refine ⟨b, by rw [length_seqs, Option.map_some, pre_reset hpre (by omega)], fun x => ?_⟩
    rw [hb' x, seqs, occ_flatMap]
  | succ j ih =>
    intro kidx lev c prev lab hp hpn h1 hk hpre hc h2
    rw [go, level]
    by_cases hnil : prev = []
    · rw [if_pos hnil, hnil]; exact ⟨[], rfl, fun _ => rfl⟩
    rw [if_neg hnil, if_neg (by
      rintro ⟨v, hv, h | ⟨w, hw, h⟩⟩
      · have := hp v hv; have := hc.lab; omega
      · have := hb v (hp v hv) w hw; have := hc.lab; omega)]
    have hout : ∀ v, outOf E (setLab lab prev kidx) kidx v = (E v).filter fun w => decide (w ∈ prev) := pre_filter hpre (by omega) E
    have hsub : ∀ v, ∀ w ∈ (E v).filter (fun w => decide (w ∈ prev)), w ∈ prev := fun v w hw => of_decide_eq_true (List.mem_filter.1 hw).2
    have hlen : ∀ v, ((E v).filter fun w => decide (w ∈ prev)).length ≤ nn := fun v =>
      length_bound ((hnd v).filter _) fun w hw => hp w (hsub v w hw)
    have hmul : nn * kidx + nn ≤ (kidx + 1 + (j + 1)) * nn := by
      calc nn * kidx + nn = (kidx + 1) * nn := by rw [Nat.add_mul, Nat.mul_comm, Nat.one_mul]
        _ ≤ _ := Nat.mul_le_mul_right _ (by omega)
    have hmul2 : nn ≤ (kidx + 1 + (j + 1)) * nn := Nat.le_mul_of_pos_left _ (by omega)
    have fin : ∀ r : Option (Nat × Incs × (Nat → Nat)), (∃ b, r = some ((prev.map fun v => (seqs E (j + 2) ((E v).filter fun w => decide (w ∈ prev))).length).sum, b,
        setLab lab prev kidx) ∧ ∀ x, incTot b x = (prev.map fun v => occ rl ((seqs E (j + 2) ((E v).filter fun w => decide (w ∈ prev))).map (v :: ·)) x).sum) →
        ∃ l, (r.map fun r => (r.1, r.2.1, setLab r.2.2 prev (kidx - 1))) =
          some ((seqs E (j + 1 + 2) prev).length, l, lab) ∧ ∀ x, incTot l x = occ rl (seqs E (j + 1 + 2) prev) x := by
      rintro r ⟨b, rfl, hb'⟩
      refine ⟨b, by rw [length_seqs, Option.map_some, pre_reset hpre (by omega)], fun x => ?_⟩
      rw [hb' x, seqs, occ_flatMap]
    apply fin
    split
    · rename_i hseq
      refine loop_incs fun v hv => ?_
      rw [hout v, if_neg (by
        have := hlen v; have := hc.ind; have := hc.num
        rintro (h | h) <;> omega)]
      by_cases hl : ((E v).filter fun w => decide (w ∈ prev)).length > j + 1
      · rw [if_pos hl]
        obtain ⟨l, hl1, hl2⟩ := ih (kidx + 1) lev c ((E v).filter fun w => decide (w ∈ prev)) (setLab lab prev kidx) (fun w hw => hp w (hsub v w hw))
          ((hnd v).filter _) (by omega) (by omega) (pre_next hpre (by omega) (hsub v)) (hc.mono (by omega))
          (h2.imp (fun h => by omega) fun h v => (h v).mono (by omega))
        rw [hl1]
        refine ⟨_, rfl, fun x => ?_⟩
        rw [incTot_append, incTot_single, occ_cons, hl2]
      · rw [if_neg hl, seqs_short hrk (by omega)]
        exact ⟨[], rfl, fun _ => rfl⟩
    · rename_i hpar
      have hc2 : ∀ v, Fits (c2 v) nn (kidx + 1 + (j + 1)) := h2.resolve_left fun h => hpar (Or.inl h)
      refine loop_incs fun v hv => ?_
      rw [hout v, if_neg (by
        have := hlen v; have := (hc2 v).ind; have := (hc2 v).num
        rintro (h | h) <;> omega)]
      by_cases hl : ((E v).filter fun w => decide (w ∈ prev)).length > j + 1
      · rw [if_pos hl]
        obtain ⟨l, hl1, hl2⟩ := ih 1 0 (c2 v) ((E v).filter fun w => decide (w ∈ prev)) (fun _ => 0) (fun w hw => hp w (hsub v w hw))
          ((hnd v).filter _) (Nat.le_refl _) (by omega) (pre_zero _) ((hc2 v).mono (by omega)) (Or.inl Nat.one_pos)
        rw [hl1]
        refine ⟨_, rfl, fun x => ?_⟩
        rw [incTot_append, incTot_single, occ_cons, hl2]
      · rw [if_neg hl, seqs_short hrk (by omega)]
        exact ⟨[], rfl, fun _ => rfl⟩

/-- `base` below `kidx`. -/
def Agree (b b' : Nat → Nat) (kidx : Nat) : Prop := ∀ i < kidx, b i = b' i

theorem agree_upd {b b' : Nat → Nat} {kidx i x : Nat} (h : Agree b b' kidx) (hi : kidx ≤ i) : Agree (upd b i x) b' kidx := fun p hp => by
  rw [upd, if_neg (by omega)]; exact h p hp

theorem prefix_upd {b b' : Nat → Nat} {kidx x : Nat} (h : Agree b b' kidx) :
    (List.range (kidx + 1)).map (upd b kidx x) = (List.range kidx).map b' ++ [x] := by
  rw [List.range_succ, List.map_append, List.map_singleton, upd_same]
  congr 1
  exact List.map_congr_left fun i hi => agree_upd h (Nat.le_refl _) i (List.mem_range.1 hi)

/-- **The enumeration** calls `base_f` once for every sequence, with the vertices chosen before in front. -/
theorem goE_spec {E : Nat → List Nat} {nn : Nat} {rl : Nat → Nat} {k : Nat} {c : Caps} {rk : Nat → Nat} (hrk : ∀ v, ∀ w ∈ E v, rk v < rk w)
    (hnd : ∀ v, (E v).Nodup) (hb : ∀ v < nn, ∀ w ∈ E v, w < nn) (hc : Fits c nn k) (hk : k ≤ 128) :
    ∀ (j kidx : Nat) (prev : List Nat) (lab base base0 : Nat → Nat), k = kidx + 1 + j →
    (∀ v ∈ prev, v < nn) → prev.Nodup → 1 ≤ kidx → Pre lab prev kidx → Agree base base0 kidx →
    ∃ base', goE E nn rl k c j kidx prev (lab, base) =
      some ((seqs E (j + 2) prev).length, (seqs E (j + 2) prev).map (fun s => (List.range kidx).map base0 ++ s.map rl), (lab, base')) ∧ Agree base' base0 kidx := by
  intro j
  induction j with
  | zero =>
    intro kidx prev lab base base0 hkj hp hpn h1 hpre hag
    rw [goE, levelE]
    by_cases hnil : prev = []
    · rw [if_pos hnil, hnil]; exact ⟨base, rfl, hag⟩
    rw [if_neg hnil, if_neg (by
      rintro ⟨v, hv, h | ⟨w, hw, h⟩⟩
      · have := hp v hv; have := hc.lab; omega
      · have := hb v (hp v hv) w hw; have := hc.lab; omega)]
    obtain ⟨st', hl, hi1, hi2⟩ := loop_lists (l := prev) (st := (setLab lab prev kidx, base))
      (f := fun v (st : (Nat → Nat) × (Nat → Nat)) =>
            loop (fun w (st : (Nat → Nat) × (Nat → Nat)) => some (1, [(List.range (k + 1)).map (upd st.2 k (rl w))], (st.1, upd st.2 k (rl w))))
              (outOf E st.1 kidx v) (st.1, upd st.2 kidx (rl v)))
      (Inv := fun st => st.1 = setLab lab prev kidx ∧ Agree st.2 base0 kidx)
      (a := fun v => (seqs E 1 ((E v).filter fun w => decide (w ∈ prev))).length)
      (B := fun v => ((seqs E 1 ((E v).filter fun w => decide (w ∈ prev))).map (v :: ·)).map fun s => (List.range kidx).map base0 ++ s.map rl)
      (fun v hv st hst => by
        rw [hst.1, pre_filter hpre (by omega)]
        obtain ⟨st', hl, hi1, hi2⟩ := loop_lists (l := (E v).filter fun w => decide (w ∈ prev)) (st := (setLab lab prev kidx, upd st.2 kidx (rl v)))
          (f := fun w (st : (Nat → Nat) × (Nat → Nat)) => some (1, [(List.range (k + 1)).map (upd st.2 k (rl w))], (st.1, upd st.2 k (rl w))))
          (Inv := fun s => s.1 = setLab lab prev kidx ∧ Agree s.2 (upd base0 kidx (rl v)) (kidx + 1)) (a := fun _ => 1)
          (B := fun w => [(List.range kidx).map base0 ++ [rl v, rl w]]) (fun w _ s hs => by
            refine ⟨(s.1, upd s.2 k (rl w)), ?_, hs.1, agree_upd (x := rl w) (i := k) hs.2 (by omega)⟩
            have hk' : k = kidx + 1 := by omega
            subst hk'
            rw [prefix_upd hs.2, prefix_upd (fun i hi => rfl), List.append_assoc]
            rfl) ⟨rfl, fun i hi => by
              show upd st.2 kidx (rl v) i = upd base0 kidx (rl v) i
              by_cases he : i = kidx
              · rw [he, upd_same, upd_same]
              · rw [upd, upd, if_neg he, if_neg he]; exact hst.2 i (by omega)⟩
        rw [hl]
        refine ⟨st', ?_, hi1, fun i hi => ?_⟩
        · rw [seqs_one, List.length_map, List.map_map, List.map_map]
          congr 2
          · rw [List.map_const', List.sum_replicate]; simp
          · congr 1
            generalize (E v).filter (fun w => decide (w ∈ prev)) = l
            induction l with
            | nil => rfl
            | cons w l ih => rw [List.flatMap_cons, ih]; rfl
        · rw [hi2 i (by omega), upd, if_neg (by omega)]) ⟨rfl, hag⟩
    rw [hl, Option.map_some, hi1]
    refine ⟨st'.2, ?_, hi2⟩
    rw [length_seqs, pre_reset hpre (by omega), seqs, List.map_flatMap]
  | succ j ih =>
    intro kidx prev lab base base0 hkj hp hpn h1 hpre hag
    rw [goE, levelE]
    by_cases hnil : prev = []
    · rw [if_pos hnil, hnil]; exact ⟨base, rfl, hag⟩
    rw [if_neg hnil, if_neg (by
      rintro ⟨v, hv, h | ⟨w, hw, h⟩⟩
      · have := hp v hv; have := hc.lab; omega
      · have := hb v (hp v hv) w hw; have := hc.lab; omega)]
    have hout : ∀ v, outOf E (setLab lab prev kidx) kidx v = (E v).filter fun w => decide (w ∈ prev) := pre_filter hpre (by omega) E
    have hsub : ∀ v, ∀ w ∈ (E v).filter (fun w => decide (w ∈ prev)), w ∈ prev := fun v w hw => of_decide_eq_true (List.mem_filter.1 hw).2
    have hlen : ∀ v, ((E v).filter fun w => decide (w ∈ prev)).length ≤ nn := fun v =>
      length_bound ((hnd v).filter _) fun w hw => hp w (hsub v w hw)
    have hmul : nn * kidx + nn ≤ k * nn := by
      calc nn * kidx + nn = (kidx + 1) * nn := by rw [Nat.add_mul, Nat.mul_comm, Nat.one_mul]
        _ ≤ _ := Nat.mul_le_mul_right _ (by omega)
    obtain ⟨st', hl, hi1, hi2⟩ := loop_lists (l := prev) (st := (setLab lab prev kidx, base))
      (f := fun v (st : (Nat → Nat) × (Nat → Nat)) =>
            if c.ind < nn * kidx + (outOf E st.1 kidx v).length ∨ c.num ≤ kidx then none
            else if (outOf E st.1 kidx v).length > j + 1 then goE E nn rl k c j (kidx + 1) (outOf E st.1 kidx v) (st.1, upd st.2 kidx (rl v))
            else some (0, [], st))
      (Inv := fun st => st.1 = setLab lab prev kidx ∧ Agree st.2 base0 kidx)
      (a := fun v => (seqs E (j + 2) ((E v).filter fun w => decide (w ∈ prev))).length)
      (B := fun v => ((seqs E (j + 2) ((E v).filter fun w => decide (w ∈ prev))).map (v :: ·)).map fun s => (List.range kidx).map base0 ++ s.map rl)
      (fun v hv st hst => by
        rw [hst.1, hout v, if_neg (by
          have := hlen v; have := hc.ind; have := hc.num
          rintro (h | h) <;> omega)]
        by_cases hl : ((E v).filter fun w => decide (w ∈ prev)).length > j + 1
        · rw [if_pos hl]
          obtain ⟨base', hl1, hl2⟩ := ih (kidx + 1) ((E v).filter fun w => decide (w ∈ prev)) (setLab lab prev kidx) (upd st.2 kidx (rl v))
            (upd base0 kidx (rl v)) (by omega) (fun w hw => hp w (hsub v w hw)) ((hnd v).filter _) (by omega) (pre_next hpre (by omega) (hsub v))
            (fun i hi => by
              by_cases he : i = kidx
              · rw [he, upd_same, upd_same]
              · rw [upd, upd, if_neg he, if_neg he]; exact hst.2 i (by omega))
          rw [hl1]
          refine ⟨(setLab lab prev kidx, base'), ?_, rfl, fun i hi => ?_⟩
          · rw [List.map_map]
            congr 3
            refine List.map_congr_left fun s _ => ?_
            rw [prefix_upd (fun i hi => rfl), List.append_assoc]
            rfl
          · show base' i = base0 i
            rw [hl2 i (by omega), upd, if_neg (by omega)]
        · rw [if_neg hl, seqs_short hrk (by omega)]
          exact ⟨st, rfl, hst⟩) ⟨rfl, hag⟩
    rw [hl, Option.map_some, hi1]
    refine ⟨st'.2, ?_, hi2⟩
    rw [length_seqs, pre_reset hpre (by omega), seqs, List.map_flatMap]

end Gbbs.Clique
