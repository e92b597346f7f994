/-
C104: clique counting over a directed graph, `benchmarks/CliqueCounting/induced_hybrid.h:177-295`, `intersect.h:42-412`.
-/
import Verif.Clique.Rec
import Mathlib.Data.List.GetD

namespace Gbbs.Clique

/-! ### Model -/

/-- `HybridSpace_lw::alloc`, `intersect.h:42-57`, as called by `parallel_for_alloc` before every iteration (`gbbs/bridge.h:81-93`): the spaces are
`static thread_local` and arrays that exist are kept. -/
def alloc (old : Option Caps) (maxInd k n : Nat) : Caps :=
  old.getD ⟨k * maxInd, maxInd, k, maxInd, maxInd * maxInd, n, maxInd⟩

/-- `old_labels[ngh] = o + 1; o++`, `intersect.h:182-196` (`f` is always true in counting). -/
def markIdx : List Nat → Nat → (Nat → Nat) → (Nat → Nat)
  | [], _, ol => ol
  | v :: vs, o, ol => markIdx vs (o + 1) (upd ol v (o + 1))

/-- `old_labels[ngh] = x` for all `ngh` of a list. -/
def setAll (ol : Nat → Nat) (l : List Nat) (x : Nat) : Nat → Nat := fun v => if v ∈ l then x else ol v

/-- The row `j` of `induced_edges`: the labels of the neighbours of vertex `R[j]`, `:199-224,304-323`. -/
def rowL (N : Nat → List Nat) (R : List Nat) (ol : Nat → Nat) (j : Nat) : List Nat :=
  if j < R.length then (N (R.getD j 0)).filterMap fun w => if 0 < ol w then some (ol w - 1) else none else []

/-- The loop over two sorted lists, `:134-160`: `o` is `i_iter_idx`. -/
def isect : Nat → List Nat → List Nat → List Nat
  | _, [], _ => []
  | _, _ :: _, [] => []
  | o, a :: R, v :: V =>
    if a = v then o :: isect (o + 1) R V
    else if a < v then isect (o + 1) R (v :: V)
    else isect o (a :: R) V
  termination_by _ R V => R.length + V.length

/-- The row `j` with `setup_intersect`, `:120-163`. -/
def rowI (N : Nat → List Nat) (R : List Nat) (j : Nat) : List Nat := if j < R.length then isect 0 R (N (R.getD j 0)) else []

/-- `setup`, `:75-82`: `setup_labels` (`:170-238`) or `setup_intersect` (`:100-167`). The rows and `old_labels` afterwards. -/
def setup (N : Nat → List Nat) (label : Bool) (ol : Nat → Nat) (i : Nat) : (Nat → List Nat) × (Nat → Nat) :=
  if label then (rowL N (N i) (markIdx (N i) 0 ol), setAll (markIdx (N i) 0 ol) (N i) 0) else (rowI N (N i), ol)

/-- An access of `setup` out of bounds. -/
def Bad (c : Caps) (N : Nat → List Nat) (label : Bool) (touched R : List Nat) (E : Nat → List Nat) : Prop :=
  c.ind < R.length ∨ c.num = 0 ∨ c.degs < R.length ∨ c.rel < R.length ∨ (∃ j ∈ List.range R.length, c.edges < j * R.length + (E j).length) ∨
  (label = true ∧ ((∃ w ∈ touched, c.old ≤ w) ∨ ∃ v ∈ R, ∃ w ∈ N v, c.old ≤ w))

instance (c : Caps) (N : Nat → List Nat) (label : Bool) (t R : List Nat) (E : Nat → List Nat) : Decidable (Bad c N label t R E) :=
  inferInstanceAs (Decidable (_ ∨ _))

/-- An iteration of `CountCliques` for `recursive_level ≠ 1`, `induced_hybrid.h:196-206`. The state is `labels` and `old_labels`. -/
def iterV (N : Nat → List Nat) (K lev : Nat) (label : Bool) (c2 : Nat → Nat → Caps) (c : Caps) (i : Nat) (st : (Nat → Nat) × (Nat → Nat)) :
    Option (Nat × Incs × ((Nat → Nat) × (Nat → Nat))) :=
  if N i = [] then some (0, [], st)
  else if Bad c N label (N i) (N i) (setup N label st.2 i).1 then none
  else (go (setup N label st.2 i).1 (N i).length (fun j => (N i).getD j 0) (c2 i) (K - 2) 1 lev c (List.range (N i).length) st.1).map fun r =>
    (r.1, r.2.1 ++ [(i, r.1)], (r.2.2, (setup N label st.2 i).2))

/-- All workers: each runs its iterations in order on its own space, whose labels are 0 at the start. -/
def workers {β α : Type} (f : Caps → α → (Nat → Nat) × (Nat → Nat) → Option (Nat × List β × ((Nat → Nat) × (Nat → Nat)))) (ws : List (Caps × List α)) :
    Option (Nat × List β) :=
  (loop (fun w (_ : Unit) => (loop (f w.1) w.2 (fun _ => 0, fun _ => 0)).map fun r => (r.1, r.2.1, ())) ws ()).map fun r => (r.1, r.2.1)

/-- `induced_hybrid::CountCliques(DG, K, base_f, use_base, label, recursive_level)` for `recursive_level ≠ 1`, `:177-211`. -/
def countV (N : Nat → List Nat) (K lev : Nat) (label : Bool) (c2 : Nat → Nat → Caps) (ws : List (Caps × List Nat)) : Option (Nat × Incs) :=
  workers (iterV N K lev label c2) ws

/-- An iteration of `CountCliquesEnum`, `:274-286`. -/
def iterN (N : Nat → List Nat) (K : Nat) (label : Bool) (c : Caps) (i : Nat) (st : (Nat → Nat) × (Nat → Nat)) :
    Option (Nat × List (List Nat) × ((Nat → Nat) × (Nat → Nat))) :=
  if N i = [] then some (0, [], st)
  else if Bad c N label (N i) (N i) (setup N label st.2 i).1 then none
  else (goE (setup N label st.2 i).1 (N i).length (fun j => (N i).getD j 0) K c (K - 2) 1 (List.range (N i).length) (st.1, upd (fun _ => 0) 0 i)).map
    fun r => (r.1, r.2.1, (r.2.2.1, (setup N label st.2 i).2))

/-- `CountCliquesEnum(DG, K, base_f, label)`, `:257-291`. -/
def enumV (N : Nat → List Nat) (K : Nat) (label : Bool) (ws : List (Caps × List Nat)) : Option (Nat × List (List Nat)) :=
  workers (iterN N K label) ws

/-- `UINT_E_MAX`. -/
def uintEMax : Nat := 4294967295

/-- `lmap_label_f`, `intersect.h:272-288`: the common neighbours in the order of the list of `l`, and the labels. -/
def markCommon : List Nat → List Nat → (Nat → Nat) → List Nat × (Nat → Nat)
  | [], R, ol => (R, ol)
  | w :: ws, R, ol => if ol w = uintEMax then markCommon ws (R ++ [w]) (upd ol w (R.length + 1)) else markCommon ws R ol

/-- `remap_label_f`, `:291-294`. -/
def unmark (ol : Nat → Nat) (l : List Nat) : Nat → Nat := fun v => if v ∈ l ∧ ol v = uintEMax then 0 else ol v

/-- `setup_labels_edge`, `:257-339`: the common neighbours, the rows, and `old_labels` afterwards. -/
def setupLE (N : Nat → List Nat) (ol : Nat → Nat) (i l : Nat) : List Nat × (Nat → List Nat) × (Nat → Nat) :=
  let m := markCommon (N l) [] (setAll ol (N i) uintEMax)
  let ol' := unmark m.2 (N i)
  (m.1, rowL N m.1 ol', setAll ol' (N l) 0)

/-- `for (size_t p = 0; p < nn; j++) induced[p] = p;`, `:401-403`: `p` does not change. `fuel` bounds the number of iterations. -/
def fillLoop (nn p : Nat) : Nat → Option Unit
  | 0 => none
  | fuel + 1 => if p < nn then fillLoop nn p fuel else some ()

/-- `setup_intersect_edge`, `:344-408`. The list `induced` holds positions in the list of `i` (line 359), which lines 379-398 use as vertices. -/
def setupIE (N : Nat → List Nat) (fuel i l : Nat) : Option (List Nat × (Nat → List Nat)) :=
  let R := isect 0 (N i) (N l)
  (fillLoop R.length 0 fuel).map fun _ => (R, rowI N R)

/-- An iteration of `CountCliques` for `recursive_level = 1`, `induced_hybrid.h:231-247`, for the arc `(i, ngh)`. The arcs are found by binary
search in the offsets (`:236-240`); here the iterations are over the arcs. -/
def iterE (N : Nat → List Nat) (K : Nat) (label : Bool) (fuel : Nat) (c : Caps) (a : Nat × Nat) (st : (Nat → Nat) × (Nat → Nat)) :
    Option (Nat × Incs × ((Nat → Nat) × (Nat → Nat))) :=
  let fin := fun (R : List Nat) (E : Nat → List Nat) (ol : Nat → Nat) =>
    if Bad c N label (N a.1 ++ N a.2) R E then none
    else (go E R.length (fun j => R.getD j 0) (fun _ => c) (K - 3) 1 0 c (List.range R.length) st.1).map fun r =>
      (r.1, r.2.1 ++ [(a.2, r.1), (a.1, r.1)], (r.2.2, ol))
  if label then fin (setupLE N st.2 a.1 a.2).1 (setupLE N st.2 a.1 a.2).2.1 (setupLE N st.2 a.1 a.2).2.2
  else match setupIE N fuel a.1 a.2 with
    | none => none
    | some (R, E) => fin R E st.2

/-- `CountCliques` for `recursive_level = 1`, `:213-253`. -/
def countE (N : Nat → List Nat) (K : Nat) (label : Bool) (fuel : Nat) (ws : List (Caps × List (Nat × Nat))) : Option (Nat × Incs) :=
  workers (iterE N K label fuel) ws

/-! ### The local graphs -/

theorem map_getD (R : List Nat) : (List.range R.length).map (fun j => R.getD j 0) = R := by
  apply List.ext_getElem
  · simp
  · intro j h1 h2
    simp [List.getD_eq_getElem?_getD, List.getElem?_eq_getElem h2]

/-- The rows are the graph on the vertices of `R`. -/
def Local (N : Nat → List Nat) (R : List Nat) (E : Nat → List Nat) : Prop :=
  (∀ j, ¬ j < R.length → E j = []) ∧ ∀ j < R.length, (∀ w ∈ E j, w < R.length) ∧
    (E j).map (fun p => R.getD p 0) = (N (R.getD j 0)).filter fun w => decide (w ∈ R)

theorem local_rowL {N : Nat → List Nat} {R : List Nat} {ol : Nat → Nat} (h0 : ∀ w, w ∉ R → ol w = 0)
    (h1 : ∀ w ∈ R, ∃ p < R.length, R.getD p 0 = w ∧ ol w = p + 1) : Local N R (rowL N R ol) := by
  refine ⟨fun j hj => by rw [rowL, if_neg hj], fun j hj => ?_⟩
  rw [rowL, if_pos hj]
  generalize N (R.getD j 0) = l
  induction l with
  | nil => exact ⟨fun w hw => (by cases hw), rfl⟩
  | cons v l ih =>
    by_cases hv : v ∈ R
    · obtain ⟨p, hp, hpv, hol⟩ := h1 v hv
      have hd : decide (v ∈ R) = true := decide_eq_true hv
      rw [List.filter_cons, if_pos hd, List.filterMap_cons, hol, if_pos (Nat.succ_pos _), Nat.add_sub_cancel]
      dsimp only
      refine ⟨fun w hw => ?_, by rw [List.map_cons, hpv, ih.2]⟩
      rcases List.mem_cons.1 hw with rfl | hw
      · exact hp
      · exact ih.1 w hw
    · have hd : ¬ decide (v ∈ R) = true := fun h => hv (of_decide_eq_true h)
      rw [List.filter_cons, if_neg hd, List.filterMap_cons, h0 v hv, if_neg (Nat.lt_irrefl 0)]
      exact ih

theorem markIdx_notin {l : List Nat} : ∀ {o : Nat} {ol : Nat → Nat} {w : Nat}, w ∉ l → markIdx l o ol w = ol w := by
  induction l with
  | nil => intro o ol w _; rfl
  | cons v l ih =>
    intro o ol w hw
    rw [markIdx, ih fun h => hw (List.mem_cons_of_mem _ h), upd, if_neg fun h => hw (by rw [h]; exact List.mem_cons_self)]

theorem markIdx_in {l : List Nat} : ∀ {o : Nat} {ol : Nat → Nat}, l.Nodup → ∀ w ∈ l, ∃ p < l.length, l.getD p 0 = w ∧ markIdx l o ol w = o + p + 1 := by
  induction l with
  | nil => intro o ol _ w hw; cases hw
  | cons v l ih =>
    intro o ol hn w hw
    obtain ⟨h1, h2⟩ := List.nodup_cons.1 hn
    rcases List.mem_cons.1 hw with rfl | hw
    · exact ⟨0, by simp, rfl, by rw [markIdx, markIdx_notin h1, upd_same]⟩
    · obtain ⟨p, hp, hpw, hm⟩ := ih (o := o + 1) (ol := upd ol v (o + 1)) h2 w hw
      exact ⟨p + 1, by simpa using hp, by simpa using hpw, by rw [markIdx, hm]; omega⟩

theorem isect_spec {full : List Nat} : ∀ (o : Nat) (R V : List Nat), R = full.drop o → R.Pairwise (· < ·) → V.Pairwise (· < ·) →
    (∀ p ∈ isect o R V, p < full.length) ∧ (isect o R V).map (fun p => full.getD p 0) = V.filter fun w => decide (w ∈ R) := by
  intro o R V
  induction o, R, V using isect.induct with
  | case1 o V => intro _ _ _; rw [isect]; exact ⟨fun p hp => (by cases hp), by simp⟩
  | case2 o a R => intro _ _ _; rw [isect]; exact ⟨fun p hp => (by cases hp), rfl⟩
  | case3 o a R V ih =>
    intro hd hR hV
    have ho : o < full.length := by
      by_contra hc
      rw [List.drop_eq_nil_of_le (by omega)] at hd
      cases hd
    have hcons := List.drop_eq_getElem_cons ho
    rw [← hd] at hcons
    obtain ⟨ha, hR'⟩ := List.cons.inj hcons
    obtain ⟨h1, h2⟩ := ih hR' (List.pairwise_cons.1 hR).2 (List.pairwise_cons.1 hV).2
    rw [isect, if_pos rfl]
    refine ⟨fun p hp => ?_, ?_⟩
    · rcases List.mem_cons.1 hp with rfl | hp
      · exact ho
      · exact h1 p hp
    · rw [List.map_cons, h2, List.filter_cons, if_pos (by simp)]
      congr 1
      · rw [ha, List.getD_eq_getElem?_getD, List.getElem?_eq_getElem ho]; rfl
      · refine List.filter_congr fun w hw => decide_eq_decide.2 ⟨fun h => List.mem_cons_of_mem _ h, fun h => ?_⟩
        rcases List.mem_cons.1 h with rfl | h
        · exact absurd ((List.pairwise_cons.1 hV).1 _ hw) (Nat.lt_irrefl _)
        · exact h
  | case4 o a R v V hne hlt ih =>
    intro hd hR hV
    have ho : o < full.length := by
      by_contra hc
      rw [List.drop_eq_nil_of_le (by omega)] at hd
      cases hd
    have hcons := List.drop_eq_getElem_cons ho
    rw [← hd] at hcons
    obtain ⟨_, hR'⟩ := List.cons.inj hcons
    obtain ⟨h1, h2⟩ := ih hR' (List.pairwise_cons.1 hR).2 hV
    rw [isect, if_neg hne, if_pos hlt]
    refine ⟨h1, ?_⟩
    rw [h2]
    refine List.filter_congr fun w hw => decide_eq_decide.2 ⟨fun h => List.mem_cons_of_mem _ h, fun h => ?_⟩
    rcases List.mem_cons.1 h with rfl | h
    · exfalso
      rcases List.mem_cons.1 hw with rfl | hw
      · exact hne rfl
      · have := (List.pairwise_cons.1 hV).1 _ hw; omega
    · exact h
  | case5 o a R v V hne hlt ih =>
    intro hd hR hV
    obtain ⟨h1, h2⟩ := ih hd hR (List.pairwise_cons.1 hV).2
    rw [isect, if_neg hne, if_neg hlt]
    refine ⟨h1, ?_⟩
    rw [h2, List.filter_cons, if_neg]
    simp only [decide_eq_true_eq]
    intro h
    rcases List.mem_cons.1 h with rfl | h
    · exact hne rfl
    · have := (List.pairwise_cons.1 hR).1 _ h; omega

theorem local_rowI {N : Nat → List Nat} (hs : ∀ v, (N v).Pairwise (· < ·)) {R : List Nat} (hR : R.Pairwise (· < ·)) : Local N R (rowI N R) := by
  refine ⟨fun j hj => by rw [rowI, if_neg hj], fun j hj => ?_⟩
  rw [rowI, if_pos hj]
  exact isect_spec 0 R _ (by simp) hR (hs _)

theorem setup_spec {N : Nat → List Nat} {label : Bool} (hnd : ∀ v, (N v).Nodup) (hs : label = false → ∀ v, (N v).Pairwise (· < ·)) (i : Nat) :
    Local N (N i) (setup N label (fun _ => 0) i).1 ∧ (setup N label (fun _ => 0) i).2 = fun _ => 0 := by
  cases label with
  | true =>
    refine ⟨local_rowL (fun w hw => markIdx_notin hw) fun w hw => ?_, ?_⟩
    · obtain ⟨p, hp, h1, h2⟩ := markIdx_in (o := 0) (ol := fun _ => 0) (hnd i) w hw
      exact ⟨p, hp, h1, by rw [h2]; omega⟩
    · funext w
      show setAll (markIdx (N i) 0 fun _ => 0) (N i) 0 w = 0
      rw [setAll]
      split
      · rfl
      · rename_i hw; exact markIdx_notin hw
  | false => exact ⟨local_rowI (hs rfl) (hs rfl i), rfl⟩

theorem markCommon_spec {ws : List Nat} : ∀ {R : List Nat} {ol : Nat → Nat}, ws.Nodup → (∀ w ∈ ws, w ∉ R) → R.length + ws.length < uintEMax → 
    (markCommon ws R ol).1 = R ++ ws.filter (fun w => decide (ol w = uintEMax)) ∧
    (∀ w, w ∉ ws ∨ ol w ≠ uintEMax → (markCommon ws R ol).2 w = ol w) ∧
    (∀ w ∈ ws, ol w = uintEMax → ∃ p < (markCommon ws R ol).1.length, (markCommon ws R ol).1.getD p 0 = w ∧ (markCommon ws R ol).2 w = p + 1 ∧ p + 1 < uintEMax) := by
  induction ws with
  | nil => intro R ol _ _ _; exact ⟨by simp [markCommon], fun _ _ => rfl, fun w hw => (by cases hw)⟩
  | cons v ws ih =>
    intro R ol hn hd hl
    obtain ⟨h1, h2⟩ := List.nodup_cons.1 hn
    rw [markCommon]
    by_cases hv : ol v = uintEMax
    · rw [if_pos hv]
      have hne : ∀ w ∈ ws, w ≠ v := fun w hw hc => h1 (hc ▸ hw)
      obtain ⟨k1, k2, k3⟩ := ih (R := R ++ [v]) (ol := upd ol v (R.length + 1)) h2 (fun w hw hc => by
        rcases List.mem_append.1 hc with hc | hc
        · exact hd w (List.mem_cons_of_mem _ hw) hc
        · exact hne w hw (List.mem_singleton.1 hc)) (by simp at hl ⊢; omega)
      have hf : ws.filter (fun w => decide (upd ol v (R.length + 1) w = uintEMax)) = ws.filter fun w => decide (ol w = uintEMax) :=
        List.filter_congr fun w hw => by rw [upd, if_neg (hne w hw)]
      refine ⟨?_, fun w hw => ?_, fun w hw ho => ?_⟩
      · rw [k1, hf, List.filter_cons, if_pos (by simpa using hv), List.append_assoc]; rfl
      · have hwv : w ≠ v := by
          rintro rfl
          rcases hw with hw | hw
          · exact hw List.mem_cons_self
          · exact hw hv
        rw [k2 w (by
          rw [upd, if_neg hwv]
          exact hw.imp (fun h hc => h (List.mem_cons_of_mem _ hc)) id), upd, if_neg hwv]
      · rcases List.mem_cons.1 hw with rfl | hw'
        · refine ⟨R.length, ?_, ?_, ?_, ?_⟩
          · rw [k1]; simp
          · rw [k1]; simp [List.getD_eq_getElem?_getD]
          · rw [k2 w (Or.inl h1), upd_same]
          · simp at hl; omega
        · exact k3 w hw' (by rw [upd, if_neg (hne w hw')]; exact ho)
    · rw [if_neg hv]
      obtain ⟨k1, k2, k3⟩ := ih (R := R) (ol := ol) h2 (fun w hw => hd w (List.mem_cons_of_mem _ hw)) (by simp at hl; omega)
      refine ⟨by rw [k1, List.filter_cons, if_neg (by simpa using hv)], fun w hw => k2 w (hw.imp (fun h hc => h (List.mem_cons_of_mem _ hc)) id), fun w hw ho => ?_⟩
      rcases List.mem_cons.1 hw with rfl | hw'
      · exact absurd ho hv
      · exact k3 w hw' ho

theorem setupLE_spec {N : Nat → List Nat} (hnd : ∀ v, (N v).Nodup) (i l : Nat) (hl : (N l).length < uintEMax) :
    (setupLE N (fun _ => 0) i l).1 = (N l).filter (fun w => decide (w ∈ N i)) ∧
    Local N (setupLE N (fun _ => 0) i l).1 (setupLE N (fun _ => 0) i l).2.1 ∧ (setupLE N (fun _ => 0) i l).2.2 = fun _ => 0 := by
  obtain ⟨k1, k2, k3⟩ := markCommon_spec (R := []) (ol := setAll (fun _ => 0) (N i) uintEMax) (hnd l) (fun w _ h => (by cases h)) (by simpa using hl)
  have hmax : (0 : Nat) ≠ uintEMax := by decide
  have hA : ∀ w, setAll (fun _ => 0) (N i) uintEMax w = uintEMax ↔ w ∈ N i := by
    intro w
    rw [setAll]
    split
    · rename_i h; exact ⟨fun _ => h, fun _ => rfl⟩
    · rename_i h; exact ⟨fun hc => absurd hc hmax, fun hc => absurd hc h⟩
  have hR : (markCommon (N l) [] (setAll (fun _ => 0) (N i) uintEMax)).1 = (N l).filter fun w => decide (w ∈ N i) := by
    rw [k1, List.nil_append]
    exact List.filter_congr fun w _ => decide_eq_decide.2 (hA w)
  have hz : ∀ w, w ∉ (N l).filter (fun w => decide (w ∈ N i)) → unmark (markCommon (N l) [] (setAll (fun _ => 0) (N i) uintEMax)).2 (N i) w = 0 := by
    intro w hw
    have : w ∉ N l ∨ setAll (fun _ => 0) (N i) uintEMax w ≠ uintEMax := by
      by_contra hc
      push Not at hc
      exact hw (List.mem_filter.2 ⟨hc.1, decide_eq_true ((hA w).1 hc.2)⟩)
    rw [unmark, k2 w this]
    split
    · rfl
    · rename_i hn
      rw [setAll]
      split
      · rename_i hwi; exact absurd ⟨hwi, (hA w).2 hwi⟩ hn
      · rfl
  refine ⟨hR, ?_, ?_⟩
  · show Local N (markCommon (N l) [] (setAll (fun _ => 0) (N i) uintEMax)).1 (rowL N (markCommon (N l) [] (setAll (fun _ => 0) (N i) uintEMax)).1 _)
    refine local_rowL (fun w hw => hz w (hR ▸ hw)) fun w hw => ?_
    obtain ⟨h1, h2⟩ := List.mem_filter.1 (hR ▸ hw)
    obtain ⟨p, hp, hpw, hm, hlt⟩ := k3 w h1 ((hA w).2 (of_decide_eq_true h2))
    refine ⟨p, hp, hpw, ?_⟩
    rw [unmark, if_neg (by rw [hm]; omega), hm]
  · funext w
    show setAll (unmark _ (N i)) (N l) 0 w = 0
    rw [setAll]
    split
    · rfl
    · rename_i hw
      exact hz w fun h => hw (List.mem_filter.1 h).1

/-! ### One local graph -/

section loc
variable {N : Nat → List Nat} {rk : Nat → Nat} (hrk : ∀ v, ∀ w ∈ N v, rk v < rk w) (hnd : ∀ v, (N v).Nodup)

theorem local_up (hrk : ∀ v, ∀ w ∈ N v, rk v < rk w) {R : List Nat} {E : Nat → List Nat} (h : Local N R E) : ∀ v, ∀ w ∈ E v, rk (R.getD v 0) < rk (R.getD w 0) := by
  intro v w hw
  by_cases hv : v < R.length
  · have : R.getD w 0 ∈ (E v).map fun p => R.getD p 0 := List.mem_map_of_mem hw
    rw [(h.2 v hv).2] at this
    exact hrk _ _ (List.mem_filter.1 this).1
  · rw [h.1 v hv] at hw; cases hw

theorem local_nodup (hnd : ∀ v, (N v).Nodup) {R : List Nat} {E : Nat → List Nat} (h : Local N R E) (v : Nat) : (E v).Nodup := by
  by_cases hv : v < R.length
  · refine List.Nodup.of_map (fun p => R.getD p 0) ?_
    rw [(h.2 v hv).2]
    exact (hnd _).filter _
  · rw [h.1 v hv]; exact List.nodup_nil

theorem local_seqs {R : List Nat} (hR : R.Nodup) {E : Nat → List Nat} (h : Local N R E) (m : Nat) :
    (seqs E m (List.range R.length)).map (List.map fun p => R.getD p 0) = seqs N m R := by
  have := seqs_map (E := E) (N := N) (R := fun p => R.getD p 0) (B := List.range R.length) (fun a ha b hb he => by
    have ha := List.mem_range.1 ha
    have hb := List.mem_range.1 hb
    simp only [List.getD_eq_getElem?_getD, List.getElem?_eq_getElem ha, List.getElem?_eq_getElem hb, Option.getD_some] at he
    exact (List.Nodup.getElem_inj_iff hR).1 he) (fun v hv => by
    obtain ⟨h1, h2⟩ := h.2 v (List.mem_range.1 hv)
    rw [map_getD]
    exact ⟨fun w hw => List.mem_range.2 (h1 w hw), h2⟩) m (List.range R.length) (fun _ h => h)
  rwa [map_getD] at this

theorem occ_map (f : Nat → Nat) (L : List (List Nat)) (x : Nat) : occ f L x = occ id (L.map (List.map f)) x := by
  rw [occ, occ, List.map_map]
  congr 1
  exact List.map_congr_left fun s _ => by simp

/-- All arrays are large enough for degrees up to `d`. -/
structure FitsAll (c : Caps) (d K n : Nat) : Prop where
  base : Fits c d K
  degs : d ≤ c.degs
  edges : d * d ≤ c.edges
  old : n ≤ c.old
  rel : d ≤ c.rel

theorem Fits.small {c : Caps} {d nn k : Nat} (h : Fits c d k) (hn : nn ≤ d) : Fits c nn k :=
  ⟨Nat.le_trans (Nat.mul_le_mul_left _ hn) h.ind, Nat.le_trans hn h.lab, h.num⟩

theorem alloc_fits (d K n : Nat) : FitsAll (alloc none d K n) d K n :=
  ⟨⟨Nat.le_refl _, Nat.le_refl _, Nat.le_refl _⟩, Nat.le_refl _, Nat.le_refl _, Nat.le_refl _, Nat.le_refl _⟩

theorem not_bad {c : Caps} {d K n : Nat} (hc : FitsAll c d K n) (hK : 1 ≤ K) (hnd : ∀ v, (N v).Nodup) (hb : ∀ x, ∀ w ∈ N x, x < n ∧ w < n)
    {R t : List Nat} (hRd : R.length ≤ d) {E : Nat → List Nat} (hloc : Local N R E) (ht : ∀ w ∈ t, w < n) (label : Bool) : ¬ Bad c N label t R E := by
  have h1 := hc.base.ind
  have h2 := hc.base.num
  have h3 := hc.degs
  have h4 := hc.edges
  have h5 := hc.old
  have h6 := hc.rel
  have h7 : d ≤ K * d := Nat.le_mul_of_pos_left _ hK
  rintro (h | h | h | h | ⟨j, hj, hj2⟩ | ⟨_, ⟨w, hw, hw2⟩ | ⟨v, hv, w, hw, hw2⟩⟩)
  · omega
  · omega
  · omega
  · omega
  · have hj := List.mem_range.1 hj
    have : (E j).length ≤ R.length := length_bound (local_nodup hnd hloc j) (hloc.2 j hj).1
    have h8 : j * R.length + R.length ≤ d * d := by
      calc j * R.length + R.length = (j + 1) * R.length := by rw [Nat.add_mul, Nat.one_mul]
        _ ≤ d * d := Nat.mul_le_mul (by omega) hRd
    omega
  · have := ht w hw; omega
  · have := (hb v w hw).2; omega

/-- The recursion on a local graph. -/
theorem go_local (hrk : ∀ v, ∀ w ∈ N v, rk v < rk w) (hnd : ∀ v, (N v).Nodup) {R : List Nat} (hR : R.Nodup) {E : Nat → List Nat} (h : Local N R E)
    {j lev : Nat} (hj : j + 1 < 128) {c : Caps} (hc : Fits c R.length (j + 2)) {c2 : Nat → Caps} (h2 : lev = 0 ∨ ∀ v, Fits (c2 v) R.length (j + 2)) :
    ∃ l, go E R.length (fun p => R.getD p 0) c2 j 1 lev c (List.range R.length) (fun _ => 0) = some ((seqs N (j + 2) R).length, l, fun _ => 0) ∧
      ∀ x, incTot l x = occ id (seqs N (j + 2) R) x := by
  obtain ⟨l, h3, h4⟩ := go_spec (rl := fun p => R.getD p 0) (c2 := c2) (rk := fun v => rk (R.getD v 0)) (local_up hrk h) (local_nodup hnd h)
    (fun v hv => (h.2 v hv).1) j 1 lev c (List.range R.length) (fun _ => 0) (fun v hv => List.mem_range.1 hv) List.nodup_range (Nat.le_refl _)
    (by omega) (pre_zero _) (by rw [show 1 + 1 + j = j + 2 by omega]; exact hc)
    (h2.imp (fun h => by omega) fun h v => by rw [show 1 + 1 + j = j + 2 by omega]; exact h v)
  refine ⟨l, ?_, fun x => ?_⟩
  · rw [h3, ← local_seqs hR h, List.length_map]
  · rw [h4, occ_map, local_seqs hR h]

end loc

/-! ### All workers -/

theorem sum_perm {α : Type} {l m : List α} (h : l.Perm m) (f : α → Nat) : (l.map f).sum = (m.map f).sum := (h.map f).sum_eq

theorem workers_incs {α : Type} {f : Caps → α → (Nat → Nat) × (Nat → Nat) → Option (Nat × Incs × ((Nat → Nat) × (Nat → Nat)))} {ws : List (Caps × List α)}
    {a : α → Nat} {g : α → Nat → Nat} {items : List α} (hp : (ws.flatMap Prod.snd).Perm items)
    (h : ∀ w ∈ ws, ∀ i ∈ w.2, ∃ b, f w.1 i (fun _ => 0, fun _ => 0) = some (a i, b, (fun _ => 0, fun _ => 0)) ∧ ∀ x, incTot b x = g i x) :
    ∃ b, workers f ws = some ((items.map a).sum, b) ∧ ∀ x, incTot b x = (items.map fun i => g i x).sum := by
  obtain ⟨b, h1, h2⟩ := loop_incs (st := ()) (l := ws) (f := fun w (_ : Unit) => (loop (f w.1) w.2 (fun _ => 0, fun _ => 0)).map fun r => (r.1, r.2.1, ()))
    (a := fun w => (w.2.map a).sum) (g := fun w x => (w.2.map fun i => g i x).sum) (fun w hw => by
      obtain ⟨b, h1, h2⟩ := loop_incs (h w hw)
      exact ⟨b, by rw [h1]; rfl, h2⟩)
  have hs : ∀ q : α → Nat, (ws.map fun w => (w.2.map q).sum).sum = (items.map q).sum := by
    intro q
    rw [← sum_perm hp q, List.map_flatMap, List.flatMap_def, List.sum_flatten, List.map_map]
    rfl
  refine ⟨b, by rw [workers, h1, ← hs a]; rfl, fun x => ?_⟩
  rw [h2 x, hs]

/-- **CountCliques**: with arrays that are large enough, for every distribution of the vertices to workers, the result is the number of
sequences of `K + 1` vertices, and the calls of `base_f` give every vertex the number of those that contain it. -/
theorem countV_spec {N : Nat → List Nat} {n : Nat} {rk : Nat → Nat} (hrk : ∀ v, ∀ w ∈ N v, rk v < rk w) (hnd : ∀ v, (N v).Nodup)
    (hb : ∀ x, ∀ w ∈ N x, x < n ∧ w < n) {K lev d : Nat} {label : Bool} (hs : label = false → ∀ v, (N v).Pairwise (· < ·)) (hK : 2 ≤ K) (hK2 : K ≤ 128)
    (hd : ∀ x, (N x).length ≤ d) {c2 : Nat → Nat → Caps} (h2 : lev = 0 ∨ ∀ i v, Fits (c2 i v) d K) {ws : List (Caps × List Nat)}
    (hc : ∀ w ∈ ws, FitsAll w.1 d K n) (hp : (ws.flatMap Prod.snd).Perm (List.range n)) :
    ∃ l, countV N K lev label c2 ws = some ((seqs N (K + 1) (List.range n)).length, l) ∧ ∀ x, incTot l x = occ id (seqs N (K + 1) (List.range n)) x := by
  have hf : ∀ v, (N v).filter (fun w => decide (w ∈ List.range n)) = N v := fun v =>
    List.filter_eq_self.2 fun w hw => decide_eq_true (List.mem_range.2 (hb v w hw).2)
  obtain ⟨b, h1, h3⟩ := workers_incs (f := iterV N K lev label c2) (a := fun i => (seqs N K (N i)).length)
    (g := fun i x => occ id ((seqs N K (N i)).map (i :: ·)) x) hp (fun w hw i _ => by
      rw [iterV]
      by_cases hnil : N i = []
      · rw [if_pos hnil, hnil]
        obtain ⟨m, rfl⟩ : ∃ m, K = m + 1 := ⟨K - 1, by omega⟩
        exact ⟨[], rfl, fun _ => rfl⟩
      obtain ⟨k1, k2⟩ := setup_spec (label := label) hnd hs i
      rw [if_neg hnil, if_neg (not_bad (hc w hw) (by omega) hnd hb (hd i) k1 (fun w hw => (hb i w hw).2) label)]
      obtain ⟨l, hl1, hl2⟩ := go_local hrk hnd (hnd i) k1 (j := K - 2) (lev := lev) (by omega)
        (c := w.1) (by rw [show K - 2 + 2 = K by omega]; exact (hc w hw).base.small (hd i)) (c2 := c2 i)
        (h2.imp id fun h v => by rw [show K - 2 + 2 = K by omega]; exact (h i v).small (hd i))
      rw [show K - 2 + 2 = K by omega] at hl1 hl2
      show ∃ b, Option.map _ (go (setup N label (fun _ => 0) i).1 (N i).length (fun j => (N i).getD j 0) (c2 i) (K - 2) 1 lev w.1
        (List.range (N i).length) (fun _ => 0)) = _ ∧ _
      rw [hl1]
      refine ⟨l ++ [(i, (seqs N K (N i)).length)], ?_, fun x => ?_⟩
      · rw [Option.map_some, k2]
      · rw [incTot_append, incTot_single, occ_cons, hl2]
        rfl)
  refine ⟨b, ?_, fun x => ?_⟩
  · rw [countV, h1, length_seqs]; simp only [hf]
  · rw [h3 x, seqs, occ_flatMap]; simp only [hf]

/-- **CountCliquesEnum**: one call for every sequence, with that sequence. -/
theorem enumV_spec {N : Nat → List Nat} {n : Nat} {rk : Nat → Nat} (hrk : ∀ v, ∀ w ∈ N v, rk v < rk w) (hnd : ∀ v, (N v).Nodup)
    (hb : ∀ x, ∀ w ∈ N x, x < n ∧ w < n) {K d : Nat} {label : Bool} (hs : label = false → ∀ v, (N v).Pairwise (· < ·)) (hK : 2 ≤ K) (hK2 : K ≤ 128)
    (hd : ∀ x, (N x).length ≤ d) {ws : List (Caps × List Nat)} (hc : ∀ w ∈ ws, FitsAll w.1 d K n) (hp : (ws.flatMap Prod.snd).Perm (List.range n)) :
    ∃ L, enumV N K label ws = some ((seqs N (K + 1) (List.range n)).length, L) ∧ L.Perm (seqs N (K + 1) (List.range n)) := by
  have hf : ∀ v, (N v).filter (fun w => decide (w ∈ List.range n)) = N v := fun v =>
    List.filter_eq_self.2 fun w hw => decide_eq_true (List.mem_range.2 (hb v w hw).2)
  obtain ⟨st', h1, _⟩ := loop_lists (st := ()) (l := ws) (f := fun w (_ : Unit) => (loop (iterN N K label w.1) w.2 (fun _ => 0, fun _ => 0)).map fun r => (r.1, r.2.1, ()))
    (Inv := fun _ => True) (a := fun w => (w.2.map fun i => (seqs N K (N i)).length).sum) (B := fun w => w.2.flatMap fun i => (seqs N K (N i)).map (i :: ·))
    (fun w hw _ _ => by
      obtain ⟨st', h1, _⟩ := loop_lists (l := w.2) (st := ((fun _ => 0 : Nat → Nat), (fun _ => 0 : Nat → Nat))) (f := iterN N K label w.1)
        (Inv := fun st => st = (fun _ => 0, fun _ => 0)) (a := fun i => (seqs N K (N i)).length) (B := fun i => (seqs N K (N i)).map (i :: ·))
        (fun i _ st hst => by
          subst hst
          rw [iterN]
          by_cases hnil : N i = []
          · rw [if_pos hnil, hnil]
            obtain ⟨m, rfl⟩ : ∃ m, K = m + 1 := ⟨K - 1, by omega⟩
            exact ⟨_, rfl, rfl⟩
          obtain ⟨k1, k2⟩ := setup_spec (label := label) hnd hs i
          rw [if_neg hnil, if_neg (not_bad (hc w hw) (by omega) hnd hb (hd i) k1 (fun w hw => (hb i w hw).2) label)]
          obtain ⟨base', hl1, _⟩ := goE_spec (E := (setup N label (fun _ => 0) i).1) (nn := (N i).length) (rl := fun p => (N i).getD p 0) (k := K) (c := w.1)
            (rk := fun v => rk ((N i).getD v 0)) (local_up hrk k1) (local_nodup hnd k1) (fun v hv => (k1.2 v hv).1) ((hc w hw).base.small (hd i)) hK2 (K - 2) 1
            (List.range (N i).length) (fun _ => 0) (upd (fun _ => 0) 0 i) (upd (fun _ => 0) 0 i) (by omega) (fun v hv => List.mem_range.1 hv) List.nodup_range
            (Nat.le_refl _) (pre_zero _) (fun _ _ => rfl)
          rw [show K - 2 + 2 = K by omega] at hl1
          show ∃ st', Option.map _ (goE (setup N label (fun _ => 0) i).1 (N i).length (fun j => (N i).getD j 0) K w.1 (K - 2) 1
            (List.range (N i).length) (fun _ => 0, upd (fun _ => 0) 0 i)) = _ ∧ _
          rw [hl1]
          refine ⟨_, ?_, rfl⟩
          rw [Option.map_some, k2, ← local_seqs (hnd i) k1, List.length_map, List.map_map]
          congr 3) rfl
      exact ⟨(), by rw [h1]; rfl, trivial⟩) trivial
  have hsum : (ws.map fun w => (w.2.map fun i => (seqs N K (N i)).length).sum).sum = (seqs N (K + 1) (List.range n)).length := by
    rw [length_seqs]
    simp only [hf]
    rw [← sum_perm hp, List.map_flatMap, List.flatMap_def, List.sum_flatten, List.map_map]
    rfl
  refine ⟨_, by rw [enumV, workers, h1, ← hsum]; rfl, ?_⟩
  have : (ws.flatMap fun w => w.2.flatMap fun i => (seqs N K (N i)).map (i :: ·)) = (ws.flatMap Prod.snd).flatMap fun i => (seqs N K (N i)).map (i :: ·) := by
    rw [List.flatMap_assoc]
  rw [this, seqs]
  simp only [hf]
  exact hp.flatMap_right _

/-- The arcs. -/
def arcs (N : Nat → List Nat) (n : Nat) : List (Nat × Nat) := (List.range n).flatMap fun i => (N i).map fun l => (i, l)

/-- **CountCliques with `recursive_level = 1` and labels.** -/
theorem countE_spec {N : Nat → List Nat} {n : Nat} {rk : Nat → Nat} (hrk : ∀ v, ∀ w ∈ N v, rk v < rk w) (hnd : ∀ v, (N v).Nodup)
    (hb : ∀ x, ∀ w ∈ N x, x < n ∧ w < n) {K d fuel : Nat} (hK : 3 ≤ K) (hK2 : K ≤ 128) (hn : n < uintEMax)
    (hd : ∀ x, (N x).length ≤ d) {ws : List (Caps × List (Nat × Nat))} (hc : ∀ w ∈ ws, FitsAll w.1 d K n) (hp : (ws.flatMap Prod.snd).Perm (arcs N n)) :
    ∃ l, countE N K true fuel ws = some ((seqs N (K + 1) (List.range n)).length, l) ∧ ∀ x, incTot l x = occ id (seqs N (K + 1) (List.range n)) x := by
  have hf : ∀ v, (N v).filter (fun w => decide (w ∈ List.range n)) = N v := fun v =>
    List.filter_eq_self.2 fun w hw => decide_eq_true (List.mem_range.2 (hb v w hw).2)
  have hlen : ∀ v, (N v).length ≤ n := fun v => length_bound (hnd v) fun w hw => (hb v w hw).2
  obtain ⟨b, h1, h3⟩ := workers_incs (f := iterE N K true fuel) (a := fun a => (seqs N (K - 1) ((N a.2).filter fun w => decide (w ∈ N a.1))).length)
    (g := fun a x => occ id (((seqs N (K - 1) ((N a.2).filter fun w => decide (w ∈ N a.1))).map (a.2 :: ·)).map (a.1 :: ·)) x) hp (fun w hw a _ => by
      obtain ⟨k0, k1, k2⟩ := setupLE_spec hnd a.1 a.2 (Nat.lt_of_le_of_lt (hlen a.2) hn)
      have hRn : (setupLE N (fun _ => 0) a.1 a.2).1.Nodup := by rw [k0]; exact (hnd _).filter _
      have hRd : (setupLE N (fun _ => 0) a.1 a.2).1.length ≤ d := by
        rw [k0]; exact Nat.le_trans (List.length_filter_le _ _) (hd _)
      obtain ⟨l, hl1, hl2⟩ := go_local hrk hnd hRn k1 (j := K - 3) (lev := 0) (by omega) (c := w.1)
        (((hc w hw).base.small hRd).mono (by omega)) (c2 := fun _ => w.1) (Or.inl rfl)
      rw [show K - 3 + 2 = K - 1 by omega, k0] at hl1 hl2
      rw [iterE]
      simp only [if_true]
      rw [if_neg (not_bad (hc w hw) (by omega) hnd hb hRd k1 (fun w hw => by
        rcases List.mem_append.1 hw with hw | hw <;> exact (hb _ w hw).2) true), k2]
      rw [k0, hl1]
      refine ⟨_, rfl, fun x => ?_⟩
      rw [incTot_append, hl2, occ_cons, occ_cons, List.length_map, show [(a.2, (seqs N (K - 1) ((N a.2).filter fun w => decide (w ∈ N a.1))).length),
        (a.1, (seqs N (K - 1) ((N a.2).filter fun w => decide (w ∈ N a.1))).length)] = [(a.2, (seqs N (K - 1) ((N a.2).filter fun w => decide (w ∈ N a.1))).length)] ++
        [(a.1, (seqs N (K - 1) ((N a.2).filter fun w => decide (w ∈ N a.1))).length)] from rfl, incTot_append, incTot_single, incTot_single]
      simp only [id_eq]
      omega)
  have hK' : K = K - 1 + 1 := by omega
  refine ⟨b, ?_, fun x => ?_⟩
  · rw [countE, h1, length_seqs, arcs, List.map_flatMap, List.flatMap_def, List.sum_flatten, List.map_map]
    simp only [hf]
    congr 4
    funext i
    conv_rhs => rw [hK', length_seqs]
    simp only [Function.comp, List.map_map]
    rfl
  · rw [h3 x, seqs, occ_flatMap, arcs, List.map_flatMap, List.flatMap_def, List.sum_flatten, List.map_map]
    simp only [hf]
    congr 2
    funext i
    conv_rhs => rw [hK', seqs, List.map_flatMap, occ_flatMap]
    simp only [Function.comp, List.map_map]
    rfl

end Gbbs.Clique
