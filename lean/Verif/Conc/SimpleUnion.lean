/-
C100: `SimpleUnionAsync`, `CC_predicate`, `num_cc` and `largest_cc`, `benchmarks/Connectivity/SimpleUnionAsync/Connectivity.h:100-183`
(`num_cc` and `largest_cc` also in `WorkEfficientSDB14/Connectivity.h:77-106`).
-/
import Verif.Conc.UFFinal
import Verif.Algo.Charikar

namespace Gbbs.UF

open Conc Conc.Prog Relation
open Atomics (Steps)

variable {ι : Type} [DecidableEq ι]

/-! ### Model -/

/-- One iteration of `finish`, `:109`: the value of `find_compress` is dropped, nothing else is written. -/
def finishStep (f i : Nat) : P Nat := findCompress f i

/-- `SimpleUnionAsync` (`:118-131`) and `CC_predicate` (`:136-152`): `unite(u, v)` for the arcs that are taken, each by some thread; then
`finish`. `p` is the array returned. The loops of the calls have enough fuel (`f1`, `f2`) for the run. -/
def SimpleUnion (call : ι → Nat × Nat) (n : Nat) (p : Nat → Nat) : Prop :=
  ∃ (f1 f1' : ι → Nat) (f2 : Nat → Nat) (c1 : Conf ι Loc Nat (Option Nat)) (c2 : Conf (Fin n) Loc Nat Nat),
    Steps Step ⟨mem0 0, fun i => uniteImpl (findCompress (f1' i)) (f1 i) (call i).1 (call i).2⟩ c1 ∧ (∀ i, ∃ a, c1.th i = .ret a) ∧
    Steps Step ⟨c1.mem, fun i : Fin n => finishStep (f2 i) i⟩ c2 ∧ (∀ i, ∃ a, c2.th i = .ret a) ∧ p = par c2.mem

/-- `flags` of `num_cc`, `:157-163`, iterations in the order `s`. -/
def ccFlags (lab : Nat → Nat) (s : List Nat) : Nat → Nat :=
  s.foldl (fun fl i => if fl (lab i) = 0 then upd fl (lab i) 1 else fl) fun _ => 0

/-- `num_cc`, `:155-167`: `flags[n]` after the scan. -/
def numCC (n : Nat) (lab : Nat → Nat) (s : List Nat) : Nat := exScan (ccFlags lab s) n

/-- `largest_cc`, `:170-181`: the greatest of the `n + 1` counts. -/
def largestCC (n : Nat) (lab : Nat → Nat) : Nat :=
  ((List.range (n + 1)).map ((List.range n).foldl (fun fl i => upd fl (lab i) (fl (lab i) + 1)) fun _ => 0)).foldl max 0

/-! ### `finish` -/

section
variable {rt : Nat → Nat} {i : ι} {α : Type} {Post : (Nat → Nat) → α → Prop}

theorem fr_write_le {o : Ord} {x w : Nat} {k : P α} {g : Nat → Nat} (hid : ∀ x, rt (rt x) = rt x) (hrc : ∀ x, o.cn (rt x)) (hw : w = rt x)
    (h : ∀ v, Fr o rt v → v x = w → (∀ y, o.le (v y) (g y)) → Safe (rgF ι o rt) i Post k v) :
    Safe (rgF ι o rt) i Post (write (.par x) w k) g := by
  intro v m hr hi
  subst hw
  have hf : Fr o rt (fun y => if y = x then rt x else v y) := hi.2.set (hid x) (o.le_refl _) (hi.2.ge x) (hrc x) id
  have hle : ∀ y, o.le ((fun y => if y = x then rt x else v y) y) (v y) := fun y => by
    by_cases hy : y = x
    · subst hy; simp only [if_true]; exact hi.2.ge y
    · simp only [hy, if_false]; exact o.le_refl _
  exact ⟨_, hle, ⟨put_par hi.1 x (rt x), hf⟩, h _ hf (by simp) fun y => Ord.le_trans (hle y) (hr y)⟩

/-- The compression keeps what only gets better. -/
theorem compressLoop_keep {o : Ord} (hid : ∀ x, rt (rt x) = rt x) (hrc : ∀ x, o.cn (rt x)) {Q : (Nat → Nat) → Prop}
    (hQ : ∀ v v', (∀ y, o.le (v' y) (v y)) → Q v → Q v') (f : Nat) (x j : Nat) (hj : j = rt x) (g : Nat → Nat) (hg : Q g) :
    Safe (rgF ι o rt) i (fun v _ => Q v) (compressLoop f x j) g := by
  induction f generalizing x g with
  | zero => trivial
  | succ f ih =>
    refine fr_read fun v hv hle => ?_
    have hv' := hQ _ _ hle hg
    split
    · exact fr_write_le hid hrc hj fun v' _ _ hle' => ih _ (hj.trans (hv.rt_eq x).symm) _ (hQ _ _ hle' hv')
    · exact fun v' hr => hQ _ _ hr hv'

/-- `find_compress(x)` leaves the root in `parents[x]`. -/
theorem findCompress_root (hid : ∀ x, rt (rt x) = rt x) (f x : Nat) (g : Nat → Nat) :
    Safe (rgF ι (.nat fun _ => True) rt) i (fun v _ => v x ≤ rt x) (findCompress f x) g := by
  have mono : ∀ v v' : Nat → Nat, (∀ y, (Ord.nat fun _ => True).le (v' y) (v y)) → v x ≤ rt x → v' x ≤ rt x := fun v v' h hv => by
    rcases h x with h | h
    · rw [h]; exact hv
    · exact Nat.le_trans (Nat.le_of_lt h) hv
  refine fr_read fun v hv _ => ?_
  split
  · rename_i h
    exact fun v' hr => mono _ _ hr (by rw [hv.root x h, h])
  · refine (fr_climb f x v).bind fun j g' hj => ?_
    refine Safe.bind (Q := fun v _ => v x ≤ rt x) ?_ fun _ g'' hg'' v' hr => mono _ _ hr hg''
    cases f with
    | zero => trivial
    | succ f =>
      refine fr_read fun v hv hle => ?_
      split
      · refine fr_write_le hid (fun _ => trivial) hj fun v' _ he hle' => ?_
        exact compressLoop_keep hid (fun _ => trivial) mono f _ j (hj.trans (hv.rt_eq x).symm) _ (by rw [he, hj])
      · rename_i h
        exact fun v' hr => mono _ _ hr (by rw [← hj]; omega)

end

/-- C100: in every interleaving of the calls, and of the iterations of `finish`, the labels returned are the least vertices of the components of
the arcs that are taken. -/
theorem simpleUnion_correct {call : ι → Nat × Nat} {n : Nat} {p : Nat → Nat} (h : SimpleUnion call n p) : IsLabelling (Issued call) n p := by
  obtain ⟨f1, f1', f2, c1, c2, h1, hd1, h2, hd2, rfl⟩ := h
  have hth : ∀ i, IsUnite (call i).1 (call i).2 (uniteImpl (findCompress (f1' i)) (f1 i) (call i).1 (call i).2) := fun i => .impl (.compress _) _
  obtain ⟨rt, hid, hFr, hlab⟩ := labelling_core (unite_components _ hth h1) (unite_final _ hth h1 hd1)
  refine hlab n _ fun i hi => ?_
  obtain ⟨g, hi', _, hp⟩ := safe_reach (rgF (Fin n) (.nat fun _ => True) rt) (fun i v _ => v i ≤ rt i) h2 (par c1.mem) ⟨fun _ => rfl, hFr⟩
    (fun i => findCompress_root hid (f2 i) i.1 _)
  obtain ⟨a, ha⟩ := hd2 ⟨i, hi⟩
  have h3 : g i ≤ rt i := hp ⟨i, hi⟩ a ha
  refine (hi'.1 i).trans ?_
  rcases hi'.2.ge i with h4 | h4
  · exact h4.symm
  · exact Nat.le_antisymm h3 (Nat.le_of_lt h4)

/-- The graph: `CC_predicate` takes the arcs with `pred`; two vertices get the same label exactly if they are connected by such arcs, in either
direction. -/
theorem cc_predicate {call : ι → Nat × Nat} {n : Nat} {p : Nat → Nat} (nb : Nat → List Nat) (pred : Nat → Nat → Bool)
    (hcall : ∀ u v, (∃ i, call i = (u, v)) ↔ u < n ∧ v ∈ nb u ∧ pred u v = true) (h : SimpleUnion call n p) {u v : Nat} (hu : u < n) (hv : v < n) :
    p u = p v ↔ EqvGen (fun a b => a < n ∧ b ∈ nb a ∧ pred a b = true) u v := by
  rw [(simpleUnion_correct h).eq_iff hu hv]
  have : Issued call = fun a b => a < n ∧ b ∈ nb a ∧ pred a b = true := by
    funext a b; exact propext (hcall a b)
  rw [this]

/-! ### Counting -/

theorem ccFlags_apply (lab : Nat → Nat) (s : List Nat) (v : Nat) : ccFlags lab s v = if ∃ i ∈ s, lab i = v then 1 else 0 := by
  have aux : ∀ (s : List Nat) (fl : Nat → Nat), (∀ v, fl v = 0 ∨ fl v = 1) →
      s.foldl (fun fl i => if fl (lab i) = 0 then upd fl (lab i) 1 else fl) fl v = if ∃ i ∈ s, lab i = v then 1 else fl v := by
    intro s
    induction s with
    | nil => intro fl _; simp
    | cons a s ih =>
      intro fl hfl
      rw [List.foldl_cons]
      have hmem : (∃ i ∈ a :: s, lab i = v) ↔ lab a = v ∨ ∃ i ∈ s, lab i = v := by simp
      by_cases hz : fl (lab a) = 0
      · rw [if_pos hz, ih _ (fun w => by
          by_cases hw : w = lab a
          · subst hw; rw [upd_same]; exact Or.inr rfl
          · rw [upd_of_ne _ _ hw]; exact hfl w)]
        by_cases he : ∃ i ∈ s, lab i = v
        · rw [if_pos he, if_pos (hmem.2 (Or.inr he))]
        · rw [if_neg he]
          by_cases hav : lab a = v
          · rw [if_pos (hmem.2 (Or.inl hav)), ← hav, upd_same]
          · rw [if_neg (fun h => (hmem.1 h).elim hav he), upd_of_ne _ _ (fun h => hav h.symm)]
      · rw [if_neg hz, ih _ hfl]
        by_cases he : ∃ i ∈ s, lab i = v
        · rw [if_pos he, if_pos (hmem.2 (Or.inr he))]
        · rw [if_neg he]
          by_cases hav : lab a = v
          · rw [if_pos (hmem.2 (Or.inl hav)), ← hav]
            exact (hfl _).resolve_left hz
          · rw [if_neg (fun h => (hmem.1 h).elim hav he)]
  exact aux s _ fun _ => Or.inl rfl

/-- C100: `num_cc` of a labelling by least vertices is the number of vertices that are the least of their component. -/
theorem num_cc_correct {r : Nat → Nat → Prop} {n : Nat} {lab : Nat → Nat} (h : IsLabelling r n lab) {s : List Nat} (hs : Sched n s)
    [DecidablePred fun v => ∀ j, EqvGen r v j → v ≤ j] :
    numCC n lab s = ((Finset.range n).filter fun v => ∀ j, EqvGen r v j → v ≤ j).card := by
  rw [numCC, Densest.exScan_sum, Finset.card_filter]
  refine Finset.sum_congr rfl fun v hv => ?_
  rw [Finset.mem_range] at hv
  rw [ccFlags_apply]
  refine if_congr ⟨?_, fun hl => ⟨v, (hs.2 v).2 hv, ?_⟩⟩ rfl rfl
  · rintro ⟨i, hi, rfl⟩ j hj
    have hin := (hs.2 i).1 hi
    exact (h i hin).2 j (((h i hin).1).trans _ _ _ hj)
  · exact Nat.le_antisymm ((h v hv).2 v (EqvGen.refl v)) (hl _ (h v hv).1)

theorem foldl_count (lab : Nat → Nat) (s : List Nat) (v : Nat) :
    (s.foldl (fun fl i => upd fl (lab i) (fl (lab i) + 1)) fun _ => 0) v = s.countP fun i => decide (lab i = v) := by
  have aux : ∀ (s : List Nat) (fl : Nat → Nat),
      (s.foldl (fun fl i => upd fl (lab i) (fl (lab i) + 1)) fl) v = fl v + s.countP fun i => decide (lab i = v) := by
    intro s
    induction s with
    | nil => intro fl; rfl
    | cons a s ih =>
      intro fl
      rw [List.foldl_cons, ih, List.countP_cons]
      by_cases hav : lab a = v
      · rw [← hav, upd_same]; simp only [decide_true, if_true]; omega
      · rw [upd_of_ne _ _ (fun h => hav h.symm)]; simp [hav]
  rw [aux, Nat.zero_add]

theorem foldl_max_nat (l : List Nat) (x : Nat) : x ≤ l.foldl max x ∧ (∀ y ∈ l, y ≤ l.foldl max x) ∧ (l.foldl max x = x ∨ l.foldl max x ∈ l) := by
  induction l generalizing x with
  | nil => exact ⟨Nat.le_refl _, fun y hy => (by cases hy), Or.inl rfl⟩
  | cons a l ih =>
    rw [List.foldl_cons]
    obtain ⟨h1, h2, h3⟩ := ih (max x a)
    refine ⟨Nat.le_trans (Nat.le_max_left _ _) h1, fun y hy => ?_, ?_⟩
    · rcases List.mem_cons.1 hy with rfl | hy
      · exact Nat.le_trans (Nat.le_max_right _ _) h1
      · exact h2 y hy
    · rcases h3 with h3 | h3
      · rcases Nat.le_total x a with hxa | hxa
        · exact Or.inr (List.mem_cons.2 (Or.inl (h3.trans (Nat.max_eq_right hxa))))
        · exact Or.inl (h3.trans (Nat.max_eq_left hxa))
      · exact Or.inr (List.mem_cons_of_mem _ h3)

/-- C100: `largest_cc` of such a labelling is the size of a component with the most vertices. -/
theorem largest_cc_correct {r : Nat → Nat → Prop} {n : Nat} {lab : Nat → Nat} (h : IsLabelling r n lab) [∀ v, DecidablePred fun u => EqvGen r v u] :
    (∀ v, v < n → ((Finset.range n).filter fun u => EqvGen r v u).card ≤ largestCC n lab) ∧
      (n = 0 ∧ largestCC n lab = 0 ∨ ∃ v, v < n ∧ largestCC n lab = ((Finset.range n).filter fun u => EqvGen r v u).card) := by
  have hcnt : ∀ v, v < n → ((List.range n).foldl (fun fl i => upd fl (lab i) (fl (lab i) + 1)) fun _ => 0) (lab v) =
      ((Finset.range n).filter fun u => EqvGen r v u).card := by
    intro v hv
    rw [foldl_count, List.countP_eq_length_filter]
    have hnd : ((List.range n).filter fun i => decide (lab i = lab v)).Nodup := List.nodup_range.filter _
    rw [← List.toFinset_card_of_nodup hnd]
    congr 1
    ext u
    simp only [List.mem_toFinset, List.mem_filter, List.mem_range, decide_eq_true_eq, Finset.mem_filter, Finset.mem_range]
    constructor
    · rintro ⟨h1, h2⟩; exact ⟨h1, (h.eq_iff hv h1).1 h2.symm⟩
    · rintro ⟨h1, h2⟩; exact ⟨h1, ((h.eq_iff hv h1).2 h2).symm⟩
  have hlt : ∀ v, v < n → lab v < n + 1 := fun v hv => Nat.lt_succ_of_le (Nat.le_trans ((h v hv).2 v (EqvGen.refl v)) (Nat.le_of_lt hv))
  obtain ⟨h1, h2, h3⟩ := foldl_max_nat ((List.range (n + 1)).map ((List.range n).foldl (fun fl i => upd fl (lab i) (fl (lab i) + 1)) fun _ => 0)) 0
  have hge : ∀ v, v < n → ((Finset.range n).filter fun u => EqvGen r v u).card ≤ largestCC n lab := fun v hv => by
    rw [← hcnt v hv]
    exact h2 _ (List.mem_map.2 ⟨_, List.mem_range.2 (hlt v hv), rfl⟩)
  refine ⟨hge, ?_⟩
  rcases Nat.eq_zero_or_pos n with hn | hn
  · subst hn; exact Or.inl ⟨rfl, rfl⟩
  · right
    have hpos : 0 < largestCC n lab := Nat.lt_of_lt_of_le (Finset.card_pos.2 ⟨0, Finset.mem_filter.2 ⟨Finset.mem_range.2 hn, EqvGen.refl 0⟩⟩) (hge 0 hn)
    rcases h3 with h3 | h3
    · exact absurd h3 (Nat.ne_of_gt hpos)
    · obtain ⟨w, hw, hv⟩ := List.mem_map.1 h3
      by_cases he : ∃ v, v < n ∧ lab v = w
      · obtain ⟨v, hvn, rfl⟩ := he
        exact ⟨v, hvn, by rw [← hcnt v hvn, hv]; rfl⟩
      · have : largestCC n lab = 0 := by
          show List.foldl max 0 _ = 0
          rw [← hv, foldl_count, List.countP_eq_zero]
          intro i hi
          rw [decide_eq_true_eq]
          exact fun h => he ⟨i, List.mem_range.1 hi, h⟩
        omega

/-! ### Example -/

/-- The value of a program that is done. -/
def retVal {L V α : Type} : Prog L V α → Option α
  | .ret a => some a
  | _ => none

theorem retVal_some {L V α : Type} {p : Prog L V α} {a : α} (h : retVal p = some a) : p = .ret a := by
  cases p <;> simp_all [retVal]

/-- The path 1 - 2 - 3 and the vertex 0: two threads that both climb, then `finish`. -/
def exCall : Fin 2 → Nat × Nat := ![(2, 1), (3, 2)]

theorem ex_run : ∃ p, SimpleUnion exCall 4 p ∧ p 3 = 1 ∧ p 2 = 1 ∧ p 1 = 1 ∧ p 0 = 0 := by
  let c1 := run (⟨mem0 0, fun i => uniteImpl (findCompress 5) 5 (exCall i).1 (exCall i).2⟩ : Conf (Fin 2) Loc Nat (Option Nat)) [1, 1, 0, 1, 0, 1, 0, 0]
  let c2 := run (⟨c1.mem, fun i => finishStep 5 i⟩ : Conf (Fin 4) Loc Nat Nat) [3, 3, 3, 2, 2, 2, 2, 2, 2, 3, 3, 3, 3, 3, 3, 3, 1, 0, 2, 2]
  have h1 : ∀ i, retVal (c1.th i) = some (some (if i = 0 then 2 else 3)) := by decide +kernel
  have h2 : ∀ i, retVal (c2.th i) = some (if i = 0 then 0 else 1) := by decide +kernel
  refine ⟨par c2.mem, ⟨fun _ => 5, fun _ => 5, fun _ => 5, c1, c2, run_steps _ _, fun i => ⟨_, retVal_some (h1 i)⟩, run_steps _ _,
    fun i => ⟨_, retVal_some (h2 i)⟩, rfl⟩, ?_⟩
  decide +kernel

example : numCC 4 (fun v => [0, 1, 1, 1].getD v 0) [2, 0, 3, 1] = 2 ∧ largestCC 4 (fun v => [0, 1, 1, 1].getD v 0) = 3 := by decide +kernel

end Gbbs.UF
