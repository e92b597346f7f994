/-
C61: maximal independent set by speculative execution, `MaximalIndependentSet.h:182-238`.
-/
import Verif.Spec.Loop
import Verif.Algo.MIS

namespace Gbbs.MISSpec

open SpecFor Em
open MIS (IsGreedy IsMIS toI32 toI32_eq)

variable {W : Type}

/-! ### Model -/

/-- `Flags` and `FlagsNext`: 0 undecided, 1 chosen, 2 a neighbour is chosen. -/
structure Fl where
  cur : Nat → Nat
  next : Nat → Nat

/-- The value that `reserve(i)` leaves in `FlagsNext[i]`, `MaximalIndependentSet.h:198-224`; the two sums are ints. -/
def val (G : Gr W) (F : Nat → Nat) (i : Nat) : Nat :=
  if 0 < toI32 ((G.fwd i).countP fun x => decide (x.1 < i) && decide (F x.1 = 1)) then 2
  else if 0 < toI32 ((G.fwd i).countP fun x => decide (x.1 < i) && decide (F x.1 = 0)) then 0
  else 1

/-- The step object. `reserve` reads `Flags` and writes `FlagsNext[i]`, `commit` writes `Flags[i]` (lines 198-227): no call
reads what another call of the same loop writes, so the loops have these effects in every schedule. -/
def client (G : Gr W) : Client Fl where
  rsv s cur r s' := s'.cur = s.cur ∧ (∀ x, s'.next x = if x ∈ cur then val G s.cur x else s.next x) ∧ ∀ i, r i = true
  cmt s cur _ c s' := s'.next = s.next ∧ (∀ x, s'.cur x = if x ∈ cur then s.next x else s.cur x) ∧
    ∀ i x, cur[i]? = some x → c i = decide (0 < s.next x)

/-! ### Proof -/

structure Inv (G : Gr W) (s : Fl) (h : List Rec) : Prop where
  rng : ∀ x, s.cur x ≠ 0 → s.cur x = 1 ∨ s.cur x = 2
  fin : ∀ x, Fin h x ↔ s.cur x ≠ 0
  one : ∀ x, s.cur x = 1 → ∀ u w, (u, w) ∈ G.fwd x → u < x → s.cur u = 2
  two : ∀ x, s.cur x = 2 → ∃ u w, (u, w) ∈ G.fwd x ∧ u < x ∧ s.cur u = 1
  prog : ∀ q ∈ h, ∃ x, q.finishes x

theorem val_cases {G : Gr W} (hd : ∀ v, (G.fwd v).length < 2147483648) (F : Nat → Nat) (i : Nat) :
    (val G F i = 2 ∧ ∃ u w, (u, w) ∈ G.fwd i ∧ u < i ∧ F u = 1) ∨
    (val G F i = 0 ∧ ∃ u w, (u, w) ∈ G.fwd i ∧ u < i ∧ F u = 0) ∨
    (val G F i = 1 ∧ ∀ u w, (u, w) ∈ G.fwd i → u < i → F u ≠ 1 ∧ F u ≠ 0) := by
  have key : ∀ p : Nat × W → Bool, 0 < toI32 ((G.fwd i).countP p) ↔ ∃ x ∈ G.fwd i, p x = true := by
    intro p
    rw [toI32_eq (Nat.lt_of_le_of_lt List.countP_le_length (hd i)), ← List.countP_pos_iff]
    omega
  rw [val]
  by_cases h1 : 0 < toI32 ((G.fwd i).countP fun x => decide (x.1 < i) && decide (F x.1 = 1))
  · left
    rw [if_pos h1]
    obtain ⟨x, hx, hp⟩ := (key _).1 h1
    simp only [Bool.and_eq_true, decide_eq_true_eq] at hp
    exact ⟨rfl, x.1, x.2, hx, hp⟩
  · right
    rw [if_neg h1]
    by_cases h2 : 0 < toI32 ((G.fwd i).countP fun x => decide (x.1 < i) && decide (F x.1 = 0))
    · left
      rw [if_pos h2]
      obtain ⟨x, hx, hp⟩ := (key _).1 h2
      simp only [Bool.and_eq_true, decide_eq_true_eq] at hp
      exact ⟨rfl, x.1, x.2, hx, hp⟩
    · right
      rw [if_neg h2]
      rw [key] at h1 h2
      refine ⟨rfl, fun u w hu hlt => ⟨fun hf => h1 ⟨(u, w), hu, ?_⟩, fun hf => h2 ⟨(u, w), hu, ?_⟩⟩⟩ <;> simp [hlt, hf]

theorem Inv.step {G : Gr W} (hd : ∀ v, (G.fwd v).length < 2147483648) (hG : G.Ok) {s s1 s2 : Fl} {h : List Rec} {q : Rec}
    (hi : Inv G s h) (hq : RoundOk 0 G.n h q) (h1 : (client G).rsv s q.cur q.r s1) (h2 : (client G).cmt s1 q.cur q.r q.c s2) :
    Inv G s2 (h ++ [q]) := by
  obtain ⟨a1, a2, a3⟩ := h1
  obtain ⟨_, b2, b3⟩ := h2
  have hin : ∀ x, x ∈ q.cur → s2.cur x = val G s.cur x := fun x hx => by rw [b2, if_pos hx, a2, if_pos hx]
  have hout : ∀ x, x ∉ q.cur → s2.cur x = s.cur x := fun x hx => by rw [b2, if_neg hx, a1]
  have hun : ∀ x, x ∈ q.cur → s.cur x = 0 := fun x hx => by
    by_contra hc
    exact hq.fresh x hx ((hi.fin x).2 hc)
  have hkeep : ∀ x, s.cur x ≠ 0 → s2.cur x = s.cur x := fun x hx => hout x fun hm => hx (hun x hm)
  have hfin : ∀ x, q.finishes x ↔ x ∈ q.cur ∧ s2.cur x ≠ 0 := by
    intro x
    constructor
    · rintro ⟨t, ht, hr⟩
      have hx : x ∈ q.cur := List.mem_of_getElem? ht
      rcases hr with hr | hr
      · rw [a3] at hr; cases hr
      · rw [b3 t x ht, decide_eq_true_eq, a2, if_pos hx] at hr
        exact ⟨hx, by rw [hin x hx]; omega⟩
    · rintro ⟨hx, hne⟩
      obtain ⟨t, ht⟩ := List.mem_iff_getElem?.1 hx
      refine ⟨t, ht, Or.inr ?_⟩
      rw [b3 t x ht, decide_eq_true_eq, a2, if_pos hx]
      rw [hin x hx] at hne
      omega
  refine ⟨fun x hx => ?_, fun x => ?_, fun x hx u w hu hlt => ?_, fun x hx => ?_, fun q' hq' => ?_⟩
  · by_cases hm : x ∈ q.cur
    · rw [hin x hm] at hx ⊢
      rcases val_cases hd s.cur x with ⟨h, _⟩ | ⟨h, _⟩ | ⟨h, _⟩ <;> omega
    · rw [hout x hm] at hx ⊢
      exact hi.rng x hx
  · rw [fin_snoc, hfin, hi.fin]
    constructor
    · rintro (hx | hx)
      · rw [hkeep x hx]; exact hx
      · exact hx.2
    · intro hx
      by_cases hm : x ∈ q.cur
      · exact Or.inr ⟨hm, hx⟩
      · left; rw [← hout x hm]; exact hx
  · by_cases hm : x ∈ q.cur
    · rw [hin x hm] at hx
      rcases val_cases hd s.cur x with ⟨h, _⟩ | ⟨h, _⟩ | ⟨h, h'⟩
      · omega
      · omega
      · obtain ⟨e1, e2⟩ := h' u w hu hlt
        rw [hkeep u e2]
        rcases hi.rng u e2 with h | h
        · exact absurd h e1
        · exact h
    · rw [hout x hm] at hx
      have := hi.one x hx u w hu hlt
      rw [hkeep u (by omega)]; exact this
  · by_cases hm : x ∈ q.cur
    · rw [hin x hm] at hx
      rcases val_cases hd s.cur x with ⟨_, u, w, hu, hlt, h1⟩ | ⟨h, _⟩ | ⟨h, _⟩
      · exact ⟨u, w, hu, hlt, by rw [hkeep u (by omega)]; exact h1⟩
      · omega
      · omega
    · rw [hout x hm] at hx
      obtain ⟨u, w, hu, hlt, h1⟩ := hi.two x hx
      exact ⟨u, w, hu, hlt, by rw [hkeep u (by omega)]; exact h1⟩
  · rcases List.mem_append.1 hq' with hq' | hq'
    · exact hi.prog q' hq'
    · rw [List.mem_singleton] at hq'
      subst hq'
      cases hc : q'.cur with
      | nil => exact absurd hc hq.ne
      | cons x l =>
        have hx : x ∈ q'.cur := by rw [hc]; exact List.mem_cons_self
        refine ⟨x, (hfin x).2 ⟨hx, ?_⟩⟩
        rw [hin x hx]
        rcases val_cases hd s.cur x with ⟨h, _⟩ | ⟨h, u, w, hu, hlt, h0⟩ | ⟨h, _⟩
        · omega
        · exfalso
          have hs := hq.sorted
          rw [hc, List.pairwise_cons] at hs
          have hnf : ¬ Fin _ u := fun hf => (hi.fin u).1 hf h0
          have hm := hq.order x hx u (Nat.zero_le _) hlt hnf
          rw [hc] at hm
          rcases List.mem_cons.1 hm with e | e
          · omega
          · have := hs.1 u e; omega
        · omega

/-- The initial flags. -/
def start : Fl := ⟨fun _ => 0, fun _ => 0⟩

variable {G : Gr W} {g tries : Nat} {eff : Bool}

theorem head_flags (hG : G.Ok) (hd : ∀ v, (G.fwd v).length < 2147483648) (hmx : maxSize 0 G.n g < 2147483648) {nx : Nat → Nat}
    {l : LS Fl} (h : Head (client G) eff 0 G.n g tries ⟨fun _ => 0, nx⟩ l) : Inv G l.st l.hist := by
  refine head_induct (P := fun st h => Inv G st h) (Nat.zero_le _) hmx ?_ ?_ h
  · refine ⟨fun x hx => absurd rfl hx, fun x => ⟨fun ⟨q, hq, _⟩ => (by cases hq), fun hx => absurd rfl hx⟩,
      fun x hx => (by cases hx), fun x hx => (by cases hx), fun q hq => (by cases hq)⟩
  · intro st st1 st2 h q hP hq h1 h2
    exact hP.step hd hG hq h1 h2

/-! ### Theorems -/

/-- C61: when the loop ends, `Flags[v] == 1` holds for the vertices of the greedy set in the order of the ids, and all other
vertices have `Flags[v] == 2`; `FlagsNext` is uninitialised at the start. -/
theorem mis_spec_greedy (hG : G.Ok) (hd : ∀ v, (G.fwd v).length < 2147483648) (hmx : maxSize 0 G.n g < 2147483648) {nx : Nat → Nat}
    {l : LS Fl} (h : Head (client G) eff 0 G.n g tries ⟨fun _ => 0, nx⟩ l) (hend : ¬ l.done < G.n) :
    IsGreedy G (fun v => v) (fun v => l.st.cur v = 1) ∧ ∀ v, v < G.n → l.st.cur v = 1 ∨ l.st.cur v = 2 := by
  have hi := head_flags hG hd hmx h
  have hall : ∀ v, v < G.n → l.st.cur v ≠ 0 := fun v hv =>
    (hi.fin v).1 ((spec_complete (Nat.zero_le _) hmx h hend v).1.1 ⟨Nat.zero_le _, hv⟩)
  refine ⟨fun v hv => ⟨fun h1 u w hu hlt h2 => ?_, fun hn => ?_⟩, fun v hv => hi.rng v (hall v hv)⟩
  · have := hi.one v h1 u w hu hlt
    omega
  · rcases hi.rng v (hall v hv) with h1 | h1
    · exact h1
    · obtain ⟨u, w, hu, hlt, h2⟩ := hi.two v h1
      exact absurd h2 (hn u w hu hlt)

/-- C61: it is a maximal independent set. -/
theorem mis_spec_correct (hG : G.Ok) (hS : G.SymG) (hd : ∀ v, (G.fwd v).length < 2147483648) (hmx : maxSize 0 G.n g < 2147483648)
    {nx : Nat → Nat} {l : LS Fl} (h : Head (client G) eff 0 G.n g tries ⟨fun _ => 0, nx⟩ l) (hend : ¬ l.done < G.n) :
    IsMIS G (fun v => l.st.cur v = 1) :=
  MIS.greedy_isMIS hG hS (fun _ _ _ _ h => h) (mis_spec_greedy hG hd hmx h hend).1

/-- C61: every round decides a vertex: at most `n` rounds, no abort with the default number of tries. -/
theorem mis_spec_rounds (hG : G.Ok) (hd : ∀ v, (G.fwd v).length < 2147483648) (hmx : maxSize 0 G.n g < 2147483648) {nx : Nat → Nat}
    {l : LS Fl} (h : Head (client G) eff 0 G.n g tries ⟨fun _ => 0, nx⟩ l) :
    l.hist.length ≤ G.n ∧ (G.n ≤ tries + 1 → ¬ Aborts G.n tries l) :=
  spec_progress (Nat.zero_le _) hmx h (head_flags hG hd hmx h).prog

/-- The state after the two loops of a round, and the results of `commit`. -/
def f1 (G : Gr W) (st : Fl) (cur : List Nat) : Fl := ⟨st.cur, fun x => if x ∈ cur then val G st.cur x else st.next x⟩
def f2 (st : Fl) (cur : List Nat) : Fl := ⟨fun x => if x ∈ cur then st.next x else st.cur x, st.next⟩
def cs (st : Fl) (cur : List Nat) (i : Nat) : Bool := decide (0 < st.next (cur.getD i 0))

theorem rsv_f1 (st : Fl) (cur : List Nat) : (client G).rsv st cur (fun _ => true) (f1 G st cur) := ⟨rfl, fun _ => rfl, fun _ => rfl⟩

theorem cmt_f2 (st : Fl) (cur : List Nat) (r : Nat → Bool) : (client G).cmt st cur r (cs st cur) (f2 st cur) :=
  ⟨rfl, fun _ => rfl, fun i x hx => by rw [cs, List.getD_eq_getElem?_getD, hx]; rfl⟩

/-- Every round can run. -/
theorem mis_spec_total (st : Fl) (cur : List Nat) : ∃ r st1, (client G).rsv st cur r st1 ∧ ∃ c st2, (client G).cmt st1 cur r c st2 :=
  ⟨_, _, rsv_f1 st cur, _, _, cmt_f2 _ cur _⟩

/-! ### Example -/

/-- The path 0 - 1 - 2 - 3. -/
def exG : Gr Unit := Gr.ofLists [[(1, ())], [(0, ()), (2, ())], [(1, ()), (3, ())], [(2, ())]]
  [[(1, ())], [(0, ()), (2, ())], [(1, ()), (3, ())], [(2, ())]]

theorem exG_ok : exG.Ok := Gr.ofLists_ok (by decide)

theorem exG_deg (v : Nat) : (exG.fwd v).length < 2147483648 := by
  by_cases hv : v < 4
  · exact (by decide : ∀ v < 4, (exG.fwd v).length < 2147483648) v hv
  · have : exG.fwd v = [] := by
      rw [List.eq_nil_iff_forall_not_mem]
      exact fun x hx => hv (exG_ok.bound v x.1 x.2 hx).1
    rw [this]; decide

/-- One round of the example. -/
def exStep (l : LS Fl) : LS Fl :=
  let cur := curI l.kept l.done (min l.crs (4 - l.done))
  let s1 := f1 exG l.st cur
  let k := keep cur (fun _ => true) (cs s1 cur)
  ⟨f2 s1 cur, k, l.done + (min l.crs (4 - l.done) - k.length), nextSize true (maxSize 0 4 2) l.crs k.length false false,
    l.round + 1, l.total + min l.crs (4 - l.done), l.hist ++ [⟨cur, fun _ => true, cs s1 cur⟩]⟩

theorem exStep_ok (l : LS Fl) (h1 : l.done < 4) (h2 : l.round ≤ 9) : Step (client exG) true 0 4 2 9 l (exStep l) :=
  .mk (shrink := false) (grow := false) h1 h2 (rsv_f1 _ _) (cmt_f2 _ _ _)

/-- Four rounds of at most three vertices; 0 and 2 are chosen. -/
example : ∃ l, Head (client exG) true 0 4 2 9 start l ∧ (List.range 4).map l.st.cur = [1, 2, 1, 2] ∧ ¬ l.done < 4 ∧ l.round = 4 :=
  ⟨exStep (exStep (exStep (exStep ⟨start, [], 0, maxSize 0 4 2, 0, 0, []⟩))),
    .step (.step (.step (.step .init (exStep_ok _ (by decide) (by decide))) (exStep_ok _ (by decide) (by decide)))
      (exStep_ok _ (by decide) (by decide))) (exStep_ok _ (by decide) (by decide)), by decide, by decide, by decide⟩

example {l : LS Fl} (h : Head (client exG) true 0 exG.n 2 9 start l) (he : ¬ l.done < exG.n) :
    IsGreedy exG (fun v => v) (fun v => l.st.cur v = 1) := (mis_spec_greedy exG_ok exG_deg (by decide) h he).1

end Gbbs.MISSpec
