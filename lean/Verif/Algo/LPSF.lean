/-
C88: the spanning forest by label propagation, `benchmarks/SpanningForest/LabelPropagation/SpanningForest.h`.
-/
import Verif.Algo.LabelProp
import Verif.Algo.SVSF
import Verif.EdgeMap.Total

namespace Gbbs.LPSF

open Conc Conc.Prog Em Comp SF LabelProp
open Atomics (Steps)
open SVSF (empty edges mem_edges edges_eq)
open Relation

variable {W : Type}

/-! ### Model -/

/-- `LabelProp_F::updateAtomic`, `SpanningForest.h:58-71`. `PrevParents` is not written during the traversal and is the
parameter `prv`; the memory is `Parents` and `changed`. -/
def updA (prv : Nat → Nat) (f : Nat) (s d : Nat) : Prog L Nat (Option Unit) :=
  if lpLess (prv s) (prv d) then
    (writeBy lpLess f (.par d) (prv s)).bind fun _ =>
      (writeBy gt f (.chg d) 2).bind fun r => ret (if r then some () else none)
  else if lpLess (prv d) (prv s) then
    (writeBy lpLess f (.par s) (prv d)).bind fun r =>
      if r then read (.chg s) fun c =>
        if c = 0 then (writeBy gt f (.chg s) 1).bind fun _ => ret none else ret none
      else ret none
  else ret none

/-- `LabelProp_F`, `SpanningForest.h:46-73`. -/
def lpF (prv : Nat → Nat) (f : Nat) : Func W L Nat Unit where
  cond _ := ret true
  updA s d _ := updA prv f s d
  upd s d _ := updA prv f s d

/-- `LabelProp_F_2::updateAtomic`, `SpanningForest.h:88-106`. The memory is `Edges`; `PrevParents` and `Parents` are not
written during the traversal and are the parameters `prv` and `par`. -/
def recA (prv par : Nat → Nat) (s d : Nat) : Prog Nat (Nat × Nat) (Option Unit) :=
  if lpLess (prv s) (prv d) then
    if par d = prv s then read d fun e => cas d e (s, d) fun _ => ret none else ret none
  else if lpLess (prv d) (prv s) then
    if par s = prv d then read s fun e => cas s e (s, d) fun _ => ret none else ret none
  else ret none

/-- `LabelProp_F_2`, `SpanningForest.h:75-108`. -/
def recF (prv par : Nat → Nat) : Func W Nat (Nat × Nat) Unit where
  cond _ := ret true
  updA s d _ := recA prv par s d
  upd s d _ := recA prv par s d

/-- The loop `SpanningForest.h:142-174` from `PrevParents`, `Parents` and `changed`, `Edges`, and the frontier; the index
counts the rounds. -/
inductive Loop (G : Gr W) :
    Nat → (Nat → Nat) → (L → Nat) → (Nat → Nat × Nat) → List Nat → (L → Nat) → (Nat → Nat × Nat) → Prop
  | done (prv m Ed) : Loop G 0 prv m Ed [] m Ed
  | round {k prv m Ed F m1 o Ed1 o1 m2 Ed2} (f : Nat) (hF : F ≠ [])
      (h : EdgeMap (lpF prv f) G (fun v => decide (v ∈ F)) m m1 o)
      (hr : EdgeMap (recF prv fun x => m1 (.par x)) G (fun v => decide (v ∈ F)) Ed Ed1 o1)
      (hl : Loop G k (fun x => if x ∈ nextF m1 F o then m1 (.par x) else prv x) (reset (nextF m1 F o) m1) Ed1
        (nextF m1 F o) m2 Ed2) : Loop G (k + 1) prv m Ed F m2 Ed2

/-- `compute_spanning_forest<sampling_option>(Parents, Edges, frequent_comp)`, `SpanningForest.h:117-179`: `frq` is `none`
without sampling. -/
def Compute (G : Gr W) (frq : Option Nat) (P0 : Nat → Nat) (Ed0 : Nat → Nat × Nat) (k : Nat) (par : Nat → Nat)
    (Ed : Nat → Nat × Nat) : Prop :=
  ∃ m, Loop G k P0 (init P0) Ed0
    ((List.range G.n).filter fun v => match frq with | none => true | some c => P0 v != c) m Ed ∧ ∀ x, par x = m (.par x)

/-- `SpanningForest<use_permutation>(G)`, `SpanningForest.h:182-200`: `P0` is the identity or a random permutation. -/
def SpanningForest (G : Gr W) (P0 : Nat → Nat) (k : Nat) (es : List (Nat × Nat)) : Prop :=
  ∃ par Ed, Compute G none P0 (fun _ => empty) k par Ed ∧ es = edges G.n Ed

/-! ### Specification of the start -/

/-- What a sampling has to provide: labels, and edges of the graph within the classes of equal labels, which connect every
vertex with a representative `rt c` of its class `c`, none of them recorded at a representative. -/
structure LStart (G : Gr W) (P0 : Nat → Nat) (Ed0 : Nat → Nat × Nat) (rt : Nat → Nat) : Prop where
  rep : ∀ x, x < G.n → rt (P0 x) < G.n ∧ P0 (rt (P0 x)) = P0 x ∧ Ed0 (rt (P0 x)) = empty
  edge : ∀ x, x < G.n → Ed0 x ≠ empty →
    Adj G (Ed0 x).1 (Ed0 x).2 ∧ P0 (Ed0 x).1 = P0 x ∧ P0 (Ed0 x).2 = P0 x
  conn : ∀ x, x < G.n → LConn (edges G.n Ed0) x (rt (P0 x))

/-! ### The first traversal -/

/-- Equal or joined by an edge out of the frontier. -/
def Link (G : Gr W) (F : List Nat) (x y : Nat) : Prop :=
  x = y ∨ ∃ w, Active G (fun v => decide (v ∈ F)) ⟨x, y, w⟩ ∨ Active G (fun v => decide (v ∈ F)) ⟨y, x, w⟩

section
variable {C : Nat → Nat → Prop} {inF : Nat → Prop} {m0 : L → Nat}

theorem updA_safe (f : Nat) (i : Nat × Nat) (l : List (Nat × Unit)) (g : Gh) (e : Edge W)
    (h1 : C e.s e.d) (h2 : C e.d e.s) (hF : inF e.s) (hT : TE none i g l) :
    Safe (rRG C inF m0) i (fun g x => TE none i g (emit e.d x l) ∧ Dn m0 g e)
      (updA (fun x => m0 (.par x)) f e.s e.d) g := by
  unfold updA
  by_cases hab : lpLess (m0 (.par e.s)) (m0 (.par e.d)) = true
  · rw [if_pos hab]
    rw [lpLess_iff] at hab
    refine (writePar_safe f i h2 rfl l g hT).bind fun r g4 h4 => ?_
    have hlow : key (g4.m (.par e.d)) < key (m0 (.par e.d)) := by have := h4.1; omega
    refine (writeChg_safe f i (.inl rfl) l (if r then some e.d else none) (by cases r <;> simp) g4 h4.2 hlow).bind
      fun r2 g5 h5 => ?_
    intro g6 hr6
    have h5' := h5.1.stable hr6
    refine ⟨?_, .inr (.inl (Nat.lt_of_le_of_lt (hr6.1.1 _) h5.2))⟩
    simpa using h5'
  · rw [if_neg hab]
    rw [lpLess_iff] at hab
    by_cases hba : lpLess (m0 (.par e.d)) (m0 (.par e.s)) = true
    · rw [if_pos hba]
      rw [lpLess_iff] at hba
      refine (writePar_safe f i h1 rfl l g hT).bind fun r g6 h6 => ?_
      have hlow : key (g6.m (.par e.s)) < key (m0 (.par e.s)) := by have := h6.1; omega
      have hD : Dn m0 g6 e := .inl hlow
      cases r with
      | false =>
        intro g7 hr7
        exact ⟨h6.2.stable hr7, hD.keep (i := i) hr7.1⟩
      | true =>
        intro g7 m7 hr7 hi7
        refine ⟨g7, gu_refl _ _, hi7, ?_⟩
        have hT7 : TE (some e.s) i g7 l := TE.stable hr7 h6.2
        have hlow7 : key (g7.m (.par e.s)) < key (m0 (.par e.s)) := Nat.lt_of_le_of_lt (hr7.1.1 _) hlow
        beta_reduce
        by_cases hc : m7 (.chg e.s) = 0
        · rw [if_pos hc]
          refine (writeChg_safe f i (.inr ⟨rfl, hF⟩) l (some e.s) (.inl rfl) g7 hT7 hlow7).bind fun r2 g8 h8 => ?_
          intro g9 hr9
          have h8' := h8.1.stable hr9
          refine ⟨by simpa [emit] using h8', .inl (Nat.lt_of_le_of_lt (hr9.1.1 _) h8.2)⟩
        · rw [if_neg hc]
          intro g8 hr8
          refine ⟨TE.stable hr8 ⟨hT7.1, fun z _ hl => ?_⟩, .inl (Nat.lt_of_le_of_lt (hr8.1.1 _) hlow7)⟩
          by_cases hz : z = e.s
          · subst hz; rw [hi7.mem]; omega
          · exact hT7.2 z (by simpa using Ne.symm hz) hl
    · rw [if_neg hba]
      rw [lpLess_iff] at hba
      intro g5 hr5
      exact ⟨hT.stable hr5, .inr (.inr (key_inj (by omega)))⟩

end

theorem lp_spec {G : Gr W} {F : List Nat} {m : L → Nat} (f : Nat) :
    FSpec (fun _ => rRG (Link G F) (fun v => v ∈ F) m) (lpF (fun x => m (.par x)) f : Func W L Nat Unit)
      (Active G fun v => decide (v ∈ F)) (TE none) (Dn m) where
  keep may i e := ⟨fun g g' hr h => h.keep (i := i) hr.1, fun g g' hr h => h.keep (i := i) hr.1⟩
  stable may i l g g' hr h := h.stable hr
  cond may i l g d hT := fun g' hr => ⟨hT.stable hr, fun h => (by cases h)⟩
  updA may i l g e he _ hT := updA_safe f i l g e (.inr ⟨_, .inl he⟩) (.inr ⟨_, .inr he⟩) (by simpa using he.1) hT
  upd may i l g e he _ _ hT := updA_safe f i l g e (.inr ⟨_, .inl he⟩) (.inr ⟨_, .inr he⟩) (by simpa using he.1) hT

/-! ### The second traversal -/

/-- `p` is an edge of the frontier through which `x` got its new label. -/
def Win (Ac : Edge W → Prop) (prv par : Nat → Nat) (x : Nat) (p : Nat × Nat) : Prop :=
  ∃ e, Ac e ∧ p = (e.s, e.d) ∧ ((e.d = x ∧ par x = prv e.s ∧ key (prv e.s) < key (prv x)) ∨
    (e.s = x ∧ par x = prv e.d ∧ key (prv e.d) < key (prv x)))

def wRG (Ac : Edge W → Prop) (prv par : Nat → Nat) (Ed : Nat → Nat × Nat) :
    RG (Nat × Nat) (Nat → Nat × Nat) Nat (Nat × Nat) where
  Inv g m := g = m ∧ ∀ x, m x = Ed x ∨ Win Ac prv par x (m x)
  R _ g g' := ∀ x, Win Ac prv par x (g x) → Win Ac prv par x (g' x)
  Gu _ g g' := ∀ x, Win Ac prv par x (g x) → Win Ac prv par x (g' x)
  refl _ _ _ h := h
  trans _ _ _ _ h1 h2 x hx := h2 x (h1 x hx)
  compat _ _ _ _ _ h := h

/-- The edge is settled. -/
def WDn (Ac : Edge W → Prop) (prv par : Nat → Nat) (g : Nat → Nat × Nat) (e : Edge W) : Prop :=
  (key (prv e.s) < key (prv e.d) → par e.d = prv e.s → Win Ac prv par e.d (g e.d)) ∧
  (key (prv e.d) < key (prv e.s) → par e.s = prv e.d → Win Ac prv par e.s (g e.s))

/-- Replacing an entry by a winner. -/
theorem over_safe {Ac : Edge W → Prop} {prv par : Nat → Nat} {Ed : Nat → Nat × Nat} {i : Nat × Nat} {g : Nat → Nat × Nat}
    {x : Nat} {p : Nat × Nat} (hp : Win Ac prv par x p) :
    Safe (wRG Ac prv par Ed) i (fun g (r : Option Unit) => r = none ∧ Win Ac prv par x (g x))
      (read x fun e => cas x e p fun _ => ret none) g := by
  intro g1 m1 hr1 hi1
  refine ⟨g1, fun _ h => h, hi1, ?_⟩
  obtain ⟨rfl, hi1⟩ := hi1
  intro g2 m2 hr2 hi2
  obtain ⟨rfl, hi2⟩ := hi2
  constructor
  · intro heq
    refine ⟨put g2 x p, fun y hy => ?_, ⟨rfl, fun y => ?_⟩, fun g3 hr3 => ⟨rfl, hr3 x ?_⟩⟩
    · by_cases h : y = x
      · subst h; rw [put_same]; exact hp
      · rw [put_ne _ _ h]; exact hy
    · by_cases h : y = x
      · subst h; rw [put_same]; exact .inr hp
      · rw [put_ne _ _ h]; exact hi2 y
    · rw [put_same]; exact hp
  · intro hne
    refine ⟨g2, fun _ h => h, ⟨rfl, hi2⟩, fun g3 hr3 => ⟨rfl, hr3 x ?_⟩⟩
    rcases hi1 x with h | h
    · rcases hi2 x with h2 | h2
      · exact absurd (h2.trans h.symm) hne
      · exact h2
    · exact hr2 x h

theorem rec_safe {Ac : Edge W → Prop} {prv par : Nat → Nat} {Ed : Nat → Nat × Nat} {i : Nat × Nat} {g : Nat → Nat × Nat}
    {e : Edge W} (he : Ac e) {l : List (Nat × Unit)} :
    Safe (wRG Ac prv par Ed) i (fun g x => emit e.d x l = l ∧ WDn Ac prv par g e) (recA prv par e.s e.d) g := by
  unfold recA
  by_cases h1 : lpLess (prv e.s) (prv e.d) = true
  · rw [if_pos h1]
    rw [lpLess_iff] at h1
    by_cases h2 : par e.d = prv e.s
    · rw [if_pos h2]
      refine (over_safe ⟨e, he, rfl, .inl ⟨rfl, h2, h1⟩⟩).weaken fun r g h => ⟨by rw [h.1]; rfl, fun _ _ => h.2, fun h' => ?_⟩
      omega
    · rw [if_neg h2]
      exact fun g' _ => ⟨rfl, fun _ h' => absurd h' h2, fun h' => by omega⟩
  · rw [if_neg h1]
    rw [lpLess_iff] at h1
    by_cases h2 : lpLess (prv e.d) (prv e.s) = true
    · rw [if_pos h2]
      rw [lpLess_iff] at h2
      by_cases h3 : par e.s = prv e.d
      · rw [if_pos h3]
        refine (over_safe ⟨e, he, rfl, .inr ⟨rfl, h3, h2⟩⟩).weaken fun r g h =>
          ⟨by rw [h.1]; rfl, fun h' => ?_, fun _ _ => h.2⟩
        omega
      · rw [if_neg h3]
        exact fun g' _ => ⟨rfl, fun h' => by omega, fun _ h' => absurd h' h3⟩
    · rw [if_neg h2]
      rw [lpLess_iff] at h2
      exact fun g' _ => ⟨rfl, fun h' => absurd h' h1, fun h' => absurd h' h2⟩

theorem rec_spec (Ac : Edge W → Prop) (prv par : Nat → Nat) (Ed : Nat → Nat × Nat) :
    FSpec (fun _ => wRG Ac prv par Ed) (recF prv par : Func W Nat (Nat × Nat) Unit) Ac (fun _ _ _ => True)
      (WDn Ac prv par) where
  keep may i e := ⟨fun g g' hr h => ⟨fun a b => hr _ (h.1 a b), fun a b => hr _ (h.2 a b)⟩,
    fun g g' hr h => ⟨fun a b => hr _ (h.1 a b), fun a b => hr _ (h.2 a b)⟩⟩
  stable may i l g g' hr h := trivial
  cond may i l g d hT := fun g' hr => ⟨trivial, fun h => (by cases h)⟩
  updA may i l g e he _ hT := (rec_safe he (l := l)).weaken fun _ _ h => ⟨trivial, h.2⟩
  upd may i l g e he _ _ hT := (rec_safe he (l := l)).weaken fun _ _ h => ⟨trivial, h.2⟩

theorem rec_round {G : Gr W} (hG : G.Ok) {inF : Nat → Bool} {prv par : Nat → Nat} {Ed Ed' : Nat → Nat × Nat}
    {o : List (Nat × Unit)} (h : EdgeMap (recF prv par) G inF Ed Ed' o) :
    (∀ x, Ed' x = Ed x ∨ Win (Active G inF) prv par x (Ed' x)) ∧ ∀ e, Active G inF e → WDn (Active G inF) prv par Ed' e := by
  obtain ⟨g, out, hi, hdn, -, -⟩ := edgeMap_sound (rec_spec (Active G inF) prv par Ed) G hG inF (fun _ h => h)
    (fun g m => g = m ∧ ∀ x, m x = Ed x ∨ Win (Active G inF) prv par x (m x)) (fun _ _ _ => Iff.rfl) Ed
    ⟨rfl, fun _ => .inl rfl⟩ (fun _ => trivial) h
  obtain ⟨rfl, hi⟩ := hi
  exact ⟨hi, hdn⟩

/-! ### The loop -/

/-- The state at the start of a round. `T x`: the round in which `x` got its label. -/
structure FInv (G : Gr W) (P0 : Nat → Nat) (Ed0 : Nat → Nat × Nat) (t : Nat) (prv : Nat → Nat) (m : L → Nat)
    (Ed : Nat → Nat × Nat) (F : List Nat) (T : Nat → Nat) : Prop where
  cur : ∀ x, m (.par x) = prv x
  zero : ∀ x, m (.chg x) = 0
  nodup : F.Nodup
  sound : ∀ x, ∃ y, Conn (Adj G) x y ∧ prv x = P0 y
  edge : ∀ u v, Adj G u v → u ∉ F → v ∉ F → prv u = prv v
  le : ∀ x, key (prv x) ≤ key (P0 x)
  old : ∀ x, prv x = P0 x → Ed x = Ed0 x
  new : ∀ x, prv x ≠ P0 x → ∃ y, Adj G (Ed x).1 (Ed x).2 ∧ (Ed x = (x, y) ∨ Ed x = (y, x)) ∧
    (key (prv y) < key (prv x) ∨ prv y = prv x ∧ T y < T x)
  time : ∀ x, T x ≤ t

theorem link_conn {G : Gr W} {F : List Nat} {x y : Nat} (h : Link G F x y) : Conn (Adj G) x y := by
  rcases h with rfl | ⟨w, h | h⟩
  · exact (conn_equiv _).refl x
  · exact .rel _ _ ⟨w, h.2⟩
  · exact (conn_equiv _).symm (.rel _ _ ⟨w, h.2⟩)

/-- Sum of the labels. -/
def pot (n : Nat) (P : Nat → Nat) : Nat := ((Finset.range n).sum fun x => key (P x))

theorem FInv.step {G : Gr W} (hG : G.Ok) (hsym : ∀ u v, Adj G u v → Adj G v u) {f t : Nat} {P0 prv : Nat → Nat} {F : List Nat}
    {m m1 : L → Nat} {Ed0 Ed Ed1 : Nat → Nat × Nat} {o o1 : List (Nat × Unit)} {T : Nat → Nat}
    (h : FInv G P0 Ed0 t prv m Ed F T)
    (hr : EdgeMap (lpF prv f) G (fun v => decide (v ∈ F)) m m1 o)
    (hr1 : EdgeMap (recF prv fun x => m1 (.par x)) G (fun v => decide (v ∈ F)) Ed Ed1 o1) :
    FInv G P0 Ed0 (t + 1) (fun x => if x ∈ nextF m1 F o then m1 (.par x) else prv x) (reset (nextF m1 F o) m1) Ed1
      (nextF m1 F o) (fun x => if x ∈ nextF m1 F o then t + 1 else T x) ∧
    (nextF m1 F o ≠ [] → pot G.n (fun x => if x ∈ nextF m1 F o then m1 (.par x) else prv x) < pot G.n prv) := by
  have hp : prv = fun x => m (.par x) := funext fun x => (h.cur x).symm
  obtain ⟨h1, h2, h3, h4, h5, h6⟩ := lp_round_of (C := Link G F) (fun x => .inl rfl) hG
    (lp_spec (G := G) (F := F) (m := m) f) h.zero h.nodup (hp ▸ hr)
  obtain ⟨r1, r2⟩ := rec_round hG hr1
  have h2 : ∀ x, x ∈ nextF m1 F o ↔ m1 (.par x) ≠ prv x := fun x => by rw [← h.cur]; exact h2 x
  have h3 : ∀ x, key (m1 (.par x)) ≤ key (prv x) := fun x => by rw [← h.cur]; exact h3 x
  have h6 : ∀ u v, u ∈ F → Adj G u v → u ∈ nextF m1 F o ∨ v ∈ nextF m1 F o ∨ prv u = prv v := fun u v => by
    rw [← h.cur, ← h.cur]; exact h6 u v
  have h4 : ∀ x, ∃ y, Link G F x y ∧ m1 (.par x) = prv y := fun x => by
    obtain ⟨y, hy, he⟩ := h4 x
    exact ⟨y, hy, he.trans (h.cur y)⟩
  have hval : (fun x => if x ∈ nextF m1 F o then m1 (.par x) else prv x) = fun x => m1 (.par x) := by
    funext x
    by_cases hx : x ∈ nextF m1 F o
    · rw [if_pos hx]
    · rw [if_neg hx]
      rw [h2, not_not] at hx
      exact hx.symm
  rw [hval]
  have hnin : ∀ x, x ∉ nextF m1 F o → m1 (.par x) = prv x := fun x hx => by rwa [h2, not_not] at hx
  refine ⟨⟨fun x => rfl, h5, h1, fun x => ?_, fun u v huv hu hv => ?_, fun x => Nat.le_trans (h3 x) (h.le x),
    fun x hx => ?_, fun x hx => ?_, fun x => ?_⟩, fun hne => ?_⟩
  · obtain ⟨y, hy, he⟩ := h4 x
    obtain ⟨z, hz, he'⟩ := h.sound y
    exact ⟨z, (conn_equiv _).trans (link_conn hy) hz, he.trans he'⟩
  · show m1 (.par u) = m1 (.par v)
    rw [hnin u hu, hnin v hv]
    by_cases hFu : u ∈ F
    · exact ((h6 u v hFu huv).resolve_left hu).resolve_left hv
    · by_cases hFv : v ∈ F
      · exact (((h6 v u hFv (hsym _ _ huv)).resolve_left hv).resolve_left hu).symm
      · exact h.edge u v huv hFu hFv
  · have hx : m1 (.par x) = P0 x := hx
    have hpx : prv x = P0 x := key_inj (Nat.le_antisymm (h.le x) (by rw [← hx]; exact h3 x))
    rcases r1 x with e | ⟨e, -, -, ⟨-, e2, e3⟩ | ⟨-, e2, e3⟩⟩
    · rw [e]; exact h.old x hpx
    · exact absurd (hx.symm.trans e2) fun hc => by rw [hpx, hc] at e3; omega
    · exact absurd (hx.symm.trans e2) fun hc => by rw [hpx, hc] at e3; omega
  · have hx : m1 (.par x) ≠ P0 x := hx
    by_cases hc : x ∈ nextF m1 F o
    · have hlt : key (m1 (.par x)) < key (prv x) :=
        Nat.lt_of_le_of_ne (h3 x) fun he => (h2 x).1 hc (key_inj he)
      have hw : Win (Active G fun v => decide (v ∈ F)) prv (fun x => m1 (.par x)) x (Ed1 x) := by
        obtain ⟨y, hy, he⟩ := h4 x
        rcases hy with rfl | ⟨w, hw | hw⟩
        · exact absurd he ((h2 x).1 hc)
        · exact (r2 _ hw).2 (by show key (prv y) < _; rw [← he]; exact hlt) he
        · exact (r2 _ hw).1 (by show key (prv y) < _; rw [← he]; exact hlt) he
      have key2 : ∀ y, m1 (.par x) = prv y →
          key (m1 (.par y)) < key (m1 (.par x)) ∨ m1 (.par y) = m1 (.par x) ∧
            (if y ∈ nextF m1 F o then t + 1 else T y) < (if x ∈ nextF m1 F o then t + 1 else T x) := by
        intro y hy
        by_cases hyn : y ∈ nextF m1 F o
        · refine .inl (Nat.lt_of_le_of_ne ?_ fun he => (h2 y).1 hyn ?_)
          · rw [hy]; exact h3 y
          · exact (key_inj he).trans hy
        · refine .inr ⟨(hnin y hyn).trans hy.symm, ?_⟩
          rw [if_neg hyn, if_pos hc]
          have := h.time y
          omega
      obtain ⟨e, he, ep, ⟨e1, e2, e3⟩ | ⟨e1, e2, e3⟩⟩ := hw
      · refine ⟨e.s, by rw [ep]; exact ⟨_, he.2⟩, .inr (by rw [ep, e1]), key2 _ e2⟩
      · refine ⟨e.d, by rw [ep]; exact ⟨_, he.2⟩, .inl (by rw [ep, e1]), key2 _ e2⟩
    · have hxp := hnin x hc
      obtain ⟨y, y1, y2, y3⟩ := h.new x (by rwa [← hxp])
      have hEd : Ed1 x = Ed x := by
        rcases r1 x with e | ⟨e, -, -, ⟨-, e2, e3⟩ | ⟨-, e2, e3⟩⟩
        · exact e
        · have e2 : m1 (.par x) = _ := e2
          rw [hxp] at e2; rw [← e2] at e3; omega
        · have e2 : m1 (.par x) = _ := e2
          rw [hxp] at e2; rw [← e2] at e3; omega
      rw [hEd]
      refine ⟨y, y1, y2, ?_⟩
      rw [if_neg hc, hxp]
      have hle := h3 y
      by_cases hyn : y ∈ nextF m1 F o
      · have : key (m1 (.par y)) < key (prv y) := Nat.lt_of_le_of_ne hle fun he => (h2 y).1 hyn (key_inj he)
        rcases y3 with y3 | ⟨y3, -⟩
        · exact .inl (by omega)
        · rw [y3] at this; exact .inl this
      · rw [if_neg hyn, hnin y hyn]; exact y3
  · have := h.time x
    show (if x ∈ nextF m1 F o then t + 1 else T x) ≤ t + 1
    split <;> omega
  · obtain ⟨x, hx⟩ := List.exists_mem_of_ne_nil _ hne
    have hx := (h2 x).1 hx
    have hxn : x < G.n := by
      obtain ⟨y, hy, he⟩ := h4 x
      refine (conn_lt hG (link_conn hy) fun hxy => ?_).1
      subst hxy; exact hx he
    refine Finset.sum_lt_sum (fun z _ => h3 z) ⟨x, Finset.mem_range.2 hxn, ?_⟩
    exact Nat.lt_of_le_of_ne (h3 x) fun he => hx (key_inj he)

theorem loop_inv {G : Gr W} (hG : G.Ok) (hsym : ∀ u v, Adj G u v → Adj G v u) {P0 prv : Nat → Nat} {F : List Nat}
    {m m' : L → Nat} {Ed0 Ed Ed' : Nat → Nat × Nat} {k : Nat} (hl : Loop G k prv m Ed F m' Ed') {t : Nat} {T : Nat → Nat}
    (h : FInv G P0 Ed0 t prv m Ed F T) :
    (∃ t' prv' T', FInv G P0 Ed0 t' prv' m' Ed' [] T') ∧ k ≤ pot G.n prv + 1 := by
  induction hl generalizing t T with
  | done prv m Ed => exact ⟨⟨_, _, _, h⟩, Nat.zero_le _⟩
  | @round k prv m Ed F m1 o Ed1 o1 m2 Ed2 f _ hr hr1 hl ih =>
    obtain ⟨h1, h2⟩ := h.step hG hsym hr hr1
    obtain ⟨i1, i2⟩ := ih h1
    refine ⟨i1, ?_⟩
    by_cases hne : nextF m1 F o = []
    · generalize nextF m1 F o = F1 at hl hne
      subst hne
      cases hl with
      | done => omega
      | round _ hF => exact absurd rfl hF
    · have := h2 hne
      omega

/-! ### The result -/

/-- C88, with any sampling that meets `LStart` and any choice of the frequent component: in every traversal and interleaving
the recorded edges are a spanning forest, the labels are those of the components, and the loop ends. -/
theorem lp_sf_sampled {G : Gr W} (hG : G.Ok) (hsym : ∀ u v, Adj G u v → Adj G v u) (hn : G.n ≤ 4294967295)
    {P0 par : Nat → Nat} {Ed0 Ed : Nat → Nat × Nat} {rt : Nat → Nat} (h0 : LStart G P0 Ed0 rt) {frq : Option Nat} {k : Nat}
    (h : Compute G frq P0 Ed0 k par Ed) :
    IsSF (Adj G) (edges G.n Ed) ∧ IsCC G.n (Adj G) par ∧ k ≤ pot G.n P0 + 1 := by
  obtain ⟨m, hl, hpar⟩ := h
  have hlt : ∀ u v, Adj G u v → u < G.n ∧ v < G.n := fun u v ⟨w, hw⟩ => hG.bound _ _ _ hw
  have q := conn_equiv (Adj G)
  have le := lconn_equiv
  obtain ⟨⟨t, prv, T, hi⟩, hk⟩ := loop_inv hG hsym (P0 := P0) (Ed0 := Ed0) (t := 0) (T := fun _ => 0) hl
    ⟨fun _ => rfl, fun _ => rfl, List.nodup_range.filter _,
    fun x => ⟨x, q.refl x, rfl⟩, fun u v huv hu hv => by
      obtain ⟨hu', hv'⟩ := hlt u v huv
      cases frq with
      | none => exact absurd (by simpa using hu') hu
      | some c =>
        have hu : P0 u = c := by
          by_contra hc
          exact hu (by simp [hu', hc])
        have hv : P0 v = c := by
          by_contra hc
          exact hv (by simp [hv', hc])
        exact hu.trans hv.symm, fun x => Nat.le_refl _, fun x _ => rfl, fun x h => absurd rfl h, fun x => Nat.le_refl _⟩
  have hpv : ∀ x, par x = prv x := fun x => (hpar x).trans (hi.cur x)
  -- the edges of the sample lie within classes
  have hcls : ∀ c x y, LConn (edges G.n Ed0) x y → (P0 x = c ↔ P0 y = c) := by
    intro c x y hxy
    refine conn_le (s := fun x y => P0 x = c ↔ P0 y = c) ⟨fun _ => Iff.rfl, Iff.symm, Iff.trans⟩ (fun a b hab => ?_) hxy
    obtain ⟨hne, z, hz, he⟩ := mem_edges.1 hab
    obtain ⟨-, e1, e2⟩ := h0.edge z hz (by rw [he]; exact hne)
    rw [he] at e1 e2
    have : P0 a = P0 b := e1.trans e2.symm
    rw [this]
  have hconn0 : ∀ x y, LConn (edges G.n Ed0) x y → Conn (Adj G) x y := fun x y => conn_le q fun a b hab => by
    obtain ⟨hne, z, hz, he⟩ := mem_edges.1 hab
    have := (h0.edge z hz (by rw [he]; exact hne)).1
    rw [he] at this
    exact .rel _ _ this
  have hP0 : ∀ u v, u < G.n → v < G.n → P0 u = P0 v → Conn (Adj G) u v := fun u v hu hv he =>
    q.trans (hconn0 _ _ (h0.conn u hu)) (by rw [he]; exact q.symm (hconn0 _ _ (h0.conn v hv)))
  have hin : ∀ x y, x < G.n → Conn (Adj G) x y → y < G.n := by
    intro x y hx h
    by_cases hxy : x = y
    · omega
    · exact (conn_lt hG h hxy).2
  have hclosed : ∀ x y, Conn (Adj G) x y → prv x = prv y := fun x y =>
    conn_le (s := fun x y => prv x = prv y) ⟨fun _ => rfl, Eq.symm, Eq.trans⟩
      fun x y hxy => hi.edge x y hxy (by simp) (by simp)
  have hcc : ∀ u v, u < G.n → v < G.n → (prv u = prv v ↔ Conn (Adj G) u v) := by
    intro u v hu hv
    refine ⟨fun he => ?_, hclosed u v⟩
    obtain ⟨y, hy, ey⟩ := hi.sound u
    obtain ⟨z, hz, ez⟩ := hi.sound v
    exact q.trans hy (q.trans (hP0 y z (hin _ _ hu hy) (hin _ _ hv hz) (ey.symm.trans (he.trans ez))) (q.symm hz))
  -- the representative of the final label
  have hrep : ∀ x, x < G.n → rt (prv x) < G.n ∧ P0 (rt (prv x)) = prv x ∧ prv (rt (prv x)) = prv x ∧
      Ed (rt (prv x)) = empty := by
    intro x hx
    obtain ⟨y, hy, ey⟩ := hi.sound x
    have hyn := hin _ _ hx hy
    obtain ⟨r1, r2, r3⟩ := h0.rep y hyn
    have hc : Conn (Adj G) x (rt (P0 y)) := q.trans hy (hconn0 _ _ (h0.conn y hyn))
    have hp : prv (rt (P0 y)) = prv x := (hclosed _ _ hc).symm
    rw [ey]
    refine ⟨r1, r2, hp.trans ey, ?_⟩
    rw [hi.old _ (by rw [hp, ey, r2]), r3]
  have hnew : ∀ x, x < G.n → prv x ≠ P0 x → Ed x ≠ empty := by
    intro x hx hne he
    obtain ⟨y, y1, -, -⟩ := hi.new x hne
    rw [he] at y1
    have : (4294967295 : Nat) < G.n := (hlt _ _ y1).1
    omega
  have hconn : ∀ t x, T x < t → x < G.n → LConn (edges G.n Ed) x (rt (prv x)) := by
    intro t
    induction t with
    | zero => intro x h; omega
    | succ t ih =>
      intro x hT hx
      by_cases hp : prv x = P0 x
      · -- the class of the label is as it was
        have key : ∀ a b, LConn (edges G.n Ed0) a b → P0 a = P0 x → LConn (edges G.n Ed) a b := by
          intro a b hab
          refine (conn_le (s := fun a b => (P0 a = P0 x ↔ P0 b = P0 x) ∧ (P0 a = P0 x → LConn (edges G.n Ed) a b))
            ⟨fun a => ⟨Iff.rfl, fun _ => (le _).refl a⟩, fun h => ⟨h.1.symm, fun h' => (le _).symm (h.2 (h.1.2 h'))⟩,
              fun h h' => ⟨h.1.trans h'.1, fun h1 => (le _).trans (h.2 h1) (h'.2 (h.1.1 h1))⟩⟩
            (fun a b hab => ⟨hcls _ a b (.rel _ _ hab), fun ha => ?_⟩) hab).2
          obtain ⟨hne, z, hz, he⟩ := mem_edges.1 hab
          obtain ⟨-, e1, -⟩ := h0.edge z hz (by rw [he]; exact hne)
          rw [he] at e1
          have e1 : P0 a = P0 z := e1
          have hzx : Conn (Adj G) z x := hP0 z x hz hx (e1.symm.trans ha)
          have : prv z = P0 z := by rw [hclosed _ _ hzx, hp, ← ha, e1]
          exact .rel _ _ (mem_edges.2 ⟨hne, z, hz, by rw [hi.old z this]; exact he⟩)
        rw [hp]
        exact key _ _ (h0.conn x hx) rfl
      · obtain ⟨y, y1, y2, y3⟩ := hi.new x hp
        have hne := hnew x hx hp
        have hxy : Adj G x y := by
          rcases y2 with e | e
          · rw [e] at y1; exact y1
          · rw [e] at y1; exact hsym _ _ y1
        have hpe := hi.edge x y hxy (by simp) (by simp)
        have hTy : T y < T x := by
          rcases y3 with h | h
          · rw [hpe] at h; omega
          · exact h.2
        have := ih y (by omega) (hlt _ _ hxy).2
        rw [← hpe] at this
        refine (le _).trans ?_ this
        have hmem : Ed x ∈ edges G.n Ed := mem_edges.2 ⟨hne, x, hx, rfl⟩
        rcases y2 with e | e
        · rw [e] at hmem; exact .rel _ _ hmem
        · rw [e] at hmem; exact .symm _ _ (.rel _ _ hmem)
  refine ⟨isSF_of_count (fun x y hxy => hlt x y hxy) (fun e he => ?_) (fun x => rt (prv x)) (fun x hx => ⟨(hrep x hx).1, ?_⟩)
    (fun x hx => hconn _ x (Nat.lt_succ_self _) hx) (fun x y hxy => ?_) ?_, fun u v hu hv => ?_, hk⟩
  · obtain ⟨h1, x, h2, rfl⟩ := mem_edges.1 he
    by_cases hp : prv x = P0 x
    · rw [hi.old x hp] at h1 ⊢
      exact (h0.edge x h2 h1).1
    · obtain ⟨y, y1, -⟩ := hi.new x hp
      exact y1
  · show rt (prv (rt (prv x))) = _
    rw [(hrep x hx).2.2.1]
  · show rt (prv x) = rt (prv y)
    rw [hi.edge x y hxy (by simp) (by simp)]
  · rw [edges_eq]
    refine count_le _ _ fun x hx hne he => ?_
    have he : rt (prv x) = x := he
    have := (hrep x hx).2.2.2
    rw [he] at this
    rw [if_neg (by simp [this])] at hne
    exact hne rfl
  · rw [hpv, hpv]; exact hcc u v hu hv

theorem start_perm (G : Gr W) {P0 : Nat → Nat} (hP : ∀ u v, u < G.n → v < G.n → P0 u = P0 v → u = v) :
    ∃ rt, LStart G P0 (fun _ => empty) rt := by
  classical
  refine ⟨fun c => if h : ∃ x, x < G.n ∧ P0 x = c then h.choose else 0, fun x hx => ?_, fun x _ h => absurd rfl h, fun x hx => ?_⟩
  · have h : ∃ y, y < G.n ∧ P0 y = P0 x := ⟨x, hx, rfl⟩
    rw [dif_pos h]
    exact ⟨h.choose_spec.1, h.choose_spec.2, rfl⟩
  · have h : ∃ y, y < G.n ∧ P0 y = P0 x := ⟨x, hx, rfl⟩
    rw [dif_pos h, hP _ _ h.choose_spec.1 hx h.choose_spec.2]
    exact (lconn_equiv _).refl x

/-- C88: whatever the permutation, the traversals and the interleaving, `SpanningForest` returns a spanning forest, after at
most `n (n + 1) + 1` rounds. -/
theorem lp_sf {G : Gr W} (hG : G.Ok) (hsym : ∀ u v, Adj G u v → Adj G v u) (hn : G.n ≤ 4294967295) {P0 : Nat → Nat}
    (hlt : ∀ u, u < G.n → P0 u < G.n) (hP : ∀ u v, u < G.n → v < G.n → P0 u = P0 v → u = v) {k : Nat}
    {es : List (Nat × Nat)} (h : SpanningForest G P0 k es) : IsSF (Adj G) es ∧ k ≤ G.n * G.n + 1 := by
  obtain ⟨par, Ed, hc, rfl⟩ := h
  obtain ⟨rt, hs⟩ := start_perm G hP
  obtain ⟨h1, -, h3⟩ := lp_sf_sampled hG hsym hn hs hc
  refine ⟨h1, Nat.le_trans h3 ?_⟩
  have : pot G.n P0 ≤ G.n * G.n := by
    rw [pot]
    refine Nat.le_trans (Finset.sum_le_card_nsmul _ _ G.n fun x hx => ?_) (by simp)
    have hx := hlt x (Finset.mem_range.1 hx)
    unfold key
    split <;> omega
  omega

/-! ### Example -/

/-- A run on the graph of C71 from the identity. -/
example : ∃ k, SpanningForest exG (fun x => x) k [(3, 1), (3, 0), (4, 2)] := by
  refine ⟨_, _, _, ⟨_, .round 3 (by decide) (edgeMap_seq (activeEdges exG _) (mem_activeEdges exG_ok) rfl)
    (edgeMap_seq (activeEdges exG _) (mem_activeEdges exG_ok) rfl)
    (.round 3 (by decide) (edgeMap_seq (activeEdges exG _) (mem_activeEdges exG_ok) rfl)
      (edgeMap_seq (activeEdges exG _) (mem_activeEdges exG_ok) rfl) (.round 3 (by decide) (edgeMap_seq (activeEdges exG _) (mem_activeEdges exG_ok) rfl)
      (edgeMap_seq (activeEdges exG _) (mem_activeEdges exG_ok) rfl) (.done _ _ _))), fun _ => rfl⟩, ?_⟩
  decide +kernel

/-- A sample with one edge. -/
example : LStart exG (fun x => if x = 3 then 0 else x) (fun x => if x = 3 then (0, 3) else empty) (fun x => x) := by
  refine ⟨fun x hx => ?_, fun x hx hne => ?_, fun x hx => ?_⟩
  · have hx : x < 5 := hx
    interval_cases x <;> decide
  · by_cases h : x = 3
    · subst h
      exact ⟨⟨(), by decide⟩, rfl, rfl⟩
    · exact absurd (if_neg h) hne
  · by_cases h : x = 3
    · subst h
      exact .symm _ _ (.rel _ _ (by decide))
    · simp only [if_neg h]
      exact (lconn_equiv _).refl x

end Gbbs.LPSF
