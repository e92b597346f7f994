/-
C113: the randomised linking by rank of Jayanti, Tarjan and Boix-Adserà, `benchmarks/Connectivity/UnionFind/jayanti.h` and
`benchmarks/SpanningForest/UnionFind/jayanti.h` (the two differ only in that `link` of the latter records edges).
-/
import Verif.Algo.UFSample

namespace Gbbs.Jay

open Conc Conc.Prog Relation Comp SF UF
open Atomics (Steps)

set_option linter.unusedSectionVars false

/-! ### Model -/

/-- The memory is the array `vdatas`, a pair `(rank, par)` of 32-bit words for each vertex (`jayanti.h:13-15`). The fields are
read one by one; CAS works on both (8 bytes, `bridge.h:200-207`). -/
abbrev P (α : Type) : Type := Prog Nat (Nat × Nat) α

/-- `is_root`, `jayanti.h:29-31`: the top bit of the rank word. -/
def isRoot (w : Nat) : Bool := decide (w / 2 ^ 31 % 2 = 1)

/-- `get_rank`, `jayanti.h:33-35`. -/
def getRank (w : Nat) : Nat := w % 2 ^ 31

/-- `combine_root_rank`, `jayanti.h:24-27`, in 32 bits. -/
def combine (root : Bool) (rank : Nat) : Nat := ((if root then 2 ^ 31 else 0) + rank) % 2 ^ 32

/-- A copy of a `vdata` (`auto ud = vdatas[u]`): its members are volatile and copied one after the other, first `rank`. Other
threads may write in between. (If a compiler copies both at once, this is one of the interleavings.) -/
def copy {α : Type} (u : Nat) (k : Nat → Nat → P α) : P α := read u fun a => read u fun b => k a.1 b.2

/-- `link`, `jayanti.h:45-80` (`SpanningForest`: `46-91`). `bit` is `r.rand() & 1`. The result lists the vertex whose entry of
`Edges` the second version writes. (`Edges` is not read in this phase, so the write itself is accounted for in `Recorded`.) -/
def link (u v : Nat) (bit : Bool) : P (List Nat) :=
  copy u fun ur up => copy v fun vr vp =>
    if isRoot ur = false ∨ isRoot vr = false then ret []
    else if getRank ur < getRank vr then
      cas u (combine true (getRank ur), up) (combine false (getRank ur), v) fun b => ret (if b then [u] else [])
    else if getRank vr < getRank ur then
      cas v (combine true (getRank vr), vp) (combine false (getRank vr), u) fun b => ret (if b then [v] else [])
    else if u < v then
      cas u (combine true (getRank ur), up) (combine bit (getRank ur + 1), v) fun b => ret (if b && !bit then [u] else [])
    else
      cas v (combine true (getRank vr), vp) (combine bit (getRank vr + 1), u) fun b => ret (if b && !bit then [v] else [])

/-- `find`, `jayanti.h:82-90`. -/
def find : Nat → Nat → P Nat
  | 0, _ => stuck
  | f + 1, u => read u fun a => if isRoot a.1 then ret u else read u fun b => find f b.2

/-- `find_twotry_splitting`, `jayanti.h:92-129`. -/
def twoTry : Nat → Nat → P Nat
  | 0, _ => stuck
  | f + 1, u => read u fun a =>
    if isRoot a.1 then ret u
    else copy u fun ur v => copy v fun vr w =>
      if isRoot vr then ret v
      else cas u (combine false (getRank ur), v) (combine false (getRank ur), w) fun _ =>
        copy u fun ur v => copy v fun vr w =>
          if isRoot vr then ret v
          else cas u (combine false (getRank ur), v) (combine false (getRank ur), w) fun _ => twoTry f v

/-- The loop of `unite`, `jayanti.h:135-140`. `bits` are the random bits of the iterations, `hs` what `link` has recorded. -/
def loop (fnd : Nat → P Nat) : Nat → (Nat → Bool) → List Nat → Nat → Nat → P (List Nat)
  | 0, _, _, _, _ => stuck
  | f + 1, bits, hs, u, v =>
    if u = v then ret hs
    else (link u v (bits 0)).bind fun h => (fnd u).bind fun u' => (fnd v).bind fun v' =>
      loop fnd f (fun k => bits (k + 1)) (hs ++ h) u' v'

/-- `unite`, `jayanti.h:131-141`. -/
def unite (fnd : Nat → P Nat) (f : Nat) (bits : Nat → Bool) (x y : Nat) : P (List Nat) :=
  (fnd x).bind fun u => (fnd y).bind fun v => loop fnd f bits [] u v

/-- `initialize`, `jayanti.h:159-164`. -/
def initial (P0 : Nat → Nat) (i : Nat) : Nat × Nat := (combine (decide (i = P0 i)) 1, P0 i)

/-- The choices for `Find` (`ConnectIt/framework.h:88-97`). -/
inductive IsFind : (Nat → P Nat) → Prop
  | simple (f) : IsFind (find f)
  | twoTry (f) : IsFind (twoTry f)

/-- Random bits and find of a call of `unite`. -/
inductive IsUnite (x y : Nat) : P (List Nat) → Prop
  | mk {fnd} (h : IsFind fnd) (f bits) : IsUnite x y (unite fnd f bits x y)

/-- The array `Edges` after the first phase: at a vertex recorded by some calls, the edge of one of them. -/
def Recorded {ι : Type} (call : ι → Nat × Nat) (res : ι → List Nat) (Ed0 Ed : Nat → Nat × Nat) : Prop :=
  ∀ u, (∃ i, u ∈ res i ∧ Ed u = call i) ∨ (∀ i, u ∉ res i) ∧ Ed u = Ed0 u

/-- The calls of the first loop, `jayanti.h:183-209`: as `UF.Calls`, but with the smaller vertex first. -/
def Calls {ι : Type} (G : UG) (frq : Option Nat) (P0 : Nat → Nat) (call : ι → Nat × Nat) : Prop :=
  ∀ e, (∃ i, call i = e) ↔ e.1 < G.n ∧ e.2 ∈ G.nb e.1 ∧
    match frq with
    | some c => P0 e.1 ≠ c
    | none => e.1 < e.2

/-- Both phases of `compute_components` (`jayanti.h:166-219`) and `compute_spanning_forest`: the calls `th` run on the memory
set up by `initialize`, then `parents[i] = find(i, vdatas)` for all `i`; `parents` is not read in this phase. -/
structure Phases {ι : Type} [DecidableEq ι] (n : Nat) (P0 : Nat → Nat) (th : ι → P (List Nat)) (res : ι → List Nat)
    (lab : Nat → Nat) where
  c1 : Conf ι Nat (Nat × Nat) (List Nat)
  run1 : Steps Step ⟨initial P0, th⟩ c1
  done1 : ∀ i, c1.th i = .ret (res i)
  fnd : Nat → Nat → P Nat
  isFind : ∀ i, IsFind (fnd i)
  c2 : Conf (Fin n) Nat (Nat × Nat) Nat
  run2 : Steps Step ⟨c1.mem, fun i : Fin n => fnd i i⟩ c2
  done2 : ∀ i : Fin n, c2.th i = .ret (lab i)

/-! ### Words -/

theorem combine_true {r : Nat} (h : r < 2 ^ 31) : combine true r = 2 ^ 31 + r := by
  simp only [combine, if_true]
  exact Nat.mod_eq_of_lt (by omega)

theorem combine_false {r : Nat} (h : r < 2 ^ 31) : combine false r = r := by
  simp only [combine]
  rw [if_neg (by decide), Nat.zero_add]
  exact Nat.mod_eq_of_lt (by omega)

theorem isRoot_lt {w : Nat} (h : w < 2 ^ 31) : isRoot w = false := by
  rw [isRoot, Nat.div_eq_of_lt h]; rfl

theorem isRoot_add {r : Nat} (h : r < 2 ^ 31) : isRoot (2 ^ 31 + r) = true := by
  rw [isRoot]
  have : (2 ^ 31 + r) / 2 ^ 31 = 1 := by omega
  rw [this]; rfl

theorem getRank_add {r : Nat} (h : r < 2 ^ 31) : getRank (2 ^ 31 + r) = r := by
  rw [getRank]; omega

theorem getRank_lt (w : Nat) : getRank w < 2 ^ 31 := Nat.mod_lt _ (by decide)

/-! ### Ghost state: the forest of links, and the rank of each vertex (for a linked vertex, when it was linked) -/

variable {κ : Type} [DecidableEq κ]

structure JG (κ : Type) where
  g : Gh κ
  kr : Nat → Nat

/-- The order of the links: by rank, then by number. -/
def Lx (kr : Nat → Nat) (x y : Nat) : Prop := kr x < kr y ∨ kr x = kr y ∧ x < y

structure JInv (n : Nat) (call : κ → Nat × Nat) (γ : JG κ) (m : Nat → Nat × Nat) : Prop where
  lt : ∀ x, γ.g.link x ≠ x → x < n ∧ γ.g.link x < n ∧ Lx γ.kr x (γ.g.link x)
  bd : ∀ x, x < n → γ.kr x + x ≤ n
  root : ∀ x, x < n → γ.g.link x = x → (m x).1 = 2 ^ 31 + γ.kr x
  leaf : ∀ x, x < n → γ.g.link x ≠ x → (m x).1 < 2 ^ 31 ∧ Anc γ.g (γ.g.link x) (m x).2
  own_iff : ∀ x, γ.g.own x = none ↔ γ.g.link x = x
  own_inj : ∀ x y i, γ.g.own x = some i → γ.g.own y = some i → x = y
  recd : ∀ x, EqvGen (Rec call γ.g) x (γ.g.link x)

def JR (fz : Prop) (i : κ) (γ γ' : JG κ) : Prop :=
  Ext γ.g γ'.g ∧ (∀ x, γ'.g.own x = some i → γ.g.own x = some i) ∧ (∀ x, γ.kr x ≤ γ'.kr x) ∧ (fz → γ'.g.link = γ.g.link)

def JGu (fz : Prop) (i : κ) (γ γ' : JG κ) : Prop :=
  Ext γ.g γ'.g ∧ (∀ x, γ'.g.own x = γ.g.own x ∨ γ'.g.own x = some i) ∧ (∀ x, γ.kr x ≤ γ'.kr x) ∧ (fz → γ'.g.link = γ.g.link)

theorem JGu.refl (fz : Prop) (i : κ) (γ : JG κ) : JGu fz i γ γ :=
  ⟨Ext.refl _, fun _ => .inl rfl, fun _ => Nat.le_refl _, fun _ => rfl⟩

/-- The conditions; in the last phase (`fz`) nothing is linked. -/
def rg (n : Nat) (call : κ → Nat × Nat) (fz : Prop) : RG κ (JG κ) Nat (Nat × Nat) where
  Inv := JInv n call
  R := JR fz
  Gu := JGu fz
  refl _ γ := ⟨Ext.refl _, fun _ h => h, fun _ => Nat.le_refl _, fun _ => rfl⟩
  trans _ _ _ _ h1 h2 := ⟨h1.1.trans h2.1, fun x h => h1.2.1 x (h2.2.1 x h), fun x => Nat.le_trans (h1.2.2.1 x) (h2.2.2.1 x),
    fun hz => (h2.2.2.2 hz).trans (h1.2.2.2 hz)⟩
  compat i j g g' hne h := ⟨h.1, fun x hx => by
      rcases h.2.1 x with h1 | h1
      · rw [← h1]; exact hx
      · rw [h1] at hx; exact absurd (Option.some.inj hx) hne, h.2.2⟩

variable {n : Nat} {call : κ → Nat × Nat} {fz : Prop} {i : κ} {γ : JG κ} {m : Nat → Nat × Nat}

theorem JInv.anc_lt (h : JInv n call γ m) {a b : Nat} (ha : Anc γ.g a b) (hd : a < n) : b < n := by
  induction ha with
  | refl => exact hd
  | tail _ h1 ih => rw [← h1.1]; exact (h.lt _ (by rw [h1.1]; exact Ne.symm h1.2)).2.1

theorem JInv.small (hn : n < 2 ^ 31) (h : JInv n call γ m) {x : Nat} (hx : x < n) : γ.kr x < 2 ^ 31 := by
  have := h.bd x hx; omega

/-- The root bit tells the roots. -/
theorem JInv.isRoot_iff (hn : n < 2 ^ 31) (h : JInv n call γ m) {x : Nat} (hx : x < n) :
    isRoot (m x).1 = true ↔ γ.g.link x = x := by
  by_cases hl : γ.g.link x = x
  · rw [h.root x hx hl, isRoot_add (h.small hn hx)]; simp [hl]
  · rw [isRoot_lt (h.leaf x hx hl).1]; simp [hl]

theorem JInv.anc_par (h : JInv n call γ m) {x : Nat} (hx : x < n) (hl : γ.g.link x ≠ x) : Anc γ.g x (m x).2 :=
  ReflTransGen.head ⟨rfl, fun e => hl e.symm⟩ (h.leaf x hx hl).2

/-- A successful CAS of the finds. -/
theorem JInv.split (h : JInv n call γ m) {u v w : Nat} {r : Nat} (hu : u < n) (hl : γ.g.link u ≠ u)
    (hr : r < 2 ^ 31) (hm : m u = (combine false r, v)) (hvw : Anc γ.g v w) :
    JInv n call γ (put m u (combine false r, w)) := by
  refine ⟨h.lt, h.bd, fun x hx hlx => ?_, fun x hx hlx => ?_, h.own_iff, h.own_inj, h.recd⟩
  · rw [put_ne _ _ (fun e : x = u => hl (e ▸ hlx))]; exact h.root x hx hlx
  · by_cases hxu : x = u
    · subst hxu
      rw [put_same]
      have := h.leaf x hx hlx
      rw [hm] at this
      exact ⟨this.1, this.2.trans hvw⟩
    · rw [put_ne _ _ hxu]; exact h.leaf x hx hlx

/-- A successful CAS of `link` that only raises the rank. -/
theorem JInv.raise (h : JInv n call γ m) {u v : Nat} (hl : γ.g.link u = u) (hb : γ.kr u + 1 + u ≤ n) (hn : n < 2 ^ 31) :
    JInv n call ⟨γ.g, fun x => if x = u then γ.kr u + 1 else γ.kr x⟩ (put m u (combine true (γ.kr u + 1), v)) := by
  refine ⟨fun x hx => ?_, fun x hx => ?_, fun x hx hlx => ?_, fun x hx hlx => ?_, h.own_iff, h.own_inj, h.recd⟩
  · obtain ⟨h1, h2, h3⟩ := h.lt x hx
    have hxu : x ≠ u := fun e => hx (e ▸ hl)
    refine ⟨h1, h2, ?_⟩
    simp only [Lx, if_neg hxu] at h3 ⊢
    split
    · rename_i he; rw [he] at h3; omega
    · exact h3
  · dsimp only; split
    · rename_i he; subst he; exact hb
    · exact h.bd x hx
  · dsimp only; split
    · rename_i he; subst he
      rw [put_same]
      exact combine_true (by omega)
    · rename_i he; rw [put_ne _ _ he]; exact h.root x hx hlx
  · rw [put_ne _ _ (fun e : x = u => hlx (e ▸ hl))]; exact h.leaf x hx hlx

/-- A successful CAS of `link` that links `u` to `v`. -/
theorem JInv.hook (h : JInv n call γ m) {u v w : Nat} (hl : γ.g.link u = u) (hu : u < n) (hv : v < n)
    (hx : Lx γ.kr u v) (hw : w < 2 ^ 31) (hno : ∀ x, γ.g.own x ≠ some i)
    (hab : (Anc γ.g (call i).1 u ∧ Anc γ.g (call i).2 v) ∨ (Anc γ.g (call i).2 u ∧ Anc γ.g (call i).1 v)) :
    JInv n call ⟨γ.g.hook i u v, γ.kr⟩ (put m u (w, v)) := by
  have hne : v ≠ u := fun e => by subst e; simp [Lx] at hx
  have hext := hook_ext (i := i) (v := v) hl
  have hownu : (γ.g.hook i u v).own u = some i := by simp [Gh.hook]
  have hlinku : (γ.g.hook i u v).link u = v := by simp [Gh.hook]
  have hlink : ∀ x, x ≠ u → (γ.g.hook i u v).link x = γ.g.link x := fun x hx => by simp [Gh.hook, hx]
  have hown : ∀ x, x ≠ u → (γ.g.hook i u v).own x = γ.g.own x := fun x hx => by simp [Gh.hook, hx]
  have hrecm : ∀ a b, Rec call γ.g a b → Rec call (γ.g.hook i u v) a b := by
    rintro a b ⟨x, j, h1, h2⟩
    refine ⟨x, j, ?_, h2⟩
    rw [hown x ?_, h1]
    intro hx
    rw [hx, (h.own_iff u).2 hl] at h1; cases h1
  refine ⟨fun x hxl => ?_, h.bd, fun x hxn hlx => ?_, fun x hxn hlx => ?_, fun x => ?_, fun x y j hx hy => ?_, fun x => ?_⟩
  · by_cases hxu : x = u
    · subst hxu; exact ⟨hu, by rw [hlinku]; exact hv, by rw [hlinku]; exact hx⟩
    · dsimp only at hxl ⊢; rw [hlink x hxu] at hxl ⊢; exact h.lt x hxl
  · by_cases hxu : x = u
    · subst hxu; exact absurd (hlinku.symm.trans hlx) hne
    · dsimp only at hlx ⊢; rw [hlink x hxu] at hlx; rw [put_ne _ _ hxu]; exact h.root x hxn hlx
  · by_cases hxu : x = u
    · subst hxu
      rw [put_same]
      refine ⟨hw, ?_⟩
      dsimp only; rw [hlinku]; exact .refl
    · dsimp only at hlx ⊢; rw [hlink x hxu] at hlx ⊢; rw [put_ne _ _ hxu]
      exact ⟨(h.leaf x hxn hlx).1, (h.leaf x hxn hlx).2.mono hext⟩
  · dsimp only
    by_cases hx : x = u
    · subst hx; rw [hlinku, hownu]; simpa using hne
    · rw [hlink x hx, hown x hx]; exact h.own_iff x
  · dsimp only at hx hy
    by_cases hxu : x = u
    · by_cases hyu : y = u
      · rw [hxu, hyu]
      · rw [hown y hyu] at hy; rw [hxu, hownu] at hx
        rw [← hx] at hy; exact absurd hy (hno y)
    · rw [hown x hxu] at hx
      by_cases hyu : y = u
      · rw [hyu, hownu] at hy; rw [← hy] at hx; exact absurd hx (hno x)
      · rw [hown y hyu] at hy; exact h.own_inj x y j hx hy
  · dsimp only
    by_cases hxu : x = u
    · subst hxu
      rw [hlinku]
      have key : ∀ {a b : Nat}, Anc γ.g a b → EqvGen (Rec call (γ.g.hook i x v)) a b :=
        fun hab => EqvGen.mono hrecm _ _ (anc_rec h.recd hab)
      have own' : EqvGen (Rec call (γ.g.hook i x v)) (call i).1 (call i).2 :=
        EqvGen.rel _ _ ⟨x, i, hownu, rfl⟩
      rcases hab with ⟨h1, h2⟩ | ⟨h1, h2⟩
      · exact (((key h1).symm).trans _ _ _ own').trans _ _ _ (key h2)
      · exact (((key h1).symm).trans _ _ _ own'.symm).trans _ _ _ (key h2)
    · rw [hlink x hxu]; exact EqvGen.mono hrecm _ _ (h.recd x)

theorem hook_gu {u v : Nat} (hl : γ.g.link u = u) : JGu False i γ ⟨γ.g.hook i u v, γ.kr⟩ := by
  refine ⟨hook_ext hl, fun x => ?_, fun _ => Nat.le_refl _, fun h => h.elim⟩
  simp only [Gh.hook]; split
  · exact Or.inr rfl
  · exact Or.inl rfl

/-! ### The finds -/

variable {α : Type} {Post : JG κ → α → Prop}

theorem safe_read {x : Nat} {k : Nat × Nat → P α}
    (h : ∀ γ' m, JR fz i γ γ' → JInv n call γ' m → Safe (rg n call fz) i Post (k (m x)) γ') :
    Safe (rg n call fz) i Post (read x k) γ :=
  fun γ' m hr hi => ⟨γ', JGu.refl _ _ _, hi, h γ' m hr hi⟩

theorem JR.trans' {γ γ' γ'' : JG κ} (h1 : JR fz i γ γ') (h2 : JR fz i γ' γ'') : JR fz i γ γ'' :=
  (rg 0 (fun _ => (0, 0)) fz).trans i _ _ _ h1 h2

theorem JR.nonroot {γ γ' : JG κ} (h : JR fz i γ γ') {x : Nat} (hx : γ.g.link x ≠ x) : γ'.g.link x ≠ x := by
  rw [(h.1 x hx).1]; exact hx

/-- What is known of a vertex whose `rank` and then `par` have been read. -/
theorem safe_copy (hn : n < 2 ^ 31) {x : Nat} (hx : x < n) {k : Nat → Nat → P α}
    (h : ∀ γ1 γ2 m1 m2, JR fz i γ γ1 → JInv n call γ1 m1 → JR fz i γ1 γ2 → JInv n call γ2 m2 →
      (isRoot (m1 x).1 = true ↔ γ1.g.link x = x) → (γ1.g.link x ≠ x → Anc γ2.g x (m2 x).2) →
      Safe (rg n call fz) i Post (k (m1 x).1 (m2 x).2) γ2) :
    Safe (rg n call fz) i Post (copy x k) γ := by
  refine safe_read fun γ1 m1 h1 i1 => safe_read fun γ2 m2 h2 i2 => ?_
  exact h γ1 γ2 m1 m2 h1 i1 h2 i2 (i1.isRoot_iff hn hx) fun hl => i2.anc_par hx (h2.nonroot hl)

/-- What a find started in `γ0` returns: an ancestor, and the root when nothing is linked any more. -/
def FPost (n : Nat) (fz : Prop) (i : κ) (γ0 : JG κ) (x : Nat) (γ : JG κ) (r : Nat) : Prop :=
  JR fz i γ0 γ ∧ Anc γ.g x r ∧ r < n ∧ (fz → γ.g.link r = r)

theorem fpost_ret {γ0 : JG κ} {x r : Nat} (h0 : JR fz i γ0 γ) (h : Anc γ.g x r) (hr : r < n) (hz : fz → γ.g.link r = r) :
    Safe (rg n call fz) i (FPost n fz i γ0 x) (ret r) γ := by
  intro γ' hr'
  exact ⟨h0.trans' hr', h.mono hr'.1, hr, fun z => by rw [hr'.2.2.2 z]; exact hz z⟩

theorem weaken_anc {γ0 : JG κ} {p : P Nat} {x y : Nat} (h0 : JR fz i γ0 γ) (hxy : Anc γ.g x y)
    (h : Safe (rg n call fz) i (FPost n fz i γ y) p γ) : Safe (rg n call fz) i (FPost n fz i γ0 x) p γ :=
  h.weaken fun _ _ hp => ⟨h0.trans' hp.1, (hxy.mono hp.1.1).trans hp.2.1, hp.2.2⟩

theorem find_spec (hn : n < 2 ^ 31) (f : Nat) : ∀ (u : Nat) (γ : JG κ), u < n →
    Safe (rg n call fz) i (FPost n fz i γ u) (find f u) γ := by
  induction f with
  | zero => intro u γ _; trivial
  | succ f ih =>
    intro u γ hu
    refine safe_read fun γ1 m1 h1 i1 => ?_
    split
    · rename_i h
      exact fpost_ret h1 .refl hu fun _ => (i1.isRoot_iff hn hu).1 h
    · rename_i h
      have hl : γ1.g.link u ≠ u := fun e => h ((i1.isRoot_iff hn hu).2 e)
      refine safe_read fun γ2 m2 h2 i2 => ?_
      have ha := i2.anc_par hu (h2.nonroot hl)
      exact weaken_anc (h1.trans' h2) ha (ih _ γ2 (i2.anc_lt ha hu))

/-- One CAS of `find_twotry_splitting`. -/
theorem safe_split {u v w r : Nat} {k : Bool → P α} (hu : u < n) (hl : γ.g.link u ≠ u) (hvw : Anc γ.g v w)
    (hr : r < 2 ^ 31) (h : ∀ b γ', JR fz i γ γ' → Safe (rg n call fz) i Post (k b) γ') :
    Safe (rg n call fz) i Post (cas u (combine false r, v) (combine false r, w) k) γ := by
  intro γ' m hR hi
  exact ⟨fun he => ⟨γ', JGu.refl _ _ _, hi.split hu (hR.nonroot hl) hr he (hvw.mono hR.1), h true γ' hR⟩,
    fun _ => ⟨γ', JGu.refl _ _ _, hi, h false γ' hR⟩⟩

theorem twoTry_spec (hn : n < 2 ^ 31) (f : Nat) : ∀ (u : Nat) (γ : JG κ), u < n →
    Safe (rg n call fz) i (FPost n fz i γ u) (twoTry f u) γ := by
  induction f with
  | zero => intro u γ _; trivial
  | succ f ih =>
    intro u γ hu
    refine safe_read fun γ1 m1 h1 i1 => ?_
    split
    · rename_i h
      exact fpost_ret h1 .refl hu fun _ => (i1.isRoot_iff hn hu).1 h
    · rename_i h
      have hl : γ1.g.link u ≠ u := fun e => h ((i1.isRoot_iff hn hu).2 e)
      -- one try: read `u` and its parent, return the parent if it is a root, or split
      have try1 : ∀ (γ1 : JG κ) (k : Nat → P Nat), JR fz i γ γ1 → γ1.g.link u ≠ u →
          (∀ v γ', v < n → JR fz i γ γ' → Anc γ'.g u v → γ'.g.link u ≠ u →
            Safe (rg n call fz) i (FPost n fz i γ u) (k v) γ') →
          Safe (rg n call fz) i (FPost n fz i γ u) (copy u fun ur v => copy v fun vr w => if isRoot vr then ret v
            else cas u (combine false (getRank ur), v) (combine false (getRank ur), w) fun _ => k v) γ1 := by
        intro γ1 k h1 hl hk
        refine safe_copy hn hu fun γ2 γ3 m2 m3 h2 i2 h3 i3 _ ha => ?_
        have ha := ha (h2.nonroot hl)
        have hl3 := h3.nonroot (h2.nonroot hl)
        have hv := i3.anc_lt ha hu
        refine safe_copy hn hv fun γ4 γ5 m4 m5 h4 i4 h5 i5 hroot hw => ?_
        have h05 := h1.trans' (h2.trans' (h3.trans' (h4.trans' h5)))
        split
        · rename_i hr
          exact fpost_ret h05 ((ha.mono h4.1).mono h5.1) hv fun hz => by rw [h5.2.2.2 hz]; exact hroot.1 hr
        · rename_i hr
          have hlv : γ4.g.link (m3 u).2 ≠ (m3 u).2 := fun e => hr (hroot.2 e)
          refine safe_split hu (h5.nonroot (h4.nonroot hl3)) (hw hlv) (getRank_lt _) fun _ γ6 h6 => ?_
          exact hk _ γ6 hv (h05.trans' h6) (((ha.mono h4.1).mono h5.1).mono h6.1) (h6.nonroot (h5.nonroot (h4.nonroot hl3)))
      refine try1 γ1 (fun _ => copy u fun ur v => copy v fun vr w => if isRoot vr then ret v
            else cas u (combine false (getRank ur), v) (combine false (getRank ur), w) fun _ => twoTry f v) h1 hl
        fun _ γ' _ h' _ hl' => try1 γ' (twoTry f) h' hl' fun v γ'' hv h'' ha _ => weaken_anc h'' ha (ih v γ'' hv)

theorem IsFind.spec (hn : n < 2 ^ 31) {fnd : Nat → P Nat} (h : IsFind fnd) {u : Nat} {γ : JG κ} (hu : u < n) :
    Safe (rg n call fz) i (FPost n fz i γ u) (fnd u) γ := by
  cases h with
  | simple f => exact find_spec hn f u γ hu
  | twoTry f => exact twoTry_spec hn f u γ hu

/-! ### `link` and `unite` -/

/-- What the call has done so far: nothing, or one link, after which its current vertices are in the same tree. -/
def Done (i : κ) (γ : JG κ) (hs : List Nat) (u v : Nat) : Prop :=
  (hs = [] ∧ ∀ x, γ.g.own x ≠ some i) ∨ ∃ w, hs = [w] ∧ γ.g.own w = some i ∧ γ.g.link w ≠ w ∧ Same γ.g u v

/-- The two ends of the call. -/
def At (call : κ → Nat × Nat) (i : κ) (n : Nat) (γ : JG κ) (u v : Nat) : Prop :=
  Anc γ.g (call i).1 u ∧ Anc γ.g (call i).2 v ∧ u < n ∧ v < n

theorem Done.mono {γ γ' : JG κ} {hs : List Nat} {u v : Nat} (h : Done i γ hs u v) (hr : JR fz i γ γ') : Done i γ' hs u v := by
  rcases h with ⟨h1, h2⟩ | ⟨w, h1, h2, h3, h4⟩
  · exact .inl ⟨h1, fun x hx => h2 x (hr.2.1 x hx)⟩
  · exact .inr ⟨w, h1, by rw [(hr.1 w h3).2]; exact h2, hr.nonroot h3, h4.mono hr.1⟩

theorem At.mono {γ γ' : JG κ} {u v : Nat} (h : At call i n γ u v) (hr : JR fz i γ γ') : At call i n γ' u v :=
  ⟨h.1.mono hr.1, h.2.1.mono hr.1, h.2.2⟩

theorem Done.anc {hs : List Nat} {u v u' v' : Nat} (h : Done i γ hs u v) (hu : Anc γ.g u u') (hv : Anc γ.g v v') :
    Done i γ hs u' v' := by
  rcases h with h | ⟨w, h1, h2, h3, h4⟩
  · exact .inl h
  · exact .inr ⟨w, h1, h2, h3, same_trans (same_of_anc hu).symm (same_trans h4 (same_of_anc hv))⟩

/-- After `link`. -/
def LPost (call : κ → Nat × Nat) (i : κ) (n : Nat) (hs : List Nat) (u v : Nat) (γ : JG κ) (h : List Nat) : Prop :=
  At call i n γ u v ∧ Done i γ (hs ++ h) u v

theorem lpost_ret {hs h : List Nat} {u v : Nat} (ha : At call i n γ u v) (hd : Done i γ (hs ++ h) u v) :
    Safe (rg n call False) i (LPost call i n hs u v) (ret h) γ :=
  fun _ hr => ⟨ha.mono hr, hd.mono hr⟩

/-- The CAS of `link`: `a` is to be linked to `b`. -/
theorem link_cas (hn : n < 2 ^ 31) {hs : List Nat} {u v a b ra rb pa w : Nat} {bit : Bool} {γ2 : JG κ}
    (hat : At call i n γ2 u v) (hno : ∀ x, γ2.g.own x ≠ some i) (hs0 : hs = [])
    (hab : a = u ∧ b = v ∨ a = v ∧ b = u) (hra : ra + a ≤ n) (hrb : rb ≤ γ2.kr b) (hlx : ra < rb ∨ ra = rb ∧ a < b)
    (hw : w = combine bit (if bit then ra + 1 else getRank w)) (hwl : bit = false → w < 2 ^ 31)
    (hbit : bit = true → ra + 1 + a ≤ n) :
    Safe (rg n call False) i (LPost call i n hs u v) (cas a (combine true ra, pa) (w, b)
      fun ok => ret (if ok && !bit then [a] else [])) γ2 := by
  intro γ3 m3 h3 i3
  have hat3 := hat.mono h3
  have hno3 : ∀ x, γ3.g.own x ≠ some i := fun x hx => hno x (h3.2.1 x hx)
  have han : a < n := by rcases hab with ⟨rfl, rfl⟩ | ⟨rfl, rfl⟩ <;> [exact hat.2.2.1; exact hat.2.2.2]
  have hbn : b < n := by rcases hab with ⟨rfl, rfl⟩ | ⟨rfl, rfl⟩ <;> [exact hat.2.2.2; exact hat.2.2.1]
  have hsm : ra < 2 ^ 31 := by omega
  refine ⟨fun he => ?_, fun he => ⟨γ3, JGu.refl _ _ _, i3, ?_⟩⟩
  · have hroot : γ3.g.link a = a := by
      rw [← i3.isRoot_iff hn han, he, combine_true hsm]; exact isRoot_add hsm
    have hkr : γ3.kr a = ra := by
      have := i3.root a han hroot
      rw [he, combine_true hsm] at this
      omega
    cases bit with
    | true =>
      refine ⟨⟨γ3.g, fun x => if x = a then γ3.kr a + 1 else γ3.kr x⟩, ⟨Ext.refl _, fun _ => .inl rfl, fun x => ?_, fun h => h.elim⟩,
        ?_, ?_⟩
      · dsimp only; split
        · rename_i hx; rw [hx]; omega
        · exact Nat.le_refl _
      · rw [hw, if_pos rfl, ← hkr]
        exact i3.raise hroot (by rw [hkr]; exact hbit rfl) hn
      · exact lpost_ret ⟨hat3.1, hat3.2.1, hat3.2.2⟩ (.inl ⟨by rw [hs0]; rfl, hno3⟩)
    | false =>
      refine ⟨⟨γ3.g.hook i a b, γ3.kr⟩, hook_gu hroot, i3.hook hroot han hbn ?_ (hwl rfl) hno3 ?_, ?_⟩
      · have := h3.2.2.1 b
        rw [Lx, hkr]; omega
      · rcases hab with ⟨rfl, rfl⟩ | ⟨rfl, rfl⟩
        · exact .inl ⟨hat3.1, hat3.2.1⟩
        · exact .inr ⟨hat3.2.1, hat3.1⟩
      · have hne : b ≠ a := by rintro rfl; have := h3.2.2.1 b; omega
        have hstep : Anc (γ3.g.hook i a b) a b := .single ⟨by simp [Gh.hook], hne.symm⟩
        have hext := hook_ext (i := i) (v := b) hroot
        refine lpost_ret ⟨hat3.1.mono hext, hat3.2.1.mono hext, hat3.2.2⟩ (.inr ⟨a, by rw [hs0]; rfl, by simp [Gh.hook],
          by simp [Gh.hook, hne], ?_⟩)
        rcases hab with ⟨rfl, rfl⟩ | ⟨rfl, rfl⟩
        · exact same_of_anc hstep
        · exact (same_of_anc hstep).symm
  · exact lpost_ret hat3 (.inl ⟨by rw [hs0]; rfl, hno3⟩)

theorem link_spec (hn : n < 2 ^ 31) {hs : List Nat} {u v : Nat} (hne : u ≠ v) (bit : Bool) (hat : At call i n γ u v)
    (hd : Done i γ hs u v) : Safe (rg n call False) i (LPost call i n hs u v) (link u v bit) γ := by
  obtain ⟨-, -, hu, hv⟩ := id hat
  refine safe_copy hn hu fun γ1 γ2 m1 m2 h1 i1 h2 i2 hru _ => ?_
  refine safe_copy hn hv fun γ3 γ4 m3 m4 h3 i3 h4 i4 hrv _ => ?_
  have h14 : JR False i γ1 γ4 := h2.trans' (h3.trans' h4)
  have hat4 := (hat.mono h1).mono h14
  have hd4 := (hd.mono h1).mono h14
  have hnone : Safe (rg n call False) i (LPost call i n hs u v) (ret []) γ4 := lpost_ret hat4 (by rw [List.append_nil]; exact hd4)
  split
  · exact hnone
  · rename_i hroots
    have hur : isRoot (m1 u).1 = true := by simpa using fun h => hroots (.inl h)
    have hvr : isRoot (m3 v).1 = true := by simpa using fun h => hroots (.inr h)
    have hlu := hru.1 hur
    have hlv := hrv.1 hvr
    -- nothing has been linked by this call yet: otherwise `u` and `v` would be two roots of the same tree
    have hno : hs = [] ∧ ∀ x, γ4.g.own x ≠ some i := by
      rcases hd4 with h | ⟨w, e1, _⟩
      · exact h
      · exfalso
        rcases hd.mono h1 with ⟨e2, _⟩ | ⟨w', _, _, _, r, ha, hb⟩
        · rw [e2] at e1; cases e1
        · have hur : r = u := by
            by_contra hc
            exact nonroot_of_anc ha hc hlu
          subst hur
          exact ((h3.nonroot (h2.nonroot (nonroot_of_anc hb hne)))) hlv
    have eu : (m1 u).1 = 2 ^ 31 + γ1.kr u := i1.root u hu hlu
    have ev : (m3 v).1 = 2 ^ 31 + γ3.kr v := i3.root v hv hlv
    have su := i1.small hn hu
    have sv := i3.small hn hv
    rw [eu, ev, getRank_add su, getRank_add sv]
    have b1 := i1.bd u hu
    have b3 := i3.bd v hv
    have k14 := h14.2.2.1 u
    have k34 := h4.2.2.1 v
    split
    · rename_i hlt
      have := link_cas (pa := (m2 u).2) (bit := false) hn hat4 hno.2 hno.1 (.inl ⟨rfl, rfl⟩) b1 k34 (.inl hlt)
        (w := combine false (γ1.kr u)) (by
          rw [combine_false su]; simp only [Bool.false_eq_true, if_false]
          rw [getRank, Nat.mod_eq_of_lt su, combine_false su]) (by rw [combine_false su]; exact fun _ => su) (by simp)
      simpa using this
    · split
      · rename_i hlt
        have := link_cas (pa := (m4 v).2) (bit := false) hn hat4 hno.2 hno.1 (.inr ⟨rfl, rfl⟩) b3 k14 (.inl hlt)
          (w := combine false (γ3.kr v)) (by
            rw [combine_false sv]; simp only [Bool.false_eq_true, if_false]
            rw [getRank, Nat.mod_eq_of_lt sv, combine_false sv]) (by rw [combine_false sv]; exact fun _ => sv) (by simp)
        simpa using this
      · have heq : γ1.kr u = γ3.kr v := by omega
        split
        · rename_i hlt
          have hs1 : γ1.kr u + 1 < 2 ^ 31 := by omega
          refine link_cas (pa := (m2 u).2) (bit := bit) hn hat4 hno.2 hno.1 (.inl ⟨rfl, rfl⟩) b1 k34 (.inr ⟨heq, hlt⟩) ?_ ?_
            (fun _ => by omega)
          · cases bit
            · rw [combine_false hs1]; simp only [Bool.false_eq_true, if_false]
              rw [getRank, Nat.mod_eq_of_lt hs1, combine_false hs1]
            · rfl
          · rintro rfl; rw [combine_false hs1]; exact hs1
        · rename_i hlt
          have hvu : v < u := by omega
          have hs1 : γ3.kr v + 1 < 2 ^ 31 := by omega
          refine link_cas (pa := (m4 v).2) (bit := bit) hn hat4 hno.2 hno.1 (.inr ⟨rfl, rfl⟩) b3 k14 (.inr ⟨heq.symm, hvu⟩) ?_ ?_
            (fun _ => by omega)
          · cases bit
            · rw [combine_false hs1]; simp only [Bool.false_eq_true, if_false]
              rw [getRank, Nat.mod_eq_of_lt hs1, combine_false hs1]
            · rfl
          · rintro rfl; rw [combine_false hs1]; exact hs1

/-- After `unite`. -/
def UPost (call : κ → Nat × Nat) (i : κ) (γ : JG κ) (hs : List Nat) : Prop :=
  Same γ.g (call i).1 (call i).2 ∧
    ((hs = [] ∧ ∀ x, γ.g.own x ≠ some i) ∨ ∃ w, hs = [w] ∧ γ.g.own w = some i ∧ γ.g.link w ≠ w)

theorem loop_spec (hn : n < 2 ^ 31) {fnd : Nat → P Nat} (hf : IsFind fnd) (f : Nat) :
    ∀ (bits : Nat → Bool) (hs : List Nat) (u v : Nat) (γ : JG κ), At call i n γ u v → Done i γ hs u v →
    Safe (rg n call False) i (UPost call i) (loop fnd f bits hs u v) γ := by
  induction f with
  | zero => intros; trivial
  | succ f ih =>
    intro bits hs u v γ hat hd
    rw [loop]
    split
    · rename_i h
      subst h
      intro γ' hr
      have hat := hat.mono hr
      refine ⟨⟨u, hat.1, hat.2.1⟩, ?_⟩
      rcases hd.mono hr with h | ⟨w, h1, h2, h3, -⟩
      · exact .inl h
      · exact .inr ⟨w, h1, h2, h3⟩
    · rename_i hne
      refine (link_spec hn hne (bits 0) hat hd).bind fun h γ1 ⟨hat1, hd1⟩ => ?_
      refine (hf.spec hn hat1.2.2.1).bind fun u' γ2 ⟨r2, a2, n2, _⟩ => ?_
      refine (hf.spec hn hat1.2.2.2).bind fun v' γ3 ⟨r3, a3, n3, _⟩ => ?_
      have hat3 := (hat1.mono r2).mono r3
      have a2' := a2.mono r3.1
      exact ih _ _ _ _ γ3 ⟨hat3.1.trans a2', hat3.2.1.trans a3, n2, n3⟩ (((hd1.mono r2).mono r3).anc a2' a3)

theorem IsUnite.safe (hn : n < 2 ^ 31) {p : P (List Nat)} (h : IsUnite (call i).1 (call i).2 p)
    (hd : (call i).1 < n ∧ (call i).2 < n) (hno : ∀ x, γ.g.own x ≠ some i) :
    Safe (rg n call False) i (UPost call i) p γ := by
  cases h with
  | mk hf f bits =>
    refine (hf.spec hn hd.1).bind fun u γ1 ⟨r1, a1, n1, _⟩ => ?_
    refine (hf.spec hn hd.2).bind fun v γ2 ⟨r2, a2, n2, _⟩ => ?_
    exact loop_spec hn hf f _ _ _ _ γ2 ⟨a1.mono r2.1, a2, n1, n2⟩ (.inl ⟨rfl, fun x hx => hno x (r1.2.1 x (r2.2.1 x hx))⟩)

/-! ### The start -/

variable {ι : Type} [DecidableEq ι]

theorem steps_lift (P0 : Nat → Nat) {c c' : Conf ι Nat (Nat × Nat) (List Nat)} (h : Steps Step c c') :
    Steps Step (⟨c.mem, Sum.elim c.th fun x => ret [x.1]⟩ : Conf (ι ⊕ Lf P0) Nat (Nat × Nat) (List Nat))
      ⟨c'.mem, Sum.elim c'.th fun x => ret [x.1]⟩ := by
  induction h with
  | refl => exact .refl _
  | tail _ hs ih =>
    obtain ⟨i, m', p', h1, rfl⟩ := hs
    refine ih.tail ⟨.inl i, m', p', h1, ?_⟩
    congr 1
    funext j
    cases j with
    | inl j => by_cases h : j = i <;> simp [h]
    | inr j => simp

/-- The ghost state of `initialize`. -/
def start (P0 : Nat → Nat) : JG (ι ⊕ Lf P0) := ⟨gS P0, fun x => if P0 x = x then 1 else 0⟩

theorem start_inv {G : UG} {P0 : Nat → Nat} (hst : SV.Start G P0) (call : ι → Nat × Nat) :
    JInv G.n (callS call P0) (start P0) (initial P0) := by
  refine ⟨fun x hx => ?_, fun x hx => ?_, fun x hx hl => ?_, fun x hx hl => ?_, fun x => ?_, fun x y i hx hy => ?_, fun x => ?_⟩
  · have hx : P0 x ≠ x := hx
    have hxn : x < G.n := Nat.lt_of_not_le fun h => hx (hst.out _ h)
    refine ⟨hxn, hst.lt x hxn, ?_⟩
    show Lx (fun x => if P0 x = x then 1 else 0) x (P0 x)
    refine .inl ?_
    dsimp only
    rw [if_neg hx, if_pos (hst.flat x)]; decide
  · show (if P0 x = x then 1 else 0) + x ≤ G.n
    split <;> omega
  · have hl : P0 x = x := hl
    show combine (decide (x = P0 x)) 1 = 2 ^ 31 + (if P0 x = x then 1 else 0)
    rw [if_pos hl, decide_eq_true hl.symm]; rfl
  · have hl : P0 x ≠ x := hl
    refine ⟨?_, .refl⟩
    show combine (decide (x = P0 x)) 1 < 2 ^ 31
    rw [decide_eq_false (Ne.symm hl)]; decide
  · simp only [start, gS]
    split <;> simp_all
  · simp only [start, gS] at hx hy
    split at hx
    · cases hx
    · split at hy
      · cases hy
      · cases hx; cases hy; rfl
  · show EqvGen _ x (P0 x)
    by_cases h : P0 x = x
    · rw [h]; exact .refl _
    · exact .rel _ _ ⟨x, .inr ⟨x, h⟩, by simp [start, gS, h], rfl⟩

theorem start_post {P0 : Nat → Nat} (call : ι → Nat × Nat) (x : Lf P0) :
    Safe (rg n (callS call P0) False) (.inr x) (UPost (callS call P0) (.inr x)) (ret [x.1]) (start P0) := by
  intro γ' hr
  have h1 : (start P0 : JG (ι ⊕ Lf P0)).g.link x.1 ≠ x.1 := x.2
  refine ⟨Same.mono hr.1 ⟨P0 x.1, .single ⟨rfl, fun e => x.2 e.symm⟩, .refl⟩, .inr ⟨x.1, rfl, ?_, hr.nonroot h1⟩⟩
  rw [(hr.1 x.1 h1).2]
  simp [start, gS, x.2]

/-! ### Calls -/

theorem calls_cover {G : UG} (hG : G.Sym) {frq : Option Nat} {P0 : Nat → Nat} {call : ι → Nat × Nat} (hc : Calls G frq P0 call)
    {u v : Nat} (h : SV.Adj G u v) : (∃ i, call i = (u, v)) ∨ (∃ i, call i = (v, u)) ∨ P0 u = P0 v := by
  have hb := hG.bound u v h
  have hvu := SV.UG_symm hG h
  cases frq with
  | none =>
    rcases Nat.lt_trichotomy u v with hlt | rfl | hlt
    · exact .inl ((hc (u, v)).2 ⟨hb.1, h, hlt⟩)
    · exact .inr (.inr rfl)
    · exact .inr (.inl ((hc (v, u)).2 ⟨hb.2, hvu, hlt⟩))
  | some c =>
    by_cases hu : P0 u = c
    · by_cases hv : P0 v = c
      · exact .inr (.inr (hu.trans hv.symm))
      · exact .inr (.inl ((hc (v, u)).2 ⟨hb.2, hvu, hv⟩))
    · exact .inl ((hc (u, v)).2 ⟨hb.1, h, hu⟩)

theorem calls_adj {G : UG} {frq : Option Nat} {P0 : Nat → Nat} {call : ι → Nat × Nat} (hc : Calls G frq P0 call) (i : ι) :
    SV.Adj G (call i).1 (call i).2 := ((hc (call i)).1 ⟨i, rfl⟩).2.1

/-! ### Both phases -/

/-- The forest at the end, and the labels in it. -/
structure Final (G : UG) (P0 : Nat → Nat) (call : ι → Nat × Nat) (res : ι → List Nat) (lab : Nat → Nat) (g : Gh (ι ⊕ Lf P0)) :
    Prop where
  recd : ∀ x, EqvGen (Rec (callS call P0) g) x (g.link x)
  own_iff : ∀ x, g.own x = none ↔ g.link x = x
  lt : ∀ x, g.link x ≠ x → x < G.n
  same : ∀ i, Same g (callS call P0 i).1 (callS call P0 i).2
  res_iff : ∀ i x, x ∈ res i ↔ g.own x = some (.inl i)
  leaf : ∀ x : Lf P0, g.own x.1 = some (.inr x)
  leaf_inj : ∀ (x : Lf P0) y, g.own y = some (.inr x) → y = x.1
  lab : ∀ x, x < G.n → Anc g x (lab x) ∧ lab x < G.n ∧ g.link (lab x) = lab x

theorem Phases.final {G : UG} (hn : G.n < 2 ^ 31) {P0 : Nat → Nat} {call : ι → Nat × Nat}
    (hb : ∀ i, (call i).1 < G.n ∧ (call i).2 < G.n) (hst : SV.Start G P0) {th : ι → P (List Nat)} (hth : ∀ i, IsUnite (call i).1 (call i).2 (th i))
    {res : ι → List Nat} {lab : Nat → Nat} (h : Phases G.n P0 th res lab) : ∃ g, Final G P0 call res lab g := by
  obtain ⟨γ, h1, -, h2⟩ := safe_reach (rg G.n (callS call P0) False) (UPost (callS call P0)) (steps_lift P0 h.run1) (start P0)
    (start_inv hst call) (fun i => by
      cases i with
      | inl i => exact IsUnite.safe (call := callS call P0) (i := Sum.inl i) hn (hth i) (hb i) (noownS i)
      | inr x => exact start_post call x)
  have h1 : JInv G.n (callS call P0) γ h.c1.mem := h1
  have p1 : ∀ i, UPost (callS call P0) (.inl i) γ (res i) := fun i => h2 (.inl i) _ (h.done1 i)
  have p2 : ∀ x : Lf P0, UPost (callS call P0) (.inr x) γ [x.1] := fun x => h2 (.inr x) _ rfl
  have leaf : ∀ x : Lf P0, γ.g.own x.1 = some (.inr x) := fun x => by
    rcases (p2 x).2 with ⟨h', -⟩ | ⟨w, h', h3, -⟩
    · cases h'
    · cases h'; exact h3
  -- the last phase: the threads are numbered by vertices, nobody owns anything
  have key : ∀ i : Fin G.n, Anc γ.g i (lab i) ∧ lab i < G.n ∧ γ.g.link (lab i) = lab i := by
    let γ' : JG (Fin G.n ⊕ (ι ⊕ Lf P0)) := ⟨⟨γ.g.link, fun x => (γ.g.own x).map .inr, fun _ => none⟩, γ.kr⟩
    have hlk : ∀ {a b : Nat}, Anc γ'.g a b → Anc γ.g a b := fun h => ReflTransGen.mono (fun _ _ h => h) _ _ h
    have hlk' : ∀ {a b : Nat}, Anc γ.g a b → Anc γ'.g a b := fun h => ReflTransGen.mono (fun _ _ h => h) _ _ h
    let call' : Fin G.n ⊕ (ι ⊕ Lf P0) → Nat × Nat := Sum.elim (fun _ => (0, 0)) (callS call P0)
    have hi' : JInv G.n call' γ' h.c1.mem := by
      refine ⟨h1.lt, h1.bd, h1.root, fun x hx hl => ⟨(h1.leaf x hx hl).1, hlk' (h1.leaf x hx hl).2⟩, fun x => ?_, fun x y i hx hy => ?_,
        fun x => EqvGen.mono ?_ _ _ (h1.recd x)⟩
      · rw [← h1.own_iff x]; simp [γ']
      · simp only [γ', Option.map_eq_some_iff] at hx hy
        obtain ⟨a, ha, rfl⟩ := hx
        obtain ⟨b, hb, hab⟩ := hy
        cases hab
        exact h1.own_inj x y _ ha hb
      · rintro a b ⟨x, i, hx, hab⟩
        exact ⟨x, .inr i, by simp [γ', hx], hab⟩
    have hrun : Steps Step (⟨h.c1.mem, Sum.elim (fun i : Fin G.n => h.fnd i i) fun _ => stuck⟩ :
        Conf (Fin G.n ⊕ (ι ⊕ Lf P0)) Nat (Nat × Nat) Nat) ⟨h.c2.mem, Sum.elim h.c2.th fun _ => stuck⟩ := by
      have : ∀ {c c' : Conf (Fin G.n) Nat (Nat × Nat) Nat}, Steps Step c c' →
          Steps Step (⟨c.mem, Sum.elim c.th fun _ => stuck⟩ : Conf (Fin G.n ⊕ (ι ⊕ Lf P0)) Nat (Nat × Nat) Nat)
            ⟨c'.mem, Sum.elim c'.th fun _ => stuck⟩ := by
        intro c c' hs
        induction hs with
        | refl => exact .refl _
        | tail _ hs ih =>
          obtain ⟨i, m', p', k1, rfl⟩ := hs
          refine ih.tail ⟨.inl i, m', p', k1, ?_⟩
          congr 1
          funext j
          cases j with
          | inl j => by_cases h : j = i <;> simp [h]
          | inr j => simp
      exact this h.run2
    intro i
    obtain ⟨γ2, -, -, h3⟩ := safe_reach (rg G.n call' True)
      (fun i => Sum.elim (fun j : Fin G.n => FPost G.n True (.inl j) γ' j) (fun _ _ _ => True) i) hrun γ' hi' (fun i => by
        cases i with
        | inl i => exact (h.isFind i).spec hn i.2
        | inr x => trivial)
    obtain ⟨k1, k2, k3, k4⟩ := h3 (.inl i) (lab i) (h.done2 i)
    have hl : γ2.g.link = γ.g.link := k1.2.2.2 trivial
    refine ⟨ReflTransGen.mono (fun a b hab => ?_) _ _ k2, k3, by rw [← hl]; exact k4 trivial⟩
    exact ⟨by rw [← hl]; exact hab.1, hab.2⟩
  refine ⟨γ.g, h1.recd, h1.own_iff, fun x hx => (h1.lt x hx).1, fun i => ?_, fun i x => ?_, leaf, fun x y hy => h1.own_inj _ _ _ hy (leaf x),
    fun x hx => key ⟨x, hx⟩⟩
  · cases i with
    | inl i => exact (p1 i).1
    | inr x => exact (p2 x).1
  · rcases (p1 i).2 with ⟨e1, e2⟩ | ⟨w, e1, e2, -⟩
    · rw [e1]; simp [e2 x]
    · rw [e1, List.mem_singleton]
      exact ⟨fun e => e ▸ e2, fun e => h1.own_inj _ _ _ e e2⟩

/-- Labels in the forest are equal within its trees. -/
theorem Final.lab_iff {G : UG} {P0 : Nat → Nat} {call : ι → Nat × Nat} {res : ι → List Nat} {lab : Nat → Nat} {g : Gh (ι ⊕ Lf P0)}
    (h : Final G P0 call res lab g) {x y : Nat} (hx : x < G.n) (hy : y < G.n) : lab x = lab y ↔ Same g x y := by
  obtain ⟨ax, -, rx⟩ := h.lab x hx
  obtain ⟨ay, -, ry⟩ := h.lab y hy
  constructor
  · intro e; exact ⟨lab x, ax, e ▸ ay⟩
  · rintro ⟨r, h1, h2⟩
    have up : ∀ {z l : Nat}, Anc g z l → g.link l = l → Anc g z r → Anc g r l := by
      intro z l hl hr hz
      rcases anc_total hz hl with h | h
      · exact h
      · have : r = l := by
          by_contra hc
          exact nonroot_of_anc h hc hr
        rw [this]; exact .refl
    exact anc_root (up ax rx h1) (up ay ry h2) rx ry

theorem Final.isCC {G : UG} (hG : G.Sym) {frq : Option Nat} {P0 : Nat → Nat} {call : ι → Nat × Nat} (hc : Calls G frq P0 call)
    (hst : SV.Start G P0) {res : ι → List Nat} {lab : Nat → Nat} {g : Gh (ι ⊕ Lf P0)} (h : Final G P0 call res lab g) :
    IsCC G.n (SV.Adj G) lab := by
  intro x y hx hy
  rw [h.lab_iff hx hy]
  constructor
  · rintro ⟨r, h1, h2⟩
    refine eqvGen_le (conn_equiv _) ?_ ((anc_rec h.recd h1).trans _ _ _ (anc_rec h.recd h2).symm)
    rintro a b ⟨_, i, -, hab⟩
    cases i with
    | inl i =>
      have := calls_adj hc i
      have h' : call i = (a, b) := hab
      rw [h'] at this
      exact .rel _ _ this
    | inr z =>
      cases hab
      exact hst.sound _
  · have heq : Equivalence (Same g) := ⟨fun x => ⟨x, .refl, .refl⟩, Same.symm, same_trans⟩
    have hP : ∀ z, Same g z (P0 z) := fun z => by
      by_cases h' : P0 z = z
      · rw [h']; exact heq.refl z
      · exact h.same (.inr ⟨z, h'⟩)
    refine conn_le heq fun a b hab => ?_
    rcases calls_cover hG hc hab with ⟨i, h'⟩ | ⟨i, h'⟩ | h'
    · have := h.same (.inl i)
      rw [callS, Sum.elim_inl, h'] at this; exact this
    · have := h.same (.inl i)
      rw [callS, Sum.elim_inl, h'] at this; exact this.symm
    · exact heq.trans (hP a) (h' ▸ heq.symm (hP b))

/-- C113: whatever the random bits, the finds and the interleaving, with or without sampling, the labels of
`compute_components` are those of the components. -/
theorem jayanti_components {G : UG} (hG : G.Sym) (hn : G.n < 2 ^ 31) {frq : Option Nat} {P0 : Nat → Nat} (hst : SV.Start G P0)
    {call : ι → Nat × Nat} (hc : Calls G frq P0 call) {th : ι → P (List Nat)} (hth : ∀ i, IsUnite (call i).1 (call i).2 (th i))
    {res : ι → List Nat} {lab : Nat → Nat} (h : Phases G.n P0 th res lab) : IsCC G.n (SV.Adj G) lab := by
  obtain ⟨g, hg⟩ := h.final hn (fun i => hG.bound _ _ (calls_adj hc i)) hst hth
  exact hg.isCC hG hc hst

/-- C113: any calls of `unite` on separate vertices, in any interleaving (for instance batch after batch, `process_batch`,
`jayanti.h:221-243`): finds afterwards agree exactly for vertices connected by the pairs of the calls. -/
theorem jayanti_calls {n : Nat} (hn : n < 2 ^ 31) {call : ι → Nat × Nat} (hb : ∀ i, (call i).1 < n ∧ (call i).2 < n)
    {th : ι → P (List Nat)} (hth : ∀ i, IsUnite (call i).1 (call i).2 (th i)) {res : ι → List Nat} {lab : Nat → Nat}
    (h : Phases n (fun x => x) th res lab) {x y : Nat} (hx : x < n) (hy : y < n) :
    lab x = lab y ↔ EqvGen (Issued call) x y := by
  obtain ⟨g, hg⟩ := Phases.final (G := ⟨n, fun _ => []⟩) hn hb
    ⟨fun _ h => h, fun _ => rfl, fun x => (conn_equiv _).refl x, fun _ _ => rfl⟩ hth h
  rw [hg.lab_iff hx hy]
  constructor
  · rintro ⟨r, h1, h2⟩
    refine EqvGen.mono ?_ _ _ ((anc_rec hg.recd h1).trans _ _ _ (anc_rec hg.recd h2).symm)
    rintro a b ⟨_, i, -, hab⟩
    cases i with
    | inl i => exact ⟨i, hab⟩
    | inr z => exact absurd rfl z.2
  · have heq : Equivalence (Same g) := ⟨fun x => ⟨x, .refl, .refl⟩, Same.symm, same_trans⟩
    refine eqvGen_le heq ?_
    rintro a b ⟨i, hi⟩
    have := hg.same (.inl i)
    rw [callS, Sum.elim_inl, hi] at this; exact this

/-- C113: the edges recorded by `compute_spanning_forest` are a spanning forest, and every call records at most one vertex. -/
theorem jayanti_forest {G : UG} (hG : G.Sym) (hn : G.n < 2 ^ 31) {frq : Option Nat} {P0 : Nat → Nat} {Ed0 Ed : Nat → Nat × Nat}
    (hst : SVSF.FStart G P0 Ed0) {call : ι → Nat × Nat} (hc : Calls G frq P0 call) {th : ι → P (List Nat)}
    (hth : ∀ i, IsUnite (call i).1 (call i).2 (th i)) {res : ι → List Nat} {lab : Nat → Nat} (h : Phases G.n P0 th res lab)
    (hE : Recorded call res Ed0 Ed) : IsSF (SV.Adj G) (SVSF.edges G.n Ed) := by
  obtain ⟨g, hg⟩ := h.final hn (fun i => hG.bound _ _ (calls_adj hc i)) hst.start hth
  have hcc := hg.isCC hG hc hst.start
  have hne : ∀ i, call i ≠ SVSF.empty := fun i he => by
    have := (hG.bound _ _ (calls_adj hc i)).1
    rw [he] at this
    have : 4294967295 < G.n := this
    omega
  have hkeep : ∀ u, P0 u ≠ u → Ed u = Ed0 u := fun u hu => by
    rcases hE u with ⟨i, hr, -⟩ | ⟨-, hr⟩
    · have h1 := (hg.res_iff i u).1 hr
      rw [hg.leaf ⟨u, hu⟩] at h1; cases h1
    · exact hr
  have hsub : ∀ e ∈ SVSF.edges G.n Ed0, e ∈ SVSF.edges G.n Ed := by
    intro e he
    obtain ⟨k1, x, hx, rfl⟩ := SVSF.mem_edges.1 he
    exact SVSF.mem_edges.2 ⟨k1, x, hx, hkeep x (hst.edge x hx k1).2⟩
  have hmem : ∀ i u, g.own u = some (.inl i) → call i ∈ SVSF.edges G.n Ed := by
    intro i u hu
    have hun : u < G.n := hg.lt u fun e => by rw [(hg.own_iff u).2 e] at hu; cases hu
    rcases hE u with ⟨j, hj, hEd⟩ | ⟨hr, -⟩
    · have := (hg.res_iff j u).1 hj
      rw [hu] at this; cases this
      exact SVSF.mem_edges.2 ⟨hne _, u, hun, hEd⟩
    · exact absurd ((hg.res_iff i u).2 hu) (hr i)
  have q := lconn_equiv (SVSF.edges G.n Ed)
  refine isSF_of_count (fun x y hxy => hG.bound x y hxy) (fun e he => ?_) lab (fun x hx => ⟨(hg.lab x hx).2.1, ?_⟩) (fun x hx => ?_)
    (fun x y hxy => (hcc x y (hG.bound x y hxy).1 (hG.bound x y hxy).2).2 (.rel _ _ hxy)) ?_
  · obtain ⟨k1, x, hx, rfl⟩ := SVSF.mem_edges.1 he
    rcases hE x with ⟨i, -, hEd⟩ | ⟨-, hEd⟩
    · rw [hEd]; exact calls_adj hc i
    · rw [hEd] at k1 ⊢; exact (hst.edge x hx k1).1
  · obtain ⟨a, b, c⟩ := hg.lab x hx
    exact ((hg.lab_iff hx b).2 (same_of_anc a)).symm
  · refine eqvGen_le q ?_ (anc_rec hg.recd (hg.lab x hx).1)
    rintro a b ⟨u, i, k1, k2⟩
    cases i with
    | inl i =>
      have k2 : call i = (a, b) := k2
      exact .rel _ _ (k2 ▸ hmem i u k1)
    | inr z =>
      cases k2
      exact lconn_mono hsub (hst.conn z.1 (Nat.lt_of_not_le fun h => z.2 (hst.start.out _ h)))
  · rw [SVSF.edges_eq]
    refine count_le _ lab fun x hx hne' hl => hne' ?_
    have hp : g.link x = x := by have := (hg.lab x hx).2.2; rwa [hl] at this
    have ho := (hg.own_iff x).2 hp
    rcases hE x with ⟨i, hr, -⟩ | ⟨-, hEd⟩
    · rw [(hg.res_iff i x).1 hr] at ho; cases ho
    · rw [if_neg fun hcn => ?_]
      rw [hEd] at hcn
      have := hg.leaf ⟨x, (hst.edge x hx hcn).2⟩
      rw [ho] at this; cases this

/-- C113: at every moment of the first phase, the rank of a root `x` is at most `n - x`, so that ranks never reach the root bit. -/
theorem jayanti_rank {G : UG} (hG : G.Sym) (hn : G.n < 2 ^ 31) {frq : Option Nat} {P0 : Nat → Nat} (hst : SV.Start G P0)
    {call : ι → Nat × Nat} (hc : Calls G frq P0 call) {th : ι → P (List Nat)} (hth : ∀ i, IsUnite (call i).1 (call i).2 (th i))
    {c : Conf ι Nat (Nat × Nat) (List Nat)} (h : Steps Step ⟨initial P0, th⟩ c) {x : Nat} (hx : x < G.n)
    (hr : isRoot (c.mem x).1 = true) : (c.mem x).1 < 2 ^ 32 ∧ getRank (c.mem x).1 + x ≤ G.n := by
  obtain ⟨γ, h1, -, -⟩ := safe_reach (rg G.n (callS call P0) False) (UPost (callS call P0)) (steps_lift P0 h) (start P0)
    (start_inv hst call) (fun i => by
      cases i with
      | inl i => exact IsUnite.safe (call := callS call P0) (i := Sum.inl i) hn (hth i) (hG.bound _ _ (calls_adj hc i)) (noownS i)
      | inr x => exact start_post call x)
  have h1 : JInv G.n (callS call P0) γ c.mem := h1
  have hs := h1.small hn hx
  have hw := h1.root x hx ((h1.isRoot_iff hn hx).1 hr)
  rw [hw, getRank_add hs]
  exact ⟨by omega, h1.bd x hx⟩

/-- The calls on the sample of `UFSample.lean` (clusters `{0, 1, 2}` and `{3, 5}`), as required above. -/
theorem sCalls' : Calls sG (some 0) sP sCall := sCalls

/-- Random bits that raise the rank first. -/
def sBits (k : Nat) : Bool := decide (k = 0)

/-- A run on that sample: the first call first raises the rank of 0 and then links 5 to 0, and records its edge at 5. -/
example : ∃ (res : Fin 3 → List Nat) (lab : Nat → Nat) (Ed : Nat → Nat × Nat),
    Nonempty (Phases sG.n sP (fun i : Fin 3 => unite (twoTry 9) 9 sBits (sCall i).1 (sCall i).2) res lab) ∧
    (∀ i : Fin 3, IsUnite (sCall i).1 (sCall i).2 (unite (twoTry 9) 9 sBits (sCall i).1 (sCall i).2)) ∧
    Recorded sCall res sEd Ed ∧ (List.range 6).map lab = [0, 0, 0, 0, 4, 0] ∧
    SVSF.edges sG.n Ed = [(0, 1), (0, 2), (5, 3), (3, 2)] := by
  refine ⟨![[5], [], []], fun x => if x = 4 then 4 else 0, fun x => if x = 5 then (3, 2) else sEd x,
    ⟨⟨run _ (List.replicate 60 0 ++ List.replicate 60 1 ++ List.replicate 60 2), run_steps _ _, ?_, fun _ => find 9, fun _ => .simple 9,
      run _ ((List.range 6).flatMap fun i => List.replicate 20 (Fin.ofNat 6 i : Fin 6)), run_steps _ _, ?_⟩⟩,
      fun i => .mk (.twoTry 9) 9 sBits, ?_, rfl, by decide⟩
  · intro i
    match i with
    | 0 => rfl
    | 1 => rfl
    | 2 => rfl
  · show ∀ i : Fin 6, _
    intro i
    match i with
    | 0 => rfl
    | 1 => rfl
    | 2 => rfl
    | 3 => rfl
    | 4 => rfl
    | 5 => rfl
  · intro u
    by_cases hu : u = 5
    · exact .inl ⟨0, by rw [hu]; exact List.mem_singleton.2 rfl, by rw [hu]; rfl⟩
    · refine .inr ⟨fun i hi => ?_, if_neg hu⟩
      match i with
      | 0 => exact hu (List.mem_singleton.1 hi)
      | 1 => cases hi
      | 2 => cases hi

end Gbbs.Jay
