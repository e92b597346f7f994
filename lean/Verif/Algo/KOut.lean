/-
C72: k-out sampling, `benchmarks/Connectivity/ConnectIt/sampling.h`.
-/
import Verif.Conc.Par
import Verif.Algo.SV
import Verif.Algo.LabelProp

namespace Gbbs.KOut

open Conc Conc.Prog Comp
open Atomics (Steps)

/-! ### Model -/

/-- `while (p1 != p2)`, `sampling.h:124-134`; at most `f` iterations are considered. The subtraction in `low` is
modulo `2^32`. -/
def linkLoop : Nat → Nat → Nat → Prog Nat Nat Unit
  | 0, _, _ => stuck
  | f + 1, p1, p2 =>
    if p1 = p2 then ret () else
      let high := if p1 > p2 then p1 else p2
      let low := (p1 + (p2 + 4294967296 - high) % 4294967296) % 4294967296
      read high fun ph =>
        if ph = low then ret () else
          let next := read high fun q => read q fun p1 => read low fun p2 => linkLoop f p1 p2
          if ph = high then cas high high low fun b => if b then ret () else next else next

/-- `link(u, v, parents)`, `sampling.h:106-135`. -/
def link (f u v : Nat) : Prog Nat Nat Unit := read u fun p1 => read v fun p2 => linkLoop f p1 p2

/-- One round, `sampling.h:151-189`: some vertices link to a neighbour each (`pick`: whichever the round selects, the
`r`-th or a random one), then all vertices are compressed. -/
def Round (n : Nat) (adj : Nat → Nat → Prop) (m m' : Nat → Nat) : Prop :=
  ∃ (f f2 : Nat) (pick : Nat → Option Nat) (m1 : Nat → Nat) (o1 : Nat → Unit) (o2 : Nat → Option Nat),
    (∀ u v, pick u = some v → u < n ∧ adj u v) ∧
    Par (fun u => match pick u with | none => ret () | some v => link f u v) m m1 o1 ∧
    Par (fun u => if decide (u < n) then compress f2 u else ret none) m1 m' o2 ∧ ∀ u, u < n → ∃ r, o2 u = some r

/-- The rounds of `initial_components`, `sampling.h:138-192` (also `_pure`, 264-301, and `_afforest`,
304-337); their number is `k`. -/
inductive Sample (n : Nat) (adj : Nat → Nat → Prop) : Nat → (Nat → Nat) → Prop
  | init : Sample n adj 0 fun x => x
  | round {k m m'} (h : Sample n adj k m) (hr : Round n adj m m') : Sample n adj (k + 1) m'

/-! ### Proof -/

/-- Labels only decrease and stay in the component. -/
def Ok (n : Nat) (adj : Nat → Nat → Prop) (m : Nat → Nat) : Prop := ∀ x, m x ≤ x ∧ Conn adj x (m x) ∧ (n ≤ x → m x = x)

def kRG (n : Nat) (adj : Nat → Nat → Prop) : RG Nat (Nat → Nat) Nat Nat where
  Inv g m := g = m ∧ Ok n adj m
  R _ _ _ := True
  Gu _ _ _ := True
  refl _ _ := trivial
  trans _ _ _ _ _ _ := trivial
  compat _ _ _ _ _ _ := trivial

variable {n : Nat} {adj : Nat → Nat → Prop}

theorem linkLoop_safe (hn : n ≤ 4294967296) (i f : Nat) {p1 p2 : Nat} (h1 : p1 < n) (h2 : p2 < n) (hc : Conn adj p1 p2)
    (g : Nat → Nat) : Safe (kRG n adj) i (fun _ _ => True) (linkLoop f p1 p2) g := by
  induction f generalizing p1 p2 g with
  | zero => trivial
  | succ f ih =>
    rw [linkLoop]
    by_cases he : p1 = p2
    · rw [if_pos he]; exact fun _ _ => trivial
    · rw [if_neg he]
      have hlow : (p1 + (p2 + 4294967296 - (if p1 > p2 then p1 else p2)) % 4294967296) % 4294967296 = min p1 p2 := by
        split <;> omega
      have hhigh : (if p1 > p2 then p1 else p2) = max p1 p2 := by split <;> omega
      simp only []
      rw [hlow, hhigh]
      have hcl : Conn adj (max p1 p2) (min p1 p2) := by
        rcases Nat.le_total p1 p2 with h | h
        · rw [Nat.max_eq_right h, Nat.min_eq_left h]; exact (conn_equiv _).symm hc
        · rw [Nat.max_eq_left h, Nat.min_eq_right h]; exact hc
      have hlt : min p1 p2 < max p1 p2 := by omega
      have hmn : max p1 p2 < n := by omega
      generalize max p1 p2 = high at *
      generalize min p1 p2 = low at *
      have hnext : ∀ g, Safe (kRG n adj) i (fun _ _ => True)
          (read high fun q => read q fun p1 => read low fun p2 => linkLoop f p1 p2) g := by
        intro g
        rintro g1 m1 _ ⟨rfl, k1⟩
        refine ⟨g1, trivial, ⟨rfl, k1⟩, ?_⟩
        rintro g2 m2 _ ⟨rfl, k2⟩
        refine ⟨g2, trivial, ⟨rfl, k2⟩, ?_⟩
        rintro g3 m3 _ ⟨rfl, k3⟩
        refine ⟨g3, trivial, ⟨rfl, k3⟩, ?_⟩
        have a1 := k1 high
        have a2 := k2 (g1 high)
        have a3 := k3 low
        refine ih (by omega) (by omega) ?_ _
        have q := conn_equiv adj
        exact q.trans (q.symm (q.trans a1.2.1 a2.2.1)) (q.trans hcl a3.2.1)
      rintro g1 m1 _ ⟨rfl, k1⟩
      refine ⟨g1, trivial, ⟨rfl, k1⟩, ?_⟩
      beta_reduce
      split
      · exact fun _ _ => trivial
      · split
        · rintro g2 m2 _ ⟨rfl, k2⟩
          refine ⟨fun _ => ⟨_, trivial, ⟨rfl, fun x => ?_⟩, fun _ _ => trivial⟩, fun _ => ⟨g2, trivial, ⟨rfl, k2⟩, hnext g2⟩⟩
          by_cases hx : x = high
          · subst hx
            rw [put_same]
            exact ⟨by omega, hcl, fun h => by omega⟩
          · rw [put_ne _ _ hx]; exact k2 x
        · exact hnext g1

theorem link_par (hn : n ≤ 4294967296) (hlt : ∀ u v, adj u v → v < n) {f : Nat} {pick : Nat → Option Nat}
    (hp : ∀ u v, pick u = some v → u < n ∧ adj u v) {m m1 : Nat → Nat} {o : Nat → Unit} (hm : Ok n adj m)
    (h : Par (fun u => match pick u with | none => ret () | some v => link f u v) m m1 o) : Ok n adj m1 := by
  obtain ⟨g, ⟨rfl, hi⟩, -⟩ := safe_reach (kRG n adj) (fun _ _ _ => True) h m ⟨rfl, hm⟩ fun u => by
    show Safe _ _ _ (match pick u with | none => ret () | some v => link f u v) _
    split
    · exact fun _ _ => trivial
    · rename_i v hv
      obtain ⟨hu, ha⟩ := hp u v hv
      rintro g1 m1 _ ⟨rfl, k1⟩
      refine ⟨g1, trivial, ⟨rfl, k1⟩, ?_⟩
      rintro g2 m2 _ ⟨rfl, k2⟩
      refine ⟨g2, trivial, ⟨rfl, k2⟩, ?_⟩
      have q := conn_equiv adj
      have a1 := k1 u
      have a2 := k2 v
      have := hlt u v ha
      exact linkLoop_safe hn u f (by omega) (by omega) (q.trans (q.symm a1.2.1) (q.trans (.rel _ _ ha) a2.2.1)) _
  exact hi

theorem round_ok (hn : n ≤ 4294967296) (hlt : ∀ u v, adj u v → v < n) {m m' : Nat → Nat} (hm : Ok n adj m)
    (h : Round n adj m m') : Ok n adj m' ∧ Start n adj m' := by
  obtain ⟨f, f2, pick, m1, o1, o2, hp, h1, h2, h3⟩ := h
  have k1 := link_par hn hlt hp hm h1
  have hrk : Ranked (fun x => x) m1 := fun x => by
    have := (k1 x).1
    rcases Nat.lt_or_ge (m1 x) x with h | h
    · exact .inr h
    · exact .inl (by omega)
  obtain ⟨rt, hrt⟩ := hrk.isRoot
  obtain ⟨c1, -, c3⟩ := compress_par hrk hrt f2 (fun u => decide (u < n)) h2
  have heq : ∀ x, m' x = rt x := by
    intro x
    by_cases hx : x < n
    · obtain ⟨r, hr⟩ := h3 x hx
      exact (c1 x (by simpa using hx) r hr).1
    · have h := (k1 x).2.2 (by omega)
      rw [c3 x (by simpa using hx), h, hrt.of_root h]
  have hpath : ∀ x, rt x ≤ x ∧ Conn adj x (rt x) := by
    intro x
    obtain ⟨k, hk⟩ := hrt.path x
    rw [hk]
    refine SV.iter_inv (S := fun y => y ≤ x ∧ Conn adj x y) (fun y hy => ?_) ⟨Nat.le_refl _, (conn_equiv _).refl x⟩ k
    exact ⟨Nat.le_trans (k1 y).1 hy.1, (conn_equiv _).trans hy.2 (k1 y).2.1⟩
  have hout : ∀ x, n ≤ x → m' x = x := fun x hx => by
    rw [heq]; exact hrt.of_root ((k1 x).2.2 hx)
  refine ⟨fun x => ⟨by rw [heq]; exact (hpath x).1, by rw [heq]; exact (hpath x).2, hout x⟩, fun x hx => ?_, fun x => ?_,
    fun x => by rw [heq]; exact (hpath x).2, hout⟩
  · rw [heq]; exact Nat.lt_of_le_of_lt (hpath x).1 hx
  · rw [heq x, heq]; exact hrt.of_root (hrt.root x)

/-- C72: k-out sampling with any number of rounds, any choice of neighbours and any interleaving labels every vertex
with a vertex of its component, not larger, that has its own label. -/
theorem kout_start (hn : n ≤ 4294967296) (hlt : ∀ u v, adj u v → v < n) {k : Nat} {m : Nat → Nat} (h : Sample n adj k m) :
    Start n adj m ∧ ∀ x, m x ≤ x := by
  have : Ok n adj m ∧ Start n adj m := by
    induction h with
    | init => exact ⟨fun x => ⟨Nat.le_refl _, (conn_equiv _).refl x, fun _ => rfl⟩, fun _ h => h, fun _ => rfl,
        fun x => (conn_equiv _).refl x, fun _ _ => rfl⟩
    | round _ hr ih => exact round_ok hn hlt ih.1 hr
  exact ⟨this.2, fun x => (this.1 x).1⟩

/-- C72: Shiloach-Vishkin after k-out sampling, with any label taken for the most frequent one. -/
theorem kout_sv {G : UG} (hG : G.Sym) (hn : G.n ≤ 4294967296) {k r c : Nat} {m par : Nat → Nat}
    (h : Sample G.n (SV.Adj G) k m) (hs : SV.Components G (some c) m r par) : IsCC G.n (SV.Adj G) par :=
  (SV.sv_correct hG (kout_start hn (fun _ _ h => SV.UG_lt hG h) h).1 hs).1

/-- C72: label propagation after k-out sampling. -/
theorem kout_lp {W : Type} {G : Em.Gr W} (hG : G.Ok) (hn : G.n ≤ LabelProp.big)
    (hsym : ∀ u v, LabelProp.Adj G u v → LabelProp.Adj G v u) {k r c : Nat} {m par : Nat → Nat}
    (h : Sample G.n (LabelProp.Adj G) k m) (hs : LabelProp.Sampled G c m r par) : IsCC G.n (LabelProp.Adj G) par := by
  have hs0 := (kout_start (by have : LabelProp.big = 4294967295 := rfl; omega) (fun _ _ ⟨_, h⟩ => (hG.bound _ _ _ h).2) h).1
  refine (LabelProp.lp_sampled hG hsym (fun u v _ _ he => ?_) (fun v hv hb => ?_) hs).1
  · have h1 := hs0.sound u
    rw [he] at h1
    exact (conn_equiv _).trans h1 ((conn_equiv _).symm (hs0.sound v))
  · have := hs0.lt v hv
    rw [hb] at this
    omega

/-! ### Example -/

/-- One round on the graph of C69: 1 and 3 pick each other, 4 picks 2. -/
example : ∃ m, Sample 5 (SV.Adj SV.exG) 1 m ∧ m 0 = 0 ∧ m 1 = 1 ∧ m 2 = 2 ∧ m 3 = 1 ∧ m 4 = 2 := by
  refine ⟨_, .round .init ⟨3, 11, fun u => if u = 1 then some 3 else if u = 3 then some 1 else if u = 4 then some 2 else none,
    _, _, _, fun u v h => ?_, runSeq_par _ (fun _ => ()) [1, 3, 4] (by decide) (fun j hj => ?_) rfl,
    runSeq_par _ (fun _ => none) (List.range 5) (by decide) (fun j hj => ?_) rfl, fun u hu => ?_⟩, ?_⟩
  · beta_reduce at h
    split at h
    · rename_i hu; cases h; subst hu; exact ⟨by decide, by unfold SV.Adj; decide⟩
    · split at h
      · rename_i hu; cases h; subst hu; exact ⟨by decide, by unfold SV.Adj; decide⟩
      · split at h
        · rename_i hu; cases h; subst hu; exact ⟨by decide, by unfold SV.Adj; decide⟩
        · cases h
  · simp only [List.mem_cons, List.not_mem_nil, or_false, not_or] at hj
    simp [hj.1, hj.2.1, hj.2.2]
  · have : ¬ j < 5 := by simpa using hj
    simp [this]
  · interval_cases u <;> exact ⟨_, rfl⟩
  · decide +kernel

end Gbbs.KOut
