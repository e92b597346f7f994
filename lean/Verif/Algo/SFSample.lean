/-
C98: the samplings of the spanning forest framework, `benchmarks/SpanningForest/Framework/ldd_sampling.h` and `kout_sampling.h`.
-/
import Verif.Algo.LDDEdges
import Verif.Algo.UFSample
import Verif.Algo.KOut

namespace Gbbs.SFSample

open Conc Conc.Prog Comp SF
open SVSF (empty edges FStart mem_edges)

/-! ### Low-diameter decomposition -/

/-- The graph as an argument of `edgeMap`. -/
def ofUG (G : UG) : Em.Gr Unit := ⟨G.n, fun u => (G.nb u).map fun v => (v, ()), fun u => (G.nb u).map fun v => (v, ())⟩

theorem mem_ofUG {G : UG} {u v : Nat} {w : Unit} : (v, w) ∈ (ofUG G).fwd u ↔ SV.Adj G u v := by
  show (v, w) ∈ (G.nb u).map _ ↔ v ∈ G.nb u
  simp

theorem ofUG_ok {G : UG} (hG : G.Sym) : (ofUG G).Ok := by
  refine ⟨fun s d w => ?_, fun s d w h => hG.bound s d (mem_ofUG.1 h)⟩
  rw [mem_ofUG]
  show _ ↔ (s, w) ∈ (ofUG G).fwd d
  rw [mem_ofUG]
  exact ⟨SV.UG_symm hG, SV.UG_symm hG⟩

/-- The arrays `Parents` and `Edges` that `initial_spanning_forest` returns (`ldd_sampling.h:94-106`; vertices beyond `n` are their own
label, as in `Start`). `LDDE.Ldde` represents an entry `(s, d)` of `Edges` by `s`. -/
def Ldd (G : UG) (sh : List Nat) (P0 : Nat → Nat) (Ed0 : Nat → Nat × Nat) : Prop :=
  ∃ m, LDDE.Ldde (ofUG G) false (fun i => i) sh (some m) ∧ P0 = (fun x => if x < G.n then LDDE.lab m x else x) ∧
    Ed0 = fun x => if m (.ed x) = LDD.none32 then empty else (m (.ed x), x)

/-- C98: whatever the interleaving, the labels and the edges are what the finish algorithms need. -/
theorem ldd_fstart {G : UG} (hG : G.Sym) (hn : G.n ≤ 4294967295) {sh : List Nat} (hsh : LDD.Shifts G.n sh) {P0 : Nat → Nat}
    {Ed0 : Nat → Nat × Nat} (h : Ldd G sh P0 Ed0) : FStart G P0 Ed0 := by
  obtain ⟨m, hl, rfl, rfl⟩ := h
  obtain ⟨m', h1, h2⟩ := LDDE.ldde_correct (ofUG_ok hG) hn (perm := fun i => i) (fun _ h => h) (fun _ _ _ _ h => h)
    (fun v hv => ⟨v, hv, rfl⟩) hsh hl
  obtain rfl := Option.some.inj h1
  have h2 : ∀ v, v < G.n → LDDE.lab m v < G.n ∧ LDDE.lab m (LDDE.lab m v) = LDDE.lab m v ∧ LDDE.TWalk (ofUG G) m (LDDE.lab m v) v ∧
      (LDDE.lab m v = v → m (.ed v) = LDD.none32) := fun v hv => h2 v hv
  have hw : ∀ {c v}, LDDE.TWalk (ofUG G) m c v → Conn (SV.Adj G) v c ∧
      LConn (edges G.n fun x => if m (.ed x) = LDD.none32 then empty else (m (.ed x), x)) v c := by
    intro c v h
    induction h with
    | nil _ => exact ⟨(conn_equiv _).refl _, (lconn_equiv _).refl _⟩
    | @cons u v w _ he hd _ _ ih =>
      have ha := mem_ofUG.1 he
      obtain ⟨b1, b2⟩ := hG.bound _ _ ha
      have b3 : m (.ed v) ≠ LDD.none32 := by
        rw [hd]; unfold LDD.none32; omega
      refine ⟨(conn_equiv _).trans ((conn_equiv _).symm (.rel _ _ ha)) ih.1, (lconn_equiv _).trans ((lconn_equiv _).symm (.rel _ _ ?_)) ih.2⟩
      refine mem_edges.2 ⟨?_, v, b2, by beta_reduce; rw [if_neg b3, hd]⟩
      simp only [empty, ne_eq, Prod.mk.injEq]; omega
  refine ⟨⟨fun x hx => ?_, fun x => ?_, fun x => ?_, fun x hx => if_neg (by omega)⟩, fun x hx hne => ?_, fun x hx => ?_⟩
  · rw [if_pos hx]; exact (h2 x hx).1
  · by_cases hx : x < G.n
    · simp only [hx, if_true, (h2 x hx).1, (h2 x hx).2.1]
    · simp only [hx, if_false]
  · by_cases hx : x < G.n
    · simp only [hx, if_true]; exact (hw (h2 x hx).2.2.1).1
    · simp only [hx, if_false]; exact (conn_equiv _).refl _
  · simp only [hx, if_true] at hne ⊢
    by_cases he : m (.ed x) = LDD.none32
    · rw [if_pos he] at hne; exact absurd rfl hne
    · rw [if_neg he]
      have hx' : LDDE.lab m x ≠ x := fun h => he ((h2 x hx).2.2.2 h)
      refine ⟨?_, hx'⟩
      have h3 := (h2 x hx).2.2.1
      generalize LDDE.lab m x = c at h3 hx'
      cases h3 with
      | nil h => exact absurd rfl hx'
      | cons w _ hw hd _ _ => rw [hd]; exact mem_ofUG.1 hw
  · simp only [hx, if_true]
    exact (hw (h2 x hx).2.2.1).2

/-- C98: Shiloach-Vishkin after this sampling, with any label taken for the most frequent one. -/
theorem ldd_sv_sf {G : UG} (hG : G.Sym) (hn : G.n ≤ 4294967295) {sh : List Nat} (hsh : LDD.Shifts G.n sh) {frq : Option Nat}
    {P0 par : Nat → Nat} {Ed0 Ed : Nat → Nat × Nat} (h : Ldd G sh P0 Ed0) {k : Nat} (hc : SVSF.Compute G frq P0 Ed0 k par Ed) :
    IsSF (SV.Adj G) (edges G.n Ed) :=
  (SVSF.sv_sf_sampled hG hn (ldd_fstart hG hn hsh h) hc).1

/-! ### k-out -/

/-- `link(u, v, Parents, Edges)`, `kout_sampling.h:18-38`: as `KOut.link`; the result is the vertex at which the edge is recorded, if
any. `Edges` is not read in `initial_spanning_forest`. -/
def linkLoop : Nat → Nat → Nat → Prog Nat Nat (Option Nat)
  | 0, _, _ => stuck
  | f + 1, p1, p2 =>
    if p1 = p2 then ret none else
      let high := if p1 > p2 then p1 else p2
      let low := (p1 + (p2 + 4294967296 - high) % 4294967296) % 4294967296
      read high fun ph =>
        if ph = low then ret none else
          let next := read high fun q => read q fun p1 => read low fun p2 => linkLoop f p1 p2
          if ph = high then cas high high low fun b => if b then ret (some high) else next else next

def link (f u v : Nat) : Prog Nat Nat (Option Nat) := read u fun p1 => read v fun p2 => linkLoop f p1 p2

/-- One round, `kout_sampling.h:51-89`: some vertices link to a neighbour each, then all vertices are compressed. `Ed'` has at a vertex
reported by some calls the edge of one of them. -/
def Round (n : Nat) (adj : Nat → Nat → Prop) (m : Nat → Nat) (Ed : Nat → Nat × Nat) (m' : Nat → Nat) (Ed' : Nat → Nat × Nat) : Prop :=
  ∃ (f f2 : Nat) (pick : Nat → Option Nat) (m1 : Nat → Nat) (o1 o2 : Nat → Option Nat),
    (∀ u v, pick u = some v → u < n ∧ adj u v) ∧
    Par (fun u => match pick u with | none => ret none | some v => link f u v) m m1 o1 ∧
    (∀ x, (∃ u v, pick u = some v ∧ o1 u = some x ∧ Ed' x = (u, v)) ∨ (∀ u, o1 u ≠ some x) ∧ Ed' x = Ed x) ∧
    Par (fun u => if decide (u < n) then compress f2 u else ret none) m1 m' o2 ∧ ∀ u, u < n → ∃ r, o2 u = some r

/-- `initial_spanning_forest`, `kout_sampling.h:40-92`. (Line 45 passes a function to the constructor of `Parents`, which takes a value; it
is read as the initialisation with the identity of `sampling.h:142`.) -/
inductive Sample (n : Nat) (adj : Nat → Nat → Prop) : Nat → (Nat → Nat) → (Nat → Nat × Nat) → Prop
  | init : Sample n adj 0 (fun x => x) fun _ => empty
  | round {k m Ed m' Ed'} (h : Sample n adj k m Ed) (hr : Round n adj m Ed m' Ed') : Sample n adj (k + 1) m' Ed'

/-- Parents, and the call that hooked a vertex in this round. -/
structure Gh where
  p : Nat → Nat
  own : Nat → Option Nat

/-- The edges recorded once the calls have ended. -/
def recd (pick : Nat → Option Nat) (Ed : Nat → Nat × Nat) (g : Gh) (x : Nat) : Nat × Nat :=
  match g.own x with
  | none => Ed x
  | some u => (u, (pick u).getD 0)

variable {n : Nat} {adj : Nat → Nat → Prop}

structure KInv (n : Nat) (adj : Nat → Nat → Prop) (pick : Nat → Option Nat) (Ed : Nat → Nat × Nat) (g : Gh) (m : Nat → Nat) : Prop where
  mem : m = g.p
  le : ∀ x, g.p x ≤ x
  out : ∀ x, n ≤ x → g.p x = x
  ned : ∀ x, g.p x = x → g.own x = none
  own : ∀ x u, g.own x = some u → ∃ v, pick u = some v
  eds : ∀ x, x < n → Ed x ≠ empty → adj (Ed x).1 (Ed x).2 ∧ g.p x ≠ x
  conn : ∀ x, x < n → LConn (edges n (recd pick Ed g)) x (g.p x)

/-- Vertices that were hooked keep their parent and their edge, and only the calls themselves hook. -/
def kRG (n : Nat) (adj : Nat → Nat → Prop) (pick : Nat → Option Nat) (Ed : Nat → Nat × Nat) : RG Nat Gh Nat Nat where
  Inv := KInv n adj pick Ed
  R i g g' := (∀ x, g.p x ≠ x → g'.p x = g.p x ∧ g'.own x = g.own x) ∧ ∀ x, g'.own x = some i → g.own x = some i
  Gu i g g' := (∀ x, g.p x ≠ x → g'.p x = g.p x ∧ g'.own x = g.own x) ∧ ∀ j x, j ≠ i → g'.own x = some j → g.own x = some j
  refl _ _ := ⟨fun _ _ => ⟨rfl, rfl⟩, fun _ h => h⟩
  trans i a b c h1 h2 := ⟨fun x hx => by
    obtain ⟨a1, a2⟩ := h1.1 x hx
    obtain ⟨b1, b2⟩ := h2.1 x (by rw [a1]; exact hx)
    exact ⟨b1.trans a1, b2.trans a2⟩, fun x hx => h1.2 x (h2.2 x hx)⟩
  compat i j _ _ hij h := ⟨h.1, fun x hx => h.2 j x (Ne.symm hij) hx⟩

section link
variable {pick : Nat → Option Nat} {Ed : Nat → Nat × Nat}

theorem recd_mono {g g' : Gh} {m : Nat → Nat} (hi : KInv n adj pick Ed g m)
    (h : ∀ x, g.p x ≠ x → g'.p x = g.p x ∧ g'.own x = g.own x) {x y : Nat} (hc : LConn (edges n (recd pick Ed g)) x y) :
    LConn (edges n (recd pick Ed g')) x y := by
  refine lconn_mono (fun e he => ?_) hc
  obtain ⟨h1, z, hz, h2⟩ := mem_edges.1 he
  refine mem_edges.2 ⟨h1, z, hz, ?_⟩
  have hne : g.p z ≠ z := by
    intro h0
    have hn := hi.ned z h0
    simp only [recd, hn] at h2
    exact (hi.eds z hz (by rw [h2]; exact h1)).2 h0
  simp only [recd, (h z hne).2]
  exact h2

/-- The post-condition: the call has hooked the vertex it reports and no other. -/
def Post (u : Nat) (g : Gh) (o : Option Nat) : Prop := ∀ x, g.own x = some u ↔ o = some x

/-- The two vertices are joined by the edge of the call. -/
def Ends (n : Nat) (pick : Nat → Option Nat) (Ed : Nat → Nat × Nat) (u v p1 p2 : Nat) (g : Gh) : Prop :=
  LConn (edges n (recd pick Ed g)) u p1 ∧ LConn (edges n (recd pick Ed g)) v p2 ∨
  LConn (edges n (recd pick Ed g)) u p2 ∧ LConn (edges n (recd pick Ed g)) v p1

theorem linkLoop_safe (hn : n ≤ 4294967295) {u v : Nat} (hu : u < n) (hv : v < n) (hp : pick u = some v) (f : Nat) {p1 p2 : Nat} (h1 : p1 < n)
    (h2 : p2 < n) (g : Gh) {m0 : Nat → Nat} (hi : KInv n adj pick Ed g m0) (hE : Ends n pick Ed u v p1 p2 g) (hno : ∀ x, g.own x ≠ some u) :
    Safe (kRG n adj pick Ed) u (fun g o => Post u g o) (linkLoop f p1 p2) g := by
  have gu : ∀ g, (kRG n adj pick Ed).Gu u g g := fun _ => ⟨fun _ _ => ⟨rfl, rfl⟩, fun _ _ _ h => h⟩
  have pnone : ∀ g g' : Gh, (∀ x, g.own x ≠ some u) → (kRG n adj pick Ed).R u g g' → Post u g' none := fun g g' hno hr x =>
    ⟨fun h => absurd (hr.2 x h) (hno x), fun h => by cases h⟩
  induction f generalizing p1 p2 g m0 with
  | zero => trivial
  | succ f ih =>
    rw [linkLoop]
    by_cases he : p1 = p2
    · rw [if_pos he]
      exact fun g' hr => pnone g g' hno hr
    · rw [if_neg he]
      have hlow : (p1 + (p2 + 4294967296 - (if p1 > p2 then p1 else p2)) % 4294967296) % 4294967296 = min p1 p2 := by
        split <;> omega
      have hhigh : (if p1 > p2 then p1 else p2) = max p1 p2 := by split <;> omega
      simp only []
      rw [hlow, hhigh]
      have hE' : Ends n pick Ed u v (max p1 p2) (min p1 p2) g := by
        rcases Nat.le_total p1 p2 with h | h
        · rw [Nat.max_eq_right h, Nat.min_eq_left h]; exact hE.symm
        · rw [Nat.max_eq_left h, Nat.min_eq_right h]; exact hE
      have hlt : min p1 p2 < max p1 p2 := by omega
      have hmn : max p1 p2 < n := by omega
      generalize max p1 p2 = high at *
      generalize min p1 p2 = low at *
      have emono : ∀ {g g' : Gh} {m}, KInv n adj pick Ed g m → (kRG n adj pick Ed).R u g g' → ∀ {a b}, Ends n pick Ed u v a b g →
          Ends n pick Ed u v a b g' := fun {g g' m} hi hr {a b} h =>
        Or.imp (fun h => ⟨recd_mono hi hr.1 h.1, recd_mono hi hr.1 h.2⟩) (fun h => ⟨recd_mono hi hr.1 h.1, recd_mono hi hr.1 h.2⟩) h
      have hnext : ∀ (g : Gh) (m : Nat → Nat), KInv n adj pick Ed g m → Ends n pick Ed u v high low g → (∀ x, g.own x ≠ some u) →
          Safe (kRG n adj pick Ed) u (fun g o => Post u g o) (read high fun q => read q fun p1 => read low fun p2 => linkLoop f p1 p2) g := by
        intro g m hi hE hno
        intro g1 m1 r1 i1
        obtain rfl := i1.mem
        refine ⟨g1, gu _, i1, ?_⟩
        intro g2 m2 r2 i2
        obtain rfl := i2.mem
        refine ⟨g2, gu _, i2, ?_⟩
        intro g3 m3 r3 i3
        obtain rfl := i3.mem
        refine ⟨g3, gu _, i3, ?_⟩
        have hq : g1.p high < n := Nat.lt_of_le_of_lt (i1.le high) hmn
        have hq2 : g2.p (g1.p high) < n := Nat.lt_of_le_of_lt (i2.le _) hq
        have hq3 : g3.p low < n := Nat.lt_of_le_of_lt (i3.le _) (by omega)
        have q := lconn_equiv (edges n (recd pick Ed g3))
        have a1 : LConn (edges n (recd pick Ed g3)) high (g2.p (g1.p high)) := by
          have c1 := recd_mono i1 r2.1 (i1.conn high hmn)
          have c2 := recd_mono i2 r3.1 ((lconn_equiv _).trans c1 (i2.conn _ hq))
          exact c2
        have a2 := i3.conn low (by omega)
        have e3 := emono i2 r3 (emono i1 r2 (emono hi r1 hE))
        refine ih hq2 hq3 g3 i3 ?_ fun x hx => hno x (r1.2 x (r2.2 x (r3.2 x hx)))
        exact e3.imp (fun h => ⟨q.trans h.1 a1, q.trans h.2 a2⟩) fun h => ⟨q.trans h.1 a2, q.trans h.2 a1⟩
      intro g1 m1 r1 i1
      obtain rfl := i1.mem
      have hE1 := emono hi r1 hE'
      have hno1 : ∀ x, g1.own x ≠ some u := fun x hx => hno x (r1.2 x hx)
      refine ⟨g1, gu _, i1, ?_⟩
      beta_reduce
      split
      · exact fun g' hr => pnone g1 g' hno1 hr
      · split
        · intro g2 m2 r2 i2
          obtain rfl := i2.mem
          have hE2 := emono i1 r2 hE1
          have hno2 : ∀ x, g2.own x ≠ some u := fun x hx => hno1 x (r2.2 x hx)
          refine ⟨fun hm => ?_, fun _ => ⟨g2, gu _, i2, hnext g2 _ i2 hE2 hno2⟩⟩
          have hg : ∀ x, g2.p x ≠ x → put g2.p high low x = g2.p x ∧ put g2.own high (some u) x = g2.own x := fun x hx => by
            have : x ≠ high := fun h => hx (h ▸ hm)
            rw [put_ne _ _ this, put_ne _ _ this]
            exact ⟨rfl, rfl⟩
          have i3 : KInv n adj pick Ed ⟨put g2.p high low, put g2.own high (some u)⟩ (put g2.p high low) := by
            have mono : ∀ {a b}, LConn (edges n (recd pick Ed g2)) a b →
                LConn (edges n (recd pick Ed ⟨put g2.p high low, put g2.own high (some u)⟩)) a b := fun h => recd_mono i2 hg h
            refine ⟨rfl, fun x => ?_, fun x hx => ?_, fun x hx => ?_, fun x w hx => ?_, fun x hx hne => ?_, fun x hx => ?_⟩
            · show put g2.p high low x ≤ x
              by_cases hxh : x = high
              · rw [hxh, put_same]; omega
              · rw [put_ne _ _ hxh]; exact i2.le x
            · show put g2.p high low x = x
              rw [put_ne _ _ (by omega)]; exact i2.out x hx
            · have hx : put g2.p high low x = x := hx
              show put g2.own high (some u) x = none
              by_cases hxh : x = high
              · rw [hxh, put_same] at hx; omega
              · rw [put_ne _ _ hxh] at hx ⊢; exact i2.ned x hx
            · have hx : put g2.own high (some u) x = some w := hx
              by_cases hxh : x = high
              · rw [hxh, put_same] at hx
                cases hx
                exact ⟨v, hp⟩
              · rw [put_ne _ _ hxh] at hx; exact i2.own x w hx
            · obtain ⟨e1, e2⟩ := i2.eds x hx hne
              exact ⟨e1, by show put g2.p high low x ≠ x; rw [(hg x e2).1]; exact e2⟩
            · show LConn _ x (put g2.p high low x)
              by_cases hxh : x = high
              · subst hxh
                rw [put_same]
                have q := lconn_equiv (edges n (recd pick Ed ⟨put g2.p x low, put g2.own x (some u)⟩))
                have huv : LConn (edges n (recd pick Ed ⟨put g2.p x low, put g2.own x (some u)⟩)) u v := by
                  refine .rel _ _ (mem_edges.2 ⟨?_, x, hx, ?_⟩)
                  · simp only [empty, ne_eq, Prod.mk.injEq]; omega
                  · simp only [recd, put_same, hp, Option.getD_some]
                rcases hE2 with ⟨k1, k2⟩ | ⟨k1, k2⟩
                · exact q.trans (q.symm (mono k1)) (q.trans huv (mono k2))
                · exact q.trans (q.symm (mono k2)) (q.trans (q.symm huv) (mono k1))
              · rw [put_ne _ _ hxh]; exact mono (i2.conn x hx)
          refine ⟨⟨put g2.p high low, put g2.own high (some u)⟩, ⟨hg, fun j x hj hx => ?_⟩, i3, ?_⟩
          · have hx : put g2.own high (some u) x = some j := hx
            by_cases hxh : x = high
            · rw [hxh, put_same] at hx; cases hx; exact absurd rfl hj
            · rw [put_ne _ _ hxh] at hx; exact hx
          · intro g' hr x
            have hh : g'.own high = some u := by
              rw [(hr.1 high (by show put g2.p high low high ≠ high; rw [put_same]; omega)).2]
              exact put_same _ _ _
            refine ⟨fun h => ?_, fun h => by cases h; exact hh⟩
            have h' : put g2.own high (some u) x = some u := hr.2 x h
            by_cases hxh : x = high
            · rw [hxh]
            · rw [put_ne _ _ hxh] at h'; exact absurd h' (hno2 x)
        · exact hnext g1 _ i1 hE1 hno1

end link

/-- Between rounds. -/
structure Ok (n : Nat) (adj : Nat → Nat → Prop) (m : Nat → Nat) (Ed : Nat → Nat × Nat) : Prop where
  le : ∀ x, m x ≤ x
  out : ∀ x, n ≤ x → m x = x
  flat : ∀ x, m (m x) = m x
  eds : ∀ x, x < n → Ed x ≠ empty → adj (Ed x).1 (Ed x).2 ∧ m x ≠ x
  conn : ∀ x, x < n → LConn (edges n Ed) x (m x)

theorem round_ok (hn : n ≤ 4294967295) (hlt : ∀ u v, adj u v → v < n) {m m' : Nat → Nat} {Ed Ed' : Nat → Nat × Nat} (hm : Ok n adj m Ed)
    (h : Round n adj m Ed m' Ed') : Ok n adj m' Ed' := by
  obtain ⟨f, f2, pick, m1, o1, o2, hp, h1, hed, h2, h3⟩ := h
  have hi0 : KInv n adj pick Ed ⟨m, fun _ => none⟩ m :=
    ⟨rfl, hm.le, hm.out, fun _ _ => rfl, fun _ _ h => (by cases h), hm.eds, fun x hx => hm.conn x hx⟩
  obtain ⟨g, hi, -, hpost⟩ := safe_reach (kRG n adj pick Ed) (fun u g o => Post u g o) h1 ⟨m, fun _ => none⟩ hi0 fun u => by
    show Safe _ _ _ (match pick u with | none => ret none | some v => link f u v) _
    have gu : ∀ g, (kRG n adj pick Ed).Gu u g g := fun _ => ⟨fun _ _ => ⟨rfl, rfl⟩, fun _ _ _ h => h⟩
    split
    · intro g' hr x
      exact ⟨fun h => (by have := hr.2 x h; cases this), fun h => by cases h⟩
    · rename_i v hv
      obtain ⟨hu, ha⟩ := hp u v hv
      have hvn := hlt u v ha
      intro g1 m1 r1 i1
      obtain rfl := i1.mem
      refine ⟨g1, gu _, i1, ?_⟩
      intro g2 m2 r2 i2
      obtain rfl := i2.mem
      refine ⟨g2, gu _, i2, ?_⟩
      refine linkLoop_safe hn hu hvn hv f (Nat.lt_of_le_of_lt (i1.le u) hu) (Nat.lt_of_le_of_lt (i2.le v) hvn) g2 i2
        (.inl ⟨recd_mono i1 r2.1 (i1.conn u hu), i2.conn v hvn⟩) fun x hx => ?_
      have := r1.2 x (r2.2 x hx)
      cases this
  obtain rfl := hi.mem
  -- the edges are those that were recorded
  have hEd : ∀ x, Ed' x = recd pick Ed g x := by
    intro x
    rcases hed x with ⟨u, v, hu, ho, he⟩ | ⟨hno, he⟩
    · have := (hpost u _ rfl x).2 ho
      simp only [recd, this, hu, Option.getD_some, he]
    · have : g.own x = none := by
        cases hx : g.own x with
        | none => rfl
        | some u => exact absurd ((hpost u _ rfl x).1 hx) (hno u)
      simp only [recd, this, he]
  obtain rfl : Ed' = recd pick Ed g := funext hEd
  have hrk : Ranked (fun x => x) g.p := fun x => by
    have := hi.le x
    rcases Nat.lt_or_ge (g.p x) x with h | h
    · exact .inr h
    · exact .inl (by omega)
  obtain ⟨rt, hrt⟩ := hrk.isRoot
  obtain ⟨c1, -, c3⟩ := compress_par hrk hrt f2 (fun u => decide (u < n)) h2
  have heq : ∀ x, m' x = rt x := by
    intro x
    by_cases hx : x < n
    · obtain ⟨r, hr⟩ := h3 x hx
      exact (c1 x (by simpa using hx) r hr).1
    · have h := hi.out x (by omega)
      rw [c3 x (by simpa using hx), h, hrt.of_root h]
  have hpath : ∀ x, x < n → rt x ≤ x ∧ LConn (edges n (recd pick Ed g)) x (rt x) := by
    intro x hx
    obtain ⟨k, hk⟩ := hrt.path x
    rw [hk]
    refine SV.iter_inv (S := fun y => y ≤ x ∧ LConn (edges n (recd pick Ed g)) x y) (fun y hy => ?_) ⟨Nat.le_refl _, (lconn_equiv _).refl x⟩ k
    exact ⟨Nat.le_trans (hi.le y) hy.1, (lconn_equiv _).trans hy.2 (hi.conn y (by omega))⟩
  have hout : ∀ x, n ≤ x → rt x = x := fun x hx => hrt.of_root (hi.out x hx)
  have hle : ∀ x, rt x ≤ x := fun x => by
    rcases Nat.lt_or_ge x n with h | h
    · exact (hpath x h).1
    · rw [hout x h]
  refine ⟨fun x => by rw [heq]; exact hle x, fun x hx => by rw [heq]; exact hout x hx, fun x => ?_, fun x hx hne => ?_,
    fun x hx => by rw [heq]; exact (hpath x hx).2⟩
  · rw [heq x, heq]; exact hrt.of_root (hrt.root x)
  · have hpx : g.p x ≠ x ∧ adj (recd pick Ed g x).1 (recd pick Ed g x).2 := by
      cases ho : g.own x with
      | none =>
        simp only [recd, ho] at hne ⊢
        exact ⟨(hi.eds x hx hne).2, (hi.eds x hx hne).1⟩
      | some u =>
        obtain ⟨v, hv⟩ := hi.own x u ho
        simp only [recd, ho, hv, Option.getD_some]
        exact ⟨fun h => (by rw [hi.ned x h] at ho; cases ho), (hp u v hv).2⟩
    refine ⟨hpx.2, fun he => hpx.1 ?_⟩
    rw [heq] at he
    rw [← he]
    exact hrt.root x

theorem lconn_conn {Ed : Nat → Nat × Nat} (h : ∀ x, x < n → Ed x ≠ empty → adj (Ed x).1 (Ed x).2) {x y : Nat}
    (hc : LConn (edges n Ed) x y) : Conn adj x y :=
  conn_le (adj := fun a b => (a, b) ∈ edges n Ed) (conn_equiv adj) (fun a b hab => by
    obtain ⟨h1, z, hz, h2⟩ := mem_edges.1 hab
    have := h z hz (by rw [h2]; exact h1)
    rw [h2] at this
    exact .rel _ _ this) hc

/-- C98: k-out sampling with any number of rounds, any choice of neighbours and any interleaving provides what the finish algorithms need;
labels are not larger than the vertices. -/
theorem kout_fstart {G : UG} (hG : G.Sym) (hn : G.n ≤ 4294967295) {k : Nat} {m : Nat → Nat} {Ed : Nat → Nat × Nat}
    (h : Sample G.n (SV.Adj G) k m Ed) : FStart G m Ed ∧ ∀ x, m x ≤ x := by
  have hok : Ok G.n (SV.Adj G) m Ed := by
    induction h with
    | init => exact ⟨fun _ => Nat.le_refl _, fun _ _ => rfl, fun _ => rfl, fun x _ h => absurd rfl h, fun x _ => (lconn_equiv _).refl x⟩
    | round _ hr ih => exact round_ok hn (fun _ _ h => SV.UG_lt hG h) ih hr
  refine ⟨⟨⟨fun x hx => Nat.lt_of_le_of_lt (hok.le x) hx, hok.flat, fun x => ?_, hok.out⟩, hok.eds, hok.conn⟩, hok.le⟩
  by_cases hx : x < G.n
  · exact lconn_conn (fun z hz hne => (hok.eds z hz hne).1) (hok.conn x hx)
  · rw [hok.out x (by omega)]; exact (conn_equiv _).refl x

/-- C98: Shiloach-Vishkin after k-out sampling, with any label taken for the most frequent one. -/
theorem kout_sv_sf {G : UG} (hG : G.Sym) (hn : G.n ≤ 4294967295) {frq : Option Nat} {P0 par : Nat → Nat} {Ed0 Ed : Nat → Nat × Nat} {r : Nat}
    (h : Sample G.n (SV.Adj G) r P0 Ed0) {k : Nat} (hc : SVSF.Compute G frq P0 Ed0 k par Ed) : IsSF (SV.Adj G) (edges G.n Ed) :=
  (SVSF.sv_sf_sampled hG hn (kout_fstart hG hn h).1 hc).1

/-! ### Examples -/

/-- The path 1 - 0 - 2 - 3. -/
def exG : UG := UG.ofLists [[1, 2], [0], [0, 3], [2]]

theorem exG_sym : exG.Sym := UG.ofLists_sym (by decide)

theorem exSh : LDD.Shifts exG.n [0, 1, 2, 6] := ⟨rfl, by decide, 6, by decide, by decide⟩

/-- A run of the decomposition that meets the conditions. -/
example : ∃ P0 Ed0, Ldd exG [0, 1, 2, 6] P0 Ed0 ∧ FStart exG P0 Ed0 ∧ P0 2 = 0 ∧ Ed0 2 = (0, 2) ∧ P0 3 = 0 ∧ Ed0 3 = (2, 3) ∧ Ed0 0 = empty := by
  have hr : ∃ m, LDDE.Ldde (ofUG exG) false (fun i => i) [0, 1, 2, 6] (some m) ∧ LDDE.lab m 2 = 0 ∧ m (.ed 2) = 0 ∧ LDDE.lab m 3 = 0 ∧
      m (.ed 3) = 2 ∧ m (.ed 0) = LDD.none32 := by
    refine ⟨_, .round (by decide) rfl rfl (by decide) (by decide) rfl (by decide)
      (Em.edgeMap_seq (Em.activeEdges (ofUG exG) _) (Em.mem_activeEdges (ofUG_ok exG_sym)) rfl)
      (.round (by decide) rfl rfl (by decide) (by decide) rfl (by decide)
      (Em.edgeMap_seq (Em.activeEdges (ofUG exG) _) (Em.mem_activeEdges (ofUG_ok exG_sym)) rfl)
      (.last (by decide) rfl rfl (by decide) (by decide) rfl (by decide))), ?_, ?_, ?_, ?_, ?_⟩ <;> decide
  obtain ⟨m, hm, h1, h2, h3, h4, h5⟩ := hr
  refine ⟨_, _, ⟨m, hm, rfl, rfl⟩, ldd_fstart exG_sym (by decide) exSh ⟨m, hm, rfl, rfl⟩, ?_, ?_, ?_, ?_, ?_⟩
  · simpa [exG, UG.ofLists] using h1
  · simp [h2, LDD.none32]
  · simpa [exG, UG.ofLists] using h3
  · simp [h4, LDD.none32]
  · simp [h5]

/-- One round of k-out sampling: 1 picks 0, 3 picks 2, 2 picks 0. -/
example : ∃ m Ed, Sample exG.n (SV.Adj exG) 1 m Ed ∧ FStart exG m Ed ∧ m 1 = 0 ∧ m 2 = 0 ∧ m 3 = 0 ∧ Ed 1 = (1, 0) ∧ Ed 2 = (2, 0) ∧
    Ed 3 = (3, 2) := by
  have h : Sample exG.n (SV.Adj exG) 1 (fun x => if x = 1 ∨ x = 2 ∨ x = 3 then 0 else x)
      (fun x => if x = 1 then (1, 0) else if x = 2 then (2, 0) else if x = 3 then (3, 2) else empty) := by
    have hrun : ∃ m1 m' o1 o2, Par (fun u => match (fun u => if u = 1 then some 0 else if u = 2 then some 0 else if u = 3 then some 2 else none) u with
          | none => ret none | some v => link 5 u v) (fun x => x) m1 o1 ∧
        Par (fun u => if decide (u < exG.n) then compress 11 u else ret none) m1 m' o2 ∧ (∀ u, u < exG.n → ∃ r, o2 u = some r) ∧
        (m' = fun x => if x = 1 ∨ x = 2 ∨ x = 3 then 0 else x) ∧ o1 = fun u => if u = 1 then some 1 else if u = 2 then some 2 else if u = 3 then some 3 else none := by
      refine ⟨_, _, _, _, runSeq_par _ (fun _ => none) [3, 2, 1] (by decide) (fun j hj => ?_) rfl,
        runSeq_par _ (fun _ => none) [0, 1, 2, 3] (by decide) (fun j hj => ?_) rfl, fun u hu => ?_, ?_, ?_⟩
      · simp only [List.mem_cons, List.not_mem_nil, or_false, not_or] at hj
        simp [hj.1, hj.2.1, hj.2.2]
      · simp only [List.mem_cons, List.not_mem_nil, or_false, not_or] at hj
        have : ¬ j < exG.n := by show ¬ j < 4; omega
        simp [this]
      · have hu : u < 4 := hu
        interval_cases u <;> exact ⟨_, rfl⟩
      · funext x
        by_cases h1 : x = 1
        · subst h1; decide
        by_cases h2 : x = 2
        · subst h2; decide
        by_cases h3 : x = 3
        · subst h3; decide
        simp [put, h1, h2, h3]
      · funext x
        by_cases h1 : x = 1
        · subst h1; decide
        by_cases h2 : x = 2
        · subst h2; decide
        by_cases h3 : x = 3
        · subst h3; decide
        simp [h1, h2, h3]
    obtain ⟨m1, m', o1, o2, r1, r2, r3, rfl, rfl⟩ := hrun
    refine .round .init ⟨5, 11, _, m1, _, o2, fun u v h => ?_, r1, fun x => ?_, r2, r3⟩
    · beta_reduce at h
      split at h
      · rename_i hu; cases h; subst hu; exact ⟨by decide, by unfold SV.Adj; decide⟩
      · split at h
        · rename_i hu; cases h; subst hu; exact ⟨by decide, by unfold SV.Adj; decide⟩
        · split at h
          · rename_i hu; cases h; subst hu; exact ⟨by decide, by unfold SV.Adj; decide⟩
          · cases h
    · by_cases h1 : x = 1
      · subst h1; exact .inl ⟨1, 0, rfl, rfl, rfl⟩
      by_cases h2 : x = 2
      · subst h2; exact .inl ⟨2, 0, rfl, rfl, rfl⟩
      by_cases h3 : x = 3
      · subst h3; exact .inl ⟨3, 2, rfl, rfl, rfl⟩
      refine .inr ⟨fun u => ?_, by simp [h1, h2, h3]⟩
      beta_reduce
      split
      · exact fun h => h1 (Option.some.inj h).symm
      · split
        · exact fun h => h2 (Option.some.inj h).symm
        · split
          · exact fun h => h3 (Option.some.inj h).symm
          · exact fun h => by cases h
  exact ⟨_, _, h, (kout_fstart exG_sym (by decide) h).1, rfl, rfl, rfl, rfl, rfl, rfl⟩

end Gbbs.SFSample
