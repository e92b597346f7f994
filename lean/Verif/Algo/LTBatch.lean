/-
C139: incremental Liu-Tarjan connectivity, `process_batch` in `benchmarks/Connectivity/LiuTarjan/Connectivity.h`.
-/
import Verif.Algo.LTShort

namespace Gbbs.LTBatch

open Conc Conc.Prog Comp Gbbs.LT
open Atomics (Steps)
open LabelProp (big key key_inj lpLess lpLess_iff)

/-! ### Model

The arrays `parents`, `messages` and `flags` (`Connectivity.h:103-104`; 0 is false) are interleaved in one memory. -/

/-- The location of `parents[x]`. -/
def par (x : Nat) : Nat := 3 * x

/-- The location of `messages[x]`. -/
def msg (x : Nat) : Nat := 3 * x + 1

/-- The location of `flags[x]`. -/
def flag (x : Nat) : Nat := 3 * x + 2

/-- The array `parents`. -/
def parents (m : Nat → Nat) (x : Nat) : Nat := m (par x)

/-- The array `messages`. -/
def messages (m : Nat → Nat) (x : Nat) : Nat := m (msg x)

/-- The memory with other messages. -/
def setMessages (m M : Nat → Nat) (l : Nat) : Nat := if l % 3 = 1 then M (l / 3) else m l

/-- `simple_update` and `root_update`, `liu_tarjan_rules.h:91-107`. -/
def updateB (upd : Upd) (u : Nat) : Prog Nat Nat Unit :=
  read (par u) fun p => match upd with
    | .simple => read (msg u) fun a => write (par u) (ltMin p a) (ret ())
    | .root => if u ≠ p then ret () else read (msg u) fun a => write (par u) (ltMin p a) (ret ())

/-- `shortcut`, `liu_tarjan_rules.h:109-114`. -/
def shortcutB (u : Nat) : Prog Nat Nat Unit :=
  read (par u) fun p => if p = big then ret () else read (par p) fun q =>
    if p ≠ q then read (par p) fun q => write (par u) q (ret ()) else ret ()

/-- The loop of `root_shortcut`, with `p_u = p`; at most `f` iterations are considered. -/
def rootLoopB (u : Nat) : Nat → Nat → Prog Nat Nat Unit
  | 0, _ => stuck
  | f + 1, p => if p = big then ret () else read (par p) fun q =>
      if p ≠ q then read (par p) fun q => write (par u) q (read (par u) fun p => rootLoopB u f p) else ret ()

/-- `root_shortcut`, `liu_tarjan_rules.h:116-122`. -/
def rootShortcutB (f u : Nat) : Prog Nat Nat Unit := read (par u) fun p => rootLoopB u f p

/-- `if (flags[x] == false && CAS(&flags[x], false, true)) body`, `Connectivity.h:220-235`, `260-269`. -/
def guarded (x : Nat) (body : Prog Nat Nat Unit) : Prog Nat Nat Unit :=
  read (flag x) fun a => if a = 0 then cas (flag x) 0 1 fun b => if b then body else ret () else ret ()

/-- `if (flags[x]) flags[x] = false;`, `Connectivity.h:239-241`, `276-281`. -/
def clear (x : Nat) : Prog Nat Nat Unit :=
  read (flag x) fun a => if a ≠ 0 then write (flag x) 0 (ret ()) else ret ()

/-- `if (flags[P[x]]) flags[P[x]] = false;`, `Connectivity.h:242-244`. -/
def clearParent (x : Nat) : Prog Nat Nat Unit :=
  read (par x) fun p => read (flag p) fun a =>
    if a ≠ 0 then read (par x) fun p => write (flag p) 0 (ret ()) else ret ()

/-- The loop that updates, `Connectivity.h:216-236`. -/
def updateEdge (upd : Upd) (e : Nat × Nat) : Prog Nat Nat Unit :=
  read (par e.1) fun pu => read (par e.2) fun pv =>
    (guarded e.1 (updateB upd e.1)).bind fun _ => (guarded e.2 (updateB upd e.2)).bind fun _ =>
      (guarded pu (updateB upd pu)).bind fun _ => guarded pv (updateB upd pv)

/-- The loop that resets the flags after the updates, `Connectivity.h:237-251`. -/
def resetEdge (e : Nat × Nat) : Prog Nat Nat Unit :=
  (clear e.1).bind fun _ => (clearParent e.1).bind fun _ => (clear e.2).bind fun _ => clearParent e.2

/-- `shortcut(u, P); messages[u] = P[u];`, `Connectivity.h:262-263`. -/
def shortB (full : Bool) (f u : Nat) : Prog Nat Nat Unit :=
  (if full then rootShortcutB f u else shortcutB u).bind fun _ => read (par u) fun p => write (msg u) p (ret ())

/-- The loop that shortcuts, `Connectivity.h:258-270`. -/
def shortEdge (full : Bool) (f : Nat) (e : Nat × Nat) : Prog Nat Nat Unit :=
  (guarded e.1 (shortB full f e.1)).bind fun _ => guarded e.2 (shortB full f e.2)

/-- The loop that resets the flags after the shortcuts, `Connectivity.h:274-282`. -/
def clearEdge (e : Nat × Nat) : Prog Nat Nat Unit := (clear e.1).bind fun _ => clear e.2

/-- One thread for each element. -/
def each {α β : Type} (es : List α) (dflt : β) (p : α → Prog Nat Nat β) (i : Nat) : Prog Nat Nat β :=
  match es[i]? with
  | none => ret dflt
  | some x => p x

/-- The insertion of thread `i`. -/
def part (es : List (Nat × Nat)) (i : Nat) : List (Nat × Nat) := es[i]?.toList

/-- One iteration of `while (parents_changed)` on the insertions `es` without the alteration, `Connectivity.h:195-282`. `P`
is not written in the first loop and is a parameter of the messages; that loop accesses no flags. -/
def Round (con : Con) (upd : Upd) (full : Bool) (f : Nat) (es : List (Nat × Nat)) (m m' : Nat → Nat) (ch : Bool) : Prop :=
  ∃ M1 m2 m3 m4 c o2 o3 o4 o5,
    Par (fun i => send natMsg f (mail con (parents m) (part es i)) false) (messages m) M1 c ∧
    Par (each es () (updateEdge upd)) (setMessages m M1) m2 o2 ∧ Par (each es () resetEdge) m2 m3 o3 ∧
    Par (each es () (shortEdge full f)) m3 m4 o4 ∧ Par (each es () clearEdge) m4 m' o5 ∧ (ch = true ↔ ∃ i, c i = true)

/-- Alter and filter, `Connectivity.h:286-306`: an edge with equal parents becomes the null edge, which is removed; the
other edges have different ends and are not the null edge. -/
def altered (alt : Bool) (P : Nat → Nat) (es : List (Nat × Nat)) : List (Nat × Nat) :=
  if alt then es.filterMap fun e => if P e.1 = P e.2 then none else some (P e.1, P e.2) else es

/-- `while (parents_changed)`, `Connectivity.h:195-309`. -/
inductive Loop (con : Con) (upd : Upd) (full alt : Bool) (f : Nat) : List (Nat × Nat) → (Nat → Nat) → (Nat → Nat) → Prop
  | last {es m m'} (h : Round con upd full f es m m' false) : Loop con upd full alt f es m m'
  | more {es m m' m''} (h : Round con upd full f es m m' true)
      (hl : Loop con upd full alt f (altered alt (parents m') es) m' m'') : Loop con upd full alt f es m m''

/-- An update; the flag tells insertions from queries. -/
abbrev Update := Nat × Nat × Bool

/-- `while (P[u] != P[P[u]]) P[u] = P[P[u]];`, `Connectivity.h:316-318`. -/
def compressB : Nat → Nat → Prog Nat Nat Unit
  | 0, _ => stuck
  | f + 1, u => read (par u) fun a => read (par u) fun b => read (par b) fun c =>
      if a ≠ c then read (par u) fun d => read (par d) fun e => write (par u) e (compressB f u) else ret ()

/-- The body of the loop over the queries, `Connectivity.h:311-323`. -/
def queryB (f : Nat) (x : Update) : Prog Nat Nat Unit := (compressB f x.1).bind fun _ => compressB f x.2.1

/-- The insertions, `Connectivity.h:177-190` and `reorder_updates` (`Connectivity/common.h:16-21`). -/
def inserts (us : List Update) : List (Nat × Nat) := (us.filter fun x => x.2.2).map fun x => (x.1, x.2.1)

/-- The number of queries. -/
def queries (us : List Update) : Nat := (us.filter fun x => !x.2.2).length

/-- `process_batch(parents, updates)`, `Connectivity.h:175-324`. The last loop has an iteration for each query, and iteration
`i` reads `updates[i]`, not `queries[i]`. -/
def Batch (con : Con) (upd : Upd) (full alt : Bool) (f : Nat) (us : List Update) (m m' : Nat → Nat) : Prop :=
  ∃ m1 o, Loop con upd full alt f (inserts us) m m1 ∧ Par (each (us.take (queries us)) () (queryB f)) m1 m' o

/-- One batch after the other. -/
inductive Stream (con : Con) (upd : Upd) (full alt : Bool) (f : Nat) : List (List Update) → (Nat → Nat) → (Nat → Nat) → Prop
  | nil {m} : Stream con upd full alt f [] m m
  | cons {us uss m m' m''} (h : Batch con upd full alt f us m m') (hl : Stream con upd full alt f uss m' m'') :
      Stream con upd full alt f (us :: uss) m m''

/-- `parents` is the identity and `initialize` (`Connectivity.h:115-119`) was called. -/
def init (l : Nat) : Nat := if l % 3 = 2 then 0 else l / 3

/-! ### Specification -/

/-- `r` is the root of `u`. -/
def Root (m : Nat → Nat) (u r : Nat) : Prop := (∃ k, (parents m)^[k] u = r) ∧ parents m r = r

/-- The inserted edges. -/
def Ins (uss : List (List Update)) (u v : Nat) : Prop := ∃ us ∈ uss, (u, v, true) ∈ us

/-! ### Soundness -/

/-- Every stored label is related to its index by `C`; only flags in `S` are set. -/
def Sound (C : Nat → Nat → Prop) (S : Nat → Prop) (m : Nat → Nat) : Prop :=
  ∀ x, C x (parents m x) ∧ C x (messages m x) ∧ (m (flag x) ≠ 0 → S x)

def sRG (C : Nat → Nat → Prop) (S : Nat → Prop) : RG Nat (Nat → Nat) Nat Nat where
  Inv g m := g = m ∧ Sound C S m
  R _ _ _ := True
  Gu _ _ _ := True
  refl _ _ := trivial
  trans _ _ _ _ _ _ := trivial
  compat _ _ _ _ _ _ := trivial

variable {C : Nat → Nat → Prop} {S : Nat → Prop}

theorem parents_par (m : Nat → Nat) (u v x : Nat) : parents (put m (par u) v) x = if x = u then v else parents m x := by
  unfold parents put par
  by_cases h : x = u
  · subst h; simp
  · rw [if_neg h, if_neg (by omega)]

theorem parents_msg (m : Nat → Nat) (u v x : Nat) : parents (put m (msg u) v) x = parents m x := by
  unfold parents put par msg
  rw [if_neg (by omega)]

theorem parents_flag (m : Nat → Nat) (u v x : Nat) : parents (put m (flag u) v) x = parents m x := by
  unfold parents put par flag
  rw [if_neg (by omega)]

theorem messages_par (m : Nat → Nat) (u v x : Nat) : messages (put m (par u) v) x = messages m x := by
  unfold messages put par msg
  rw [if_neg (by omega)]

theorem messages_msg (m : Nat → Nat) (u v x : Nat) : messages (put m (msg u) v) x = if x = u then v else messages m x := by
  unfold messages put msg
  by_cases h : x = u
  · subst h; simp
  · rw [if_neg h, if_neg (by omega)]

theorem messages_flag (m : Nat → Nat) (u v x : Nat) : messages (put m (flag u) v) x = messages m x := by
  unfold messages put flag msg
  rw [if_neg (by omega)]

theorem flag_par (m : Nat → Nat) (u v x : Nat) : put m (par u) v (flag x) = m (flag x) := put_ne _ _ (by unfold flag par; omega)

theorem flag_msg (m : Nat → Nat) (u v x : Nat) : put m (msg u) v (flag x) = m (flag x) := put_ne _ _ (by unfold flag msg; omega)

theorem flag_flag (m : Nat → Nat) (u v x : Nat) : put m (flag u) v (flag x) = if x = u then v else m (flag x) := by
  by_cases h : x = u
  · subst h; simp
  · rw [if_neg h, put_ne _ _ (by unfold flag; omega)]

theorem sound_par {m : Nat → Nat} (h : Sound C S m) {u v : Nat} (hc : C u v) : Sound C S (put m (par u) v) := by
  intro x
  rw [parents_par, messages_par, flag_par]
  refine ⟨?_, (h x).2⟩
  split
  · rename_i hx; rw [hx]; exact hc
  · exact (h x).1

theorem sound_msg {m : Nat → Nat} (h : Sound C S m) {u v : Nat} (hc : C u v) : Sound C S (put m (msg u) v) := by
  intro x
  rw [parents_msg, messages_msg, flag_msg]
  refine ⟨(h x).1, ?_, (h x).2.2⟩
  split
  · rename_i hx; rw [hx]; exact hc
  · exact (h x).2.1

theorem sound_flag {m : Nat → Nat} (h : Sound C S m) {u v : Nat} (hv : v ≠ 0 → S u) : Sound C S (put m (flag u) v) := by
  intro x
  rw [parents_flag, messages_flag, flag_flag]
  refine ⟨(h x).1, (h x).2.1, ?_⟩
  split
  · rename_i hx; rw [hx]; exact hv
  · exact (h x).2.2

/-- Reading. -/
theorem safe_read {α : Type} {i l : Nat} {k : Nat → Prog Nat Nat α} {Q : (Nat → Nat) → α → Prop} {g : Nat → Nat}
    (h : ∀ g, Sound C S g → Safe (sRG C S) i Q (k (g l)) g) : Safe (sRG C S) i Q (read l k) g := by
  rintro g1 m1 _ ⟨rfl, h1⟩
  exact ⟨g1, trivial, ⟨rfl, h1⟩, h g1 h1⟩

/-- Writing. -/
theorem safe_write {α : Type} {i l v : Nat} {k : Prog Nat Nat α} {Q : (Nat → Nat) → α → Prop} {g : Nat → Nat}
    (h : ∀ g, Sound C S g → Sound C S (put g l v)) (hk : ∀ g, Safe (sRG C S) i Q k g) : Safe (sRG C S) i Q (write l v k) g := by
  rintro g1 m1 _ ⟨rfl, h1⟩
  exact ⟨_, trivial, ⟨rfl, h g1 h1⟩, hk _⟩

theorem safe_ret {α : Type} {i : Nat} {a : α} {g : Nat → Nat} : Safe (sRG C S) i (fun _ _ => True) (ret a) g := fun _ _ => trivial

theorem ltMin_sound {u p a : Nat} (hp : C u p) (ha : C u a) : C u (ltMin p a) := by
  rcases ltMin_max p a with h | h
  · rw [h.1]; exact hp
  · rw [h.1]; exact ha

theorem updateB_safe (i : Nat) (upd : Upd) (u : Nat) (g : Nat → Nat) :
    Safe (sRG C S) i (fun _ _ => True) (updateB upd u) g := by
  refine safe_read fun g hg => ?_
  have hp := (hg u).1
  unfold parents at hp
  generalize g (par u) = p at hp
  have : ∀ g, Safe (sRG C S) i (fun _ _ => True) (read (msg u) fun a => write (par u) (ltMin p a) (ret ())) g := by
    intro g
    refine safe_read fun g hg => safe_write (fun g' hg' => sound_par hg' (ltMin_sound hp (hg u).2.1)) fun _ => safe_ret
  cases upd with
  | simple => exact this g
  | root =>
    dsimp only
    split
    · exact safe_ret
    · exact this g

theorem shortcutB_safe (hT : ∀ x y z, C x y → C y z → C x z) (i u : Nat) (g : Nat → Nat) :
    Safe (sRG C S) i (fun _ _ => True) (shortcutB u) g := by
  refine safe_read fun g hg => ?_
  have hp := (hg u).1
  unfold parents at hp
  generalize g (par u) = p at hp
  split
  · exact safe_ret
  · refine safe_read fun g hg => ?_
    split
    · exact safe_read fun g hg => safe_write (fun g' hg' => sound_par hg' (hT _ _ _ hp (hg p).1)) fun _ => safe_ret
    · exact safe_ret

theorem rootLoopB_safe (hT : ∀ x y z, C x y → C y z → C x z) (i u f p : Nat) (hp : C u p) (g : Nat → Nat) :
    Safe (sRG C S) i (fun _ _ => True) (rootLoopB u f p) g := by
  induction f generalizing p g with
  | zero => trivial
  | succ f ih =>
    rw [rootLoopB]
    split
    · exact safe_ret
    · refine safe_read fun g hg => ?_
      split
      · exact safe_read fun g hg => safe_write (fun g' hg' => sound_par hg' (hT _ _ _ hp (hg p).1)) fun _ =>
          safe_read fun g hg => ih _ (hg u).1 g
      · exact safe_ret

theorem guarded_safe {i x : Nat} {b : Prog Nat Nat Unit} (hx : S x) (h : ∀ g, Safe (sRG C S) i (fun _ _ => True) b g) (g : Nat → Nat) :
    Safe (sRG C S) i (fun _ _ => True) (guarded x b) g := by
  refine safe_read fun g hg => ?_
  split
  · rintro g2 m2 _ ⟨rfl, h2⟩
    exact ⟨fun _ => ⟨_, trivial, ⟨rfl, sound_flag h2 fun _ => hx⟩, h _⟩, fun _ => ⟨g2, trivial, ⟨rfl, h2⟩, safe_ret⟩⟩
  · exact safe_ret

theorem clear_safe (i x : Nat) (g : Nat → Nat) : Safe (sRG C S) i (fun _ _ => True) (clear x) g := by
  refine safe_read fun g hg => ?_
  split
  · exact safe_write (fun g hg => sound_flag hg fun h => absurd rfl h) fun _ => safe_ret
  · exact safe_ret

theorem clearParent_safe (i x : Nat) (g : Nat → Nat) : Safe (sRG C S) i (fun _ _ => True) (clearParent x) g := by
  refine safe_read fun g hg => safe_read fun g hg => ?_
  split
  · exact safe_read fun g hg => safe_write (fun g hg => sound_flag hg fun h => absurd rfl h) fun _ => safe_ret
  · exact safe_ret

theorem shortB_safe (hT : ∀ x y z, C x y → C y z → C x z) (i : Nat) (full : Bool) (f u : Nat) (g : Nat → Nat) :
    Safe (sRG C S) i (fun _ _ => True) (shortB full f u) g := by
  refine Safe.bind (Q := fun _ _ => True) ?_ fun _ g _ => safe_read fun g hg =>
    safe_write (fun g' hg' => sound_msg hg' (hg u).1) fun _ => safe_ret
  split
  · exact safe_read fun g hg => rootLoopB_safe hT i u f _ (hg u).1 g
  · exact shortcutB_safe hT i u g

theorem compressB_safe (hT : ∀ x y z, C x y → C y z → C x z) (i f u : Nat) (g : Nat → Nat) :
    Safe (sRG C S) i (fun _ _ => True) (compressB f u) g := by
  induction f generalizing g with
  | zero => trivial
  | succ f ih =>
    refine safe_read fun g _ => safe_read fun g _ => safe_read fun g _ => ?_
    split
    · refine safe_read fun g h1 => ?_
      have hd := (h1 u).1
      unfold parents at hd
      generalize g (par u) = d at hd
      exact safe_read fun g h2 => safe_write (fun g' hg' => sound_par hg' (hT _ _ _ hd (h2 d).1)) fun g => ih g
    · exact safe_ret

theorem par_sound {α β : Type} {es : List α} {d : β} {p : α → Prog Nat Nat β}
    (hp : ∀ i x, x ∈ es → ∀ g, Safe (sRG C S) i (fun _ _ => True) (p x) g) {m m' : Nat → Nat} {o : Nat → β}
    (h : Par (each es d p) m m' o) (hm : Sound C S m) : Sound C S m' := by
  obtain ⟨g, ⟨rfl, hi⟩, -⟩ := safe_reach (sRG C S) (fun _ _ _ => True) h m ⟨rfl, hm⟩ fun i => by
    show Safe _ _ _ (each es d p i) _
    unfold each
    split
    · exact fun _ _ => trivial
    · rename_i x hx
      exact hp i x (List.mem_of_getElem? hx) m
  exact hi

theorem parents_set (m M : Nat → Nat) : parents (setMessages m M) = parents m := by
  funext x
  unfold parents setMessages par
  rw [if_neg (by omega)]

theorem messages_set (m M : Nat → Nat) : messages (setMessages m M) = M := by
  funext x
  unfold messages setMessages msg
  rw [if_pos (by omega), show (3 * x + 1) / 3 = x by omega]

theorem flag_set (m M : Nat → Nat) (x : Nat) : setMessages m M (flag x) = m (flag x) := by
  unfold setMessages flag
  rw [if_neg (by omega)]

theorem mem_part {es : List (Nat × Nat)} (e : Nat × Nat) : (∃ i, e ∈ part es i) ↔ e ∈ es := by
  rw [List.mem_iff_getElem?]
  simp only [part, Option.mem_toList]

/-- The update and its reset. -/
theorem update_sound (hS : ∀ x y, S x → C x y → S y) {upd : Upd} {es : List (Nat × Nat)} (hes : ∀ e ∈ es, S e.1 ∧ S e.2)
    {m m' : Nat → Nat} {o : Nat → Unit} (h : Par (each es () (updateEdge upd)) m m' o) (hm : Sound C S m) : Sound C S m' :=
  par_sound (fun i e he g => safe_read fun g h1 => by
    have hu := hS _ _ (hes e he).1 (h1 e.1).1
    unfold parents at hu
    generalize g (par e.1) = pu at hu
    exact safe_read fun g h2 =>
      (guarded_safe (hes e he).1 (fun g => updateB_safe i upd _ g) g).bind fun _ g _ =>
      (guarded_safe (hes e he).2 (fun g => updateB_safe i upd _ g) g).bind fun _ g _ =>
      (guarded_safe hu (fun g => updateB_safe i upd _ g) g).bind fun _ g _ =>
      guarded_safe (hS _ _ (hes e he).2 (h2 e.2).1) (fun g => updateB_safe i upd _ g) g) h hm

theorem reset_sound {es : List (Nat × Nat)} {m m' : Nat → Nat} {o : Nat → Unit} (h : Par (each es () resetEdge) m m' o)
    (hm : Sound C S m) : Sound C S m' :=
  par_sound (fun i _ _ g => (clear_safe i _ g).bind fun _ g _ => (clearParent_safe i _ g).bind fun _ g _ =>
    (clear_safe i _ g).bind fun _ g _ => clearParent_safe i _ g) h hm

theorem short_sound (hT : ∀ x y z, C x y → C y z → C x z) {full : Bool} {f : Nat} {es : List (Nat × Nat)}
    (hes : ∀ e ∈ es, S e.1 ∧ S e.2) {m m' : Nat → Nat} {o : Nat → Unit} (h : Par (each es () (shortEdge full f)) m m' o)
    (hm : Sound C S m) : Sound C S m' :=
  par_sound (fun i e he g => (guarded_safe (hes e he).1 (fun g => shortB_safe hT i full f _ g) g).bind fun _ g _ =>
    guarded_safe (hes e he).2 (fun g => shortB_safe hT i full f _ g) g) h hm

theorem clear_sound {es : List (Nat × Nat)} {m m' : Nat → Nat} {o : Nat → Unit} (h : Par (each es () clearEdge) m m' o)
    (hm : Sound C S m) : Sound C S m' :=
  par_sound (fun i _ _ g => (clear_safe i _ g).bind fun _ g _ => clear_safe i _ g) h hm

theorem query_sound (hT : ∀ x y z, C x y → C y z → C x z) {f : Nat} {us : List Update} {m m' : Nat → Nat} {o : Nat → Unit}
    (h : Par (each us () (queryB f)) m m' o) (hm : Sound C S m) : Sound C S m' :=
  par_sound (fun i _ _ g => (compressB_safe hT i f _ g).bind fun _ g _ => compressB_safe hT i f _ g) h hm

theorem connect_sound (hC : Equivalence C) {con : Con} {f : Nat} {es : List (Nat × Nat)} (hE : ∀ e ∈ es, C e.1 e.2)
    {m M1 : Nat → Nat} {c : Nat → Bool}
    (h1 : Par (fun i => send natMsg f (mail con (parents m) (part es i)) false) (messages m) M1 c) (hm : Sound C S m) :
    Sound C S (setMessages m M1) := by
  intro x
  rw [parents_set, messages_set, flag_set]
  refine ⟨(hm x).1, ?_, (hm x).2.2⟩
  rcases (connect_raw (fun e => mem_part e) h1).1 x with h | ⟨b, e, he, hab, h, -⟩
  · rw [h]; exact (hm x).2.1
  · rw [h]; exact sends_sound hC (fun x => (hm x).1) (hE e he) _ hab

theorem round_sound (hC : Equivalence C) (hS : ∀ x y, S x → C x y → S y) {con : Con} {upd : Upd} {full : Bool} {f : Nat}
    {es : List (Nat × Nat)} (hE : ∀ e ∈ es, C e.1 e.2) (hes : ∀ e ∈ es, S e.1 ∧ S e.2) {m m' : Nat → Nat} {ch : Bool}
    (h : Round con upd full f es m m' ch) (hm : Sound C S m) : Sound C S m' := by
  obtain ⟨M1, m2, m3, m4, c, o2, o3, o4, o5, h1, h2, h3, h4, h5, -⟩ := h
  exact clear_sound h5 (short_sound (C := C) (fun _ _ _ h h' => hC.trans h h') hes h4 (reset_sound h3 (update_sound hS hes h2
    (connect_sound hC hE h1 hm))))

theorem altered_sound (hC : Equivalence C) {alt : Bool} {P : Nat → Nat} (hP : ∀ x, C x (P x)) {es : List (Nat × Nat)}
    (hE : ∀ e ∈ es, C e.1 e.2) : ∀ e ∈ altered alt P es, C e.1 e.2 := by
  unfold altered
  split
  · intro e he
    obtain ⟨a, ha, hae⟩ := List.mem_filterMap.1 he
    split at hae
    · cases hae
    · cases hae
      exact hC.trans (hC.symm (hP _)) (hC.trans (hE a ha) (hP _))
  · exact hE

theorem loop_sound (hC : Equivalence C) {con : Con} {upd : Upd} {full alt : Bool} {f : Nat} {es : List (Nat × Nat)}
    {m m' : Nat → Nat} (h : Loop con upd full alt f es m m') (hE : ∀ e ∈ es, C e.1 e.2) (hm : Sound C (fun _ => True) m) : Sound C (fun _ => True) m' := by
  induction h with
  | last h => exact round_sound hC (fun _ _ _ _ => trivial) hE (fun _ _ => ⟨trivial, trivial⟩) h hm
  | more h _ ih =>
    have := round_sound hC (fun _ _ _ _ => trivial) hE (fun _ _ => ⟨trivial, trivial⟩) h hm
    exact ih (altered_sound hC (fun x => (this x).1) hE) this

theorem batch_sound (hC : Equivalence C) {con : Con} {upd : Upd} {full alt : Bool} {f : Nat} {us : List Update}
    (hus : ∀ x ∈ us, x.2.2 = true → C x.1 x.2.1) {m m' : Nat → Nat} (h : Batch con upd full alt f us m m') (hm : Sound C (fun _ => True) m) :
    Sound C (fun _ => True) m' := by
  obtain ⟨m1, o, h1, h2⟩ := h
  refine query_sound (C := C) (fun _ _ _ h h' => hC.trans h h') h2
    (loop_sound hC h1 (fun e he => ?_) hm)
  obtain ⟨x, hx, rfl⟩ := List.mem_map.1 he
  obtain ⟨h1, h2⟩ := List.mem_filter.1 hx
  exact hus x h1 h2

theorem stream_sound (hC : Equivalence C) {con : Con} {upd : Upd} {full alt : Bool} {f : Nat} {uss : List (List Update)}
    (hus : ∀ us ∈ uss, ∀ x ∈ us, x.2.2 = true → C x.1 x.2.1) {m m' : Nat → Nat} (h : Stream con upd full alt f uss m m')
    (hm : Sound C (fun _ => True) m) : Sound C (fun _ => True) m' := by
  induction h with
  | nil => exact hm
  | @cons us uss _ _ _ h _ ih =>
    exact ih (fun us' h' => hus us' (List.mem_cons_of_mem _ h')) (batch_sound hC (hus us List.mem_cons_self) h hm)

theorem parents_init (x : Nat) : parents init x = x := by unfold parents init par; rw [if_neg (by omega)]; omega

theorem messages_init (x : Nat) : messages init x = x := by unfold messages init msg; rw [if_neg (by omega)]; omega

theorem flag_init (x : Nat) : init (flag x) = 0 := by unfold init flag; rw [if_pos (by omega)]

theorem init_sound (hC : Equivalence C) : Sound C S init := by
  intro x
  rw [parents_init, messages_init, flag_init]
  exact ⟨hC.refl x, hC.refl x, fun h => absurd rfl h⟩

/-- C139, the part that holds for every variant: after any batches, in every interleaving, vertices with the same root are
connected by inserted edges. Missing: connected vertices have the same root, see `C139_streams_fail`. -/
theorem C139_sound_partial {con : Con} {upd : Upd} {full alt : Bool} {f : Nat} {uss : List (List Update)} {m : Nat → Nat}
    (h : Stream con upd full alt f uss init m) {u v r : Nat} (hu : Root m u r) (hv : Root m v r) : Conn (Ins uss) u v := by
  have hs : Sound (Conn (Ins uss)) (fun _ => True) m := stream_sound (conn_equiv _) (fun us hus x hx hi =>
    .rel _ _ ⟨us, hus, by rw [← hi]; exact hx⟩) h (init_sound (conn_equiv _))
  have key : ∀ u, Root m u r → Conn (Ins uss) u r := by
    rintro u ⟨⟨k, rfl⟩, -⟩
    clear hu hv
    induction k with
    | zero => exact (conn_equiv _).refl _
    | succ k ih => rw [Function.iterate_succ_apply']; exact (conn_equiv _).trans ih (hs _).1
  exact (conn_equiv _).trans (key u hu) ((conn_equiv _).symm (key v hv))

/-! ### The first batch -/

/-- The memory while flags are reset: parents and messages stay, flags are only cleared. -/
def zRG (m0 : Nat → Nat) : RG Nat (Nat → Nat) Nat Nat where
  Inv g m := g = m ∧ ∀ x, parents m x = parents m0 x ∧ messages m x = messages m0 x ∧ (m0 (flag x) = 0 → m (flag x) = 0)
  R _ g g' := ∀ x, g (flag x) = 0 → g' (flag x) = 0
  Gu _ g g' := ∀ x, g (flag x) = 0 → g' (flag x) = 0
  refl _ _ _ h := h
  trans _ _ _ _ h1 h2 x h := h2 x (h1 x h)
  compat _ _ _ _ _ h := h

theorem zero_flag {m0 m : Nat → Nat} {u : Nat}
    (h : ∀ x, parents m x = parents m0 x ∧ messages m x = messages m0 x ∧ (m0 (flag x) = 0 → m (flag x) = 0)) :
    ∀ x, parents (put m (flag u) 0) x = parents m0 x ∧ messages (put m (flag u) 0) x = messages m0 x ∧
      (m0 (flag x) = 0 → put m (flag u) 0 (flag x) = 0) := by
  intro x
  rw [parents_flag, messages_flag, flag_flag]
  refine ⟨(h x).1, (h x).2.1, fun h0 => ?_⟩
  split
  · rfl
  · exact (h x).2.2 h0

theorem zero_mono (m : Nat → Nat) (u : Nat) : ∀ x, m (flag x) = 0 → put m (flag u) 0 (flag x) = 0 := by
  intro x h
  rw [flag_flag]
  split
  · rfl
  · exact h

theorem clear_zero {m0 : Nat → Nat} (i u : Nat) (g : Nat → Nat) : Safe (zRG m0) i (fun g _ => g (flag u) = 0) (clear u) g := by
  rintro g1 m1 - ⟨rfl, h1⟩
  refine ⟨g1, fun _ h => h, ⟨rfl, h1⟩, ?_⟩
  beta_reduce
  split
  · rintro g2 m2 - ⟨rfl, h2⟩
    exact ⟨_, zero_mono g2 u, ⟨rfl, zero_flag h2⟩, fun g3 h3 => h3 u (put_same _ _ _)⟩
  · rename_i h
    exact fun g3 h3 => h3 u (not_not.1 h)

theorem clearParent_zero {m0 : Nat → Nat} (i u : Nat) (g : Nat → Nat) :
    Safe (zRG m0) i (fun _ _ => True) (clearParent u) g := by
  rintro g1 m1 - ⟨rfl, h1⟩
  refine ⟨g1, fun _ h => h, ⟨rfl, h1⟩, ?_⟩
  rintro g2 m2 - ⟨rfl, h2⟩
  refine ⟨g2, fun _ h => h, ⟨rfl, h2⟩, ?_⟩
  beta_reduce
  split
  · rintro g3 m3 - ⟨rfl, h3⟩
    refine ⟨g3, fun _ h => h, ⟨rfl, h3⟩, ?_⟩
    rintro g4 m4 - ⟨rfl, h4⟩
    exact ⟨_, zero_mono g4 _, ⟨rfl, zero_flag h4⟩, fun _ _ => trivial⟩
  · exact fun _ _ => trivial

/-- A postcondition that the rely keeps is carried over another program. -/
theorem safe_frame {α ι G L V : Type} [DecidableEq L] [DecidableEq V] {A : RG ι G L V} {i : ι} {Q : G → α → Prop} {F : G → Prop}
    (hF : ∀ g g', F g → A.R i g g' → F g') (hG : ∀ g g', F g → A.Gu i g g' → F g') {p : Prog L V α} {g : G} (h : Safe A i Q p g)
    (hg : F g) : Safe A i (fun g a => F g ∧ Q g a) p g := by
  induction p generalizing g with
  | ret a => exact fun g' hr => ⟨hF _ _ hg hr, h g' hr⟩
  | stuck => trivial
  | read x k ih =>
    intro g' m hr hi
    obtain ⟨g'', h1, h2, h3⟩ := h g' m hr hi
    exact ⟨g'', h1, h2, ih _ h3 (hG _ _ (hF _ _ hg hr) h1)⟩
  | write x v k ih =>
    intro g' m hr hi
    obtain ⟨g'', h1, h2, h3⟩ := h g' m hr hi
    exact ⟨g'', h1, h2, ih h3 (hG _ _ (hF _ _ hg hr) h1)⟩
  | cas x o n k ih =>
    intro g' m hr hi
    obtain ⟨ha, hb⟩ := h g' m hr hi
    refine ⟨fun he => ?_, fun he => ?_⟩
    · obtain ⟨g'', h1, h2, h3⟩ := ha he
      exact ⟨g'', h1, h2, ih _ h3 (hG _ _ (hF _ _ hg hr) h1)⟩
    · obtain ⟨g'', h1, h2, h3⟩ := hb he
      exact ⟨g'', h1, h2, ih _ h3 (hG _ _ (hF _ _ hg hr) h1)⟩

theorem zero_par {es : List (Nat × Nat)} {p : Nat × Nat → Prog Nat Nat Unit} {m m' : Nat → Nat} {o : Nat → Unit}
    (hp : ∀ i e g, Safe (zRG m) i (fun g _ => g (flag e.1) = 0 ∧ g (flag e.2) = 0) (p e) g)
    (h : Par (each es () p) m m' o) :
    (∀ x, parents m' x = parents m x ∧ messages m' x = messages m x ∧ (m (flag x) = 0 → m' (flag x) = 0)) ∧
    ∀ e ∈ es, m' (flag e.1) = 0 ∧ m' (flag e.2) = 0 := by
  obtain ⟨g, ⟨rfl, hi⟩, -, hpost⟩ := safe_reach (zRG m) (fun i g _ => ∀ e, es[i]? = some e → g (flag e.1) = 0 ∧ g (flag e.2) = 0) h m
    ⟨rfl, fun _ => ⟨rfl, rfl, fun h => h⟩⟩ fun i => by
    show Safe _ _ _ (each es () p i) _
    unfold each
    cases hx : es[i]? with
    | none => exact fun _ _ e he => (by cases he)
    | some e =>
      refine (hp i e m).weaken fun _ g h e' he => ?_
      cases he; exact h
  refine ⟨hi, fun e he => ?_⟩
  obtain ⟨i, hi⟩ := List.mem_iff_getElem?.1 he
  exact hpost i _ rfl e hi

theorem reset_zero {es : List (Nat × Nat)} {m m' : Nat → Nat} {o : Nat → Unit} (h : Par (each es () resetEdge) m m' o) :
    (∀ x, parents m' x = parents m x ∧ messages m' x = messages m x ∧ (m (flag x) = 0 → m' (flag x) = 0)) ∧
    ∀ e ∈ es, m' (flag e.1) = 0 ∧ m' (flag e.2) = 0 :=
  zero_par (fun i e g => (clear_zero i e.1 g).bind fun _ g h1 =>
    (safe_frame (A := zRG m) (F := fun g => g (flag e.1) = 0) (fun _ _ h hr => hr _ h) (fun _ _ h hr => hr _ h) (clearParent_zero i e.1 g) h1).bind
      fun _ g h2 => (safe_frame (A := zRG m) (F := fun g => g (flag e.1) = 0) (fun _ _ h hr => hr _ h) (fun _ _ h hr => hr _ h) (clear_zero i e.2 g) h2.1).bind
      fun _ g h3 => (safe_frame (A := zRG m) (F := fun g => g (flag e.1) = 0 ∧ g (flag e.2) = 0) (fun _ _ h hr => ⟨hr _ h.1, hr _ h.2⟩)
        (fun _ _ h hr => ⟨hr _ h.1, hr _ h.2⟩) (clearParent_zero i e.2 g) h3).weaken fun _ _ h => h.1) h

theorem clear_zero_par {es : List (Nat × Nat)} {m m' : Nat → Nat} {o : Nat → Unit} (h : Par (each es () clearEdge) m m' o) :
    (∀ x, parents m' x = parents m x ∧ messages m' x = messages m x ∧ (m (flag x) = 0 → m' (flag x) = 0)) ∧
    ∀ e ∈ es, m' (flag e.1) = 0 ∧ m' (flag e.2) = 0 :=
  zero_par (fun i e g => (clear_zero i e.1 g).bind fun _ g h1 =>
    safe_frame (A := zRG m) (F := fun g => g (flag e.1) = 0) (fun _ _ h hr => hr _ h) (fun _ _ h hr => hr _ h) (clear_zero i e.2 g) h1) h

/-- `u` is below a root and its message is its parent. -/
def Fin (g : Nat → Nat) (u : Nat) : Prop := parents g (parents g u) = parents g u ∧ messages g u = parents g u

/-- The memory and the thread that set each flag. -/
abbrev OwnSt := (Nat → Nat) × (Nat → Option Nat)

/-- The shortcuts: only the thread that set the flag of `u` writes the parent and the message of `u`; roots stay. -/
def oRG : RG Nat OwnSt Nat Nat where
  Inv g m := g.1 = m ∧ parents m big = big ∧ ∀ x, m (flag x) = 0 ↔ g.2 x = none
  R i g g' := (∀ x, g.2 x ≠ none → g'.2 x ≠ none) ∧ (∀ x, g'.2 x = some i ↔ g.2 x = some i) ∧
    (∀ x, g.2 x = some i → parents g'.1 x = parents g.1 x ∧ messages g'.1 x = messages g.1 x) ∧
    ∀ x, parents g.1 x = x → parents g'.1 x = x
  Gu i g g' := (∀ x, g.2 x ≠ none → g'.2 x = g.2 x) ∧ (∀ x j, j ≠ i → g'.2 x = some j → g.2 x = some j) ∧
    (∀ x, g.2 x ≠ some i → parents g'.1 x = parents g.1 x ∧ messages g'.1 x = messages g.1 x) ∧
    ∀ x, parents g.1 x = x → parents g'.1 x = x
  refl _ _ := ⟨fun _ h => h, fun _ => Iff.rfl, fun _ _ => ⟨rfl, rfl⟩, fun _ h => h⟩
  trans _ _ _ _ h1 h2 := ⟨fun x h => h2.1 x (h1.1 x h), fun x => (h2.2.1 x).trans (h1.2.1 x), fun x h => by
    have h' := (h1.2.1 x).2 h
    exact ⟨(h2.2.2.1 x h').1.trans (h1.2.2.1 x h).1, (h2.2.2.1 x h').2.trans (h1.2.2.1 x h).2⟩,
    fun x h => h2.2.2.2 x (h1.2.2.2 x h)⟩
  compat i j g g' hij h := ⟨fun x hx => by rw [h.1 x hx]; exact hx, fun x => ⟨fun hx => h.2.1 x j (Ne.symm hij) hx, fun hx => by
    rw [h.1 x (by rw [hx]; simp)]; exact hx⟩, fun x hx => h.2.2.1 x (by rw [hx]; simpa using Ne.symm hij), h.2.2.2⟩

theorem oRG_gu_refl (i : Nat) (g : OwnSt) : oRG.Gu i g g :=
  ⟨fun _ _ => rfl, fun _ _ _ h => h, fun _ _ => ⟨rfl, rfl⟩, fun _ h => h⟩

/-- A write of the owner to the parent of a vertex that is not a root. -/
theorem own_par {i u v : Nat} {g : OwnSt} (ho : g.2 u = some i) (hn : parents g.1 u ≠ u) (hb : parents g.1 big = big)
    (hi : ∀ x, g.1 (flag x) = 0 ↔ g.2 x = none) :
    oRG.Gu i g (put g.1 (par u) v, g.2) ∧ oRG.Inv (put g.1 (par u) v, g.2) (put g.1 (par u) v) := by
  refine ⟨⟨fun _ _ => rfl, fun _ _ _ h => h, fun x hx => ?_, fun x hx => ?_⟩, rfl, ?_, fun x => ?_⟩
  · dsimp only
    rw [parents_par, messages_par, if_neg (fun h => hx (by rw [h]; exact ho))]
    exact ⟨rfl, rfl⟩
  · dsimp only
    rw [parents_par, if_neg (fun h => hn (by rw [h] at hx; exact hx))]
    exact hx
  · rw [parents_par, if_neg (fun h => hn (by rw [← h]; exact hb))]
    exact hb
  · dsimp only
    rw [flag_par]; exact hi x

/-- What thread `i` knows between its steps: all it owns is finished, except `u`. -/
def Mine (i u : Nat) (g : OwnSt) : Prop := g.2 u = some i ∧ ∀ x, x ≠ u → g.2 x = some i → Fin g.1 x

/-- All that thread `i` owns is finished. -/
def Done (i : Nat) (g : OwnSt) : Prop := ∀ x, g.2 x = some i → Fin g.1 x

theorem fin_stable {i x : Nat} {g g' : OwnSt} (h : oRG.R i g g') (ho : g.2 x = some i) (hf : Fin g.1 x) : Fin g'.1 x := by
  obtain ⟨h1, h2⟩ := h.2.2.1 x ho
  unfold Fin at *
  rw [h1, h2]
  exact ⟨h.2.2.2 _ hf.1, hf.2⟩

theorem Mine.stable {i u : Nat} {g g' : OwnSt} (h : oRG.R i g g') (hm : Mine i u g) : Mine i u g' :=
  ⟨(h.2.1 u).2 hm.1, fun x hx hox => fin_stable h ((h.2.1 x).1 hox) (hm.2 x hx ((h.2.1 x).1 hox))⟩

theorem Done.stable {i : Nat} {g g' : OwnSt} (h : oRG.R i g g') (hm : Done i g) : Done i g' :=
  fun x hox => fin_stable h ((h.2.1 x).1 hox) (hm x ((h.2.1 x).1 hox))

/-- A write to the parent or the message of `u` does not change the rest. -/
theorem Mine.write_par {i u v : Nat} {g : OwnSt} (hm : Mine i u g) (hn : parents g.1 u ≠ u) : Mine i u (put g.1 (par u) v, g.2) := by
  refine ⟨hm.1, fun x hx hox => ?_⟩
  obtain ⟨h1, h2⟩ := hm.2 x hx hox
  show Fin (put g.1 (par u) v) x
  unfold Fin
  rw [parents_par _ _ _ x, messages_par, if_neg hx, parents_par, if_neg]
  · exact ⟨h1, h2⟩
  · intro h; rw [h] at h1; exact hn h1

theorem rootLoop_own (i u f p : Nat) (g : OwnSt) (hb : parents g.1 big = big) (hm : Mine i u g) (hp : parents g.1 u = p) :
    Safe oRG i (fun g _ => Mine i u g ∧ parents g.1 (parents g.1 u) = parents g.1 u) (rootLoopB u f p) g := by
  induction f generalizing p g with
  | zero => trivial
  | succ f ih =>
    rw [rootLoopB]
    by_cases hpb : p = big
    · rw [if_pos hpb]
      rintro ⟨g2, o2⟩ hr2
      refine ⟨hm.stable hr2, ?_⟩
      have hp2 : parents g2 u = big := ((hr2.2.2.1 u hm.1).1.trans hp).trans hpb
      show parents g2 (parents g2 u) = parents g2 u
      rw [hp2]
      exact hr2.2.2.2 big hb
    · rw [if_neg hpb]
      rintro ⟨g1, o1⟩ m1 hr ⟨rfl, hb1, hi1⟩
      refine ⟨(g1, o1), oRG_gu_refl _ _, ⟨rfl, hb1, hi1⟩, ?_⟩
      have hm1 := hm.stable hr
      have hp1 : parents g1 u = p := (hr.2.2.1 u hm.1).1.trans hp
      beta_reduce
      by_cases hq : p ≠ g1 (par p)
      · rw [if_pos hq]
        have hpu : p ≠ u := fun h => hq (by rw [h] at hp1 ⊢; exact hp1.symm)
        rintro ⟨g2, o2⟩ m2 hr2 ⟨rfl, hb2, hi2⟩
        refine ⟨(g2, o2), oRG_gu_refl _ _, ⟨rfl, hb2, hi2⟩, ?_⟩
        have hm2 := hm1.stable hr2
        have hp2 : parents g2 u = p := (hr2.2.2.1 u hm1.1).1.trans hp1
        rintro ⟨g3, o3⟩ m3 hr3 ⟨rfl, hb3, hi3⟩
        have hm3 := hm2.stable hr3
        have hp3 : parents g3 u = p := (hr3.2.2.1 u hm2.1).1.trans hp2
        obtain ⟨hg, hi⟩ := own_par (v := g2 (par p)) hm3.1 (by show parents g3 u ≠ u; rw [hp3]; exact hpu) hb3 hi3
        refine ⟨_, hg, hi, ?_⟩
        have hm4 := hm3.write_par (v := g2 (par p)) (by show parents g3 u ≠ u; rw [hp3]; exact hpu)
        rintro ⟨g5, o5⟩ m5 hr5 ⟨rfl, hb5, hi5⟩
        exact ⟨(g5, o5), oRG_gu_refl _ _, ⟨rfl, hb5, hi5⟩, ih _ _ hb5 (hm4.stable hr5) rfl⟩
      · rw [if_neg hq]
        rintro ⟨g2, o2⟩ hr2
        refine ⟨hm1.stable hr2, ?_⟩
        have hp2 : parents g2 u = p := (hr2.2.2.1 u hm1.1).1.trans hp1
        show parents g2 (parents g2 u) = parents g2 u
        rw [hp2]
        exact hr2.2.2.2 p (not_not.1 hq).symm

theorem shortB_own (i u f : Nat) (g : OwnSt) (hm : Mine i u g) :
    Safe oRG i (fun g _ => Done i g ∧ g.2 u ≠ none) (shortB true f u) g := by
  refine Safe.bind (Q := fun g _ => Mine i u g ∧ parents g.1 (parents g.1 u) = parents g.1 u) ?_ ?_
  · rw [if_pos rfl]
    rintro ⟨g1, o1⟩ m1 hr ⟨rfl, hb1, hi1⟩
    exact ⟨(g1, o1), oRG_gu_refl _ _, ⟨rfl, hb1, hi1⟩, rootLoop_own i u f _ _ hb1 (hm.stable hr) rfl⟩
  · rintro - g ⟨hm, hroot⟩
    rintro ⟨g1, o1⟩ m1 hr ⟨rfl, hb1, hi1⟩
    refine ⟨(g1, o1), oRG_gu_refl _ _, ⟨rfl, hb1, hi1⟩, ?_⟩
    have hm1 := hm.stable hr
    have e1 := (hr.2.2.1 u hm.1).1
    have hr1 : parents g1 (parents g1 u) = parents g1 u := by
      have := hr.2.2.2 _ hroot
      rw [← e1] at this
      exact this
    rintro ⟨g2, o2⟩ m2 hr2 ⟨rfl, hb2, hi2⟩
    have hm2 := hm1.stable hr2
    have e2 := (hr2.2.2.1 u hm1.1).1
    have hr2' : parents g2 (parents g2 u) = parents g2 u := by
      have := hr2.2.2.2 _ hr1
      rw [← e2] at this
      exact this
    have hd : Done i (put g2 (msg u) (g1 (par u)), o2) := by
      intro x hx
      show Fin (put g2 (msg u) (g1 (par u))) x
      unfold Fin
      rw [parents_msg, parents_msg, messages_msg]
      by_cases hxu : x = u
      · subst hxu
        rw [if_pos rfl]
        exact ⟨hr2', e2.symm⟩
      · rw [if_neg hxu]
        exact hm2.2 x hxu hx
    refine ⟨(put g2 (msg u) (g1 (par u)), o2), ⟨fun _ _ => rfl, fun _ _ _ h => h, fun x hx => ?_, fun x hx => ?_⟩,
      ⟨rfl, ?_, fun x => ?_⟩, fun g3 h3 => ⟨hd.stable h3, h3.1 u ?_⟩⟩
    · dsimp only
      rw [parents_msg, messages_msg, if_neg (fun h => hx (by rw [h]; exact hm2.1))]
      exact ⟨rfl, rfl⟩
    · dsimp only
      rw [parents_msg]; exact hx
    · rw [parents_msg]; exact hb2
    · dsimp only
      rw [flag_msg]; exact hi2 x
    · show o2 u ≠ none
      rw [show o2 u = some i from hm2.1]; simp

theorem guarded_own (i u f : Nat) (g : OwnSt) (hd : Done i g) :
    Safe oRG i (fun g _ => Done i g ∧ g.2 u ≠ none) (guarded u (shortB true f u)) g := by
  rintro ⟨g1, o1⟩ m1 hr ⟨rfl, hb1, hi1⟩
  refine ⟨(g1, o1), oRG_gu_refl _ _, ⟨rfl, hb1, hi1⟩, ?_⟩
  have hd1 := hd.stable hr
  beta_reduce
  by_cases h0 : g1 (flag u) = 0
  · rw [if_pos h0]
    rintro ⟨g2, o2⟩ m2 hr2 ⟨rfl, hb2, hi2⟩
    have hd2 := hd1.stable hr2
    constructor
    · intro h2
      have hn : o2 u = none := (hi2 u).1 h2
      refine ⟨(put g2 (flag u) 1, fun x => if x = u then some i else o2 x), ⟨fun x hx => ?_, fun x j hj hx => ?_, fun x hx => ?_, fun x hx => ?_⟩,
        ⟨rfl, ?_, fun x => ?_⟩, ?_⟩
      · exact if_neg fun h => hx (by rw [h]; exact hn)
      · dsimp only at hx
        split at hx
        · cases hx; exact absurd rfl hj
        · exact hx
      · dsimp only
        rw [parents_flag, messages_flag]; exact ⟨rfl, rfl⟩
      · dsimp only
        rw [parents_flag]; exact hx
      · rw [parents_flag]; exact hb2
      · dsimp only
        rw [flag_flag]
        by_cases hx : x = u
        · simp [hx]
        · rw [if_neg hx, if_neg hx]; exact hi2 x
      · beta_reduce
        rw [if_pos rfl]
        refine shortB_own i u f _ ⟨if_pos rfl, fun x hx hox => ?_⟩
        dsimp only at hox
        rw [if_neg hx] at hox
        have := hd2 x hox
        unfold Fin at this ⊢
        dsimp only at this ⊢
        rw [parents_flag, parents_flag, messages_flag]
        exact this
    · intro h2
      refine ⟨(g2, o2), oRG_gu_refl _ _, ⟨rfl, hb2, hi2⟩, fun g3 h3 => ⟨hd2.stable h3, h3.1 u fun h => h2 ((hi2 u).2 h)⟩⟩
  · rw [if_neg h0]
    exact fun g3 h3 => ⟨hd1.stable h3, h3.1 u fun h => h0 ((hi1 u).2 h)⟩

/-- The shortcuts, from cleared flags. -/
theorem short_fin {f : Nat} {es : List (Nat × Nat)} {m m' : Nat → Nat} {o : Nat → Unit} (hb : parents m big = big)
    (h0 : ∀ x, m (flag x) = 0) (h : Par (each es () (shortEdge true f)) m m' o) :
    ∀ e ∈ es, Fin m' e.1 ∧ Fin m' e.2 := by
  obtain ⟨⟨g, o⟩, ⟨rfl, -, hi⟩, -, hpost⟩ := safe_reach oRG
    (fun i g _ => Done i g ∧ ∀ e, es[i]? = some e → g.2 e.1 ≠ none ∧ g.2 e.2 ≠ none) h (m, fun _ => none)
    ⟨rfl, hb, fun x => ⟨fun _ => rfl, fun _ => h0 x⟩⟩ fun i => by
    have hd : Done i (m, fun _ => none) := fun x hx => (by cases hx)
    show Safe _ _ _ (each es () (shortEdge true f) i) _
    unfold each
    cases hx : es[i]? with
    | none => exact fun _ hr => ⟨hd.stable hr, fun e he => (by cases he)⟩
    | some e =>
      refine (guarded_own i e.1 f _ hd).bind fun _ g hg => ?_
      refine (safe_frame (A := oRG) (F := fun g => g.2 e.1 ≠ none) (fun _ _ h hr => hr.1 _ h) (fun _ _ h hg => by rw [hg.1 _ h]; exact h)
        (guarded_own i e.2 f g hg.1) hg.2).weaken fun _ g h => ⟨h.2.1, fun e' he => ?_⟩
      cases he
      exact ⟨h.1, h.2.2⟩
  have key : ∀ x, o x ≠ none → Fin g x := by
    intro x hx
    obtain ⟨j, hj⟩ := Option.ne_none_iff_exists'.1 hx
    exact (hpost j _ rfl).1 x hj
  intro e he
  obtain ⟨i, hi⟩ := List.mem_iff_getElem?.1 he
  have := (hpost i _ rfl).2 e hi
  exact ⟨key _ this.1, key _ this.2⟩

/-- `x` and `y` are equal or both ends of `es`. -/
def Both (es : List (Nat × Nat)) (x y : Nat) : Prop := x = y ∨ ((∃ e ∈ es, x = e.1 ∨ x = e.2) ∧ ∃ e ∈ es, y = e.1 ∨ y = e.2)

theorem both_equiv (es : List (Nat × Nat)) : Equivalence (Both es) where
  refl _ := .inl rfl
  symm h := h.elim (fun h => .inl h.symm) fun h => .inr ⟨h.2, h.1⟩
  trans := by
    rintro x y z (rfl | h) (rfl | h')
    · exact .inl rfl
    · exact .inr h'
    · exact .inr h
    · exact .inr ⟨h.1, h'.2⟩

/-- The state between the rounds of the first batch on `es`: only ends of `es` have been touched, parents are roots, messages
are parents, and no flag is set. -/
structure Ready (es : List (Nat × Nat)) (m : Nat → Nat) : Prop where
  fin : ∀ x, Fin m x
  flags : ∀ x, m (flag x) = 0
  sound : ∀ x, Conn (LAdj es) x (parents m x)
  both : ∀ x, Both es x (parents m x)

theorem both_big {es : List (Nat × Nat)} (hbig : ∀ e ∈ es, e.1 ≠ big ∧ e.2 ≠ big) {y : Nat} (h : Both es big y) : y = big := by
  rcases h with h | ⟨⟨e, he, h | h⟩, -⟩
  · exact h.symm
  · exact absurd h.symm (hbig e he).1
  · exact absurd h.symm (hbig e he).2

/-- A round of the first batch. -/
theorem ready_round {con : Con} {upd : Upd} {f : Nat} {es : List (Nat × Nat)} (hbig : ∀ e ∈ es, e.1 ≠ big ∧ e.2 ≠ big)
    {m m' : Nat → Nat} {ch : Bool} (hm : Ready es m) (h : Round con upd true f es m m' ch) : Ready es m' := by
  let S : Nat → Prop := fun x => ∃ e ∈ es, x = e.1 ∨ x = e.2
  have hS : ∀ x y, S x → Both es x y → S y := by
    rintro x y hx (rfl | h)
    · exact hx
    · exact h.2
  have hes : ∀ e ∈ es, S e.1 ∧ S e.2 := fun e he => ⟨⟨e, he, .inl rfl⟩, ⟨e, he, .inr rfl⟩⟩
  have hconn := round_sound (S := fun _ => True) (conn_equiv (LAdj es)) (fun _ _ _ _ => trivial) (fun e he => .rel _ _ he)
    (fun _ _ => ⟨trivial, trivial⟩) h fun x => ⟨hm.sound x, by rw [(hm.fin x).2]; exact hm.sound x, fun _ => trivial⟩
  obtain ⟨M1, m2, m3, m4, c, o2, o3, o4, o5, h1, h2, h3, h4, h5, -⟩ := h
  have s1 : Sound (Both es) S (setMessages m M1) := connect_sound (both_equiv es) (fun e he => .inr (hes e he)) h1
    fun x => ⟨hm.both x, by rw [(hm.fin x).2]; exact hm.both x, fun h => absurd (hm.flags x) h⟩
  have s2 := update_sound hS hes h2 s1
  have s3 := reset_sound h3 s2
  have z3 : ∀ x, m3 (flag x) = 0 := by
    intro x
    by_cases hx : m3 (flag x) = 0
    · exact hx
    · obtain ⟨e, he, rfl | rfl⟩ := (s3 x).2.2 hx
      · exact ((reset_zero h3).2 e he).1
      · exact ((reset_zero h3).2 e he).2
  have s4 := short_sound (C := Both es) (fun _ _ _ h h' => (both_equiv es).trans h h') hes h4 s3
  have f4 : ∀ x, Fin m4 x := by
    intro x
    by_cases hx : S x
    · obtain ⟨e, he, rfl | rfl⟩ := hx
      · exact (short_fin (both_big hbig (s3 big).1) z3 h4 e he).1
      · exact (short_fin (both_big hbig (s3 big).1) z3 h4 e he).2
    · have e1 : parents m4 x = x := by
        rcases (s4 x).1 with h | h
        · exact h.symm
        · exact absurd h.1 hx
      have e2 : messages m4 x = x := by
        rcases (s4 x).2.1 with h | h
        · exact h.symm
        · exact absurd h.1 hx
      unfold Fin
      rw [e1, e1, e2]; exact ⟨rfl, rfl⟩
  have s5 := clear_sound h5 s4
  obtain ⟨z5, w5⟩ := clear_zero_par h5
  refine ⟨fun x => ?_, fun x => ?_, fun x => (hconn x).1, fun x => (s5 x).1⟩
  · have := f4 x
    unfold Fin at this ⊢
    rw [(z5 x).1, (z5 _).1, (z5 x).2.1]
    exact this
  · by_cases hx : m' (flag x) = 0
    · exact hx
    · obtain ⟨e, he, rfl | rfl⟩ := (s5 x).2.2 hx
      · exact (w5 e he).1
      · exact (w5 e he).2

/-- The last round of the first batch. -/
theorem ready_last {con : Con} (hcon : con ≠ .simple) {upd : Upd} {full : Bool} {f : Nat} {es : List (Nat × Nat)}
    (hbig : ∀ e ∈ es, e.1 ≠ big ∧ e.2 ≠ big) {m m' : Nat → Nat} (hm : Ready es m) (h : Round con upd full f es m m' false) :
    (∀ e ∈ es, parents m e.1 = parents m e.2) ∧
    Sound (fun x y => y = parents m x) (fun _ => True) m' := by
  obtain ⟨M1, m2, m3, m4, c, o2, o3, o4, o5, h1, h2, h3, h4, h5, hc⟩ := h
  obtain ⟨-, r2, r3, -⟩ := connect_raw (K := natMsg) (fun e => mem_part e) h1
  have hM : M1 = messages m := r3 fun i => by
    cases hi : c i with
    | false => rfl
    | true => exact absurd (hc.2 ⟨i, hi⟩) (by simp)
  subst hM
  have hT : ∀ x y z, y = parents m x → z = parents m y → z = parents m x := by
    rintro x y z rfl rfl
    exact (hm.fin x).1
  refine ⟨fun e he => ?_, ?_⟩
  · refine Classical.byContradiction fun hne => ?_
    have hs := (sends_spec (con := con) (both_big hbig (hm.both big)) (fun x => (hm.fin x).1) (e := e) fun h => absurd h hcon).2 hne
    have hk := r2 e he _ hs
    have hmax : parents m (ltMax (parents m e.1) (parents m e.2)) = ltMax (parents m e.1) (parents m e.2) := by
      rcases ltMin_max (parents m e.1) (parents m e.2) with h | h
      · rw [h.2]; exact (hm.fin _).1
      · rw [h.2]; exact (hm.fin _).1
    have hk' : key (ltMax (parents m e.1) (parents m e.2)) ≤ key (ltMin (parents m e.1) (parents m e.2)) := by
      have := (hm.fin (ltMax (parents m e.1) (parents m e.2))).2
      rw [hmax] at this
      rw [show natMsg.comp (messages m (ltMax (parents m e.1) (parents m e.2))) = messages m (ltMax (parents m e.1) (parents m e.2)) from rfl,
        this] at hk
      exact hk
    rw [key_ltMax, key_ltMin] at hk'
    exact hne (key_inj (by omega))
  · have s1 : Sound (fun x y => y = parents m x) (fun _ => True) (setMessages m (messages m)) := by
      intro x
      rw [parents_set, messages_set]
      exact ⟨rfl, (hm.fin x).2, fun _ => trivial⟩
    exact clear_sound h5 (short_sound hT (fun _ _ => ⟨trivial, trivial⟩) h4 (reset_sound h3 (update_sound (fun _ _ _ _ => trivial)
      (fun _ _ => ⟨trivial, trivial⟩) h2 s1)))

theorem ready_loop {con : Con} (hcon : con ≠ .simple) {upd : Upd} {f : Nat} {es : List (Nat × Nat)}
    (hbig : ∀ e ∈ es, e.1 ≠ big ∧ e.2 ≠ big) {m m' : Nat → Nat} (h : Loop con upd true false f es m m') (hm : Ready es m) :
    ∃ P : Nat → Nat, (∀ x, P (P x) = P x) ∧ (∀ x, Conn (LAdj es) x (P x)) ∧ (∀ e ∈ es, P e.1 = P e.2) ∧
      Sound (fun x y => y = P x) (fun _ => True) m' := by
  induction h with
  | last h =>
    obtain ⟨h1, h2⟩ := ready_last hcon hbig hm h
    exact ⟨_, fun x => (hm.fin x).1, hm.sound, h1, h2⟩
  | more h _ ih => exact ih hbig (ready_round hbig hm h)

/-- C139, the part that is exact: the first batch, on a new structure, with `parent_connect` or `extended_connect`, any update,
`full_shortcut` and no alteration. After it, in every interleaving, two vertices have the same parent exactly if they are
connected by inserted edges, and every parent is a root. -/
theorem C139_first_batch_partial {con : Con} (hcon : con ≠ .simple) {upd : Upd} {f : Nat} {us : List Update}
    (hbig : ∀ x ∈ us, x.1 ≠ big ∧ x.2.1 ≠ big) {m : Nat → Nat} (h : Batch con upd true false f us init m) :
    (∀ u v, parents m u = parents m v ↔ Conn (Ins [us]) u v) ∧ ∀ x, parents m (parents m x) = parents m x := by
  obtain ⟨m1, o, h1, h2⟩ := h
  have hins : LAdj (inserts us) = Ins [us] := by
    funext u v
    unfold LAdj Ins inserts
    rw [eq_iff_iff]
    constructor
    · intro h
      obtain ⟨x, hx, he⟩ := List.mem_map.1 h
      obtain ⟨hx1, hx2⟩ := List.mem_filter.1 hx
      cases he
      exact ⟨us, by simp, by rw [← hx2]; exact hx1⟩
    · rintro ⟨us', hus, h⟩
      rw [List.mem_singleton] at hus
      subst hus
      exact List.mem_map.2 ⟨_, List.mem_filter.2 ⟨h, rfl⟩, rfl⟩
  obtain ⟨P, p1, p2, p3, p4⟩ := ready_loop hcon (fun e he => by
    obtain ⟨x, hx, rfl⟩ := List.mem_map.1 he
    exact hbig x (List.mem_filter.1 hx).1) h1 ⟨fun x => by
      unfold Fin
      rw [parents_init, parents_init, messages_init]; exact ⟨rfl, rfl⟩, flag_init, fun x => by
      rw [parents_init]; exact (conn_equiv _).refl x, fun x => by rw [parents_init]; exact .inl rfl⟩
  have p5 : ∀ x, parents m x = P x := fun x => (query_sound (C := fun x y => y = P x) (fun x y z h1 h2 => by
    rw [h2, h1]; exact p1 x) h2 p4 x).1
  rw [hins] at p2
  refine ⟨fun u v => ?_, fun x => by rw [p5, p5]; exact p1 x⟩
  rw [p5, p5]
  constructor
  · intro h
    have := p2 u
    rw [h] at this
    exact (conn_equiv _).trans this ((conn_equiv _).symm (p2 v))
  · intro h
    induction h with
    | rel u v h => rw [← hins] at h; exact p3 (u, v) h
    | refl => rfl
    | symm _ _ _ ih => exact ih.symm
    | trans _ _ _ _ _ ih1 ih2 => exact ih1.trans ih2

/-! ### Executions -/

/-- One round, the threads one after the other, on a memory of `n` vertices given by a list. -/
def roundL (con : Con) (upd : Upd) (full : Bool) (f n : Nat) (es : List (Nat × Nat)) (l : List Nat) : Option (Bool × List Nat) :=
  match runL (fun x => x) (fun i => send natMsg f (mail con (parents (tab init l)) (part es i)) false) (List.range es.length)
      ((List.range n).map fun x => messages (tab init l) x) with
  | none => none
  | some (M1, o) =>
    match runL init (each es () (updateEdge upd)) (List.range es.length)
        ((List.range (3 * n)).map (setMessages (tab init l) (tab (fun x => x) M1))) with
    | none => none
    | some (l2, _) => match runL init (each es () resetEdge) (List.range es.length) l2 with
      | none => none
      | some (l3, _) => match runL init (each es () (shortEdge full f)) (List.range es.length) l3 with
        | none => none
        | some (l4, _) => match runL init (each es () clearEdge) (List.range es.length) l4 with
          | none => none
          | some (l5, _) => if l.length ≤ 3 * n ∧ M1.length ≤ n then some (o.any fun a => a.2, l5) else none

/-- At most `k` rounds. -/
def loopL (con : Con) (upd : Upd) (full alt : Bool) (f n : Nat) : Nat → List (Nat × Nat) → List Nat → Option (List Nat)
  | 0, _, _ => none
  | k + 1, es, l => match roundL con upd full f n es l with
    | none => none
    | some (false, l') => some l'
    | some (true, l') => loopL con upd full alt f n k (altered alt (parents (tab init l')) es) l'

/-- Batches of insertions. -/
def streamL (con : Con) (upd : Upd) (full alt : Bool) (f n k : Nat) : List (List Update) → List Nat → Option (List Nat)
  | [], l => some l
  | us :: uss, l => if queries us = 0 then match loopL con upd full alt f n k (inserts us) l with
    | none => none
    | some l' => streamL con upd full alt f n k uss l' else none

theorem each_none {α β : Type} {es : List α} {d : β} {p : α → Prog Nat Nat β} {j : Nat} (hj : j ∉ List.range es.length) :
    each es d p j = ret d := by
  have : es[j]? = none := List.getElem?_eq_none (by simpa using hj)
  rw [each, this]

theorem mem_of_lookup {α : Type} {o : List (Nat × α)} {i : Nat} {a : α} (h : o.lookup i = some a) : (i, a) ∈ o := by
  induction o with
  | nil => cases h
  | cons x o ih =>
    obtain ⟨j, b⟩ := x
    rw [List.lookup_cons] at h
    by_cases hj : i = j
    · subst hj
      simp only [beq_self_eq_true] at h
      cases h; exact List.mem_cons_self
    · have : (i == j) = false := by simpa using hj
      rw [this] at h
      exact List.mem_cons_of_mem _ (ih h)

theorem lookup_of_mem {α : Type} {o : List (Nat × α)} {i : Nat} {a : α} (hn : (o.map Prod.fst).Nodup) (h : (i, a) ∈ o) :
    o.lookup i = some a := by
  induction o with
  | nil => cases h
  | cons x o ih =>
    obtain ⟨j, b⟩ := x
    rw [List.map_cons, List.nodup_cons] at hn
    rw [List.lookup_cons]
    rcases List.mem_cons.1 h with h | h
    · cases h; simp
    · have hj : i ≠ j := fun he => hn.1 (List.mem_map.2 ⟨_, h, he⟩)
      have : (i == j) = false := by simpa using hj
      rw [this]
      exact ih hn.2 h

theorem roundL_sound {con : Con} {upd : Upd} {full : Bool} {f n : Nat} {es : List (Nat × Nat)} {l l' : List Nat} {ch : Bool}
    (h : roundL con upd full f n es l = some (ch, l')) : Round con upd full f es (tab init l) (tab init l') ch := by
  rw [roundL] at h
  split at h
  · cases h
  · rename_i M1 o h1
    split at h
    · cases h
    · rename_i l2 o2 h2
      split at h
      · cases h
      · rename_i l3 o3 h3
        split at h
        · cases h
        · rename_i l4 o4 h4
          split at h
          · cases h
          · rename_i l5 o5 h5
            split at h
            · rename_i hl
              obtain ⟨hl, hM⟩ := hl
              cases h
              have hnd : (List.range es.length).Nodup := List.nodup_range
              have e1 : tab (fun x => x) ((List.range n).map fun x => messages (tab init l) x) = messages (tab init l) := by
                funext x
                unfold tab
                rw [List.getD_eq_getElem?_getD, List.getElem?_map]
                by_cases hx : x < n
                · rw [List.getElem?_range hx]; rfl
                · rw [List.getElem?_eq_none (by simpa using hx)]
                  show x = messages (tab init l) x
                  unfold messages tab
                  rw [List.getD_eq_getElem?_getD, List.getElem?_eq_none (by unfold msg; omega)]
                  exact (messages_init x).symm
              have e2 : tab init ((List.range (3 * n)).map (setMessages (tab init l) (tab (fun x => x) M1))) =
                  setMessages (tab init l) (tab (fun x => x) M1) := by
                funext x
                by_cases hx : x < 3 * n
                · rw [tab, List.getD_eq_getElem?_getD, List.getElem?_map, List.getElem?_range hx]; rfl
                · rw [tab, List.getD_eq_getElem?_getD, List.getElem?_map, List.getElem?_eq_none (by simpa using hx)]
                  show init x = setMessages (tab init l) (tab (fun x => x) M1) x
                  unfold setMessages tab
                  rw [List.getD_eq_getElem?_getD, List.getD_eq_getElem?_getD, List.getElem?_eq_none (by omega),
                    List.getElem?_eq_none (by omega)]
                  unfold init
                  by_cases h3 : x % 3 = 1
                  · rw [if_neg (by omega), if_pos h3]; rfl
                  · rw [if_neg h3]; rfl
              have p1 := runL_par (fun _ => false) hnd (fun j hj => by
                have : es[j]? = none := List.getElem?_eq_none (by simpa using hj)
                unfold part
                rw [this]; rfl) h1
              have p2 := runL_par (fun _ => ()) hnd (fun j hj => each_none hj) h2
              have p3 := runL_par (fun _ => ()) hnd (fun j hj => each_none hj) h3
              have p4 := runL_par (fun _ => ()) hnd (fun j hj => each_none hj) h4
              have p5 := runL_par (fun _ => ()) hnd (fun j hj => each_none hj) h5
              rw [e1] at p1
              rw [e2] at p2
              refine ⟨_, _, _, _, _, _, _, _, _, p1, p2, p3, p4, p5, ?_⟩
              have hk := (runL_seq (fun _ => false) hnd h1).2
              rw [List.any_eq_true]
              constructor
              · rintro ⟨⟨i, a⟩, ha, hat⟩
                refine ⟨i, ?_⟩
                have hat : a = true := hat
                have : o.lookup i = some a := lookup_of_mem (by rw [hk]; exact hnd) ha
                unfold results
                rw [this]; exact hat
              · rintro ⟨i, hi⟩
                unfold results at hi
                cases ho : o.lookup i with
                | none => rw [ho] at hi; cases hi
                | some a =>
                  rw [ho] at hi
                  exact ⟨(i, a), mem_of_lookup ho, hi⟩
            · cases h

theorem loopL_sound {con : Con} {upd : Upd} {full alt : Bool} {f n k : Nat} {es : List (Nat × Nat)} {l l' : List Nat}
    (h : loopL con upd full alt f n k es l = some l') : Loop con upd full alt f es (tab init l) (tab init l') := by
  induction k generalizing es l with
  | zero => cases h
  | succ k ih =>
    rw [loopL] at h
    split at h
    · cases h
    · rename_i l1 h1
      cases h
      exact .last (roundL_sound h1)
    · rename_i l1 h1
      exact .more (roundL_sound h1) (ih h)

theorem streamL_sound {con : Con} {upd : Upd} {full alt : Bool} {f n k : Nat} {uss : List (List Update)} {l l' : List Nat}
    (h : streamL con upd full alt f n k uss l = some l') : Stream con upd full alt f uss (tab init l) (tab init l') := by
  induction uss generalizing l with
  | nil => cases h; exact .nil
  | cons us uss ih =>
    rw [streamL] at h
    split at h
    · rename_i hq
      split at h
      · cases h
      · rename_i l1 h1
        refine .cons ⟨_, fun _ => (), loopL_sound h1, ?_⟩ (ih h)
        rw [hq]
        exact .refl _
    · cases h

theorem tab_init : tab init [] = init := rfl

/-- The memory of `n` vertices at the start. -/
def start (n : Nat) : List Nat := (List.range (3 * n)).map init

theorem tab_start (n : Nat) : tab init (start n) = init := by
  funext x
  unfold tab start
  rw [List.getD_eq_getElem?_getD, List.getElem?_map]
  by_cases hx : x < 3 * n
  · rw [List.getElem?_range hx]; rfl
  · rw [List.getElem?_eq_none (by simpa using hx)]; rfl

/-- Insertions, one per batch. -/
def single (es : List (Nat × Nat)) : List (List Update) := es.map fun e => [(e.1, e.2, true)]

/-- A stream of insertions for each variant. -/
def bad (con : Con) (upd : Upd) : List (Nat × Nat) :=
  match con, upd with
  | .simple, _ => [(0, 2), (1, 2)]
  | .parent, _ => [(2, 3), (0, 2), (1, 3)]
  | .extended, .simple => [(2, 3), (0, 2), (1, 3)]
  | .extended, .root => [(4, 3), (3, 2), (0, 4), (3, 1)]

/-- The parents of the vertices 0 and 1, and the flag of 2, after a stream. -/
def look (con : Con) (upd : Upd) (full alt : Bool) (uss : List (List Update)) : Option (Nat × Nat × Nat) :=
  (streamL con upd full alt 4 6 6 uss (start 6)).map fun l => (parents (tab init l) 0, parents (tab init l) 1, tab init l (flag 2))

theorem look_sound {con : Con} {upd : Upd} {full alt : Bool} {uss : List (List Update)} {a b c : Nat}
    (h : look con upd full alt uss = some (a, b, c)) :
    ∃ m, Stream con upd full alt 4 uss init m ∧ parents m 0 = a ∧ parents m 1 = b ∧ m (flag 2) = c := by
  obtain ⟨l, h1, h2⟩ := Option.map_eq_some_iff.1 h
  have := streamL_sound h1
  rw [tab_start] at this
  cases h2
  exact ⟨_, this, rfl, rfl, rfl⟩

theorem conn_path {uss : List (List Update)} {u v w : Nat} (h : Conn (Ins uss) u v) (h' : (v, w) ∈ uss.flatten.map fun x => (x.1, x.2.1))
    (hi : ∀ x ∈ uss.flatten, x.2.2 = true) : Conn (Ins uss) u w := by
  obtain ⟨x, hx, he⟩ := List.mem_map.1 h'
  obtain ⟨us, hus, hxu⟩ := List.mem_flatten.1 hx
  have := hi x hx
  cases he
  exact (conn_equiv _).trans h (.rel _ _ ⟨us, hus, by rw [← this]; exact hxu⟩)

theorem conn_back {uss : List (List Update)} {u v w : Nat} (h : Conn (Ins uss) u v) (h' : (w, v) ∈ uss.flatten.map fun x => (x.1, x.2.1))
    (hi : ∀ x ∈ uss.flatten, x.2.2 = true) : Conn (Ins uss) u w :=
  (conn_equiv _).trans h ((conn_equiv _).symm (conn_path ((conn_equiv _).refl w) h' hi))

theorem root_self {m : Nat → Nat} {u : Nat} (h : parents m u = u) : Root m u u := ⟨⟨0, rfl⟩, h⟩

/-- C139 fails for every combination of connect, update, shortcut and alter options: after at most four batches of one
insertion each, 0 and 1 are connected by inserted edges and both are roots. A batch refreshes only the ends of its edges and
their parents, and stops as soon as no message decreases. -/
theorem C139_streams_fail (con : Con) (upd : Upd) (full alt : Bool) : ∃ m,
    Stream con upd full alt 4 (single (bad con upd)) init m ∧ Conn (Ins (single (bad con upd))) 0 1 ∧ Root m 0 0 ∧ Root m 1 1 := by
  have key : ∃ c, look con upd full alt (single (bad con upd)) = some (0, 1, c) := by
    cases con <;> cases upd <;> cases full <;> cases alt <;> first
      | exact ⟨0, by decide +kernel⟩
      | exact ⟨1, by decide +kernel⟩
  obtain ⟨c, hc⟩ := key
  obtain ⟨m, h1, h2, h3, -⟩ := look_sound hc
  refine ⟨m, h1, ?_, root_self h2, root_self h3⟩
  have r := (conn_equiv (Ins (single (bad con upd)))).refl 0
  have hi : ∀ x ∈ (single (bad con upd)).flatten, x.2.2 = true := by cases con <;> cases upd <;> decide
  cases con with
  | simple => exact conn_back (v := 2) (conn_path (v := 0) r (by cases upd <;> decide) hi) (by cases upd <;> decide) hi
  | parent =>
    exact conn_back (v := 3) (conn_path (v := 2) (conn_path (v := 0) r (by cases upd <;> decide) hi) (by cases upd <;> decide) hi)
      (by cases upd <;> decide) hi
  | extended =>
    cases upd with
    | simple => exact conn_back (v := 3) (conn_path (v := 2) (conn_path (v := 0) r (by decide) hi) (by decide) hi) (by decide) hi
    | root => exact conn_path (v := 3) (conn_path (v := 4) (conn_path (v := 0) r (by decide) hi) (by decide) hi) (by decide) hi

/-- A first batch. -/
def badBatch : List (Nat × Nat) := [(0, 2), (4, 3), (2, 3), (5, 4), (1, 5)]

/-- C139, the first batch with `simple_shortcut` fails for `connect` and `parent_connect` without alteration: 0 and 1 are
connected by the insertions of the batch, and both are roots. -/
theorem C139_first_batch_fails {con : Con} (hcon : con ≠ .extended) (upd : Upd) : ∃ m,
    Batch con upd false false 4 (badBatch.map fun e => (e.1, e.2, true)) init m ∧
    Conn (Ins [badBatch.map fun e => (e.1, e.2, true)]) 0 1 ∧ Root m 0 0 ∧ Root m 1 1 := by
  have key : look con upd false false [badBatch.map fun e => (e.1, e.2, true)] = some (0, 1, 0) := by
    cases con with
    | simple => cases upd <;> decide +kernel
    | parent => cases upd <;> decide +kernel
    | extended => exact absurd rfl hcon
  obtain ⟨m, h1, h2, h3, -⟩ := look_sound key
  cases h1 with
  | cons hb hl =>
    cases hl
    have r := (conn_equiv (Ins [badBatch.map fun e => (e.1, e.2, true)])).refl 0
    have hi : ∀ x ∈ ([badBatch.map fun e => (e.1, e.2, true)] : List (List Update)).flatten, x.2.2 = true := by decide
    exact ⟨m, hb, conn_back (v := 5) (conn_back (v := 4) (conn_back (v := 3) (conn_path (v := 2) (conn_path (v := 0) r (by decide) hi)
      (by decide) hi) (by decide) hi) (by decide) hi) (by decide) hi, root_self h2, root_self h3⟩

/-- C139: a flag can stay set after a batch, since the flags of the old parents are set and those of the new parents are
cleared (`extended_connect`, `simple_update`). The structure then ignores updates of that vertex. -/
theorem C139_flag_stays (full alt : Bool) : ∃ m, Stream .extended .simple full alt 4 (single (bad .extended .simple)) init m ∧
    m (flag 2) = 1 := by
  have key : look .extended .simple full alt (single (bad .extended .simple)) = some (0, 1, 1) := by
    cases full <;> cases alt <;> decide +kernel
  obtain ⟨m, h1, -, -, h4⟩ := look_sound key
  exact ⟨m, h1, h4⟩

/-- There are first batches, with a query. -/
example : ∃ m, Batch .parent .root true false 4 [(0, 2, true), (1, 2, true), (3, 4, true)] init m ∧ parents m 1 = 0 := by
  have key : look .parent .root true false [[(0, 2, true), (1, 2, true), (3, 4, true)]] = some (0, 0, 0) := by decide +kernel
  obtain ⟨m, h1, -, h3, -⟩ := look_sound key
  cases h1 with
  | cons hb hl => cases hl; exact ⟨m, hb, h3⟩

/-- The theorems apply to them. -/
example : ∃ m, Batch .parent .root true false 4 [(0, 2, true), (1, 2, true), (3, 4, true)] init m ∧
    (parents m 0 = parents m 1 ↔ Conn (Ins [[(0, 2, true), (1, 2, true), (3, 4, true)]]) 0 1) := by
  have key : look .parent .root true false [[(0, 2, true), (1, 2, true), (3, 4, true)]] = some (0, 0, 0) := by decide +kernel
  obtain ⟨m, h1, -, h3, -⟩ := look_sound key
  cases h1 with
  | cons hb hl => cases hl; exact ⟨m, hb, (C139_first_batch_partial (by decide) (by decide) hb).1 0 1⟩

/-- The flags of insertions decide what is inserted; two queries of a batch of five are read from its first two updates. -/
example : inserts [(7, 8, false), (1, 2, true), (3, 4, true), (5, 6, false), (2, 0, true)] = [(1, 2), (3, 4), (2, 0)] ∧
    [(7, 8, false), (1, 2, true), (3, 4, true), (5, 6, false), (2, 0, true)].take
      (queries [(7, 8, false), (1, 2, true), (3, 4, true), (5, 6, false), (2, 0, true)]) = [(7, 8, false), (1, 2, true)] := by
  decide

end Gbbs.LTBatch
