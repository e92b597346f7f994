/-
C146: constructors, moves, copies and destructors of graphs, `gbbs/graph.h:186-264` (`symmetric_graph`; `asymmetric_graph`, `:560-640`, does the same with twice
the arrays), and the copy that `run_app` makes, `gbbs/benchmark.h:7-15`.
-/
import Verif.Common
import Verif.Encoding.AmRepack

namespace Gbbs.Own

variable {E D : Type}

/-! ### Model -/

/-- An allocated array: vertex data (offset and degree, `vertex_data`), edges (`neighbor_type`: pairs, or bytes of a compressed graph), or vertex weights. -/
inductive Blk (E D : Type)
  | vd (l : List (Nat × Nat))
  | ed (l : List E)
  | wt (l : List D)

/-- The number of elements that was allocated. -/
def Blk.size : Blk E D → Nat
  | .vd l => l.length
  | .ed l => l.length
  | .wt l => l.length

/-- `deletion_fn`: a function that frees the arrays `l`, whose addresses and sizes it holds (`graph.h:176-180`, and `[]() {}` for no arrays); or the one that a
copy makes (`:239-245`): it uses the members `v_data`, `e0`, `vertex_weights`, `n` and `m`, so that `[=]` captures `this`, the address `x` of the object. -/
inductive Del
  | arrays (l : List (Nat × Nat))
  | this (x : Nat)

/-- The members, `graph.h:255-270`; `none` is `nullptr`. -/
structure Obj where
  n : Nat
  m : Nat
  v : Option Nat
  e : Option Nat
  w : Option Nat
  del : Del

/-- Allocated arrays by address, the next fresh address, and the objects by address (of the object). -/
structure St (E D : Type) where
  heap : Nat → Option (Blk E D)
  next : Nat
  obj : Nat → Option Obj

/-- What is read through `v_data`: nothing if the pointer is null or the array has been freed. -/
def vdAt (h : Nat → Option (Blk E D)) (p : Option Nat) : List (Nat × Nat) := match p.bind h with
  | some (.vd l) => l
  | _ => []

/-- What is read through `e0`. -/
def edAt (h : Nat → Option (Blk E D)) (p : Option Nat) : List E := match p.bind h with
  | some (.ed l) => l
  | _ => []

/-- What is read through `vertex_weights`. -/
def wtAt (h : Nat → Option (Blk E D)) (p : Option Nat) : Option (List D) := match p.bind h with
  | some (.wt l) => some l
  | _ => none

/-- `free_array(e, n)`, `bridge.h:122-130`. Freeing an array twice, or with a size that is not the one allocated (the requirement on `deallocate` of allocators),
is undefined (`none`); for `nullptr` it depends on the allocator (`nullOk`). -/
def free (nullOk : Bool) (h : Nat → Option (Blk E D)) : Option Nat × Nat → Option (Nat → Option (Blk E D))
  | (none, _) => if nullOk then some h else none
  | (some a, k) => match h a with
    | some b => if b.size = k then some (upd h a none) else none
    | none => none

def freeAll (nullOk : Bool) (h : Nat → Option (Blk E D)) : List (Option Nat × Nat) → Option (Nat → Option (Blk E D))
  | [] => some h
  | p :: l => (free nullOk h p).bind fun h => freeAll nullOk h l

/-- `deletion_fn()`. The function of a copy reads the members of the object at `x`, which must exist. -/
def runDel (nullOk : Bool) (s : St E D) : Del → Option (Nat → Option (Blk E D))
  | .arrays l => freeAll nullOk s.heap (l.map fun q => (some q.1, q.2))
  | .this x => match s.obj x with
    | none => none
    | some o => freeAll nullOk s.heap ([(o.v, o.n), (o.e, o.m)] ++ (if o.w.isSome then [(o.w, o.n)] else []))

/-- Statements of a program that uses graphs; `x`, `y` are addresses of objects. -/
inductive Op (E D : Type)
  /-- `symmetric_graph()`, `graph.h:187-193` -/
  | default (x : Nat)
  /-- a graph made by `from_edges`, a reader or a filter: new arrays, `graph.h:171-182`, `:195-203` -/
  | make (x : Nat) (vd : List (Nat × Nat)) (ed : List E) (wt : Option (List D)) (m : Nat)
  /-- `graph x(y)` -/
  | copy (x y : Nat)
  /-- `graph x(std::move(y))` -/
  | move (x y : Nat)
  /-- `x = std::move(y)` -/
  | assign (x y : Nat)
  /-- the end of the lifetime of `x` -/
  | destroy (x : Nat)
  /-- packing: the arrays of `x` are changed in place, and `m` -/
  | mutate (x : Nat) (vd : List (Nat × Nat)) (ed : List E) (m : Nat)

/-- The object that is left behind by a move: null pointers, but the old `n` and `m`, `graph.h:213-216`. -/
def Obj.hollow (o : Obj) : Obj := ⟨o.n, o.m, none, none, none, .arrays []⟩

def setP (h : Nat → Option (Blk E D)) (p : Option Nat) (b : Blk E D) : Nat → Option (Blk E D) := match p with
  | none => h
  | some a => upd h a (some b)

/-- One statement; `none` is undefined behaviour. -/
def step (nullOk : Bool) (s : St E D) : Op E D → Option (St E D)
  | .default x => some ⟨s.heap, s.next, upd s.obj x (some ⟨0, 0, none, none, none, .arrays []⟩)⟩
  | .make x vd ed wt m =>
    let h := upd (upd s.heap s.next (some (.vd vd))) (s.next + 1) (some (.ed ed))
    match wt with
    | none => some ⟨h, s.next + 2, upd s.obj x (some ⟨vd.length, m, some s.next, some (s.next + 1), none, .arrays [(s.next, vd.length), (s.next + 1, ed.length)]⟩)⟩
    | some wt => some ⟨upd h (s.next + 2) (some (.wt wt)), s.next + 3,
        upd s.obj x (some ⟨vd.length, m, some s.next, some (s.next + 1), some (s.next + 2),
          .arrays [(s.next, vd.length), (s.next + 1, ed.length), (s.next + 2, wt.length)]⟩)⟩
  | .copy x y => match s.obj y with
    | none => none
    | some o =>
      if o.n ≤ (vdAt s.heap o.v).length ∧ o.m ≤ (edAt s.heap o.e).length then
        let h := upd (upd s.heap s.next (some (.vd ((vdAt s.heap o.v).take o.n)))) (s.next + 1) (some (.ed ((edAt s.heap o.e).take o.m)))
        match o.w with
        | none => some ⟨h, s.next + 2, upd s.obj x (some ⟨o.n, o.m, some s.next, some (s.next + 1), none, .this x⟩)⟩
        | some c => match wtAt s.heap (some c) with
          | none => none
          | some wt => if o.n ≤ wt.length then
              some ⟨upd h (s.next + 2) (some (.wt (wt.take o.n))), s.next + 3,
                upd s.obj x (some ⟨o.n, o.m, some s.next, some (s.next + 1), some (s.next + 2), .this x⟩)⟩
            else none
      else none
  | .move x y => match s.obj y with
    | none => none
    | some o => some ⟨s.heap, s.next, upd (upd s.obj x (some o)) y (some o.hollow)⟩
  | .assign x y => match s.obj x, s.obj y with
    | some ox, some o => (runDel nullOk s ox.del).map fun h => ⟨h, s.next, upd (upd s.obj x (some o)) y (some o.hollow)⟩
    | _, _ => none
  | .destroy x => match s.obj x with
    | none => none
    | some o => (runDel nullOk s o.del).map fun h => ⟨h, s.next, upd s.obj x none⟩
  | .mutate x vd ed m => match s.obj x with
    | none => none
    | some o => if vd.length = (vdAt s.heap o.v).length ∧ ed.length = (edAt s.heap o.e).length then
        some ⟨setP (setP s.heap o.v (.vd vd)) o.e (.ed ed), s.next, upd s.obj x (some { o with m := m })⟩
      else none

def run (nullOk : Bool) : St E D → List (Op E D) → Option (St E D)
  | s, [] => some s
  | s, op :: l => (step nullOk s op).bind fun s => run nullOk s l

/-- No graphs, nothing allocated. -/
def init : St E D := ⟨fun _ => none, 0, fun _ => none⟩

/-! ### Specification: graphs are values -/

/-- A graph: `n`, `m`, and the contents of the arrays. -/
structure Val (E D : Type) where
  n : Nat
  m : Nat
  vd : List (Nat × Nat)
  ed : List E
  wt : Option (List D)

/-- The neighbours of a vertex of an uncompressed graph, `vertex.h:64-90`; `none` if entries outside the arrays are read. -/
def Val.nb (g : Val E D) (i : Nat) : Option (List E) := match g.vd[i]? with
  | none => none
  | some (off, deg) => if deg = 0 ∨ off + deg ≤ g.ed.length then some ((g.ed.drop off).take deg) else none

/-- What is copied: `n` vertices, `m` entries of the edge array. -/
def Val.cut (g : Val E D) : Val E D := ⟨g.n, g.m, g.vd.take g.n, g.ed.take g.m, g.wt.map (·.take g.n)⟩

def Val.hollow (g : Val E D) : Val E D := ⟨g.n, g.m, [], [], none⟩

/-- The meaning of a statement. -/
def spec (σ : Nat → Option (Val E D)) : Op E D → Nat → Option (Val E D)
  | .default x => upd σ x (some ⟨0, 0, [], [], none⟩)
  | .make x vd ed wt m => upd σ x (some ⟨vd.length, m, vd, ed, wt⟩)
  | .copy x y => upd σ x ((σ y).map Val.cut)
  | .move x y => upd (upd σ x (σ y)) y ((σ y).map Val.hollow)
  | .assign x y => upd (upd σ x (σ y)) y ((σ y).map Val.hollow)
  | .destroy x => upd σ x none
  | .mutate x vd ed m => upd σ x ((σ x).map fun g => { g with vd := vd, ed := ed, m := m })

/-- The objects that were made by copying (and not assigned to since). -/
def copies (cp : Nat → Bool) : Op E D → Nat → Bool
  | .copy x _ => upd cp x true
  | .default x | .make x .. | .move x _ | .assign x _ | .destroy x => upd cp x false
  | .mutate .. => cp

/-- Programs that C++ and the classes allow, except that **no copy is moved, and `m` of a copy is not changed**: objects are constructed where there is none and used while they
exist, packing stays inside the arrays, and a graph that is copied has at least `n` vertices and `m` entries. -/
def Legal (σ : Nat → Option (Val E D)) (cp : Nat → Bool) : Op E D → Prop
  | .default x => σ x = none
  | .make x .. => σ x = none
  | .copy x y => σ x = none ∧ ∃ g, σ y = some g ∧ g.n ≤ g.vd.length ∧ g.m ≤ g.ed.length ∧ ∀ l, g.wt = some l → g.n ≤ l.length
  | .move x y => σ x = none ∧ σ y ≠ none ∧ cp y = false
  | .assign x y => σ x ≠ none ∧ σ y ≠ none ∧ cp y = false
  | .destroy x => σ x ≠ none
  | .mutate x vd ed m => ∃ g, σ x = some g ∧ vd.length = g.vd.length ∧ ed.length = g.ed.length ∧ (cp x = true → m = g.m)

def LegalAll (σ : Nat → Option (Val E D)) (cp : Nat → Bool) : List (Op E D) → Prop
  | [] => True
  | op :: l => Legal σ cp op ∧ LegalAll (spec σ op) (copies cp op) l

/-! ### Proof -/

/-- The addresses of the arrays of an object. -/
def owns (o : Obj) : List Nat := o.v.toList ++ o.e.toList ++ o.w.toList

def valO (h : Nat → Option (Blk E D)) (o : Obj) : Val E D := ⟨o.n, o.m, vdAt h o.v, edAt h o.e, wtAt h o.w⟩

theorem mem_owns {o : Obj} {a : Nat} : a ∈ owns o ↔ o.v = some a ∨ o.e = some a ∨ o.w = some a := by
  simp [owns, Option.mem_toList]

structure Typed (h : Nat → Option (Blk E D)) (o : Obj) : Prop where
  v : ∀ a, o.v = some a → ∃ l, h a = some (.vd l)
  e : ∀ a, o.e = some a → ∃ l, h a = some (.ed l)
  w : ∀ a, o.w = some a → ∃ l, h a = some (.wt l)

/-- The arrays and sizes that the deletion function of a copy frees. -/
def thisL (o : Obj) : List (Nat × Nat) := o.v.toList.map (·, o.n) ++ o.e.toList.map (·, o.m) ++ o.w.toList.map (·, o.n)

/-- `l` are the arrays of the object, with their sizes. -/
def Good (h : Nat → Option (Blk E D)) (o : Obj) (l : List (Nat × Nat)) : Prop :=
  l.map (·.1) = owns o ∧ ∀ q ∈ l, ∃ b, h q.1 = some b ∧ b.size = q.2

/-- The deletion function frees the arrays of the object. -/
def DelOk (h : Nat → Option (Blk E D)) (x : Nat) (o : Obj) (b : Bool) : Prop :=
  ∃ l, Good h o l ∧ ((o.del = .arrays l ∧ b = false) ∨ (o.del = .this x ∧ l = thisL o ∧ o.v ≠ none ∧ o.e ≠ none ∧ b = true))

structure Inv (s : St E D) (σ : Nat → Option (Val E D)) (cp : Nat → Bool) : Prop where
  val : ∀ x, (s.obj x).map (valO s.heap) = σ x
  fresh : ∀ a, s.heap a ≠ none → a < s.next
  typed : ∀ x o, s.obj x = some o → Typed s.heap o
  disj : ∀ x y o p, x ≠ y → s.obj x = some o → s.obj y = some p → ∀ a ∈ owns o, a ∉ owns p
  noleak : ∀ a, s.heap a ≠ none → ∃ x o, s.obj x = some o ∧ a ∈ owns o
  del : ∀ x o, s.obj x = some o → DelOk s.heap x o (cp x)

theorem Typed.live {h : Nat → Option (Blk E D)} {o : Obj} (t : Typed h o) {a : Nat} (ha : a ∈ owns o) : h a ≠ none := by
  rcases mem_owns.1 ha with h1 | h1 | h1
  · obtain ⟨l, hl⟩ := t.v a h1; rw [hl]; exact Option.some_ne_none _
  · obtain ⟨l, hl⟩ := t.e a h1; rw [hl]; exact Option.some_ne_none _
  · obtain ⟨l, hl⟩ := t.w a h1; rw [hl]; exact Option.some_ne_none _

theorem Typed.nodup {h : Nat → Option (Blk E D)} {o : Obj} (t : Typed h o) : (owns o).Nodup := by
  have h1 : ∀ a, o.v = some a → o.e ≠ some a := fun a h1 h2 => by
    obtain ⟨l, hl⟩ := t.v a h1; obtain ⟨k, hk⟩ := t.e a h2; rw [hl] at hk; cases hk
  have h2 : ∀ a, o.v = some a → o.w ≠ some a := fun a h1 h2 => by
    obtain ⟨l, hl⟩ := t.v a h1; obtain ⟨k, hk⟩ := t.w a h2; rw [hl] at hk; cases hk
  have h3 : ∀ a, o.e = some a → o.w ≠ some a := fun a h1 h2 => by
    obtain ⟨l, hl⟩ := t.e a h1; obtain ⟨k, hk⟩ := t.w a h2; rw [hl] at hk; cases hk
  rw [owns]
  cases hv : o.v with
  | none => cases he : o.e with
    | none => cases o.w <;> simp
    | some b => cases hw : o.w with
      | none => simp
      | some c => have := h3 b he; rw [hw] at this; simp at this ⊢; omega
  | some a => cases he : o.e with
    | none => cases hw : o.w with
      | none => simp
      | some c => have := h2 a hv; rw [hw] at this; simp at this ⊢; omega
    | some b =>
      have h4 := h1 a hv; rw [he] at h4
      cases hw : o.w with
      | none => simp at h4 ⊢; omega
      | some c =>
        have h5 := h2 a hv; have h6 := h3 b he; rw [hw] at h5 h6
        simp at h4 h5 h6 ⊢; omega

/-- Contents depend only on the arrays owned. -/
theorem valO_congr {h h' : Nat → Option (Blk E D)} {o : Obj} (hh : ∀ a ∈ owns o, h' a = h a) : valO h' o = valO h o := by
  have hv : o.v.bind h' = o.v.bind h := by
    cases hv : o.v with
    | none => rfl
    | some a => exact hh a (mem_owns.2 (Or.inl hv))
  have he : o.e.bind h' = o.e.bind h := by
    cases hv : o.e with
    | none => rfl
    | some a => exact hh a (mem_owns.2 (Or.inr (Or.inl hv)))
  have hw : o.w.bind h' = o.w.bind h := by
    cases hv : o.w with
    | none => rfl
    | some a => exact hh a (mem_owns.2 (Or.inr (Or.inr hv)))
  rw [valO, valO, vdAt, vdAt, edAt, edAt, wtAt, wtAt, hv, he, hw]

theorem Typed.congr {h h' : Nat → Option (Blk E D)} {o : Obj} (t : Typed h o) (hh : ∀ a ∈ owns o, h' a = h a) : Typed h' o :=
  ⟨fun a ha => by rw [hh a (mem_owns.2 (Or.inl ha))]; exact t.v a ha, fun a ha => by rw [hh a (mem_owns.2 (Or.inr (Or.inl ha)))]; exact t.e a ha,
    fun a ha => by rw [hh a (mem_owns.2 (Or.inr (Or.inr ha)))]; exact t.w a ha⟩

theorem DelOk.mono {h h' : Nat → Option (Blk E D)} {x : Nat} {o : Obj} {b : Bool} (d : DelOk h x o b)
    (hh : ∀ a ∈ owns o, ∀ c, h a = some c → ∃ c', h' a = some c' ∧ c'.size = c.size) : DelOk h' x o b := by
  obtain ⟨l, ⟨h1, h2⟩, h3⟩ := d
  refine ⟨l, ⟨h1, fun q hq => ?_⟩, h3⟩
  obtain ⟨c, hc, hs⟩ := h2 q hq
  obtain ⟨c', hc', hs'⟩ := hh q.1 (h1 ▸ List.mem_map_of_mem hq) c hc
  exact ⟨c', hc', hs'.trans hs⟩

theorem DelOk.congr {h h' : Nat → Option (Blk E D)} {x : Nat} {o : Obj} {b : Bool} (d : DelOk h x o b) (hh : ∀ a ∈ owns o, h' a = h a) : DelOk h' x o b :=
  d.mono fun a ha c hc => ⟨c, (hh a ha).trans hc, rfl⟩

theorem freeAll_ok (nullOk : Bool) {l : List (Nat × Nat)} (hnd : (l.map (·.1)).Nodup) (h : Nat → Option (Blk E D))
    (hl : ∀ q ∈ l, ∃ b, h q.1 = some b ∧ b.size = q.2) :
    freeAll nullOk h (l.map fun q => (some q.1, q.2)) = some fun a => if a ∈ l.map (·.1) then none else h a := by
  induction l generalizing h with
  | nil => simp [freeAll]
  | cons q l ih =>
    have hn := List.nodup_cons.1 hnd
    obtain ⟨b, hb, hs⟩ := hl q List.mem_cons_self
    rw [List.map_cons, freeAll, free, hb]
    simp only [hs, if_true]
    show freeAll nullOk (upd h q.1 none) (l.map fun q => (some q.1, q.2)) = _
    rw [ih hn.2 _ fun c hc => by
      have hca : c.1 ≠ q.1 := fun e => hn.1 (List.mem_map.2 ⟨c, hc, e⟩)
      rw [upd_of_ne _ _ hca]; exact hl c (List.mem_cons_of_mem _ hc)]
    congr 1
    funext c
    by_cases hc : c = q.1
    · subst hc; simp [upd_same]
    · have : c ∈ List.map (fun x => x.1) (q :: l) ↔ c ∈ List.map (fun x => x.1) l := by
        rw [List.map_cons, List.mem_cons]; exact ⟨fun h => h.resolve_left hc, Or.inr⟩
      simp only [upd_of_ne _ _ hc, this]

/-- Deleting an object frees exactly its arrays. -/
theorem Inv.runDel {s : St E D} {σ : Nat → Option (Val E D)} {cp : Nat → Bool} (I : Inv s σ cp) (nullOk : Bool) {x : Nat} {o : Obj} (ho : s.obj x = some o) :
    Own.runDel nullOk s o.del = some fun a => if a ∈ owns o then none else s.heap a := by
  have t := I.typed x o ho
  obtain ⟨l, ⟨h1, h2⟩, h3⟩ := I.del x o ho
  have hf := freeAll_ok nullOk (h1 ▸ t.nodup) s.heap h2
  rw [h1] at hf
  rcases h3 with ⟨h3, _⟩ | ⟨h3, h4, h5, h6, _⟩
  · rw [h3, Own.runDel]
    exact hf
  · rw [h3, Own.runDel, ho]
    have : ([(o.v, o.n), (o.e, o.m)] ++ (if o.w.isSome then [(o.w, o.n)] else [])) = l.map fun q => (some q.1, q.2) := by
      obtain ⟨a, ha⟩ := Option.ne_none_iff_exists'.1 h5
      obtain ⟨b, hb⟩ := Option.ne_none_iff_exists'.1 h6
      rw [h4, thisL, ha, hb]
      cases o.w <;> rfl
    simp only [this]
    exact hf

theorem Inv.exO {s : St E D} {σ : Nat → Option (Val E D)} {cp : Nat → Bool} (I : Inv s σ cp) {x : Nat} (h : σ x ≠ none) : ∃ o, s.obj x = some o := by
  rw [← I.val x] at h
  cases ho : s.obj x with
  | none => rw [ho] at h; exact absurd rfl h
  | some o => exact ⟨o, rfl⟩

theorem Inv.noO {s : St E D} {σ : Nat → Option (Val E D)} {cp : Nat → Bool} (I : Inv s σ cp) {x : Nat} (h : σ x = none) : s.obj x = none := by
  rw [← I.val x] at h
  exact Option.map_eq_none_iff.1 h

/-- A new object with new arrays. -/
theorem Inv.add {s : St E D} {σ : Nat → Option (Val E D)} {cp : Nat → Bool} (I : Inv s σ cp) {x : Nat} (hx : s.obj x = none) {h : Nat → Option (Blk E D)} {k : Nat}
    {o : Obj} {b : Bool} (hold : ∀ a < s.next, h a = s.heap a) (hnew : ∀ a, s.next ≤ a → (h a ≠ none ↔ a ∈ owns o)) (hk : ∀ a ∈ owns o, s.next ≤ a ∧ a < s.next + k)
    (ht : Typed h o) (hd : DelOk h x o b) :
    Inv ⟨h, s.next + k, upd s.obj x (some o)⟩ (upd σ x (some (valO h o))) (upd cp x b) := by
  have hne : ∀ y p, s.obj y = Option.some p → y ≠ x := fun y p hp e => by rw [e, hx] at hp; cases hp
  have hold' : ∀ y p, s.obj y = Option.some p → ∀ a ∈ owns p, h a = s.heap a := fun y p hp a ha => hold a (I.fresh a ((I.typed y p hp).live ha))
  have hcase : ∀ y p, upd s.obj x (some o) y = some p → (y = x ∧ p = o) ∨ (y ≠ x ∧ s.obj y = Option.some p) := fun y p hp => by
    by_cases hy : y = x
    · rw [hy, upd_same] at hp; exact Or.inl ⟨hy, (Option.some.inj hp).symm⟩
    · rw [upd_of_ne _ _ hy] at hp; exact Or.inr ⟨hy, hp⟩
  have hlow : ∀ y p, s.obj y = Option.some p → ∀ a ∈ owns p, a < s.next := fun y p hp a ha => I.fresh a ((I.typed y p hp).live ha)
  refine ⟨fun y => ?_, fun a ha => ?_, fun y p hp => ?_, fun y z p q hyz hp hq a ha => ?_, fun a ha => ?_, fun y p hp => ?_⟩
  · by_cases hy : y = x
    · rw [hy]; simp only [upd_same]; rfl
    · simp only [upd_of_ne _ _ hy]
      rw [← I.val y]
      cases hp : s.obj y with
      | none => rfl
      | some p => exact congrArg Option.some (valO_congr (hold' y p hp))
  · show a < s.next + k
    by_cases hlt : a < s.next
    · omega
    · exact (hk a ((hnew a (by omega)).1 ha)).2
  · rcases hcase y p hp with ⟨rfl, rfl⟩ | ⟨_, hp⟩
    · exact ht
    · exact (I.typed y p hp).congr (hold' y p hp)
  · rcases hcase y p hp with ⟨rfl, rfl⟩ | ⟨_, hp⟩
    · rcases hcase z q hq with ⟨rfl, rfl⟩ | ⟨_, hq⟩
      · exact absurd rfl hyz
      · intro ha'
        have := hlow z q hq a ha'
        have := (hk a ha).1
        omega
    · rcases hcase z q hq with ⟨_, rfl⟩ | ⟨_, hq⟩
      · intro ha'
        have := hlow y p (by assumption) a ha
        have := (hk a ha').1
        omega
      · exact I.disj y z p q hyz hp hq a ha
  · by_cases hlt : a < s.next
    · have ha : h a ≠ none := ha
      rw [hold a hlt] at ha
      obtain ⟨y, p, hp, hap⟩ := I.noleak a ha
      exact ⟨y, p, by show upd s.obj x (some o) y = _; rw [upd_of_ne _ _ (hne y p hp)]; exact hp, hap⟩
    · exact ⟨x, o, upd_same .., (hnew a (by omega)).1 ha⟩
  · rcases hcase y p hp with ⟨rfl, rfl⟩ | ⟨hy, hp⟩
    · rw [upd_same]; exact hd
    · rw [upd_of_ne _ _ hy]; exact (I.del y p hp).congr (hold' y p hp)

theorem hollow_owns (o : Obj) : owns o.hollow = [] := rfl

/-- Moving out of `y` into `x`, whose arrays (if it has any) have been freed. -/
theorem Inv.moved {s : St E D} {σ : Nat → Option (Val E D)} {cp : Nat → Bool} (I : Inv s σ cp) {x y : Nat} {o : Obj} (ho : s.obj y = some o) (hc : cp y = false)
    {L : List Nat} (hL : (s.obj x = none ∧ L = []) ∨ ∃ ox, s.obj x = Option.some ox ∧ L = owns ox) :
    Inv ⟨fun a => if a ∈ L then none else s.heap a, s.next, upd (upd s.obj x (some o)) y (some o.hollow)⟩ (upd (upd σ x (σ y)) y ((σ y).map Val.hollow))
      (upd cp x false) := by
  set h : Nat → Option (Blk E D) := fun a => if a ∈ L then none else s.heap a with hh
  have hL' : ∀ z p, z ≠ x → s.obj z = Option.some p → ∀ a ∈ owns p, a ∉ L := fun z p hz hp a ha haL => by
    rcases hL with ⟨_, h2⟩ | ⟨ox, h1, h2⟩
    · rw [h2] at haL; cases haL
    · rw [h2] at haL; exact I.disj z x p ox hz hp h1 a ha haL
  have hsame : ∀ z p, z ≠ x → s.obj z = Option.some p → ∀ a ∈ owns p, h a = s.heap a := fun z p hz hp a ha => if_neg (hL' z p hz hp a ha)
  have hcase : ∀ z p, upd (upd s.obj x (some o)) y (some o.hollow) z = some p →
      (z = y ∧ p = o.hollow) ∨ (z ≠ y ∧ z = x ∧ p = o) ∨ (z ≠ y ∧ z ≠ x ∧ s.obj z = Option.some p) := fun z p hp => by
    by_cases hz : z = y
    · rw [hz, upd_same] at hp; exact Or.inl ⟨hz, (Option.some.inj hp).symm⟩
    · rw [upd_of_ne _ _ hz] at hp
      by_cases hx : z = x
      · rw [hx, upd_same] at hp; exact Or.inr (Or.inl ⟨hz, hx, (Option.some.inj hp).symm⟩)
      · rw [upd_of_ne _ _ hx] at hp; exact Or.inr (Or.inr ⟨hz, hx, hp⟩)
  have hdel : ∃ l, Good s.heap o l ∧ o.del = .arrays l := by
    obtain ⟨l, h1, ⟨h2, _⟩ | ⟨_, _, _, _, h4⟩⟩ := I.del y o ho
    · exact ⟨l, h1, h2⟩
    · rw [hc] at h4; cases h4
  have hval : σ y = Option.some (valO s.heap o) := by rw [← I.val y, ho]; rfl
  have hle : ∀ a, h a ≠ none → s.heap a ≠ none ∧ a ∉ L := fun a ha => by
    by_cases hal : a ∈ L
    · exact absurd (if_pos hal) ha
    · exact ⟨fun hn => ha (by rw [hh]; simp only [if_neg hal]; exact hn), hal⟩
  refine ⟨fun z => ?_, fun a ha => I.fresh a (hle a ha).1, fun z p hp => ?_, fun z z' p q hzz hp hq a ha => ?_, fun a ha => ?_, fun z p hp => ?_⟩
  · by_cases hz : z = y
    · rw [hz]; simp only [upd_same]; rw [hval]; rfl
    · simp only [upd_of_ne _ _ hz]
      by_cases hx : z = x
      · rw [hx] at hz ⊢; simp only [upd_same]
        rw [hval]
        exact congrArg Option.some (valO_congr (hsame y o (fun e => hz e.symm) ho))
      · simp only [upd_of_ne _ _ hx]
        rw [← I.val z]
        cases hp : s.obj z with
        | none => rfl
        | some p => exact congrArg Option.some (valO_congr (hsame z p hx hp))
  · rcases hcase z p hp with ⟨_, rfl⟩ | ⟨hz, hx, rfl⟩ | ⟨hz, hx, hp⟩
    · exact ⟨fun _ h => (nomatch h), fun _ h => (nomatch h), fun _ h => (nomatch h)⟩
    · exact (I.typed y p ho).congr (hsame y p (fun e => hz (hx.trans e.symm)) ho)
    · exact (I.typed z p hp).congr (hsame z p hx hp)
  · rcases hcase z p hp with ⟨_, rfl⟩ | ⟨hz, hx, rfl⟩ | ⟨hz, hx, hp⟩
    · rw [hollow_owns] at ha; cases ha
    · rcases hcase z' q hq with ⟨_, rfl⟩ | ⟨hz', hx', rfl⟩ | ⟨hz', hx', hq⟩
      · rw [hollow_owns]; exact List.not_mem_nil
      · exact absurd (hx.trans hx'.symm) hzz
      · exact I.disj y z' p q (fun e => hz' e.symm) ho hq a ha
    · rcases hcase z' q hq with ⟨_, rfl⟩ | ⟨hz', hx', rfl⟩ | ⟨hz', hx', hq⟩
      · rw [hollow_owns]; exact List.not_mem_nil
      · exact I.disj z y p _ hz (by assumption) ho a ha
      · exact I.disj z z' p q hzz hp hq a ha
  · obtain ⟨h1, h2⟩ := hle a ha
    obtain ⟨z, p, hp, hap⟩ := I.noleak a h1
    by_cases hz : z = y
    · rw [hz, ho] at hp
      cases hp
      by_cases hxy : x = y
      · -- self move: the arrays are those freed
        rcases hL with ⟨h3, _⟩ | ⟨ox, h3, h4⟩
        · rw [hxy, ho] at h3; cases h3
        · rw [hxy, ho] at h3; cases h3; rw [h4] at h2; exact absurd hap h2
      · exact ⟨x, o, by show upd (upd s.obj x (some o)) y _ x = _; rw [upd_of_ne _ _ hxy, upd_same], hap⟩
    · by_cases hx : z = x
      · rcases hL with ⟨h3, _⟩ | ⟨ox, h3, h4⟩
        · rw [hx, h3] at hp; cases hp
        · rw [hx, h3] at hp; cases hp; rw [h4] at h2; exact absurd hap h2
      · exact ⟨z, p, by show upd (upd s.obj x (some o)) y _ z = _; rw [upd_of_ne _ _ hz, upd_of_ne _ _ hx]; exact hp, hap⟩
  · rcases hcase z p hp with ⟨hz, rfl⟩ | ⟨hz, hx, rfl⟩ | ⟨hz, hx, hp⟩
    · refine ⟨[], ⟨rfl, fun q hq => nomatch hq⟩, Or.inl ⟨rfl, ?_⟩⟩
      rw [hz, upd_apply]; split
      · rfl
      · exact hc
    · obtain ⟨l, h1, h2⟩ := hdel
      have d : DelOk s.heap z p (upd cp x false z) := ⟨l, h1, Or.inl ⟨h2, by rw [hx, upd_same]⟩⟩
      exact d.congr (hsame y p (fun e => hz (hx.trans e.symm)) ho)
    · rw [upd_of_ne _ _ hx]; exact (I.del z p hp).congr (hsame z p hx hp)

/-- The end of a lifetime. -/
theorem Inv.gone {s : St E D} {σ : Nat → Option (Val E D)} {cp : Nat → Bool} (I : Inv s σ cp) {x : Nat} {o : Obj} (ho : s.obj x = some o) :
    Inv ⟨fun a => if a ∈ owns o then none else s.heap a, s.next, upd s.obj x none⟩ (upd σ x none) (upd cp x false) := by
  have hcase : ∀ z p, upd s.obj x none z = Option.some p → z ≠ x ∧ s.obj z = Option.some p := fun z p hp => by
    by_cases hz : z = x
    · rw [hz, upd_same] at hp; cases hp
    · rw [upd_of_ne _ _ hz] at hp; exact ⟨hz, hp⟩
  have hsame : ∀ z p, z ≠ x → s.obj z = Option.some p → ∀ a ∈ owns p, (if a ∈ owns o then none else s.heap a) = s.heap a := fun z p hz hp a ha =>
    if_neg (I.disj z x p o hz hp ho a ha)
  refine ⟨fun z => ?_, fun a ha => I.fresh a fun hn => ha ?_, fun z p hp => ?_, fun z z' p q hzz hp hq => I.disj z z' p q hzz (hcase z p hp).2 (hcase z' q hq).2,
    fun a ha => ?_, fun z p hp => ?_⟩
  · by_cases hz : z = x
    · rw [hz]; simp only [upd_same]; rfl
    · simp only [upd_of_ne _ _ hz]
      rw [← I.val z]
      cases hp : s.obj z with
      | none => rfl
      | some p => exact congrArg Option.some (valO_congr (hsame z p hz hp))
  · show (if a ∈ owns o then none else s.heap a) = none
    rw [hn]; simp
  · obtain ⟨hz, hp⟩ := hcase z p hp
    exact (I.typed z p hp).congr (hsame z p hz hp)
  · have ha : (if a ∈ owns o then none else s.heap a) ≠ none := ha
    by_cases hao : a ∈ owns o
    · exact absurd (if_pos hao) ha
    · rw [if_neg hao] at ha
      obtain ⟨z, p, hp, hap⟩ := I.noleak a ha
      have hz : z ≠ x := fun e => by rw [e, ho] at hp; cases hp; exact hao hap
      exact ⟨z, p, by show upd s.obj x none z = _; rw [upd_of_ne _ _ hz]; exact hp, hap⟩
  · obtain ⟨hz, hp⟩ := hcase z p hp
    rw [upd_of_ne _ _ hz]; exact (I.del z p hp).congr (hsame z p hz hp)

theorem setP_of_ne {h : Nat → Option (Blk E D)} {p : Option Nat} {b : Blk E D} {a : Nat} (hp : p ≠ some a) : setP h p b a = h a := by
  cases p with
  | none => rfl
  | some c => exact upd_of_ne _ _ fun e => hp (e ▸ rfl)

/-- Changing the contents of the arrays of one object. -/
theorem Inv.changed {s : St E D} {σ : Nat → Option (Val E D)} {cp : Nat → Bool} (I : Inv s σ cp) {x : Nat} {o : Obj} (ho : s.obj x = some o)
    {vd : List (Nat × Nat)} {ed : List E} (m : Nat) (h1 : vd.length = (vdAt s.heap o.v).length) (h2 : ed.length = (edAt s.heap o.e).length)
    (h3 : cp x = true → m = o.m) : Inv ⟨setP (setP s.heap o.v (.vd vd)) o.e (.ed ed), s.next, upd s.obj x (some { o with m := m })⟩
      (upd σ x ((σ x).map fun g => { g with vd := vd, ed := ed, m := m })) cp := by
  have t := I.typed x o ho
  set h := setP (setP s.heap o.v (.vd vd)) o.e (.ed ed) with hh
  have hcase : ∀ z p, upd s.obj x (some { o with m := m }) z = some p → (z = x ∧ p = { o with m := m }) ∨ (z ≠ x ∧ s.obj z = Option.some p) := fun z p hp => by
    by_cases hz : z = x
    · rw [hz, upd_same] at hp; exact Or.inl ⟨hz, (Option.some.inj hp).symm⟩
    · rw [upd_of_ne _ _ hz] at hp; exact Or.inr ⟨hz, hp⟩
  have hdiff : ∀ a, o.v ≠ some a → o.e ≠ some a → h a = s.heap a := fun a hv he => by rw [hh, setP_of_ne he, setP_of_ne hv]
  have hsame : ∀ z p, z ≠ x → s.obj z = Option.some p → ∀ a ∈ owns p, h a = s.heap a := fun z p hz hp a ha => by
    have := I.disj z x p o hz hp ho a ha
    rw [mem_owns] at this
    exact hdiff a (fun e => this (Or.inl e)) fun e => this (Or.inr (Or.inl e))
  have hvv : ∀ a, o.v = some a → h a = some (.vd vd) := fun a ha => by
    have : o.e ≠ some a := fun he => by
      obtain ⟨l, hl⟩ := t.v a ha; obtain ⟨k, hk⟩ := t.e a he; rw [hl] at hk; cases hk
    rw [hh, setP_of_ne this, ha]; exact upd_same ..
  have hee : ∀ a, o.e = some a → h a = some (.ed ed) := fun a ha => by rw [hh, ha]; exact upd_same ..
  have hww : ∀ a, o.w = some a → h a = s.heap a := fun a ha => by
    obtain ⟨l, hl⟩ := t.w a ha
    exact hdiff a (fun he => by obtain ⟨k, hk⟩ := t.v a he; rw [hl] at hk; cases hk) fun he => by obtain ⟨k, hk⟩ := t.e a he; rw [hl] at hk; cases hk
  have hnn : ∀ a, h a ≠ none ↔ s.heap a ≠ none := fun a => by
    by_cases hv : o.v = some a
    · rw [hvv a hv]; obtain ⟨l, hl⟩ := t.v a hv; rw [hl]; simp
    · by_cases he : o.e = some a
      · rw [hee a he]; obtain ⟨l, hl⟩ := t.e a he; rw [hl]; simp
      · rw [hdiff a hv he]
  have hsz : ∀ a c, s.heap a = Option.some c → ∃ c', h a = some c' ∧ c'.size = c.size := fun a c hc => by
    by_cases hv : o.v = some a
    · rw [hvv a hv]
      obtain ⟨l, hl⟩ := t.v a hv
      rw [hl] at hc; cases hc
      refine ⟨_, rfl, ?_⟩
      rw [hv, vdAt] at h1; simp only [Option.bind, hl] at h1
      exact h1
    · by_cases he : o.e = some a
      · rw [hee a he]
        obtain ⟨l, hl⟩ := t.e a he
        rw [hl] at hc; cases hc
        refine ⟨_, rfl, ?_⟩
        rw [he, edAt] at h2; simp only [Option.bind, hl] at h2
        exact h2
      · rw [hdiff a hv he]; exact ⟨c, hc, rfl⟩
  refine ⟨fun z => ?_, fun a ha => I.fresh a ((hnn a).1 ha), fun z p hp => ?_, fun z z' p q hzz hp hq a ha => ?_, fun a ha => ?_, fun z p hp => ?_⟩
  · by_cases hz : z = x
    · rw [hz]; simp only [upd_same]
      rw [← I.val x, ho]
      show some (valO h { o with m := m }) = some _
      congr 1
      show (⟨o.n, m, vdAt h o.v, edAt h o.e, wtAt h o.w⟩ : Val E D) = ⟨o.n, m, vd, ed, wtAt s.heap o.w⟩
      have e1 : vdAt h o.v = vd := by
        cases hv : o.v with
        | none => rw [hv] at h1; exact (List.length_eq_zero_iff.1 h1).symm
        | some a => simp only [vdAt, Option.bind, hvv a hv]
      have e2 : edAt h o.e = ed := by
        cases hv : o.e with
        | none => rw [hv] at h2; exact (List.length_eq_zero_iff.1 h2).symm
        | some a => simp only [edAt, Option.bind, hee a hv]
      have e3 : wtAt h o.w = wtAt s.heap o.w := by
        cases hv : o.w with
        | none => rfl
        | some a => simp only [wtAt, Option.bind, hww a hv]
      rw [e1, e2, e3]
    · simp only [upd_of_ne _ _ hz]
      rw [← I.val z]
      cases hp : s.obj z with
      | none => rfl
      | some p => exact congrArg Option.some (valO_congr (hsame z p hz hp))
  · rcases hcase z p hp with ⟨_, rfl⟩ | ⟨hz, hp⟩
    · exact ⟨fun a ha => ⟨_, hvv a ha⟩, fun a ha => ⟨_, hee a ha⟩, fun a ha => by show ∃ l, h a = _; rw [hww a ha]; exact t.w a ha⟩
    · exact (I.typed z p hp).congr (hsame z p hz hp)
  · rcases hcase z p hp with ⟨rfl, rfl⟩ | ⟨hz, hp⟩
    · rcases hcase z' q hq with ⟨rfl, rfl⟩ | ⟨hz', hq⟩
      · exact absurd rfl hzz
      · exact I.disj z z' o q hzz ho hq a ha
    · rcases hcase z' q hq with ⟨rfl, rfl⟩ | ⟨hz', hq⟩
      · exact I.disj z z' p o hzz (by assumption) ho a ha
      · exact I.disj z z' p q hzz hp hq a ha
  · obtain ⟨z, p, hp, hap⟩ := I.noleak a ((hnn a).1 ha)
    by_cases hz : z = x
    · rw [hz, ho] at hp; cases hp
      exact ⟨x, _, upd_same .., hap⟩
    · exact ⟨z, p, by show upd s.obj x _ z = _; rw [upd_of_ne _ _ hz]; exact hp, hap⟩
  · rcases hcase z p hp with ⟨rfl, rfl⟩ | ⟨hz, hp⟩
    · have d := (I.del z o ho).mono (h' := h) fun a _ c hc => hsz a c hc
      obtain ⟨l, hg, hl | ⟨h4, h5, h6, h7, h8⟩⟩ := d
      · exact ⟨l, hg, Or.inl hl⟩
      · refine ⟨l, hg, Or.inr ⟨h4, ?_, h6, h7, h8⟩⟩
        rw [h5, h3 h8]
    · exact (I.del z p hp).congr (hsame z p hz hp)

theorem step_ok (nullOk : Bool) {s : St E D} {σ : Nat → Option (Val E D)} {cp : Nat → Bool} (I : Inv s σ cp) {op : Op E D} (hop : Legal σ cp op) :
    ∃ s', step nullOk s op = some s' ∧ Inv s' (spec σ op) (copies cp op) := by
  have hfr : ∀ a, s.next ≤ a → s.heap a = none := fun a ha => by
    by_contra hn
    have := I.fresh a hn
    omega
  have hg : ∀ x o, s.obj x = some o → σ x = some (valO s.heap o) := fun x o ho => by rw [← I.val x, ho]; rfl
  cases op with
  | default x =>
    refine ⟨_, rfl, ?_⟩
    exact I.add (I.noO hop) (k := 0) (h := s.heap) (o := ⟨0, 0, none, none, none, .arrays []⟩) (b := false) (fun _ _ => rfl) (fun a ha => by simp [hfr a ha, owns])
      (fun a ha => by simp [owns] at ha) ⟨fun _ h => (nomatch h), fun _ h => (nomatch h), fun _ h => (nomatch h)⟩ ⟨[], ⟨rfl, fun q hq => nomatch hq⟩, Or.inl ⟨rfl, rfl⟩⟩
  | make x vd ed wt m =>
    cases wt with
    | none =>
      refine ⟨_, rfl, ?_⟩
      have := I.add (I.noO hop) (k := 2) (h := upd (upd s.heap s.next (some (.vd vd))) (s.next + 1) (some (.ed ed)))
        (o := ⟨vd.length, m, some s.next, some (s.next + 1), none, .arrays [(s.next, vd.length), (s.next + 1, ed.length)]⟩) (b := false)
        (fun a ha => by rw [upd_of_ne _ _ (by omega), upd_of_ne _ _ (by omega)])
        (fun a ha => by
          simp only [upd_apply, owns, Option.toList]
          by_cases h1 : a = s.next + 1
          · simp [h1]
          · by_cases h2 : a = s.next
            · simp [h2]
            · simp [h1, h2, hfr a ha])
        (fun a ha => by simp [owns] at ha; omega)
        ⟨fun a ha => ⟨vd, by cases ha; simp [upd_apply]⟩, fun a ha => ⟨ed, by cases ha; simp⟩, fun _ h => (nomatch h)⟩
        ⟨_, ⟨rfl, fun q hq => by
          rcases List.mem_cons.1 hq with rfl | hq
          · exact ⟨.vd vd, by simp [upd_apply], rfl⟩
          · rw [List.mem_singleton.1 hq]; exact ⟨.ed ed, by simp, rfl⟩⟩, Or.inl ⟨rfl, rfl⟩⟩
      simpa [spec, copies, valO, vdAt, edAt, wtAt, upd_apply] using this
    | some wt =>
      refine ⟨_, rfl, ?_⟩
      have := I.add (I.noO hop) (k := 3) (h := upd (upd (upd s.heap s.next (some (.vd vd))) (s.next + 1) (some (.ed ed))) (s.next + 2) (some (.wt wt)))
        (o := ⟨vd.length, m, some s.next, some (s.next + 1), some (s.next + 2), .arrays [(s.next, vd.length), (s.next + 1, ed.length), (s.next + 2, wt.length)]⟩)
        (b := false)
        (fun a ha => by rw [upd_of_ne _ _ (by omega), upd_of_ne _ _ (by omega), upd_of_ne _ _ (by omega)])
        (fun a ha => by
          simp only [upd_apply, owns, Option.toList]
          by_cases h0 : a = s.next + 2
          · simp [h0]
          · by_cases h1 : a = s.next + 1
            · simp [h1]
            · by_cases h2 : a = s.next
              · simp [h2]
              · simp [h0, h1, h2, hfr a ha])
        (fun a ha => by simp [owns] at ha; omega)
        ⟨fun a ha => ⟨vd, by cases ha; simp [upd_apply]⟩, fun a ha => ⟨ed, by cases ha; simp [upd_apply]⟩, fun a ha => ⟨wt, by cases ha; simp⟩⟩
        ⟨_, ⟨rfl, fun q hq => by
          rcases List.mem_cons.1 hq with rfl | hq
          · exact ⟨.vd vd, by simp [upd_apply], rfl⟩
          · rcases List.mem_cons.1 hq with rfl | hq
            · exact ⟨.ed ed, by simp [upd_apply], rfl⟩
            · rw [List.mem_singleton.1 hq]; exact ⟨.wt wt, by simp, rfl⟩⟩, Or.inl ⟨rfl, rfl⟩⟩
      simpa [spec, copies, valO, vdAt, edAt, wtAt, upd_apply] using this
  | copy x y =>
    obtain ⟨hx, g, hy, h1, h2, h3⟩ := hop
    obtain ⟨o, ho⟩ := I.exO (x := y) (by rw [hy]; exact Option.some_ne_none _)
    have hgo := hg y o ho
    rw [hy] at hgo
    cases hgo
    have hx := I.noO hx
    have h1 : o.n ≤ (vdAt s.heap o.v).length := h1
    have h2 : o.m ≤ (edAt s.heap o.e).length := h2
    set vd := (vdAt s.heap o.v).take o.n with hvd
    set ed := (edAt s.heap o.e).take o.m with hed
    have lv : vd.length = o.n := by rw [hvd, List.length_take]; omega
    have le : ed.length = o.m := by rw [hed, List.length_take]; omega
    cases hw : o.w with
    | none =>
      refine ⟨_, by simp only [step, ho, hw]; rw [if_pos ⟨h1, h2⟩], ?_⟩
      have := I.add hx (k := 2) (h := upd (upd s.heap s.next (some (.vd vd))) (s.next + 1) (some (.ed ed)))
        (o := ⟨o.n, o.m, some s.next, some (s.next + 1), none, .this x⟩) (b := true)
        (fun a ha => by rw [upd_of_ne _ _ (by omega), upd_of_ne _ _ (by omega)])
        (fun a ha => by
          simp only [upd_apply, owns, Option.toList]
          by_cases h1 : a = s.next + 1
          · simp [h1]
          · by_cases h2 : a = s.next
            · simp [h2]
            · simp [h1, h2, hfr a ha])
        (fun a ha => by simp [owns] at ha; omega)
        ⟨fun a ha => ⟨vd, by cases ha; simp [upd_apply]⟩, fun a ha => ⟨ed, by cases ha; simp⟩, fun _ h => (nomatch h)⟩
        ⟨_, ⟨rfl, fun q hq => by
          simp only [thisL, Option.toList, List.map, List.cons_append, List.nil_append, List.append_nil] at hq
          rcases List.mem_cons.1 hq with rfl | hq
          · exact ⟨.vd vd, by simp [upd_apply], lv⟩
          · rw [List.mem_singleton.1 hq]; exact ⟨.ed ed, by simp, le⟩⟩, Or.inr ⟨rfl, rfl, Option.some_ne_none _, Option.some_ne_none _, rfl⟩⟩
      simpa [spec, copies, valO, vdAt, edAt, wtAt, upd_apply, hy, Val.cut, hvd, hed, hw] using this
    | some c =>
      obtain ⟨wt, hwt⟩ := (I.typed y o ho).w c hw
      have hwt' : wtAt s.heap (some c) = some wt := by simp only [wtAt, Option.bind, hwt]
      have h3 : o.n ≤ wt.length := h3 wt (by show wtAt s.heap o.w = _; rw [hw]; exact hwt')
      refine ⟨_, by simp only [step, ho, hw, hwt']; rw [if_pos ⟨h1, h2⟩, if_pos h3], ?_⟩
      have lw : (wt.take o.n).length = o.n := by rw [List.length_take]; omega
      have := I.add hx (k := 3) (h := upd (upd (upd s.heap s.next (some (.vd vd))) (s.next + 1) (some (.ed ed))) (s.next + 2) (some (.wt (wt.take o.n))))
        (o := ⟨o.n, o.m, some s.next, some (s.next + 1), some (s.next + 2), .this x⟩) (b := true)
        (fun a ha => by rw [upd_of_ne _ _ (by omega), upd_of_ne _ _ (by omega), upd_of_ne _ _ (by omega)])
        (fun a ha => by
          simp only [upd_apply, owns, Option.toList]
          by_cases h0 : a = s.next + 2
          · simp [h0]
          · by_cases h1 : a = s.next + 1
            · simp [h1]
            · by_cases h2 : a = s.next
              · simp [h2]
              · simp [h0, h1, h2, hfr a ha])
        (fun a ha => by simp [owns] at ha; omega)
        ⟨fun a ha => ⟨vd, by cases ha; simp [upd_apply]⟩, fun a ha => ⟨ed, by cases ha; simp [upd_apply]⟩, fun a ha => ⟨wt.take o.n, by cases ha; simp⟩⟩
        ⟨_, ⟨rfl, fun q hq => by
          simp only [thisL, Option.toList, List.map, List.cons_append, List.nil_append] at hq
          rcases List.mem_cons.1 hq with rfl | hq
          · exact ⟨.vd vd, by simp [upd_apply], lv⟩
          · rcases List.mem_cons.1 hq with rfl | hq
            · exact ⟨.ed ed, by simp [upd_apply], le⟩
            · rw [List.mem_singleton.1 hq]; exact ⟨.wt (wt.take o.n), by simp, lw⟩⟩,
          Or.inr ⟨rfl, rfl, Option.some_ne_none _, Option.some_ne_none _, rfl⟩⟩
      simpa [spec, copies, valO, vdAt, edAt, wtAt, upd_apply, hy, Val.cut, hvd, hed, hw, hwt] using this
  | move x y =>
    obtain ⟨hx, hy, hc⟩ := hop
    obtain ⟨o, ho⟩ := I.exO hy
    refine ⟨_, by simp only [step, ho]; rfl, ?_⟩
    have := I.moved (x := x) ho hc (L := []) (Or.inl ⟨I.noO hx, rfl⟩)
    simp only [List.not_mem_nil, if_false] at this
    exact this
  | assign x y =>
    obtain ⟨hx, hy, hc⟩ := hop
    obtain ⟨ox, hox⟩ := I.exO hx
    obtain ⟨o, ho⟩ := I.exO hy
    refine ⟨_, by simp only [step, ho, hox]; rw [I.runDel nullOk hox]; rfl, ?_⟩
    exact I.moved ho hc (Or.inr ⟨ox, hox, rfl⟩)
  | destroy x =>
    obtain ⟨o, ho⟩ := I.exO hop
    exact ⟨_, by simp only [step, ho]; rw [I.runDel nullOk ho]; rfl, I.gone ho⟩
  | mutate x vd ed m =>
    obtain ⟨g, hx, h1, h2, h3⟩ := hop
    obtain ⟨o, ho⟩ := I.exO (x := x) (by rw [hx]; exact Option.some_ne_none _)
    have hgo := hg x o ho
    rw [hx] at hgo
    cases hgo
    exact ⟨_, by simp only [step, ho]; rw [if_pos ⟨h1, h2⟩], I.changed ho m h1 h2 h3⟩

theorem run_ok (nullOk : Bool) {s : St E D} {σ : Nat → Option (Val E D)} {cp : Nat → Bool} (I : Inv s σ cp) {l : List (Op E D)} (hl : LegalAll σ cp l) :
    ∃ s' cp', run nullOk s l = some s' ∧ Inv s' (l.foldl spec σ) cp' := by
  induction l generalizing s σ cp with
  | nil => exact ⟨s, cp, rfl, I⟩
  | cons op l ih =>
    obtain ⟨s1, h1, I1⟩ := step_ok nullOk I hl.1
    obtain ⟨s2, cp', h2, I2⟩ := ih I1 hl.2
    exact ⟨s2, cp', by rw [run, h1]; exact h2, I2⟩

theorem init_inv : Inv (init : St E D) (fun _ => none) fun _ => false :=
  ⟨fun _ => rfl, fun _ h => absurd rfl h, fun _ _ h => (nomatch h), fun _ _ _ _ _ h => (nomatch h), fun _ h => absurd rfl h, fun _ _ h => (nomatch h)⟩

/-! ### C146 -/

/-- **C146: graphs behave like values.** In every program that does not move copies and does not change `m` of a copy, nothing undefined happens — no array is
freed twice, with a wrong size, or used after it was freed, with any allocator — and every graph has at every time the contents that it would have if statements
worked on values: copies do not change when the original is packed, moved from or destroyed. -/
theorem C146_values (nullOk : Bool) {l : List (Op E D)} (hl : LegalAll (fun _ => none) (fun _ => false) l) :
    ∃ s, run nullOk init l = some s ∧ ∀ x, (s.obj x).map (valO s.heap) = l.foldl spec (fun _ => none) x := by
  obtain ⟨s, cp, h1, I⟩ := run_ok nullOk init_inv hl
  exact ⟨s, h1, I.val⟩

/-- **C146: no leaks.** When all graphs are gone, all arrays have been freed. -/
theorem C146_noleak (nullOk : Bool) {l : List (Op E D)} (hl : LegalAll (fun _ => none) (fun _ => false) l) {s : St E D} (hs : run nullOk init l = some s)
    (hgone : ∀ x, s.obj x = none) (a : Nat) : s.heap a = none := by
  obtain ⟨s', cp, h1, I⟩ := run_ok nullOk init_inv hl
  rw [hs] at h1
  cases h1
  by_contra hn
  obtain ⟨x, o, ho, _⟩ := I.noleak a hn
  rw [hgone x] at ho
  cases ho

/-- **C146: a copy of a graph that has not been packed is equal to it.** -/
theorem C146_copy {g : Val E D} (hn : g.vd.length = g.n) (hm : g.ed.length = g.m) (hw : ∀ l, g.wt = some l → l.length = g.n) : g.cut = g := by
  obtain ⟨n, m, vd, ed, wt⟩ := g
  simp only at hn hm hw
  subst hn hm
  rw [Val.cut]
  simp only [List.take_length]
  cases wt with
  | none => rfl
  | some l => rw [Option.map, ← hw l rfl, List.take_length]

/-- **C146, refuted: packing a copy.** The program of `run_app` for an application that packs edges (`auto G_copy = G; APP(G_copy)`, `benchmark.h:10-12`;
`filter_edges` stores the new number of edges in `m`, `graph_mutation.h:276`): the copy frees its edges with the new `m` as the size. -/
theorem C146_pack_refuted (nullOk : Bool) (vd vd' : List (Nat × Nat)) (ed ed' : List E) {m' : Nat} (hv : vd'.length = vd.length) (he : ed'.length = ed.length)
    (hm : m' ≠ ed.length) :
    run nullOk (init : St E D) [.make 0 vd ed none ed.length, .copy 1 0, .mutate 1 vd' ed' m', .destroy 1] = none := by
  simp [run, step, init, vdAt, edAt, upd_apply, hv, he, setP, runDel, freeAll, free, Blk.size, Ne.symm hm]

/-- **C146, refuted: moving a copy.** The deletion function that the new object gets is that of the old object, whose pointers are null now. If the allocator
rejects null pointers, the end of the new object is undefined; -/
theorem C146_move_null_refuted (vd : List (Nat × Nat)) (ed : List E) :
    run false (init : St E D) [.make 0 vd ed none ed.length, .copy 1 0, .move 2 1, .destroy 2] = none := by
  simp [run, step, init, vdAt, edAt, upd_apply, Obj.hollow, runDel, freeAll, free]

/-- if the old object is gone (a copy that is returned from a function, or moved by a growing `std::vector`), it is undefined with every allocator; -/
theorem C146_move_dangling_refuted (nullOk : Bool) (vd : List (Nat × Nat)) (ed : List E) :
    run nullOk (init : St E D) [.make 0 vd ed none ed.length, .copy 1 0, .move 2 1, .destroy 1, .destroy 2] = none := by
  simp [run, step, init, vdAt, edAt, upd_apply, Obj.hollow, runDel, freeAll]

/-- and otherwise the arrays of the copy are never freed. -/
theorem C146_move_leak_refuted (vd : List (Nat × Nat)) (ed : List E) :
    ∃ s, run true (init : St E D) [.make 0 vd ed none ed.length, .copy 1 0, .move 2 1, .destroy 2, .destroy 1, .destroy 0] = some s ∧
      (∀ x, s.obj x = none) ∧ s.heap 3 = some (.ed ed) := by
  refine ⟨⟨fun a => if a = 2 then some (.vd vd) else if a = 3 then some (.ed ed) else none, 4, fun _ => none⟩, ?_, fun _ => rfl, rfl⟩
  simp [run, step, init, vdAt, edAt, upd_apply, Obj.hollow, runDel, freeAll, free, Blk.size]
  constructor
  · funext a; simp only [upd_apply]
    by_cases h0 : a = 0
    · simp [h0]
    · by_cases h1 : a = 1
      · simp [h1]
      · by_cases h3 : a = 3
        · simp [h3]
        · simp [h0, h1, h3]
  · funext a; simp only [upd_apply]
    by_cases h0 : a = 0
    · simp [h0]
    · by_cases h1 : a = 1
      · simp [h1]
      · simp [h0, h1]

/-- **C146, refuted: copying a packed graph.** The number of copied entries is `m`, the number of edges that remain, but the lists that remain are where they
were: a list that ends after `m` cannot be read from the copy. -/
theorem C146_copy_packed_refuted {g : Val E D} {i off deg : Nat} (hi : i < g.n) (hv : g.vd[i]? = some (off, deg)) (hd : 0 < deg) (hend : g.m < off + deg) :
    g.cut.nb i = none := by
  have h1 : g.cut.vd[i]? = some (off, deg) := by
    show (g.vd.take g.n)[i]? = _
    rw [List.getElem?_take_of_lt hi, hv]
  rw [Val.nb, h1]
  show (if deg = 0 ∨ off + deg ≤ (g.ed.take g.m).length then _ else none) = none
  rw [if_neg]
  rw [List.length_take]
  omega

/-- **C146, refuted: copying a graph that has been moved from.** It still has `n` vertices, which are read through a null pointer. -/
theorem C146_copy_moved_refuted (nullOk : Bool) {vd : List (Nat × Nat)} (hvd : vd ≠ []) (ed : List E) (m : Nat) :
    run nullOk (init : St E D) [.make 0 vd ed none m, .move 1 0, .copy 2 0] = none := by
  simp [run, step, init, vdAt, Obj.hollow, hvd]

section Compressed

open Gbbs.EncSpec Byte

variable {W : Type} {c : WCodec W} {ok : W → Prop}

/-- The number of bytes of the list of vertex `i` in the format `bytepd_amortized` (`Verif/Encoding/AmLayout.lean`); nothing is stored for an empty list. -/
def listBytes (L : Lawful c ok) (adj : Nat → List (Nat × W)) (i : Nat) : Nat := if adj i = [] then 0 else AM.size L i (adj i)

theorem size_gt (L : Lawful c ok) {src : Nat} {edges : List (Nat × W)} (hsrc : src < uintEMod) (hv : ValidList edges) (hok : ∀ e ∈ edges, ok e.2)
    (hpos : 0 < edges.length) (hle : edges.length < 4294967296) (hsize : AM.size L src edges < 4294967296) :
    8 + edges.length ≤ AM.size L src edges := by
  obtain ⟨m', -, -, h⟩ := AM.encode_lay L (fun _ => 0) 0 src edges hsrc hv hok hpos hle hsize
  obtain ⟨offs, cap, hl⟩ := h m' fun _ _ _ => rfl
  have h1 := AM.ext_ge hl
  have h2 := AM.numBlocks_pos edges.length
  omega

/-- **C146, refuted: copying a compressed graph.** The elements of the edge array are bytes, and `m` of them are copied; but a list takes more bytes than it has
edges. In every graph with an edge there is a non-empty list that ends at least 8 bytes after the last byte that is copied. -/
theorem C146_copy_compressed_refuted (L : Lawful c ok) {n : Nat} {adj : Nat → List (Nat × W)} (hn : n ≤ uintEMod) (hv : ∀ i < n, ValidList (adj i))
    (hok : ∀ i < n, ∀ e ∈ adj i, ok e.2) (hle : ∀ i < n, (adj i).length < 4294967296) (hsize : ∀ i < n, AM.size L i (adj i) < 4294967296)
    (hex : ∃ i < n, adj i ≠ []) :
    ∃ v < n, adj v ≠ [] ∧ exScan (fun i => (adj i).length) n + 8 ≤ exScan (listBytes L adj) v + AM.size L v (adj v) := by
  have hlb : ∀ i < n, (adj i).length ≤ listBytes L adj i := fun i hi => by
    rw [listBytes]
    split
    · next h => rw [h]; exact Nat.le_refl _
    · next h =>
      have := size_gt L (by omega) (hv i hi) (hok i hi) (List.length_pos_iff.2 h) (hle i hi) (hsize i hi)
      omega
  have hsum : ∀ k ≤ n, exScan (fun i => (adj i).length) k ≤ exScan (listBytes L adj) k := fun k hk => by
    induction k with
    | zero => exact Nat.le_refl _
    | succ k ih =>
      have := ih (by omega)
      have := hlb k (by omega)
      simp only [exScan]
      omega
  suffices H : ∀ k ≤ n, (∃ i < k, adj i ≠ []) → ∃ v < k, adj v ≠ [] ∧ exScan (fun i => (adj i).length) k + 8 ≤ exScan (listBytes L adj) v + AM.size L v (adj v) from
    H n (Nat.le_refl _) hex
  intro k hk
  induction k with
  | zero => rintro ⟨i, hi, _⟩; omega
  | succ k ih =>
    rintro ⟨i, hi, hne⟩
    by_cases hk0 : adj k = []
    · have hik : i ≠ k := fun e => hne (e ▸ hk0)
      obtain ⟨v, h1, h2, h3⟩ := ih (by omega) ⟨i, by omega, hne⟩
      refine ⟨v, by omega, h2, ?_⟩
      simp only [exScan, hk0, List.length_nil]
      omega
    · refine ⟨k, by omega, hk0, ?_⟩
      have h1 := hsum k (by omega)
      have h2 := size_gt L (by omega) (hv k (by omega)) (hok k (by omega)) (List.length_pos_iff.2 hk0) (hle k (by omega)) (hsize k (by omega))
      simp only [exScan]
      omega

/-- **C146, refuted: copying a compressed graph.** The array has at least 8 bytes more than are copied. -/
theorem C146_copy_bytes_refuted (L : Lawful c ok) {n : Nat} {adj : Nat → List (Nat × W)} (hn : n ≤ uintEMod) (hv : ∀ i < n, ValidList (adj i))
    (hok : ∀ i < n, ∀ e ∈ adj i, ok e.2) (hle : ∀ i < n, (adj i).length < 4294967296) (hsize : ∀ i < n, AM.size L i (adj i) < 4294967296)
    (hex : ∃ i < n, adj i ≠ []) : exScan (fun i => (adj i).length) n + 8 ≤ exScan (listBytes L adj) n := by
  obtain ⟨v, h1, h2, h3⟩ := C146_copy_compressed_refuted L hn hv hok hle hsize hex
  have h4 := exScan_mono (listBytes L adj) (show v + 1 ≤ n from h1)
  have h5 : listBytes L adj v = AM.size L v (adj v) := if_neg h2
  simp only [exScan] at h4
  omega

end Compressed

/-! ### Examples -/

/-- A triangle is made, copied, the original is packed, moved and destroyed: the copy is still the triangle. -/
example :
    let vd := [(0, 2), (2, 2), (4, 2)]
    let l : List (Op Nat Unit) := [.make 0 vd [1, 2, 0, 2, 0, 1] none 6, .copy 1 0, .mutate 0 [(0, 1), (2, 2), (4, 1)] [1, 2, 0, 2, 1, 1] 4, .move 2 0,
      .destroy 0, .destroy 2]
    LegalAll (fun _ => none) (fun _ => false) l ∧ l.foldl spec (fun _ => none) 1 = some ⟨3, 6, vd, [1, 2, 0, 2, 0, 1], none⟩ := by
  refine ⟨⟨rfl, ⟨rfl, _, rfl, by decide, by decide, fun l h => nomatch h⟩, ⟨_, rfl, rfl, rfl, fun h => nomatch h⟩, ⟨rfl, Option.some_ne_none _, rfl⟩,
    Option.some_ne_none _, Option.some_ne_none _, trivial⟩, rfl⟩

/-- The graph that is packed above: the list of vertex 2 ends after `m = 4`, and is lost in a copy. -/
example : (⟨3, 4, [(0, 1), (2, 2), (4, 1)], [1, 2, 0, 2, 1, 1], none⟩ : Val Nat Unit).cut.nb 2 = none :=
  C146_copy_packed_refuted (by decide) rfl (by decide) (by decide)

/-- One edge, compressed: only 2 bytes are copied. -/
example : ∃ v < 2, [(1 - v, ())] ≠ [] ∧ exScan (fun _ => 1) 2 + 8 ≤ exScan (listBytes Byte.emptyLawful fun i => [(1 - i, ())]) v + AM.size Byte.emptyLawful v [(1 - v, ())] :=
  C146_copy_compressed_refuted Byte.emptyLawful (adj := fun i => [(1 - i, ())]) (by decide)
    (fun i hi => ⟨by simp, fun e he => by rw [List.mem_singleton.1 he]; show 1 - i < 4294967296; omega⟩) (fun _ _ _ _ => trivial)
    (fun _ _ => by simp) (fun i hi => by
      match i with
      | 0 => decide +kernel
      | 1 => decide +kernel) ⟨0, by decide, by simp⟩

end Gbbs.Own
