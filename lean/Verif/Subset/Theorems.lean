/-
C16, C17, C53: vertex subsets.
-/
import Verif.Subset.Model

namespace Gbbs.VSub

variable {α : Type}

/-! ### Specification -/

/-- The subset is seen by a client as the partial map `M` (members with their data): iterating over
it visits each member exactly once with its data, never accesses outside a sequence, and `size()`
is the number of members. -/
def Represents (V : VS α) (M : Nat → Option α) : Prop :=
  ∃ l, entries V = some l ∧ (l.map Prod.fst).Nodup ∧ (∀ v a, (v, a) ∈ l ↔ M v = some a) ∧
    V.m = l.length ∧ ∀ v, M v ≠ none → v < V.n

/-! ### Representation invariant -/

/-- A list of pairs lists the map `M`. -/
structure Lists (l : List (Nat × α)) (M : Nat → Option α) : Prop where
  nd : (l.map Prod.fst).Nodup
  mem : ∀ v a, (v, a) ∈ l ↔ M v = some a

theorem Lists.length_eq {l l' : List (Nat × α)} {M : Nat → Option α} (h : Lists l M)
    (h' : Lists l' M) : l.length = l'.length := by
  have hp : (l.map Prod.fst).Perm (l'.map Prod.fst) := by
    rw [List.perm_ext_iff_of_nodup h.nd h'.nd]
    intro v
    simp only [List.mem_map, Prod.exists, exists_and_right, exists_eq_right]
    constructor
    · rintro ⟨a, ha⟩; exact ⟨a, (h'.mem v a).2 ((h.mem v a).1 ha)⟩
    · rintro ⟨a, ha⟩; exact ⟨a, (h.mem v a).2 ((h'.mem v a).1 ha)⟩
  simpa using hp.length_eq

/-- Flags agree with the map `M`. -/
structure Flags (n : Nat) (d : List (Bool × α)) (M : Nat → Option α) : Prop where
  len : d.length = n
  val : ∀ v x, d[v]? = some x → M v = if x.1 then some x.2 else none

structure WF (V : VS α) (M : Nat → Option α) : Prop where
  lt : ∀ v, M v ≠ none → v < V.n
  card : ∃ l, Lists l M ∧ l.length = V.m
  sp : V.s.length ≠ 0 → Lists V.s M
  dn : V.d.length ≠ 0 → Flags V.n V.d M
  cur : V.isDense = true → V.d.length ≠ 0 ∨ V.n = 0
  curS : V.isDense = false → V.s.length ≠ 0 ∨ V.m = 0

theorem WF.sparse_full {V : VS α} {M : Nat → Option α} (h : WF V M) (hs : V.s.length ≠ 0) :
    V.s.length = V.m := by
  obtain ⟨l, h1, h2⟩ := h.card
  rw [← h2]; exact (h.sp hs).length_eq h1

theorem mapM_get (l : List α) : (List.range l.length).mapM (fun i => l[i]?) = some l := by
  have key : ∀ k, k ≤ l.length → (List.range k).mapM (fun i => l[i]?) = some (l.take k) := by
    intro k
    induction k with
    | zero => intro _; simp
    | succ k ih =>
      intro hk
      rw [List.range_succ, List.mapM_append, ih (by omega)]
      have hk' : k < l.length := hk
      simp only [List.mapM_cons, List.mapM_nil, List.getElem?_eq_getElem hk', Option.bind_eq_bind,
        Option.bind_some, Option.pure_def]
      rw [List.take_succ_eq_append_getElem hk']
  rw [key _ (Nat.le_refl _), List.take_length]

theorem mapM_get_pair (l : List α) :
    (List.range l.length).mapM (fun v => (l[v]?).map fun x => (v, x)) =
      some (l.mapIdx fun v x => (v, x)) := by
  have key : ∀ k, k ≤ l.length → (List.range k).mapM (fun v => (l[v]?).map fun x => (v, x)) =
      some ((l.take k).mapIdx fun v x => (v, x)) := by
    intro k
    induction k with
    | zero => intro _; simp
    | succ k ih =>
      intro hk
      rw [List.range_succ, List.mapM_append, ih (by omega)]
      have hk' : k < l.length := hk
      simp only [List.mapM_cons, List.mapM_nil, List.getElem?_eq_getElem hk', Option.bind_eq_bind,
        Option.bind_some, Option.pure_def, Option.map_some]
      rw [List.take_succ_eq_append_getElem hk', List.mapIdx_append]
      simp [Nat.min_eq_left hk'.le]
  rw [key _ (Nat.le_refl _), List.take_length]

/-- The pairs seen through the flags. -/
def denseList (d : List (Bool × α)) : List (Nat × α) :=
  ((d.mapIdx fun v x => (v, x)).filter fun x => x.2.1).map fun x => (x.1, x.2.2)

theorem packIndex_eq (d : List (Bool × α)) : packIndex d = denseList d := by
  have h : (d.mapIdx fun v x => (v, x)) = d.zipIdx.map fun x => (x.2, x.1) := by
    rw [List.mapIdx_eq_zipIdx_map]
  unfold packIndex denseList
  rw [h, List.filter_map, List.map_map]
  rfl

theorem mem_denseList {d : List (Bool × α)} {v : Nat} {a : α} :
    (v, a) ∈ denseList d ↔ d[v]? = some (true, a) := by
  unfold denseList
  simp only [List.mem_map, List.mem_filter, List.mem_mapIdx, Prod.mk.injEq]
  constructor
  · rintro ⟨⟨w, b, c⟩, ⟨⟨i, hi, h1⟩, h2⟩, h3, h4⟩
    simp only [Prod.mk.injEq] at h1 h2 h3 h4
    obtain ⟨rfl, h1⟩ := h1
    rw [← h3, List.getElem?_eq_getElem hi, h1, h2, h4]
  · intro h
    obtain ⟨hi, h'⟩ := List.getElem?_eq_some_iff.1 h
    exact ⟨(v, true, a), ⟨⟨v, hi, by rw [h']⟩, rfl⟩, rfl, rfl⟩

theorem denseList_nodup (d : List (Bool × α)) : ((denseList d).map Prod.fst).Nodup := by
  unfold denseList
  rw [List.map_map]
  have hsub : (List.map (Prod.fst ∘ fun x : Nat × Bool × α => (x.1, x.2.2))
      ((d.mapIdx fun v x => (v, x)).filter fun x => x.2.1)).Sublist
      ((d.mapIdx fun v x => (v, x)).map Prod.fst) := by
    have : (Prod.fst ∘ fun x : Nat × Bool × α => (x.1, x.2.2)) = Prod.fst := rfl
    rw [this]
    exact List.filter_sublist.map _
  refine hsub.nodup ?_
  have : (d.mapIdx fun v x => (v, x)).map Prod.fst = List.range d.length := by
    apply List.ext_getElem
    · simp
    · intro i h1 h2; simp
  rw [this]
  exact List.nodup_range

theorem Flags.lists {n : Nat} {d : List (Bool × α)} {M : Nat → Option α} (h : Flags n d M)
    (hlt : ∀ v, M v ≠ none → v < n) : Lists (denseList d) M := by
  refine ⟨denseList_nodup d, fun v a => ?_⟩
  rw [mem_denseList]
  constructor
  · intro hv; rw [h.val v _ hv]; rfl
  · intro hv
    have hv' : v < d.length := by rw [h.len]; exact hlt v (by rw [hv]; simp)
    have hg := List.getElem?_eq_getElem hv'
    have := h.val v _ hg
    rw [hv] at this
    rcases hd : d[v] with ⟨b, x⟩
    rw [hd] at this hg
    cases b
    · simp at this
    · simp at this; rw [hg, this]

theorem WF.represents {V : VS α} {M : Nat → Option α} (h : WF V M) : Represents V M := by
  obtain ⟨l0, c1, c2⟩ := h.card
  unfold Represents entries
  by_cases hd : V.isDense = true
  · rw [if_pos hd]
    by_cases hz : V.d.length = 0
    · have hn := (h.cur hd).resolve_left (fun h' => h' hz)
      have hM : ∀ v, M v = none := by
        intro v
        by_contra hne
        have := h.lt v hne
        omega
      refine ⟨[], by rw [hn]; rfl, by simp, fun v a => by simp [hM], ?_, h.lt⟩
      rw [← c2]
      have : Lists ([] : List (Nat × α)) M := ⟨by simp, fun v a => by simp [hM]⟩
      exact c1.length_eq this
    · have hf := h.dn hz
      refine ⟨denseList V.d, ?_, (hf.lists h.lt).nd, (hf.lists h.lt).mem, ?_, h.lt⟩
      · rw [← hf.len, mapM_get_pair]; rfl
      · rw [← c2]; exact c1.length_eq (hf.lists h.lt)
  · rw [if_neg hd]
    by_cases hz : V.s.length = 0
    · have hm : V.m = 0 := (h.curS (by simpa using hd)).resolve_left (fun h' => h' hz)
      refine ⟨[], by rw [hm]; rfl, by simp, fun v a => ?_, by simpa using hm, h.lt⟩
      rw [← c1.mem]
      have : l0 = [] := List.length_eq_zero_iff.1 (by omega)
      rw [this]
    · have hs := h.sp hz
      have hl := h.sparse_full hz
      exact ⟨V.s, by rw [← hl]; exact mapM_get V.s, hs.nd, hs.mem, hl.symm, h.lt⟩

/-! ### Constructors -/

theorem lists_nil : Lists ([] : List (Nat × α)) (fun _ => none) := ⟨by simp, fun v a => by simp⟩

theorem empty_wf (n : Nat) : WF (empty n : VS α) (fun _ => none) :=
  ⟨fun v h => absurd rfl h, ⟨[], lists_nil, rfl⟩, fun h => absurd rfl h, fun h => absurd rfl h,
    (fun h => by cases h), fun _ => Or.inr rfl⟩

/-- The map listed by an association list. -/
def mapOf (A : List (Nat × α)) (v : Nat) : Option α := (A.find? fun x => x.1 == v).map Prod.snd

theorem lists_mapOf {A : List (Nat × α)} (hnd : (A.map Prod.fst).Nodup) : Lists A (mapOf A) := by
  refine ⟨hnd, fun v a => ?_⟩
  unfold mapOf
  induction A with
  | nil => simp
  | cons x A ih =>
    rw [List.map_cons, List.nodup_cons] at hnd
    rw [List.find?_cons]
    by_cases hx : x.1 = v
    · subst hx
      simp only [beq_self_eq_true, Option.map_some, Option.some.injEq, List.mem_cons]
      constructor
      · rintro (h | h)
        · rw [← h]
        · exact absurd (List.mem_map.2 ⟨_, h, rfl⟩) hnd.1
      · rintro rfl; left; rfl
    · have : (x.1 == v) = false := by simpa using hx
      rw [this]
      simp only [List.mem_cons]
      rw [← ih hnd.2]
      constructor
      · rintro (h | h)
        · exact absurd (by rw [← h]) hx
        · exact h
      · exact Or.inr

theorem mapOf_ne_none {A : List (Nat × α)} {v : Nat} (h : mapOf A v ≠ none) :
    v ∈ A.map Prod.fst := by
  unfold mapOf at h
  cases hf : A.find? (fun x => x.1 == v) with
  | none => rw [hf] at h; exact absurd rfl h
  | some x =>
    have h1 := List.find?_some hf
    have h2 := List.mem_of_find?_eq_some hf
    exact List.mem_map.2 ⟨x, h2, by simpa using h1⟩

theorem ofSparse_wf (n : Nat) (A : List (Nat × α)) (hnd : (A.map Prod.fst).Nodup)
    (hlt : ∀ x ∈ A, x.1 < n) : WF (ofSparse n A) (mapOf A) := by
  refine ⟨fun v h => ?_, ⟨A, lists_mapOf hnd, rfl⟩, fun _ => lists_mapOf hnd, fun h => absurd rfl h,
    (fun h => by cases h), fun _ => ?_⟩
  · obtain ⟨x, hx, rfl⟩ := List.mem_map.1 (mapOf_ne_none h)
    exact hlt x hx
  · show A.length ≠ 0 ∨ A.length = 0
    omega

/-- The map described by an array of flags. -/
def flagMap (A : List (Bool × α)) (v : Nat) : Option α :=
  match A[v]? with
  | some (true, a) => some a
  | _ => none

theorem flags_flagMap (A : List (Bool × α)) : Flags A.length A (flagMap A) := by
  refine ⟨rfl, fun v x hx => ?_⟩
  unfold flagMap
  rw [hx]
  rcases x with ⟨_ | _, a⟩ <;> rfl

theorem flagMap_lt {A : List (Bool × α)} {v : Nat} (h : flagMap A v ≠ none) : v < A.length := by
  unfold flagMap at h
  by_contra hge
  rw [List.getElem?_eq_none (by omega)] at h
  exact h rfl

theorem denseList_length (A : List (Bool × α)) :
    (denseList A).length = (A.filter fun x => x.1).length := by
  rw [← packIndex_eq]
  unfold packIndex
  rw [List.length_map]
  have : (A.filter fun x => x.1) = ((A.zipIdx.filter fun x => x.1.1).map Prod.fst) := by
    conv_lhs => rw [← List.zipIdx_map_fst 0 A]
    rw [List.filter_map]
    rfl
  rw [this, List.length_map]

theorem ofDenseCount_wf (m : Nat) (A : List (Bool × α))
    (hm : m = (A.filter fun x => x.1).length) : WF (ofDenseCount A.length m A) (flagMap A) := by
  have hl := (flags_flagMap A).lists (fun v hv => flagMap_lt hv)
  refine ⟨fun v h => flagMap_lt h, ⟨denseList A, hl, by rw [denseList_length]; exact hm.symm⟩,
    fun h => absurd rfl h, fun _ => flags_flagMap A, fun _ => ?_, (fun h => by cases h)⟩
  show A.length ≠ 0 ∨ A.length = 0
  omega

theorem ofDense_wf (A : List (Bool × α)) : WF (ofDense A.length A) (flagMap A) :=
  ofDenseCount_wf _ A rfl

/-! ### Conversions -/

theorem toSparse_wf {V : VS α} {M : Nat → Option α} (h : WF V M) :
    ∃ V', toSparse V = some V' ∧ WF V' M ∧ V'.isDense = false ∧ V'.n = V.n ∧ V'.m = V.m ∧
      V'.d = V.d := by
  unfold toSparse
  by_cases hc : V.s.length = 0 ∧ V.m > 0
  · rw [if_pos hc]
    have hde : V.isDense = true := by
      by_contra hne
      rcases h.curS (by simpa using hne) with h' | h' <;> omega
    have hd : V.d.length ≠ 0 := by
      rcases h.cur hde with h' | h'
      · exact h'
      · exfalso
        obtain ⟨l, h1, h2⟩ := h.card
        rcases l with _ | ⟨⟨v, a⟩, l⟩
        · simp at h2; omega
        · have := h.lt v (by rw [(h1.mem v a).1 List.mem_cons_self]; simp)
          omega
    have hl := (h.dn hd).lists h.lt
    have hlen : (packIndex V.d).length = V.m := by
      obtain ⟨l, h1, h2⟩ := h.card
      rw [packIndex_eq, ← h2]; exact hl.length_eq h1
    simp only
    rw [if_neg (by simpa using hlen)]
    refine ⟨_, rfl, ⟨h.lt, h.card, fun _ => ?_, h.dn, fun h' => by simp at h', fun _ => ?_⟩,
      rfl, rfl, rfl, rfl⟩
    · show Lists (packIndex V.d) M
      rw [packIndex_eq]; exact hl
    · left
      show (packIndex V.d).length ≠ 0
      omega
  · rw [if_neg hc]
    refine ⟨_, rfl, ⟨h.lt, h.card, h.sp, h.dn, fun h' => by simp at h', fun _ => ?_⟩, rfl, rfl, rfl,
      rfl⟩
    show V.s.length ≠ 0 ∨ V.m = 0
    omega

theorem set_getElem? (d : List (Bool × α)) (v w : Nat) (x : Bool × α) (hv : v < d.length) :
    (d.set v x)[w]? = if w = v then some x else d[w]? := by
  rw [List.getElem?_set]
  by_cases h : v = w
  · subst h; simp [hv]
  · rw [if_neg h, if_neg (Ne.symm h)]

/-- Marking the entries with indices in `order`. -/
theorem mark_spec (s : List (Nat × α)) (hnd : (s.map Prod.fst).Nodup) (order : List Nat)
    (hlt : ∀ i ∈ order, i < s.length) :
    ∀ d : List (Bool × α), (∀ x ∈ s, x.1 < d.length) →
    ∃ d', order.foldlM (markOne s) d = some d' ∧ d'.length = d.length ∧
      (∀ i ∈ order, ∀ v a, s[i]? = some (v, a) → d'[v]? = some (true, a)) ∧
      ∀ v, (∀ i ∈ order, ∀ a, s[i]? ≠ some (v, a)) → d'[v]? = d[v]? := by
  induction order with
  | nil => intro d _; exact ⟨d, rfl, rfl, by simp, fun v _ => rfl⟩
  | cons i order ih =>
    intro d hd
    have hi := hlt i List.mem_cons_self
    have hget := List.getElem?_eq_getElem hi
    rcases hx : s[i] with ⟨v, a⟩
    rw [hx] at hget
    have hv : v < d.length := hd (v, a) (by rw [← hx]; exact List.getElem_mem hi)
    have hone : markOne s d i = some (d.set v (true, a)) := by
      unfold markOne; rw [hget]; simp only; rw [if_pos hv]
    obtain ⟨d', h1, h2, h3, h4⟩ := ih (fun j hj => hlt j (List.mem_cons_of_mem _ hj))
      (d.set v (true, a)) (by simpa using hd)
    refine ⟨d', ?_, by simpa using h2, ?_, ?_⟩
    · rw [List.foldlM_cons, hone]; exact h1
    · intro j hj w b hw
      rcases List.mem_cons.1 hj with rfl | hj
      · rw [hget] at hw
        obtain ⟨rfl, rfl⟩ : v = w ∧ a = b := by simpa using hw
        by_cases hex : ∃ k ∈ order, ∃ c, s[k]? = some (v, c)
        · obtain ⟨k, hk, c, hkc⟩ := hex
          have : c = a := by
            have h5 := lists_mapOf hnd
            have h6 := (h5.mem v c).1 (List.mem_of_getElem? hkc)
            have h7 := (h5.mem v a).1 (List.mem_of_getElem? hget)
            rw [h6] at h7; simpa using h7
          rw [h3 k hk v c hkc, this]
        · rw [h4 v (fun k hk c hkc => hex ⟨k, hk, c, hkc⟩), set_getElem? d v v _ hv, if_pos rfl]
      · exact h3 j hj w b hw
    · intro w hw
      rw [h4 w (fun k hk => hw k (List.mem_cons_of_mem _ hk)), set_getElem? d v w _ hv, if_neg]
      rintro rfl
      exact hw i List.mem_cons_self a hget

theorem toDense_wf (dflt : α) {V : VS α} {M : Nat → Option α} (h : WF V M) (order : List Nat)
    (ho : Sched V.m order) :
    ∃ V', toDense dflt order V = some V' ∧ WF V' M ∧ V'.isDense = true ∧ V'.n = V.n ∧
      V'.m = V.m ∧ V'.s = V.s ∧ (V'.n ≠ 0 → V'.d.length = V'.n) := by
  unfold toDense
  by_cases hz : V.d.length = 0
  · rw [if_pos hz]
    have hs : Lists V.s M ∧ V.s.length = V.m := by
      by_cases hs0 : V.s.length = 0
      · have hm : V.m = 0 := by
          by_contra hm
          have hde : V.isDense = true := by
            by_contra hne
            rcases h.curS (by simpa using hne) with h' | h' <;> omega
          have hn0 := (h.cur hde).resolve_left (fun h' => h' hz)
          obtain ⟨l, h1, h2⟩ := h.card
          rcases l with _ | ⟨⟨v, a⟩, l⟩
          · simp at h2; omega
          · have := h.lt v (by rw [(h1.mem v a).1 List.mem_cons_self]; simp)
            omega
        obtain ⟨l, h1, h2⟩ := h.card
        have hl : l = [] := List.length_eq_zero_iff.1 (by omega)
        have hs1 : V.s = [] := List.length_eq_zero_iff.1 hs0
        rw [hs1, ← hl]; exact ⟨h1, h2⟩
      · exact ⟨h.sp hs0, h.sparse_full hs0⟩
    obtain ⟨d', h1, h2, h3, h4⟩ := mark_spec V.s hs.1.nd order
      (fun i hi => by rw [hs.2]; exact (ho.2 i).1 hi) (List.replicate V.n (false, dflt)) (by
        intro x hx
        rw [List.length_replicate]
        apply h.lt
        rw [(hs.1.mem x.1 x.2).1 hx]; simp)
    rw [h1]
    rw [List.length_replicate] at h2
    have hflags : Flags V.n d' M := by
      refine ⟨h2, fun v x hx => ?_⟩
      cases hM : M v with
      | none =>
        rw [h4 v] at hx
        · rw [List.getElem?_replicate] at hx
          split at hx
          · have : x = (false, dflt) := by simpa using hx.symm
            rw [this]; rfl
          · simp at hx
        · intro i _ a hi
          have := (hs.1.mem v a).1 (List.mem_of_getElem? hi)
          rw [hM] at this; simp at this
      | some a =>
        obtain ⟨i, hi, hia⟩ := List.getElem_of_mem ((hs.1.mem v a).2 hM)
        have := h3 i ((ho.2 i).2 (by rw [← hs.2]; exact hi)) v a
          (by rw [List.getElem?_eq_getElem hi, hia])
        rw [this] at hx
        have : x = (true, a) := by simpa using hx.symm
        rw [this]; rfl
    refine ⟨_, rfl, ⟨h.lt, h.card, h.sp, fun _ => hflags, fun _ => ?_, fun h' => by simp at h'⟩,
      rfl, rfl, rfl, rfl, fun _ => h2⟩
    show d'.length ≠ 0 ∨ V.n = 0
    omega
  · rw [if_neg hz]
    refine ⟨_, rfl, ⟨h.lt, h.card, h.sp, h.dn, fun _ => Or.inl hz, fun h' => by simp at h'⟩, rfl,
      rfl, rfl, rfl, fun _ => (h.dn hz).len⟩

/-! ### Histories -/

/-- Subsets a client can obtain: constructed, then converted in any order. -/
inductive Conv (dflt : α) : VS α → (Nat → Option α) → Prop
  | empty (n : Nat) : Conv dflt (empty n) (fun _ => none)
  | ofSparse (n : Nat) (A : List (Nat × α)) (hnd : (A.map Prod.fst).Nodup)
      (hlt : ∀ x ∈ A, x.1 < n) : Conv dflt (ofSparse n A) (mapOf A)
  | ofDense (A : List (Bool × α)) : Conv dflt (ofDense A.length A) (flagMap A)
  | ofDenseCount (m : Nat) (A : List (Bool × α)) (hm : m = (A.filter fun x => x.1).length) :
      Conv dflt (ofDenseCount A.length m A) (flagMap A)
  | toSparse (V V' : VS α) (M : Nat → Option α) (h : Conv dflt V M) (h1 : toSparse V = some V') :
      Conv dflt V' M
  | toDense (V V' : VS α) (M : Nat → Option α) (order : List Nat) (h : Conv dflt V M)
      (ho : Sched V.m order) (h1 : toDense dflt order V = some V') : Conv dflt V' M

theorem Conv.wf {dflt : α} {V : VS α} {M : Nat → Option α} (h : Conv dflt V M) : WF V M := by
  induction h with
  | empty n => exact empty_wf n
  | ofSparse n A hnd hlt => exact ofSparse_wf n A hnd hlt
  | ofDense A => exact ofDense_wf A
  | ofDenseCount m A hm => exact ofDenseCount_wf m A hm
  | toSparse V V' M _ h1 ih =>
    obtain ⟨V2, h2, h3, _⟩ := toSparse_wf ih
    rw [h1] at h2; cases h2; exact h3
  | toDense V V' M order _ ho h1 ih =>
    obtain ⟨V2, h2, h3, _⟩ := toDense_wf dflt ih order ho
    rw [h1] at h2; cases h2; exact h3

/-- C16: after any sequence of conversions a subset still shows exactly its members with their
data, each once, and `size()` is their number. -/
theorem conversions_preserve {dflt : α} {V : VS α} {M : Nat → Option α} (h : Conv dflt V M) :
    Represents V M := h.wf.represents

/-- C16: conversions never abort or access outside a sequence, and produce the representation
asked for. -/
theorem toSparse_ok {dflt : α} {V : VS α} {M : Nat → Option α} (h : Conv dflt V M) :
    ∃ V', toSparse V = some V' ∧ V'.isDense = false ∧ V'.m = V.m ∧ Represents V' M := by
  obtain ⟨V', h1, h2, h3, _, h4, _⟩ := toSparse_wf h.wf
  exact ⟨V', h1, h3, h4, h2.represents⟩

theorem toDense_ok {dflt : α} {V : VS α} {M : Nat → Option α} (h : Conv dflt V M)
    (order : List Nat) (ho : Sched V.m order) :
    ∃ V', toDense dflt order V = some V' ∧ V'.isDense = true ∧ V'.m = V.m ∧ Represents V' M := by
  obtain ⟨V', h1, h2, h3, _, h4, _⟩ := toDense_wf dflt h.wf order ho
  exact ⟨V', h1, h3, h4, h2.represents⟩

/-- Five vertices, members 3 and 1 with data, made dense in reverse order. -/
example : Conv 0 (ofSparse 5 [(3, 30), (1, 10)]) (mapOf [(3, 30), (1, 10)]) ∧ Sched 2 [1, 0] ∧
    ((toDense 0 [1, 0] (ofSparse 5 [(3, 30), (1, 10)])).bind entries) = some [(1, 10), (3, 30)] := by
  refine ⟨.ofSparse _ _ (by decide) (by decide), ⟨by decide, fun i => ?_⟩, by decide⟩
  simp; omega

/-! ### C53: vertexFilter -/

/-- The map restricted to the vertices accepted by `p`, without data. -/
def restrict (M : Nat → Option α) (p : Nat → α → Bool) (v : Nat) : Option Unit :=
  match M v with
  | some a => if p v a then some () else none
  | none => none

theorem flagMap_filter {n : Nat} {d : List (Bool × α)} {M : Nat → Option α} (h : Flags n d M)
    (hlt : ∀ v, M v ≠ none → v < n) (p : Nat → α → Bool) :
    flagMap (d.mapIdx fun v x => (x.1 && p v x.2, ())) = restrict M p := by
  funext v
  unfold flagMap restrict
  rw [List.getElem?_mapIdx]
  by_cases hv : v < d.length
  · have hg := List.getElem?_eq_getElem hv
    have hM := h.val v _ hg
    rw [hg, Option.map_some]
    rcases hx : d[v] with ⟨b, a⟩
    rw [hx] at hM
    cases b
    · simp [hM]
    · simp only [if_true] at hM
      rw [hM]
      simp only [Bool.true_and]
      cases p v a <;> rfl
  · rw [List.getElem?_eq_none (by omega)]
    have : M v = none := by
      by_contra hne
      have := hlt v hne
      rw [← h.len] at this
      omega
    rw [this]; rfl

theorem vertexFilterDense_wf (dflt : α) {V : VS α} {M : Nat → Option α} (h : WF V M)
    (order : List Nat) (ho : Sched V.m order) (p : Nat → α → Bool) :
    ∃ W V', vertexFilterDense dflt order p V = some (W, V') ∧ WF W (restrict M p) ∧ WF V' M ∧
      W.n = V.n := by
  obtain ⟨V1, h1, h2, h3, h4, h5, _, h6⟩ := toDense_wf dflt h order ho
  unfold vertexFilterDense
  rw [h1]
  simp only
  have hlen : V1.d.length = V1.n := by
    by_cases hz : V1.n = 0
    · rcases Nat.eq_zero_or_pos V1.d.length with h' | h'
      · omega
      · exact (h2.dn (by omega)).len
    · exact h6 hz
  have hm : (List.range V1.n).mapM (fun v => V1.d[v]?) = some V1.d := by
    rw [← hlen]; exact mapM_get V1.d
  rw [hm]
  simp only
  refine ⟨_, _, rfl, ?_, h2, h4⟩
  have hfl : Flags V1.n V1.d M := by
    by_cases hz : V1.d.length = 0
    · refine ⟨hlen, fun v x hx => ?_⟩
      have : V1.d = [] := List.length_eq_zero_iff.1 hz
      rw [this] at hx; simp at hx
    · exact h2.dn hz
  rw [← flagMap_filter hfl h2.lt p]
  have := ofDense_wf (V1.d.mapIdx fun v x => (x.1 && p v x.2, ()))
  rw [List.length_mapIdx, hlen] at this
  exact this

theorem vertexFilterSparse_wf {V : VS α} {M : Nat → Option α} (h : WF V M) (p : Nat → α → Bool) :
    ∃ W V', vertexFilterSparse p V = some (W, V') ∧ WF W (restrict M p) ∧ WF V' M ∧ W.n = V.n := by
  unfold vertexFilterSparse
  by_cases hm : V.m = 0
  · rw [if_pos hm]
    refine ⟨_, _, rfl, ?_, h, rfl⟩
    have : restrict M p = fun _ => none := by
      funext v
      unfold restrict
      cases hM : M v with
      | none => rfl
      | some a =>
        obtain ⟨l, h1, h2⟩ := h.card
        have := (h1.mem v a).2 hM
        rw [hm] at h2
        rw [List.length_eq_zero_iff.1 h2] at this
        simp at this
    rw [this]
    exact empty_wf _
  · rw [if_neg hm]
    obtain ⟨V1, h1, h2, h3, h4, h5, _⟩ := toSparse_wf h
    rw [h1]
    simp only
    have hz : V1.s.length ≠ 0 := (h2.curS h3).resolve_right (by omega)
    have hs := h2.sp hz
    have hmm : (List.range V1.m).mapM (fun i => V1.s[i]?) = some V1.s := by
      rw [← h2.sparse_full hz]; exact mapM_get V1.s
    rw [hmm]
    simp only
    refine ⟨_, _, rfl, ?_, h2, h4⟩
    have hkeys : (((V1.s.filter fun x => p x.1 x.2).map fun x => (x.1, ())).map Prod.fst) =
        (V1.s.filter fun x => p x.1 x.2).map Prod.fst := by
      rw [List.map_map]; rfl
    have hnd : (((V1.s.filter fun x => p x.1 x.2).map fun x => (x.1, ())).map Prod.fst).Nodup := by
      rw [hkeys]
      exact (List.filter_sublist.map Prod.fst).nodup hs.nd
    have hw := ofSparse_wf V1.n ((V1.s.filter fun x => p x.1 x.2).map fun x => (x.1, ())) hnd (by
      intro x hx
      obtain ⟨y, hy, rfl⟩ := List.mem_map.1 hx
      apply h2.lt
      rw [(hs.mem y.1 y.2).1 (List.mem_filter.1 hy).1]; simp)
    have heq : mapOf ((V1.s.filter fun x => p x.1 x.2).map fun x => (x.1, ())) = restrict M p := by
      funext v
      have hl := lists_mapOf hnd
      apply Option.ext
      intro u
      rw [← hl.mem v u]
      unfold restrict
      simp only [List.mem_map, List.mem_filter, Prod.mk.injEq]
      constructor
      · rintro ⟨x, ⟨hx, hp⟩, rfl, -⟩
        rw [(hs.mem x.1 x.2).1 hx]
        simp [hp]
      · intro hu
        cases hM : M v with
        | none => rw [hM] at hu; simp at hu
        | some a =>
          rw [hM] at hu
          simp only at hu
          by_cases hp : p v a
          · exact ⟨(v, a), ⟨(hs.mem v a).2 hM, hp⟩, rfl, trivial⟩
          · rw [if_neg hp] at hu; simp at hu
    rw [heq] at hw
    exact hw

/-- C53: `vertexFilter` returns exactly the members accepted by the predicate, whatever the
representation and flag, and leaves the input subset's members unchanged. -/
theorem vertexFilter_correct {dflt : α} {V : VS α} {M : Nat → Option α} (h : Conv dflt V M)
    (order : List Nat) (ho : Sched V.m order) (fl : Option Bool) (p : Nat → α → Bool) :
    ∃ W V', vertexFilter dflt order fl p V = some (W, V') ∧ Represents W (restrict M p) ∧
      Represents V' M ∧ W.n = V.n := by
  have hD : ∃ W V', vertexFilterDense dflt order p V = some (W, V') ∧ Represents W (restrict M p) ∧
      Represents V' M ∧ W.n = V.n := by
    obtain ⟨W, V', h1, h2, h3, h4⟩ := vertexFilterDense_wf dflt h.wf order ho p
    exact ⟨W, V', h1, h2.represents, h3.represents, h4⟩
  have hS : ∃ W V', vertexFilterSparse p V = some (W, V') ∧ Represents W (restrict M p) ∧
      Represents V' M ∧ W.n = V.n := by
    obtain ⟨W, V', h1, h2, h3, h4⟩ := vertexFilterSparse_wf h.wf p
    exact ⟨W, V', h1, h2.represents, h3.represents, h4⟩
  unfold vertexFilter
  match fl with
  | some true => exact hD
  | some false => exact hS
  | none =>
    simp only
    by_cases hd : V.isDense = true
    · rw [if_pos hd]; exact hD
    · rw [if_neg hd]; exact hS

example : ((vertexFilter 0 [0, 1, 2] (some true) (fun v a => v + a > 3)
    (ofSparse 5 [(3, 30), (1, 1), (2, 2)])).bind fun r => entries r.1) = some [(2, ()), (3, ())] := by
  decide

/-! ### C17: add_to_vsubset -/

/-- Union with new vertices. -/
def addTo (M : Nat → Option Unit) (new : List Nat) (v : Nat) : Option Unit :=
  if v ∈ new then some () else M v

/-- C17 (partial): if only the current representation exists, adding is correct.  Missing: the case
where the other representation exists too, for which the statement is false (below). -/
theorem add_correct_partial {V : VS Unit} {M : Nat → Option Unit} (h : Conv () V M)
    (h1 : if V.isDense then V.s = [] else V.d = []) (new : List Nat)
    (hnd : new.Nodup) (hnew : ∀ v ∈ new, v < V.n ∧ M v = none) :
    ∃ V', add V new = some V' ∧ V'.m = V.m + new.length ∧
      (∃ V2, toSparse V' = some V2 ∧ Represents V2 (addTo M new)) ∧
      (∀ order, Sched V'.m order →
        ∃ V2, toDense () order V' = some V2 ∧ Represents V2 (addTo M new)) := by
  have hw := h.wf
  suffices hsuff : ∃ V', add V new = some V' ∧ V'.m = V.m + new.length ∧ WF V' (addTo M new) by
    obtain ⟨V', a1, a2, a3⟩ := hsuff
    refine ⟨V', a1, a2, ?_, fun order ho => ?_⟩
    · obtain ⟨V2, b1, b2, _⟩ := toSparse_wf a3
      exact ⟨V2, b1, b2.represents⟩
    · obtain ⟨V2, b1, b2, _⟩ := toDense_wf () a3 order ho
      exact ⟨V2, b1, b2.represents⟩
  have hlt : ∀ v, addTo M new v ≠ none → v < V.n := by
    intro v hv
    unfold addTo at hv
    by_cases hvn : v ∈ new
    · exact (hnew v hvn).1
    · rw [if_neg hvn] at hv; exact hw.lt v hv
  have hcard : ∀ l : List (Nat × Unit), Lists l M →
      Lists (l ++ new.map fun v => (v, ())) (addTo M new) := by
    intro l hl
    refine ⟨?_, fun v a => ?_⟩
    · rw [List.map_append, List.map_map]
      have : (Prod.fst ∘ fun v : Nat => (v, ())) = id := rfl
      rw [this, List.map_id, List.nodup_append]
      refine ⟨hl.nd, hnd, ?_⟩
      intro x hx y hy hxy
      subst hxy
      obtain ⟨⟨w, a⟩, hw', rfl⟩ := List.mem_map.1 hx
      have := (hl.mem w a).1 hw'
      rw [(hnew w hy).2] at this
      cases this
    · rw [List.mem_append, hl.mem]
      unfold addTo
      by_cases hvn : v ∈ new
      · rw [if_pos hvn]
        simp [hvn]
      · rw [if_neg hvn]
        simp [hvn]
  obtain ⟨l0, c1, c2⟩ := hw.card
  unfold add
  by_cases hd : V.isDense = true
  · rw [if_pos hd] at h1 ⊢
    have hfl : Flags V.n V.d M := by
      rcases hw.cur hd with h' | h'
      · exact hw.dn h'
      · by_cases hz : V.d.length = 0
        · refine ⟨by omega, fun v x hx => ?_⟩
          rw [List.length_eq_zero_iff.1 hz] at hx; simp at hx
        · exact hw.dn hz
    have hfold : ∀ (new' : List Nat) (d : List (Bool × Unit)), (∀ v ∈ new', v < d.length) →
        ∃ d', new'.foldlM (fun d v => if v < d.length then some (d.set v (true, ())) else none) d =
          some d' ∧ d'.length = d.length ∧
          ∀ v, d'[v]? = if v ∈ new' then some (true, ()) else d[v]? := by
      intro new'
      induction new' with
      | nil => intro d _; exact ⟨d, rfl, rfl, fun v => by simp⟩
      | cons v new' ih =>
        intro d hlt'
        have hv := hlt' v List.mem_cons_self
        obtain ⟨d', e1, e2, e3⟩ := ih (d.set v (true, ()))
          (by intro w hw'; simpa using hlt' w (List.mem_cons_of_mem _ hw'))
        refine ⟨d', ?_, by simpa using e2, fun w => ?_⟩
        · rw [List.foldlM_cons, if_pos hv]; exact e1
        · rw [e3 w]
          by_cases hwn : w ∈ new'
          · rw [if_pos hwn, if_pos (List.mem_cons_of_mem _ hwn)]
          · rw [if_neg hwn, set_getElem? d v w _ hv]
            by_cases hwv : w = v
            · rw [if_pos hwv, if_pos (by rw [hwv]; exact List.mem_cons_self)]
            · rw [if_neg hwv, if_neg (by rw [List.mem_cons, not_or]; exact ⟨hwv, hwn⟩)]
    obtain ⟨d', e1, e2, e3⟩ := hfold new V.d (fun v hv => by rw [hfl.len]; exact (hnew v hv).1)
    rw [e1]
    have hfl' : Flags V.n d' (addTo M new) := by
      refine ⟨by rw [e2]; exact hfl.len, fun v x hx => ?_⟩
      rw [e3 v] at hx
      unfold addTo
      by_cases hvn : v ∈ new
      · rw [if_pos hvn] at hx ⊢
        have : x = (true, ()) := by simpa using hx.symm
        rw [this]; rfl
      · rw [if_neg hvn] at hx ⊢
        exact hfl.val v x hx
    refine ⟨_, rfl, rfl, ⟨hlt, ⟨_, hcard l0 c1, by simp [c2]⟩, ?_, fun _ => hfl', fun _ => ?_, ?_⟩⟩
    · intro hne
      exact absurd (by show V.s.length = 0; rw [h1]; rfl) hne
    · show d'.length ≠ 0 ∨ V.n = 0
      rw [e2, hfl.len]; omega
    · intro h'
      have h'' : V.isDense = false := h'
      rw [hd] at h''; cases h''
  · rw [if_neg hd] at h1 ⊢
    have hsd : V.isDense = false := by simpa using hd
    have hs : Lists V.s M ∧ V.s.length = V.m := by
      by_cases hs0 : V.s.length = 0
      · have hm := (hw.curS hsd).resolve_left (fun h' => h' hs0)
        have hl : l0 = [] := List.length_eq_zero_iff.1 (by omega)
        have hs1 : V.s = [] := List.length_eq_zero_iff.1 hs0
        rw [hs1, ← hl]; exact ⟨c1, c2⟩
      · exact ⟨hw.sp hs0, hw.sparse_full hs0⟩
    have hmm : (List.range V.m).mapM (fun i => V.s[i]?) = some V.s := by
      rw [← hs.2]; exact mapM_get V.s
    rw [hmm]
    refine ⟨_, rfl, Nat.add_comm _ _, ⟨hlt, ⟨_, hcard V.s hs.1, by
      simp [hs.2, Nat.add_comm]⟩, fun _ => hcard V.s hs.1, ?_, ?_, fun _ => ?_⟩⟩
    · intro hne
      exact absurd (by show V.d.length = 0; rw [h1]; rfl) hne
    · intro h'
      exact absurd h' hd
    · show (V.s ++ new.map fun v => (v, ())).length ≠ 0 ∨ new.length + V.m = 0
      rw [List.length_append, List.length_map, hs.2]; omega

/-- The hypotheses of `add_correct_partial` for a sparse subset of two vertices. -/
example : ∃ V M, Conv () V M ∧ (if V.isDense then V.s = [] else V.d = []) ∧ V.m = 2 ∧ V.n = 6 ∧
    ∀ v ∈ [4, 0], v < V.n ∧ M v = none :=
  ⟨_, _, .ofSparse 6 [(3, ()), (1, ())] (by decide) (by decide), rfl, rfl, rfl, by decide⟩

/-- C17 is false for a subset that has both representations.  The subset `{0}` of 3 vertices is made
dense, vertex 1 is added, and the subset is made sparse again: the stale sparse sequence has one
entry while `size()` is 2, so reading the members goes outside the sequence. -/
theorem add_stale_sparse :
    ∃ V V' V2 : VS Unit, ∃ M, Conv () V M ∧ M 1 = none ∧ 1 < V.n ∧ add V [1] = some V' ∧
      toSparse V' = some V2 ∧ V2.m = 2 ∧ V2.s = [(0, ())] ∧ entries V2 = none :=
  ⟨_, _, _, _, .toDense _ _ _ [0] (.ofSparse 3 [(0, ())] (by decide) (by decide))
    ⟨by decide, fun i => by simp [ofSparse]⟩ rfl, rfl, by decide, rfl, rfl, rfl, rfl, rfl⟩

/-- C17 is false in the other direction too: after `toDense`, `toSparse`, adding vertex 1 and
`toDense`, the flags do not show vertex 1 although `size()` is 2. -/
theorem add_stale_dense :
    ∃ V V' V2 : VS Unit, ∃ M, Conv () V M ∧ M 1 = none ∧ 1 < V.n ∧ add V [1] = some V' ∧
      toDense () [0, 1] V' = some V2 ∧ V2.m = 2 ∧ entries V2 = some [(0, ())] :=
  ⟨_, _, _, _, .toSparse _ _ _ (.toDense _ _ _ [0] (.ofSparse 3 [(0, ())] (by decide) (by decide))
    ⟨by decide, fun i => by simp [ofSparse]⟩ rfl) rfl, rfl, by decide, rfl, rfl, rfl, rfl⟩

end Gbbs.VSub
