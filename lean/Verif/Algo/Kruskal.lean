/-
C44: `benchmarks/MinimumSpanningForest/Kruskal/MinimumSpanningForest.h`.
-/
import Verif.Conc.UFFinal
import Verif.EdgeMap.Rounds
import Verif.Algo.Forest

namespace Gbbs.Kruskal

open Conc Conc.Prog UF Forest
open Em (exec)

/-! ### Model -/

/-- A weighted graph: `G.edges()` (line 42) lists the edges of every vertex. The weights are mathematical integers; the sum printed
by the program is not part of the result. -/
structure Gr where
  n : Nat
  nbr : Nat → List (Nat × Int)

def Gr.edges (G : Gr) : List E := (List.range G.n).flatMap fun u => (G.nbr u).map fun x => (u, x.1, x.2)

/-- The loop of lines 69-76. `acc` is `MST[0..k)`; writing at `k ≥ n` is undefined (`none`), and so is an access that never ends. -/
def loop (fuel n : Nat) : List E → (Loc → Nat) → List E → Option (List E)
  | [], _, acc => some acc
  | e :: es, m, acc =>
    (exec (findCompress fuel e.1) m).bind fun r1 =>
    (exec (findCompress fuel e.2.1) r1.2).bind fun r2 =>
    if r1.1 ≠ r2.1 then
      (exec (unite (findCompress fuel) fuel e.1 e.2.1) r2.2).bind fun r3 =>
      if acc.length < n then loop fuel n es r3.2 (acc ++ [e]) else none
    else loop fuel n es r2.2 acc

/-- `components[i] = i`, lines 61-62. -/
def mem0 : Loc → Nat
  | .par x => x
  | .aux _ => 0

/-- `MinimumSpanningForest`, lines 36-86, with `sorted` the outcome of the sample sort of line 57. Line 49 reads the first weight, which is
undefined without edges. -/
def kruskal (fuel : Nat) (G : Gr) (sorted : List E) : Option (List E) :=
  if G.edges = [] then none else loop fuel G.n sorted mem0 []

/-! ### Specification -/

/-- The sort sorts. -/
structure IsSort (es sorted : List E) : Prop where
  perm : sorted.Perm es
  asc : sorted.Pairwise fun a b => a.2.2 ≤ b.2.2

/-! ### Sequential union-find -/

theorem exec_bind {α β : Type} (p : P α) (f : α → P β) (m : Loc → Nat) :
    exec (p.bind f) m = (exec p m).bind fun r => exec (f r.1) r.2 := by
  induction p generalizing m with
  | ret a => rfl
  | stuck => rfl
  | read x k ih => exact ih _ m
  | write x v k ih => exact ih _
  | cas x o n k ih =>
    show (if m x = o then exec ((k true).bind f) (put m x n) else exec ((k false).bind f) m) = Option.bind (if m x = o then exec (k true) (put m x n) else exec (k false) m) _
    split
    · exact ih _ _
    · exact ih _ _

/-- The parents `v` lead to the roots `rt` and never upwards. -/
structure Fr (rt v : Nat → Nat) : Prop where
  rt_eq : ∀ x, rt (v x) = rt x
  ge : ∀ x, rt x ≤ v x
  le : ∀ x, v x ≤ x
  root : ∀ x, v x = x → rt x = x

variable {rt : Nat → Nat}

theorem Fr.set {v : Nat → Nat} (h : Fr rt v) {x w : Nat} (h1 : rt w = rt x) (h2 : rt x ≤ w) (h3 : w ≤ v x)
    (h4 : w = x → rt x = x) : Fr rt (fun y => if y = x then w else v y) := by
  have hx := h.le x
  refine ⟨fun y => ?_, fun y => ?_, fun y => ?_, fun y => ?_⟩ <;> by_cases hy : y = x <;>
    simp only [hy, if_true, if_false]
  · exact h1
  · exact h.rt_eq y
  · exact h2
  · exact h.ge y
  · omega
  · exact h.le y
  · exact h4
  · exact h.root y

theorem climb_exec {m : Loc → Nat} (h : Fr rt (par m)) : ∀ f j, j ≤ f → m (.par j) ≠ j → exec (climb f j) m = some (rt j, m) := by
  intro f
  induction f with
  | zero =>
    intro j hj hne
    have : par m j ≤ j := h.le j
    rw [par] at this
    omega
  | succ f ih =>
    intro j hj hne
    have hle : par m j ≤ j := h.le j
    rw [par] at hle
    show exec (if m (.par (m (.par j))) ≠ m (.par j) then climb f (m (.par j)) else ret (m (.par j))) m = _
    have hrt : rt (m (.par j)) = rt j := h.rt_eq j
    split
    · rename_i hc
      rw [ih _ (by omega) hc, hrt]
    · rename_i hc
      have hc : m (.par (m (.par j))) = m (.par j) := not_not.1 hc
      have := h.root (m (.par j)) hc
      show some _ = _
      rw [← hrt, this]

theorem compress_exec (hid : ∀ x, rt (rt x) = rt x) : ∀ f i (m : Loc → Nat), i < f → Fr rt (par m) →
    ∃ m', exec (compressLoop f i (rt i)) m = some ((), m') ∧ Fr rt (par m') := by
  intro f
  induction f with
  | zero => intro i m hi; omega
  | succ f ih =>
    intro i m hi h
    show ∃ m', exec (if m (.par i) > rt i then write (.par i) (rt i) (compressLoop f (m (.par i)) (rt i)) else ret ()) m = _ ∧ _
    split
    · rename_i hc
      have hle : m (.par i) ≤ i := h.le i
      have hne : m (.par i) ≠ i := fun he => by have := h.root i he; omega
      have hrt : rt (m (.par i)) = rt i := h.rt_eq i
      have h' : Fr rt (par (put m (.par i) (rt i))) := by
        have hs := h.set (x := i) (w := rt i) (hid i) (Nat.le_refl _) (h.ge i) (fun h => h)
        have : par (put m (.par i) (rt i)) = fun y => if y = i then rt i else par m y := by
          funext y
          exact put_par (v := par m) (fun _ => rfl) i (rt i) y
        rw [this]; exact hs
      have := ih (m (.par i)) (put m (.par i) (rt i)) (by omega) h'
      rw [hrt] at this
      exact this
    · exact ⟨m, rfl, h⟩

theorem find_exec (hid : ∀ x, rt (rt x) = rt x) {f x : Nat} (hx : x < f) {m : Loc → Nat} (h : Fr rt (par m)) :
    ∃ m', exec (findCompress f x) m = some (rt x, m') ∧ Fr rt (par m') := by
  show ∃ m', exec (if m (.par x) = x then ret x else (climb f x).bind fun j => (compressLoop f x j).bind fun _ => ret j) m = _ ∧ _
  split
  · rename_i hc
    refine ⟨m, ?_, h⟩
    show some _ = _
    rw [h.root x hc]
  · rename_i hc
    rw [exec_bind, climb_exec h f x (by omega) hc]
    show ∃ m', exec ((compressLoop f x (rt x)).bind fun _ => ret (rt x)) m = _ ∧ _
    obtain ⟨m', h1, h2⟩ := compress_exec hid f x m hx h
    refine ⟨m', ?_, h2⟩
    rw [exec_bind, h1]
    rfl

/-- The roots after hooking the root `hi` under the root `lo`. -/
def hook (rt : Nat → Nat) (hi lo : Nat) (x : Nat) : Nat := if rt x = hi then lo else rt x

theorem hook_fr {m : Loc → Nat} (h : Fr rt (par m)) {hi lo : Nat} (h1 : rt hi = hi) (h2 : rt lo = lo) (hlt : lo < hi) :
    Fr (hook rt hi lo) (par (put m (.par hi) lo)) := by
  have hp : ∀ y, par (put m (.par hi) lo) y = if y = hi then lo else par m y := put_par (v := par m) (fun _ => rfl) hi lo
  refine ⟨fun x => ?_, fun x => ?_, fun x => ?_, fun x => ?_⟩ <;> rw [hp] <;> try rw [hook]
  · by_cases hx : x = hi
    · rw [if_pos hx, hx, h2, if_neg (by omega), hook, h1, if_pos rfl]
    · rw [if_neg hx, h.rt_eq x, hook]
  · by_cases hx : x = hi
    · rw [if_pos hx, hx, h1, if_pos rfl]
    · have := h.ge x
      rw [if_neg hx]; split <;> omega
  · have := h.le x
    split <;> omega
  · split
    · omega
    · rename_i hx
      intro he
      have := h.root x he
      rw [if_neg (by omega), this]

theorem hook_hid (hid : ∀ x, rt (rt x) = rt x) {hi lo : Nat} (h2 : rt lo = lo) (hlt : lo < hi) (x : Nat) :
    hook rt hi lo (hook rt hi lo x) = hook rt hi lo x := by
  rw [hook, hook]
  split
  · rw [h2, if_neg (by omega)]
  · rename_i hx
    rw [hid, if_neg hx]

theorem hook_iff {hi lo : Nat} (x y : Nat) : hook rt hi lo x = hook rt hi lo y ↔
    rt x = rt y ∨ (rt x = hi ∧ rt y = lo) ∨ (rt x = lo ∧ rt y = hi) := by
  rw [hook, hook]
  split <;> split <;> omega

theorem unite_exec (hid : ∀ x, rt (rt x) = rt x) {f u v : Nat} (hu : u < f) (hv : v < f) {m : Loc → Nat} (h : Fr rt (par m)) (hne : rt u ≠ rt v) :
    ∃ r m' hi lo, exec (unite (findCompress f) f u v) m = some (r, m') ∧ Fr (hook rt hi lo) (par m') ∧ rt lo = lo ∧ lo < hi ∧
      ((hi = rt u ∧ lo = rt v) ∨ (hi = rt v ∧ lo = rt u)) := by
  obtain ⟨f', rfl⟩ : ∃ f', f = f' + 1 := ⟨f - 1, by omega⟩
  obtain ⟨m1, e1, h1⟩ := find_exec hid hu h
  obtain ⟨m2, e2, h2⟩ := find_exec hid hv h1
  rw [unite, exec_bind, e1]
  show ∃ r m' hi lo, exec ((findCompress (f' + 1) v).bind _) m1 = _ ∧ _
  rw [exec_bind, e2]
  simp only [Option.bind_some]
  have root : ∀ x, m2 (.par (rt x)) = rt x := fun x => by
    have ha : par m2 (rt x) ≤ rt x := h2.le _
    have hb := h2.ge (rt x)
    rw [hid] at hb
    exact Nat.le_antisymm ha hb
  rw [if_neg hne]
  by_cases hlt : rt u > rt v
  · rw [if_pos hlt]
    simp only [exec]
    rw [if_pos (root u)]
    simp only [exec]
    rw [if_pos (root u)]
    exact ⟨_, _, rt u, rt v, rfl, hook_fr h2 (hid u) (hid v) hlt, hid v, hlt, Or.inl ⟨rfl, rfl⟩⟩
  · rw [if_neg hlt]
    simp only [exec]
    rw [if_pos (root v)]
    simp only [exec]
    rw [if_pos (root v)]
    exact ⟨_, _, rt v, rt u, rfl, hook_fr h2 (hid v) (hid u) (by omega), hid u, by omega, Or.inr ⟨rfl, rfl⟩⟩

/-! ### The loop -/

/-- After the edges `done`: the roots are those of the chosen edges `F`. -/
structure Inv (n : Nat) (done F : List E) (rt : Nat → Nat) (m : Loc → Nat) : Prop where
  fr : Fr rt (par m)
  hid : ∀ x, rt (rt x) = rt x
  conn : ∀ x y, rt x = rt y ↔ Conn F x y
  sub : ∀ e ∈ F, e ∈ done
  forest : IsForest F
  span : ∀ e ∈ done, Conn (F.filter fun f => decide (f.2.2 ≤ e.2.2)) e.1 e.2.1

theorem conn_snoc {F : List E} {e : E} {x y : Nat} : Conn (F ++ [e]) x y ↔
    Conn F x y ∨ (Conn F x e.1 ∧ Conn F y e.2.1) ∨ (Conn F x e.2.1 ∧ Conn F y e.1) := by
  have q := conn_equiv F
  have up : ∀ {a b}, Conn F a b → Conn (F ++ [e]) a b := fun h => conn_mono (fun _ h => List.mem_append_left _ h) h
  have he : Conn (F ++ [e]) e.1 e.2.1 := conn_of_mem (by simp)
  have q' := conn_equiv (F ++ [e])
  constructor
  · intro h
    refine conn_le (s := fun x y => Conn F x y ∨ (Conn F x e.1 ∧ Conn F y e.2.1) ∨ (Conn F x e.2.1 ∧ Conn F y e.1)) ⟨fun a => Or.inl (q.refl a), ?_, ?_⟩ ?_ h
    · rintro a b (h | h | h)
      · exact Or.inl (q.symm h)
      · exact Or.inr (Or.inr ⟨h.2, h.1⟩)
      · exact Or.inr (Or.inl ⟨h.2, h.1⟩)
    · rintro a b c (h | ⟨h1, h2⟩ | ⟨h1, h2⟩) (k | ⟨k1, k2⟩ | ⟨k1, k2⟩)
      · exact Or.inl (q.trans h k)
      · exact Or.inr (Or.inl ⟨q.trans h k1, k2⟩)
      · exact Or.inr (Or.inr ⟨q.trans h k1, k2⟩)
      · exact Or.inr (Or.inl ⟨h1, q.trans (q.symm k) h2⟩)
      · exact Or.inr (Or.inl ⟨h1, k2⟩)
      · exact Or.inl (q.trans h1 (q.symm k2))
      · exact Or.inr (Or.inr ⟨h1, q.trans (q.symm k) h2⟩)
      · exact Or.inl (q.trans h1 (q.symm k2))
      · exact Or.inr (Or.inr ⟨h1, k2⟩)
    · intro f hf
      rcases List.mem_append.1 hf with hf | hf
      · exact Or.inl (conn_of_mem hf)
      · rw [List.mem_singleton] at hf
        subst hf
        exact Or.inr (Or.inl ⟨q.refl _, q.refl _⟩)
  · rintro (h | ⟨h1, h2⟩ | ⟨h1, h2⟩)
    · exact up h
    · exact q'.trans (up h1) (q'.trans he (q'.symm (up h2)))
    · exact q'.trans (up h1) (q'.trans (q'.symm he) (q'.symm (up h2)))

theorem loop_ok {fuel n : Nat} (hn : n ≤ fuel) : ∀ (es done F : List E) (rt : Nat → Nat) (m : Loc → Nat), Inv n done F rt m →
    Below n (done ++ es) → (done ++ es).Pairwise (fun a b => a.2.2 ≤ b.2.2) →
    ∃ R rt' m', loop fuel n es m F = some R ∧ Inv n (done ++ es) R rt' m' := by
  intro es
  induction es with
  | nil =>
    intro done F rt m hi _ _
    exact ⟨F, rt, m, rfl, by rw [List.append_nil]; exact hi⟩
  | cons e es ih =>
    intro done F rt m hi hb hs
    have hassoc : done ++ e :: es = (done ++ [e]) ++ es := by simp
    obtain ⟨hu, hv⟩ := hb e (by simp)
    have hbF : Below n F := fun x hx => hb x (List.mem_append_left _ (hi.sub x hx))
    have hFw : ∀ x ∈ done, x.2.2 ≤ e.2.2 := fun x hx => (List.pairwise_append.1 hs).2.2 x hx e List.mem_cons_self
    have hall : F.filter (fun f => decide (f.2.2 ≤ e.2.2)) = F := by
      rw [List.filter_eq_self]
      exact fun x hx => decide_eq_true (hFw x (hi.sub x hx))
    obtain ⟨m1, e1, f1⟩ := find_exec hi.hid (show e.1 < fuel by omega) hi.fr
    obtain ⟨m2, e2, f2⟩ := find_exec hi.hid (show e.2.1 < fuel by omega) f1
    rw [loop, e1]
    simp only [Option.bind_some]
    rw [e2]
    simp only [Option.bind_some]
    by_cases hne : rt e.1 = rt e.2.1
    · rw [if_neg (not_not.2 hne), hassoc]
      have hc := (hi.conn _ _).1 hne
      refine ih (done ++ [e]) F rt m2 ⟨f2, hi.hid, hi.conn, fun x hx => List.mem_append_left _ (hi.sub x hx), hi.forest, fun x hx => ?_⟩
        (by rw [← hassoc]; exact hb) (by rw [← hassoc]; exact hs)
      rcases List.mem_append.1 hx with hx | hx
      · exact hi.span x hx
      · rw [List.mem_singleton] at hx
        subst hx
        rw [hall]; exact hc
    · have hnc : ¬ Conn F e.1 e.2.1 := fun h => hne ((hi.conn _ _).2 h)
      rw [if_pos hne]
      obtain ⟨r, m3, hh, ll, e3, f3, hlo, hlt, hor⟩ := unite_exec hi.hid (show e.1 < fuel by omega) (show e.2.1 < fuel by omega) f2 hne
      rw [e3]
      simp only [Option.bind_some]
      rw [if_pos (forest_lt hbF hi.forest (by omega)), hassoc]
      have hforest := forest_snoc hbF hu hv hi.forest hnc
      refine ih (done ++ [e]) (F ++ [e]) (hook rt hh ll) m3 ⟨f3, hook_hid hi.hid hlo hlt, fun x y => ?_, fun x hx => ?_, hforest, fun x hx => ?_⟩
        (by rw [← hassoc]; exact hb) (by rw [← hassoc]; exact hs)
      · rw [hook_iff, conn_snoc, hi.conn x y]
        rcases hor with ⟨ha, hb'⟩ | ⟨ha, hb'⟩
        · rw [ha, hb', hi.conn, hi.conn, hi.conn, hi.conn]
        · rw [ha, hb', hi.conn, hi.conn, hi.conn, hi.conn]
          tauto
      · rcases List.mem_append.1 hx with hx | hx
        · exact List.mem_append_left _ (hi.sub x hx)
        · exact List.mem_append_right _ hx
      · rcases List.mem_append.1 hx with hx | hx
        · refine conn_mono (fun y hy => ?_) (hi.span x hx)
          rw [List.filter_append]
          exact List.mem_append_left _ hy
        · rw [List.mem_singleton] at hx
          subst hx
          rw [List.filter_append, hall]
          exact conn_of_mem (by simp)

theorem inv0 (n : Nat) : Inv n [] [] id mem0 := by
  refine ⟨⟨fun x => rfl, fun x => Nat.le_refl _, fun x => Nat.le_refl _, fun x _ => rfl⟩, fun x => rfl, fun x y => ?_, fun e h => (by cases h), ?_, fun e h => (by cases h)⟩
  · exact lab_iff [] x y
  · intro pre e post h
    cases pre <;> cases h

/-! ### Theorems -/

/-- C44: Kruskal's algorithm returns a spanning forest of least weight, for every order the sort may produce. The loops end within `n` iterations
and the result fits in the array. -/
theorem kruskal_msf {G : Gr} (hG : ∀ u v w, u < G.n → (v, w) ∈ G.nbr u → v < G.n) (hne : G.edges ≠ []) {sorted : List E}
    (hs : IsSort G.edges sorted) {fuel : Nat} (hf : G.n ≤ fuel) : ∃ F, kruskal fuel G sorted = some F ∧ IsMSF G.edges F := by
  have hb : Below G.n G.edges := by
    rintro ⟨a, b, w⟩ he
    rw [Gr.edges, List.mem_flatMap] at he
    obtain ⟨u, hu, he⟩ := he
    obtain ⟨⟨v, w'⟩, hx, he⟩ := List.mem_map.1 he
    simp only [Prod.mk.injEq] at he
    obtain ⟨rfl, rfl, rfl⟩ := he
    exact ⟨List.mem_range.1 hu, hG _ _ _ (List.mem_range.1 hu) hx⟩
  obtain ⟨R, rt', m', h1, h2⟩ := loop_ok (n := G.n) hf sorted [] [] id mem0 (inv0 _) (fun e he => hb e (hs.perm.mem_iff.1 he)) hs.asc
  refine ⟨R, by rw [kruskal, if_neg hne]; exact h1, ?_⟩
  rw [List.nil_append] at h2
  exact isMSF_of_span hb (fun e he => hs.perm.mem_iff.1 (h2.sub e he)) h2.forest fun e he => h2.span e (hs.perm.mem_iff.2 he)

/-- Without edges the program reads the weight of the first edge. -/
theorem kruskal_no_edges (fuel n : Nat) (sorted : List E) : kruskal fuel ⟨n, fun _ => []⟩ sorted = none := by
  rw [kruskal, if_pos]
  simp [Gr.edges]

/-! ### Example -/

/-- A triangle with weights 5, 2, -1. -/
def exG : Gr := ⟨3, fun v => if v = 0 then [(1, 5), (2, 2)] else if v = 1 then [(0, 5), (2, -1)] else if v = 2 then [(0, 2), (1, -1)] else []⟩

def exS : List E := [(2, 1, -1), (1, 2, -1), (0, 2, 2), (2, 0, 2), (1, 0, 5), (0, 1, 5)]

theorem exS_sort : IsSort exG.edges exS := ⟨by decide, by decide⟩

example : kruskal 3 exG exS = some [(2, 1, -1), (0, 2, 2)] := by decide +kernel

example : ∃ F, kruskal 3 exG exS = some F ∧ IsMSF exG.edges F :=
  kruskal_msf (fun u v w hu h => (by decide : ∀ u < 3, ∀ x ∈ exG.nbr u, x.1 < 3) u hu (v, w) h) (by decide) exS_sort (Nat.le_refl _)

end Gbbs.Kruskal
