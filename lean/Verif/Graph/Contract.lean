/-
C74: contraction of clusters, `gbbs/contract.h`.
-/
import Verif.Hash.Table
import Verif.Graph.Csr
import Verif.Graph.Relabel
import Verif.EdgeMap.Rounds
import Verif.Conc.Par
import Mathlib.Data.Fintype.Card
import Mathlib.Data.Fintype.EquivFin
import Mathlib.Data.List.FinRange

namespace Gbbs.Contract

open Conc Conc.Prog Em
open Atomics (Steps)

variable {W : Type}

/-! ### Model -/

/-- The reserved key, `contract.h:55-56`. -/
def emp : Nat × Nat := (4294967295, 4294967295)

/-- The pairs that `map_f` inserts (`contract.h:71-78`, 127-134, 167-175), one for each edge to a larger cluster. -/
def inter (G : Gr W) (cl : Nat → Nat) : List (Nat × Nat) :=
  ((List.range G.n).flatMap fun u => (G.fwd u).map fun x => (cl u, cl x.1)).filter fun p => decide (p.1 < p.2)

/-- `parlay::log2_up`. -/
def log2Up (x : Nat) : Nat := if x ≤ 1 then 0 else Nat.log2 (x - 1) + 1

/-- The slots of a table made for `s` values, `sparse_table.h:67-69` (`1.1 * s` in exact arithmetic). -/
def tabSize (s : Nat) : Nat := 2 ^ log2Up (11 * s / 10 + 1)

/-- Concurrent `insert` of all pairs into an empty table with `m` slots and any hash function, and `entries()` (the model of
C20). -/
def Insert (m : Nat) (keys : List (Nat × Nat)) (E : List (Nat × Nat)) : Prop :=
  ∃ (hash : Nat × Nat → Nat) (c : Hash.Conf (Nat × Nat) Unit (Fin keys.length)),
    Hash.Complete ⟨m, hash, emp⟩ (fun _ x => x) false (fun i => keys[i]) (fun _ => ()) (fun _ => emp) (fun _ => ()) c ∧
    E = (Hash.entries ⟨m, hash, emp⟩ c.tab c.val).map Prod.fst

/-- The choice at `contract.h:222-224` and the three functions `fetch_intercluster_small` (42-85), `fetch_intercluster` (145-190)
and `fetch_intercluster_te` (87-142). `insert_check` differs from `insert` in giving up after 10000 probes, which sets
`abort`; then the table is dropped and `fetch_intercluster_te` called. This can happen in any run of `fetch_intercluster` here. -/
inductive Fetch (G : Gr W) (cl : Nat → Nat) (nc : Nat) (E : List (Nat × Nat)) : Prop
  | small (h : nc < 2048) (hi : Insert (tabSize 2048) (inter G cl) E)
  | main (h : ¬ nc < 2048) (hi : Insert (tabSize (nc * 5)) (inter G cl) E)
  | te (h : ¬ nc < 2048) (hi : Insert (tabSize (inter G cl).length) (inter G cl) E)

/-- The body of the loop `contract.h:229-237` over `flags`. -/
def mark (e : Nat × Nat) : Prog Nat Nat Unit :=
  read e.1 fun x =>
    let k := read e.2 fun y => if y = 0 then write e.2 1 (ret ()) else ret ()
    if x = 0 then write e.1 1 k else k

/-- `sym_edges`, `contract.h:251-262`. -/
def symEdges (E : List (Nat × Nat)) (flags : Nat → Nat) : List (Csr.Edge Unit) :=
  E.flatMap fun e => [⟨flags e.2, flags e.1, ()⟩, ⟨flags e.1, flags e.2, ()⟩]

/-- `contract(GA, clusters, num_clusters)`, `contract.h:215-269`, with its three results. The loops over `flags` are concurrent;
`mapping` is written in any order `order` (each entry once, see `mapping_eq`), starting from arbitrary contents `g`; `from_edges` is
the model of C22, or the empty graph if there are no edges (`graph.h:148-153`; then `num_ns_clusters` is 0). -/
def Contract (G : Gr W) (cl : Nat → Nat) (nc : Nat) (GC : Csr.Graph Unit) (flags mapping : Nat → Nat) : Prop :=
  ∃ (E : List (Nat × Nat)) (fl : Nat → Nat) (o : Nat → Unit) (order : List Nat) (g : Nat → Nat) (sorted : List (Csr.Edge Unit))
    (ws : List (Nat × Nat)), Fetch G cl nc E ∧
    Par (fun i => match E[i]? with | none => ret () | some e => mark e) (fun _ => 0) fl o ∧
    flags = exScan fl ∧
    Sched nc order ∧ mapping = order.foldl (fun a i => if flags i ≠ flags (i + 1) then upd a (flags i) i else a) g ∧
    ((E = [] ∧ GC = ⟨flags nc, 0, fun _ => 0, fun _ => 0, []⟩) ∨
     (E ≠ [] ∧ Csr.IsSort (Csr.bothDirs (symEdges E flags)) sorted ∧
      ws.Perm (Csr.allOffsetWrites (flags nc) (Csr.srcAt (Csr.dedupe sorted)) (Csr.dedupe sorted).length) ∧
      GC = Csr.fromEdges (flags nc) sorted ws))

/-! ### Specification -/

/-- There is an edge from `u` to `v`. -/
def Adj (G : Gr W) (u v : Nat) : Prop := ∃ w, (v, w) ∈ G.fwd u

/-- Different clusters joined by an edge. -/
def QAdj (G : Gr W) (cl : Nat → Nat) (a b : Nat) : Prop := a ≠ b ∧ ∃ u v, Adj G u v ∧ cl u = a ∧ cl v = b

/-- Not a singleton of the contracted graph. -/
def Touch (G : Gr W) (cl : Nat → Nat) (a : Nat) : Prop := ∃ b, QAdj G cl a b

/-- What `contract.h:202-213` documents. -/
structure IsContraction (G : Gr W) (cl : Nat → Nat) (nc : Nat) (GC : Csr.Graph Unit) (flags mapping : Nat → Nat) : Prop where
  size : GC.n = flags nc
  single : ∀ a, a < nc → (flags a = flags (a + 1) ↔ ¬ Touch G cl a)
  lt : ∀ a, a < nc → Touch G cl a → flags a < GC.n
  map : ∀ a, a < nc → Touch G cl a → mapping (flags a) = a
  inv : ∀ x, x < GC.n → mapping x < nc ∧ Touch G cl (mapping x) ∧ flags (mapping x) = x
  nbr : ∀ x y, x < GC.n → y < GC.n → (y ∈ (GC.nbrs x).map Prod.fst ↔ QAdj G cl (mapping x) (mapping y))
  bound : ∀ x y, x < GC.n → y ∈ (GC.nbrs x).map Prod.fst → y < GC.n
  asc : ∀ x, x < GC.n → ((GC.nbrs x).map Prod.fst).Pairwise (· < ·)
  edges : ((List.range GC.n).map GC.deg).sum = GC.m

/-! ### Proof -/

theorem mem_inter {G : Gr W} (hG : G.Ok) {cl : Nat → Nat} {p : Nat × Nat} :
    p ∈ inter G cl ↔ p.1 < p.2 ∧ ∃ u v, Adj G u v ∧ cl u = p.1 ∧ cl v = p.2 := by
  obtain ⟨a, b⟩ := p
  simp only [inter, List.mem_filter, List.mem_flatMap, List.mem_range, List.mem_map, decide_eq_true_eq, Prod.mk.injEq]
  constructor
  · rintro ⟨⟨u, hu, x, hx, h1, h2⟩, hlt⟩
    exact ⟨hlt, u, x.1, ⟨x.2, hx⟩, h1, h2⟩
  · rintro ⟨hlt, u, v, ⟨w, hw⟩, h1, h2⟩
    exact ⟨⟨u, (hG.bound _ _ _ hw).1, (v, w), hw, h1, h2⟩, hlt⟩

theorem inter_ne_emp {G : Gr W} {cl : Nat → Nat} {p : Nat × Nat} (h : p ∈ inter G cl) : p ≠ emp := by
  rintro rfl
  simp [inter, emp] at h

theorem wf_empty (P : Hash.Par (Nat × Nat)) : Hash.WF P (fun _ => P.emp) := fun _ _ h => absurd rfl h

/-- The entries are the inserted keys, without duplicates. -/
theorem insert_spec {m : Nat} (hm : 0 < m) {keys E : List (Nat × Nat)} (hk : ∀ p ∈ keys, p ≠ emp) (h : Insert m keys E) :
    E.Nodup ∧ ∀ p, p ∈ E ↔ p ∈ keys := by
  obtain ⟨hash, c, hc, rfl⟩ := h
  obtain ⟨h1, h2, -, h4, -, -⟩ := Hash.insert_keys (P := ⟨m, hash, emp⟩) hm
    (fun i => hk _ (List.getElem_mem i.2)) (wf_empty _) hc
  obtain ⟨h5, h6⟩ := Hash.entries_spec c.val h1
  refine ⟨h5, fun p => ⟨fun hp => ?_, fun hp => ?_⟩⟩
  · obtain ⟨⟨k, x⟩, hx, rfl⟩ := List.mem_map.1 hp
    obtain ⟨hne, s, hs, hs2, -⟩ := (h6 k x).1 hx
    rcases (h4 k hne).1 ⟨s, hs, hs2⟩ with ⟨s, _, h⟩ | ⟨i, h⟩
    · exact absurd h.symm hne
    · rw [← h]; exact List.getElem_mem i.2
  · obtain ⟨i, hi, rfl⟩ := List.getElem_of_mem hp
    obtain ⟨s, ⟨hs, hs2⟩, -⟩ := h2 ⟨i, hi⟩
    exact List.mem_map.2 ⟨(keys[i], c.val s), (h6 _ _).2 ⟨hk _ hp, s, hs, hs2, rfl⟩, rfl⟩

theorem tabSize_pos (s : Nat) : 0 < tabSize s := Nat.pow_pos (by decide)

theorem fetch_spec {G : Gr W} {cl : Nat → Nat} {nc : Nat} {E : List (Nat × Nat)} (h : Fetch G cl nc E) :
    E.Nodup ∧ ∀ p, p ∈ E ↔ p ∈ inter G cl := by
  cases h with
  | small _ hi => exact insert_spec (tabSize_pos _) (fun _ => inter_ne_emp) hi
  | main _ hi => exact insert_spec (tabSize_pos _) (fun _ => inter_ne_emp) hi
  | te _ hi => exact insert_spec (tabSize_pos _) (fun _ => inter_ne_emp) hi

def mRG (S : Nat → Prop) : RG Nat (Nat → Nat) Nat Nat where
  Inv g m := g = m ∧ ∀ x, m x = 0 ∨ m x = 1 ∧ S x
  R _ g g' := ∀ x, g x = 1 → g' x = 1
  Gu _ g g' := ∀ x, g x = 1 → g' x = 1
  refl _ _ _ h := h
  trans _ _ _ _ h1 h2 x h := h2 x (h1 x h)
  compat _ _ _ _ _ h := h

theorem mark_inv {S : Nat → Prop} {u : Nat} (hu : S u) {m : Nat → Nat} (h : ∀ x, m x = 0 ∨ m x = 1 ∧ S x) :
    (∀ x, put m u 1 x = 0 ∨ put m u 1 x = 1 ∧ S x) ∧ ∀ x, m x = 1 → put m u 1 x = 1 := by
  constructor <;> intro x
  · by_cases hx : x = u
    · subst hx; rw [put_same]; exact .inr ⟨rfl, hu⟩
    · rw [put_ne _ _ hx]; exact h x
  · by_cases hx : x = u
    · subst hx; rw [put_same]; exact fun _ => rfl
    · rw [put_ne _ _ hx]; exact id

theorem mark_safe {S : Nat → Prop} (i : Nat) {e : Nat × Nat} (h1 : S e.1) (h2 : S e.2) (g : Nat → Nat) :
    Safe (mRG S) i (fun g _ => g e.1 = 1 ∧ g e.2 = 1) (mark e) g := by
  have hk : ∀ g, g e.1 = 1 → Safe (mRG S) i (fun g _ => g e.1 = 1 ∧ g e.2 = 1)
      (read e.2 fun y => if y = 0 then write e.2 1 (ret ()) else ret ()) g := by
    intro g hg
    rintro g1 m1 hr1 ⟨rfl, i1⟩
    refine ⟨g1, fun _ h => h, ⟨rfl, i1⟩, ?_⟩
    beta_reduce
    split
    · rintro g2 m2 hr2 ⟨rfl, i2⟩
      obtain ⟨a, b⟩ := mark_inv h2 i2
      exact ⟨_, b, ⟨rfl, a⟩, fun g3 hr3 => ⟨hr3 _ (b _ (hr2 _ (hr1 _ hg))), hr3 _ (put_same _ _ _)⟩⟩
    · rename_i hne
      exact fun g2 hr2 => ⟨hr2 _ (hr1 _ hg), hr2 _ ((i1 _).resolve_left hne).1⟩
  rintro g1 m1 hr1 ⟨rfl, i1⟩
  refine ⟨g1, fun _ h => h, ⟨rfl, i1⟩, ?_⟩
  beta_reduce
  split
  · rintro g2 m2 hr2 ⟨rfl, i2⟩
    obtain ⟨a, b⟩ := mark_inv h1 i2
    exact ⟨_, b, ⟨rfl, a⟩, hk _ (put_same _ _ _)⟩
  · rename_i hne
    exact hk _ ((i1 _).resolve_left hne).1

theorem mark_par {E : List (Nat × Nat)} {fl : Nat → Nat} {o : Nat → Unit}
    (h : Par (fun i => match E[i]? with | none => ret () | some e => mark e) (fun _ => 0) fl o) (x : Nat) :
    fl x = 0 ∧ (¬ ∃ e ∈ E, x = e.1 ∨ x = e.2) ∨ fl x = 1 ∧ ∃ e ∈ E, x = e.1 ∨ x = e.2 := by
  obtain ⟨g, ⟨rfl, hi⟩, -, hp⟩ := safe_reach (mRG fun x => ∃ e ∈ E, x = e.1 ∨ x = e.2)
    (fun i g _ => ∀ e, E[i]? = some e → g e.1 = 1 ∧ g e.2 = 1) h (fun _ => 0) ⟨rfl, fun _ => .inl rfl⟩ fun i => by
      show Safe _ _ _ (match E[i]? with | none => ret () | some e => mark e) _
      split
      · rename_i hn
        exact fun _ _ e he => (by rw [hn] at he; cases he)
      · rename_i e he
        have hm := List.mem_of_getElem? he
        refine (mark_safe i ⟨e, hm, .inl rfl⟩ ⟨e, hm, .inr rfl⟩ _).weaken fun _ g hg e' he' => ?_
        rw [he] at he'
        cases he'
        exact hg
  by_cases hx : ∃ e ∈ E, x = e.1 ∨ x = e.2
  · refine .inr ⟨?_, hx⟩
    obtain ⟨e, he, hx⟩ := hx
    obtain ⟨i, hi', he⟩ := List.getElem_of_mem he
    have := hp i _ rfl e (by rw [List.getElem?_eq_getElem hi', he])
    rcases hx with rfl | rfl
    · exact this.1
    · exact this.2
  · exact .inl ⟨(hi x).resolve_right fun h => hx h.2, hx⟩

section scan
variable {fl : Nat → Nat} (hfl : ∀ x, fl x = 0 ∨ fl x = 1)
include hfl

theorem scan_mono {a b : Nat} (h : a ≤ b) : exScan fl a ≤ exScan fl b := by
  induction b with
  | zero => have : a = 0 := by omega
            subst this; exact Nat.le_refl _
  | succ b ih =>
    by_cases he : a = b + 1
    · subst he; exact Nat.le_refl _
    · have := ih (by omega)
      have h2 : exScan fl (b + 1) = exScan fl b + fl b := rfl
      omega

theorem scan_inj {a b : Nat} (ha : fl a = 1) (hb : fl b = 1) (h : exScan fl a = exScan fl b) : a = b := by
  have key : ∀ {a b}, fl a = 1 → a < b → exScan fl a < exScan fl b := by
    intro a b ha hlt
    have h1 : exScan fl (a + 1) = exScan fl a + fl a := rfl
    have h2 := scan_mono hfl (show a + 1 ≤ b by omega)
    omega
  rcases Nat.lt_trichotomy a b with hlt | he | hlt
  · have := key ha hlt; omega
  · exact he
  · have := key hb hlt; omega

theorem mapping_eq {nc : Nat} (order : List Nat) (hs : Sched nc order) (g : Nat → Nat) {a : Nat} (ha : a < nc) (h1 : fl a = 1) :
    order.foldl (fun m i => if exScan fl i ≠ exScan fl (i + 1) then upd m (exScan fl i) i else m) g (exScan fl a) = a := by
  have hsc : ∀ i, exScan fl i ≠ exScan fl (i + 1) ↔ fl i = 1 := by
    intro i
    have h1 : exScan fl (i + 1) = exScan fl i + fl i := rfl
    have := hfl i
    omega
  have key : ∀ (l : List Nat) (g : Nat → Nat), (a ∈ l ∨ g (exScan fl a) = a) →
      l.foldl (fun m i => if exScan fl i ≠ exScan fl (i + 1) then upd m (exScan fl i) i else m) g (exScan fl a) = a := by
    intro l
    induction l with
    | nil => intro g h; exact h.resolve_left (by simp)
    | cons i l ih =>
      intro g h
      rw [List.foldl_cons]
      apply ih
      by_cases hi : i = a
      · subst hi
        right
        rw [if_pos ((hsc i).2 h1)]
        simp [upd]
      · rcases h with h | h
        · rcases List.mem_cons.1 h with h | h
          · exact absurd h.symm hi
          · exact .inl h
        · right
          split
          · rename_i hne
            have hne' : exScan fl a ≠ exScan fl i := fun hc => hi (scan_inj hfl h1 ((hsc i).1 hne) hc).symm
            simp [upd, hne', h]
          · exact h
  exact key order g (.inl ((hs.2 a).2 ha))

end scan

theorem mem_symEdges {E : List (Nat × Nat)} {f : Nat → Nat} {x y : Nat} :
    Csr.Occurs (symEdges E f) x y ↔ ∃ e ∈ E, x = f e.1 ∧ y = f e.2 ∨ x = f e.2 ∧ y = f e.1 := by
  simp only [Csr.Occurs, symEdges, List.mem_flatMap, List.mem_cons, List.not_mem_nil, or_false]
  constructor
  · rintro ⟨d, ⟨e, he, rfl | rfl⟩, h1, h2⟩
    · exact ⟨e, he, .inr ⟨h1.symm, h2.symm⟩⟩
    · exact ⟨e, he, .inl ⟨h1.symm, h2.symm⟩⟩
  · rintro ⟨e, he, ⟨h1, h2⟩ | ⟨h1, h2⟩⟩
    · exact ⟨_, ⟨e, he, .inr rfl⟩, h1.symm, h2.symm⟩
    · exact ⟨_, ⟨e, he, .inl rfl⟩, h1.symm, h2.symm⟩

/-- C74 (`_partial`: if it ends): on a symmetric graph with clusters in range, whatever `contract` returns is the contraction. -/
theorem contract_partial {G : Gr W} (hG : G.Ok) (hsym : ∀ u v, Adj G u v → Adj G v u) {cl : Nat → Nat} {nc : Nat}
    (hcl : ∀ v, v < G.n → cl v < nc) {GC : Csr.Graph Unit} {flags mapping : Nat → Nat}
    (h : Contract G cl nc GC flags mapping) : IsContraction G cl nc GC flags mapping := by
  obtain ⟨E, fl, o, order, g, sorted, ws, hf, hm, rfl, hs, rfl, hgc⟩ := h
  obtain ⟨hnd, hE⟩ := fetch_spec hf
  have hfl := mark_par hm
  have hbit : ∀ x, fl x = 0 ∨ fl x = 1 := fun x => (hfl x).imp And.left And.left
  have hq : ∀ a b, QAdj G cl a b ↔ (a, b) ∈ E ∨ (b, a) ∈ E := by
    intro a b
    rw [hE, hE, mem_inter hG, mem_inter hG]
    constructor
    · rintro ⟨hne, u, v, ha, h1, h2⟩
      rcases Nat.lt_or_ge a b with hlt | hge
      · exact .inl ⟨hlt, u, v, ha, h1, h2⟩
      · exact .inr ⟨show b < a by omega, v, u, hsym _ _ ha, h2, h1⟩
    · rintro (⟨hlt, u, v, ha, h1, h2⟩ | ⟨hlt, u, v, ha, h1, h2⟩)
      · have hlt : a < b := hlt
        exact ⟨by omega, u, v, ha, h1, h2⟩
      · have hlt : b < a := hlt
        exact ⟨by omega, v, u, hsym _ _ ha, h2, h1⟩
  have hrange : ∀ e ∈ E, e.1 < nc ∧ e.2 < nc := by
    intro e he
    rw [hE, mem_inter hG] at he
    obtain ⟨-, u, v, ⟨w, hw⟩, h1, h2⟩ := he
    have := hG.bound _ _ _ hw
    exact ⟨h1 ▸ hcl u this.1, h2 ▸ hcl v this.2⟩
  have htouch : ∀ a, Touch G cl a ↔ fl a = 1 := by
    intro a
    constructor
    · rintro ⟨b, hb⟩
      rcases hfl a with ⟨-, h⟩ | ⟨h, -⟩
      · rcases (hq a b).1 hb with hb | hb
        · exact absurd ⟨_, hb, .inl rfl⟩ h
        · exact absurd ⟨_, hb, .inr rfl⟩ h
      · exact h
    · intro h1
      rcases hfl a with ⟨h, -⟩ | ⟨-, e, he, h⟩
      · omega
      · rcases h with rfl | rfl
        · exact ⟨e.2, (hq _ _).2 (.inl he)⟩
        · exact ⟨e.1, (hq _ _).2 (.inr he)⟩
  have hstep : ∀ a, exScan fl (a + 1) = exScan fl a + fl a := fun _ => rfl
  have hlt : ∀ a, a < nc → fl a = 1 → exScan fl a < exScan fl nc := by
    intro a ha h1
    have := scan_mono hbit (show a + 1 ≤ nc by omega)
    have := hstep a
    omega
  have hmap := fun a (ha : a < nc) h1 => mapping_eq hbit order hs g ha h1
  generalize order.foldl (fun m i => if exScan fl i ≠ exScan fl (i + 1) then upd m (exScan fl i) i else m) g = mapping at *
  have hn : GC.n = exScan fl nc := by
    rcases hgc with ⟨-, rfl⟩ | ⟨-, -, -, rfl⟩ <;> rfl
  have hinv : ∀ x, x < exScan fl nc → mapping x < nc ∧ fl (mapping x) = 1 ∧ exScan fl (mapping x) = x := by
    intro x hx
    obtain ⟨a, ha, h1, rfl⟩ := Relabel.exScan_hit fl hbit hx
    rw [hmap a ha h1]
    exact ⟨ha, h1, rfl⟩
  have hcore : ∀ x, x < GC.n → ((GC.nbrs x).map Prod.fst).Pairwise (· < ·) ∧
      ∀ y, y ∈ (GC.nbrs x).map Prod.fst ↔ ∃ e ∈ E, x = exScan fl e.1 ∧ y = exScan fl e.2 ∨ x = exScan fl e.2 ∧ y = exScan fl e.1 := by
    intro x hx
    rcases hgc with ⟨rfl, rfl⟩ | ⟨hne, hsort, hp, rfl⟩
    · refine ⟨by simp [Csr.Graph.nbrs], fun y => ?_⟩
      simp [Csr.Graph.nbrs]
    · have hsn : symEdges E (exScan fl) ≠ [] := by
        obtain ⟨e, he⟩ := List.exists_mem_of_ne_nil E hne
        intro hc
        have : (⟨exScan fl e.2, exScan fl e.1, ()⟩ : Csr.Edge Unit) ∈ symEdges E (exScan fl) :=
          List.mem_flatMap.2 ⟨e, he, by simp⟩
        rw [hc] at this; cases this
      have hsb : ∀ e ∈ symEdges E (exScan fl), e.src < exScan fl nc ∧ e.dst < exScan fl nc := by
        intro d hd
        obtain ⟨e, he, hd⟩ := List.mem_flatMap.1 hd
        obtain ⟨r1, r2⟩ := hrange e he
        have f1 := hlt e.1 r1 ((htouch _).1 ⟨e.2, (hq _ _).2 (.inl he)⟩)
        have f2 := hlt e.2 r2 ((htouch _).1 ⟨e.1, (hq _ _).2 (.inr he)⟩)
        simp only [List.mem_cons, List.not_mem_nil, or_false] at hd
        rcases hd with rfl | rfl
        · exact ⟨f2, f1⟩
        · exact ⟨f1, f2⟩
      obtain ⟨a1, -⟩ := Csr.fromEdges_spec hsn hsb hsort ws hp
      obtain ⟨b1, b2⟩ := a1 x hx
      refine ⟨b1, fun y => ?_⟩
      rw [b2, mem_symEdges, mem_symEdges]
      constructor
      · rintro (⟨e, he, h⟩ | ⟨e, he, h⟩)
        · exact ⟨e, he, h⟩
        · exact ⟨e, he, h.elim (fun h => .inr h.symm) fun h => .inl h.symm⟩
      · exact .inl
  refine ⟨hn, fun a ha => ?_, fun a ha ht => ?_, fun a ha ht => hmap a ha ((htouch a).1 ht), fun x hx => ?_, fun x y hx hy => ?_,
    fun x y hx hy => ?_, fun x hx => (hcore x hx).1, ?_⟩
  · rw [htouch, hstep]
    have := hbit a
    omega
  · rw [hn]; exact hlt a ha ((htouch a).1 ht)
  · obtain ⟨h1, h2, h3⟩ := hinv x (hn ▸ hx)
    exact ⟨h1, (htouch _).2 h2, h3⟩
  · obtain ⟨x1, x2, x3⟩ := hinv x (hn ▸ hx)
    obtain ⟨y1, y2, y3⟩ := hinv y (hn ▸ hy)
    rw [(hcore x hx).2, hq]
    constructor
    · rintro ⟨e, he, ⟨h1, h2⟩ | ⟨h1, h2⟩⟩
      · have e1 : fl e.1 = 1 := (htouch _).1 ⟨e.2, (hq _ _).2 (.inl he)⟩
        have e2 : fl e.2 = 1 := (htouch _).1 ⟨e.1, (hq _ _).2 (.inr he)⟩
        rw [scan_inj hbit x2 e1 (x3.trans h1), scan_inj hbit y2 e2 (y3.trans h2)]
        exact .inl he
      · have e1 : fl e.1 = 1 := (htouch _).1 ⟨e.2, (hq _ _).2 (.inl he)⟩
        have e2 : fl e.2 = 1 := (htouch _).1 ⟨e.1, (hq _ _).2 (.inr he)⟩
        rw [scan_inj hbit x2 e2 (x3.trans h1), scan_inj hbit y2 e1 (y3.trans h2)]
        exact .inr he
    · rintro (h | h)
      · exact ⟨_, h, .inl ⟨x3.symm, y3.symm⟩⟩
      · exact ⟨_, h, .inr ⟨x3.symm, y3.symm⟩⟩
  · obtain ⟨e, he, h⟩ := ((hcore x hx).2 y).1 hy
    obtain ⟨r1, r2⟩ := hrange e he
    rw [hn]
    rcases h with ⟨-, rfl⟩ | ⟨-, rfl⟩
    · exact hlt e.2 r2 ((htouch _).1 ⟨e.1, (hq _ _).2 (.inr he)⟩)
    · exact hlt e.1 r1 ((htouch _).1 ⟨e.2, (hq _ _).2 (.inl he)⟩)
  · rcases hgc with ⟨rfl, rfl⟩ | ⟨hne, hsort, hp, rfl⟩
    · simp
    · have hsn : symEdges E (exScan fl) ≠ [] := by
        obtain ⟨e, he⟩ := List.exists_mem_of_ne_nil E hne
        intro hc
        have : (⟨exScan fl e.2, exScan fl e.1, ()⟩ : Csr.Edge Unit) ∈ symEdges E (exScan fl) :=
          List.mem_flatMap.2 ⟨e, he, by simp⟩
        rw [hc] at this; cases this
      have hsb : ∀ e ∈ symEdges E (exScan fl), e.src < exScan fl nc ∧ e.dst < exScan fl nc := by
        intro d hd
        obtain ⟨e, he, hd⟩ := List.mem_flatMap.1 hd
        obtain ⟨r1, r2⟩ := hrange e he
        have f1 := hlt e.1 r1 ((htouch _).1 ⟨e.2, (hq _ _).2 (.inl he)⟩)
        have f2 := hlt e.2 r2 ((htouch _).1 ⟨e.1, (hq _ _).2 (.inr he)⟩)
        simp only [List.mem_cons, List.not_mem_nil, or_false] at hd
        rcases hd with rfl | rfl
        · exact ⟨f2, f1⟩
        · exact ⟨f1, f2⟩
      exact (Csr.fromEdges_spec hsn hsb hsort ws hp).2

/-! ### When the insertions end -/

theorem lt_two_pow_log2Up (x : Nat) : x ≤ 2 ^ log2Up x := by
  unfold log2Up
  split
  · simpa using ‹x ≤ 1›
  · have := Nat.lt_log2_self (n := x - 1)
    omega

/-- The table of `fetch_intercluster_te` has more slots than keys. -/
theorem tabSize_gt (s : Nat) : s < tabSize s := by
  have := lt_two_pow_log2Up (11 * s / 10 + 1)
  unfold tabSize
  omega

/-- C74: with more slots than keys no thread ever probes all slots, so every `insert` ends. -/
theorem insert_ends {m : Nat} {keys : List (Nat × Nat)} (hk : ∀ p ∈ keys, p ≠ emp) (hm : keys.length < m) {hash : Nat × Nat → Nat}
    {c : Hash.Conf (Nat × Nat) Unit (Fin keys.length)}
    (h : Steps (Hash.Step ⟨m, hash, emp⟩ (fun _ x => x) false (fun i => keys[i]) (fun _ => ()))
      ⟨fun _ => emp, fun _ => (), fun _ => .read1 0⟩ c) (i : Fin keys.length) :
    ∃ j, j < m ∧ (c.pc i = .read1 j ∨ c.pc i = .cas j ∨ c.pc i = .read2 j ∨ ∃ w, c.pc i = .post j w ∨ c.pc i = .done j w) := by
  have hk' : ∀ i : Fin keys.length, keys[i] ≠ emp := fun i => hk _ (List.getElem_mem i.2)
  refine Hash.probes_bounded (P := ⟨m, hash, emp⟩) (by show 0 < m; omega) hk' (wf_empty _) h ?_ i
  have hi := Hash.inv_steps (P := ⟨m, hash, emp⟩) (by show 0 < m; omega) hk' (Hash.inv_init (wf_empty _) _) h
  by_contra hc
  have hfull : ∀ s : Fin m, ∃ i, Hash.won ⟨m, hash, emp⟩ keys[i] (c.pc i) = some s.1 := by
    intro s
    have hne : c.tab s.1 ≠ emp := fun he => hc ⟨s.1, s.2, he⟩
    rcases hi.occ s.1 s.2 hne with h | h
    · exact absurd h.symm hne
    · exact h
  choose f hf using hfull
  have hinj : Function.Injective f := by
    intro s t hst
    have h1 := hf s
    have h2 := hf t
    rw [hst] at h1
    exact Fin.ext (Option.some.inj (h1.symm.trans h2))
  have := Fintype.card_le_of_injective f hinj
  simp only [Fintype.card_fin] at this
  omega

/-- Slots that are all but one still free are found. -/
theorem insert_free {m : Nat} {keys : List (Nat × Nat)} (hk : ∀ p ∈ keys, p ≠ emp) (hm : keys.length < m) {hash : Nat × Nat → Nat}
    {c : Hash.Conf (Nat × Nat) Unit (Fin keys.length)}
    (h : Steps (Hash.Step ⟨m, hash, emp⟩ (fun _ x => x) false (fun i => keys[i]) (fun _ => ()))
      ⟨fun _ => emp, fun _ => (), fun _ => .read1 0⟩ c) (i : Fin keys.length) {j : Nat} (hj : c.pc i = .read1 j) : j < m := by
  obtain ⟨j', h1, h2⟩ := insert_ends hk hm h i
  rw [hj] at h2
  rcases h2 with h2 | h2 | h2 | ⟨w, h2 | h2⟩ <;> cases h2
  exact h1

section exist
variable {m : Nat} {keys : List (Nat × Nat)} {hash : Nat × Nat → Nat}

theorem one_insert (hk : ∀ p ∈ keys, p ≠ emp) (hm : keys.length < m) (f : Nat) :
    ∀ (c : Hash.Conf (Nat × Nat) Unit (Fin keys.length)) (i : Fin keys.length) (j : Nat), m ≤ f + j →
    Steps (Hash.Step ⟨m, hash, emp⟩ (fun _ x => x) false (fun i => keys[i]) (fun _ => ()))
      ⟨fun _ => emp, fun _ => (), fun _ => .read1 0⟩ c → c.pc i = .read1 j →
    ∃ c', Steps (Hash.Step ⟨m, hash, emp⟩ (fun _ x => x) false (fun i => keys[i]) (fun _ => ()))
      ⟨fun _ => emp, fun _ => (), fun _ => .read1 0⟩ c' ∧ (∃ j w, c'.pc i = .done j w) ∧ ∀ k, k ≠ i → c'.pc k = c.pc k := by
  induction f with
  | zero =>
    intro c i j hf h hj
    have := insert_free hk hm h i hj
    omega
  | succ f ih =>
    intro c i j hf h hj
    by_cases he : c.tab (Hash.slot ⟨m, hash, emp⟩ keys[i] j) = emp
    · have s1 := h.tail (.read1E c i j hj he)
      have s2 := s1.tail (.casT _ i j (by simp [Atomics.set]) he)
      have s3 := s2.tail (.post _ i j true (by simp [Atomics.set]))
      refine ⟨_, s3, ⟨j, true, by simp [Atomics.set]⟩, fun k hki => ?_⟩
      simp [Atomics.set, hki]
    · have s1 := h.tail (.read1N c i j hj he)
      by_cases hq : c.tab (Hash.slot ⟨m, hash, emp⟩ keys[i] j) = keys[i]
      · have s2 := s1.tail (.read2E _ i j (by simp [Atomics.set]) hq)
        refine ⟨_, s2, ⟨j, false, by simp [Atomics.set]⟩, fun k hki => ?_⟩
        simp [Atomics.set, hki]
      · have s2 := s1.tail (.read2N _ i j (by simp [Atomics.set]) hq)
        obtain ⟨c', h1, h2, h3⟩ := ih _ i (j + 1) (by omega) s2 (by simp [Atomics.set])
        refine ⟨c', h1, h2, fun k hki => (h3 k hki).trans ?_⟩
        simp [Atomics.set, hki]

theorem all_insert (hk : ∀ p ∈ keys, p ≠ emp) (hm : keys.length < m) (l : List (Fin keys.length)) :
    l.Nodup → ∃ c, Steps (Hash.Step ⟨m, hash, emp⟩ (fun _ x => x) false (fun i => keys[i]) (fun _ => ()))
      ⟨fun _ => emp, fun _ => (), fun _ => .read1 0⟩ c ∧ (∀ i ∈ l, ∃ j w, c.pc i = .done j w) ∧ ∀ i, i ∉ l → c.pc i = .read1 0 := by
  induction l with
  | nil => exact fun _ => ⟨_, .refl _, fun i hi => (by cases hi), fun _ _ => rfl⟩
  | cons a l ih =>
    intro hnd
    rw [List.nodup_cons] at hnd
    obtain ⟨c, h1, h2, h3⟩ := ih hnd.2
    obtain ⟨c', h4, h5, h6⟩ := one_insert hk hm m c a 0 (by omega) h1 (h3 a hnd.1)
    refine ⟨c', h4, fun i hi => ?_, fun i hi => ?_⟩
    · by_cases hia : i = a
      · subst hia; exact h5
      · rw [h6 i hia]
        exact h2 i ((List.mem_cons.1 hi).resolve_left hia)
    · rw [List.mem_cons, not_or] at hi
      rw [h6 i hi.1]
      exact h3 i hi.2

/-- With more slots than keys there are complete runs. -/
theorem insert_exists (hk : ∀ p ∈ keys, p ≠ emp) (hm : keys.length < m) : ∃ E, Insert m keys E := by
  obtain ⟨c, h1, h2, -⟩ := all_insert (hash := fun p => p.1 + p.2) hk hm (List.finRange keys.length) (List.nodup_finRange _)
  exact ⟨_, _, c, ⟨h1, fun i => h2 i (List.mem_finRange i)⟩, rfl⟩

end exist

theorem runSeq_total {L V α : Type} [DecidableEq L] [DecidableEq V] (th : Nat → Prog L V α) (d : Nat → α)
    (ht : ∀ i m, ∃ r, Em.exec (th i) m = some r) (l : List Nat) : ∀ m, ∃ r, runSeq th d l m = some r := by
  induction l with
  | nil => exact fun m => ⟨_, rfl⟩
  | cons i l ih =>
    intro m
    obtain ⟨r, hr⟩ := ht i m
    obtain ⟨r2, hr2⟩ := ih r.2
    exact ⟨_, by simp only [runSeq, hr, hr2]; rfl⟩

theorem mark_total (E : List (Nat × Nat)) (i : Nat) (m : Nat → Nat) :
    ∃ r, Em.exec (match E[i]? with | none => ret () | some e => mark e) m = some r := by
  split
  · exact ⟨_, rfl⟩
  · simp only [mark, Em.exec]
    split <;> simp only [Em.exec] <;> split <;> exact ⟨_, rfl⟩

def keyLe (a b : Csr.Edge Unit) : Bool := !(decide (b.src < a.src) || (decide (b.src = a.src) && decide (b.dst < a.dst)))

theorem keyLe_iff (a b : Csr.Edge Unit) : keyLe a b = true ↔ ¬ Csr.keyLt b a := by
  simp only [keyLe, Csr.keyLt, Bool.not_eq_true', Bool.or_eq_false_iff, Bool.and_eq_false_iff, decide_eq_false_iff_not]
  omega

theorem sort_exists (l : List (Csr.Edge Unit)) : ∃ l', Csr.IsSort l l' := by
  refine ⟨l.mergeSort keyLe, List.mergeSort_perm _ _, ?_⟩
  refine (List.pairwise_mergeSort (le := keyLe) (fun a b c h1 h2 => ?_) (fun a b => ?_) l).imp fun h => (keyLe_iff _ _).1 h
  · rw [keyLe_iff] at *
    simp only [Csr.keyLt] at *; omega
  · rw [Bool.or_eq_true, keyLe_iff, keyLe_iff]
    simp only [Csr.keyLt]; omega

/-- C74: if the table of the small case has more slots than there are edges between different clusters, there are runs that end (and all
insertions of all runs end, by `insert_ends`). -/
theorem contract_exists {G : Gr W} {cl : Nat → Nat} {nc : Nat} (h : 2048 ≤ nc ∨ (inter G cl).length < 4096) :
    ∃ GC flags mapping, Contract G cl nc GC flags mapping := by
  obtain ⟨E, hE⟩ : ∃ E, Fetch G cl nc E := by
    by_cases hnc : nc < 2048
    · have : tabSize 2048 = 4096 := by decide +kernel
      obtain ⟨E, hE⟩ := insert_exists (m := tabSize 2048) (keys := inter G cl) (fun _ => inter_ne_emp) (by omega)
      exact ⟨E, .small hnc hE⟩
    · obtain ⟨E, hE⟩ := insert_exists (m := tabSize (inter G cl).length) (keys := inter G cl) (fun _ => inter_ne_emp) (tabSize_gt _)
      exact ⟨E, .te hnc hE⟩
  obtain ⟨⟨fl, o⟩, hr⟩ := runSeq_total (fun i => match E[i]? with | none => ret () | some e => mark e) (fun _ => ())
    (mark_total E) (List.range E.length) (fun _ => (0 : Nat))
  have hp := runSeq_par _ _ _ List.nodup_range (fun j hj => by
    rw [List.mem_range] at hj
    show (match E[j]? with | none => ret () | some e => mark e) = _
    rw [List.getElem?_eq_none (by omega)]) hr
  obtain ⟨sorted, hs⟩ := sort_exists (Csr.bothDirs (symEdges E (exScan fl)))
  by_cases hn : E = []
  · exact ⟨_, _, _, E, fl, o, List.range nc, fun _ => 0, sorted, [], hE, hp, rfl, ⟨List.nodup_range, fun _ => List.mem_range⟩, rfl, .inl ⟨hn, rfl⟩⟩
  · exact ⟨_, _, _, E, fl, o, List.range nc, fun _ => 0, sorted, _, hE, hp, rfl, ⟨List.nodup_range, fun _ => List.mem_range⟩, rfl,
      .inr ⟨hn, hs, .refl _, rfl⟩⟩

/-- C74: with more distinct keys than slots, the insertions never all end. -/
theorem insert_hangs {m : Nat} (hm : 0 < m) {keys L : List (Nat × Nat)} (hk : ∀ p ∈ keys, p ≠ emp) (hL : L.Nodup)
    (hsub : ∀ p ∈ L, p ∈ keys) (hlen : m < L.length) (E : List (Nat × Nat)) : ¬ Insert m keys E := by
  intro h
  obtain ⟨h1, h2⟩ := insert_spec hm hk h
  have h3 : L.length ≤ E.length := (hL.subperm fun p hp => (h2 p).2 (hsub p hp)).length_le
  obtain ⟨hash, c, hc, rfl⟩ := h
  have h4 : ((Hash.entries ⟨m, hash, emp⟩ c.tab c.val).map Prod.fst).length ≤ m := by
    simp only [Hash.entries, List.length_map]
    exact (List.length_filter_le _ _).trans (by simp)
  omega

/-- C74 (negation): with fewer than 2048 clusters and more than 4096 pairs of adjacent clusters, `contract` does not end. -/
theorem contract_hangs {G : Gr W} {cl : Nat → Nat} {nc : Nat} (hnc : nc < 2048) {L : List (Nat × Nat)} (hL : L.Nodup)
    (hsub : ∀ p ∈ L, p ∈ inter G cl) (hlen : 4096 < L.length) (GC : Csr.Graph Unit) (flags mapping : Nat → Nat) :
    ¬ Contract G cl nc GC flags mapping := by
  rintro ⟨E, fl, o, order, g, sorted, ws, hf, -⟩
  cases hf with
  | small _ hi =>
    have : tabSize 2048 = 4096 := by decide +kernel
    rw [this] at hi
    exact insert_hangs (by decide) (fun _ => inter_ne_emp) hL hsub hlen E hi
  | main h => exact h hnc
  | te h => exact h hnc

/-- The complete bipartite graph on 65 + 65 vertices. -/
def exG : Gr Unit :=
  ⟨130, fun u => if u < 65 then (List.range 65).map fun i => (65 + i, ()) else if u < 130 then (List.range 65).map fun i => (i, ()) else [],
    fun u => if u < 65 then (List.range 65).map fun i => (65 + i, ()) else if u < 130 then (List.range 65).map fun i => (i, ()) else []⟩

/-- C74 (negation): contracting nothing in the complete bipartite graph on 65 + 65 vertices hangs. -/
theorem contract_refuted : exG.Ok ∧ (∀ u v, Adj exG u v → Adj exG v u) ∧ ∀ GC flags mapping, ¬ Contract exG (fun v => v) 130 GC flags mapping := by
  have hmem : ∀ u v w, (v, w) ∈ exG.fwd u ↔ u < 65 ∧ 65 ≤ v ∧ v < 130 ∨ 65 ≤ u ∧ u < 130 ∧ v < 65 := by
    intro u v w
    simp only [exG]
    split
    · rename_i hu
      simp only [List.mem_map, List.mem_range, Prod.mk.injEq]
      constructor
      · rintro ⟨i, hi, rfl, -⟩; omega
      · intro h; exact ⟨v - 65, by omega, by omega, trivial⟩
    · split
      · simp only [List.mem_map, List.mem_range, Prod.mk.injEq]
        constructor
        · rintro ⟨i, hi, rfl, -⟩; omega
        · intro h; exact ⟨v, by omega, rfl, trivial⟩
      · simp only [List.not_mem_nil, false_iff]; omega
  have hok : exG.Ok := by
    refine ⟨fun s d w => ?_, fun s d w h => ?_⟩
    · show (d, w) ∈ exG.fwd s ↔ (s, w) ∈ exG.fwd d
      rw [hmem, hmem]; omega
    · have := (hmem _ _ _).1 h
      show s < 130 ∧ d < 130
      omega
  refine ⟨hok, fun u v ⟨w, hw⟩ => ⟨w, ?_⟩, fun GC flags mapping => ?_⟩
  · rw [hmem] at hw ⊢; omega
  · refine contract_hangs (L := (List.range 4225).map fun k => (k / 65, 65 + k % 65)) (by decide) ?_ (fun p hp => ?_) (by simp) GC flags mapping
    · refine (List.nodup_map_iff_inj_on List.nodup_range).2 fun a ha b hb hab => ?_
      simp only [Prod.mk.injEq] at hab
      omega
    · obtain ⟨k, hk, rfl⟩ := List.mem_map.1 hp
      rw [List.mem_range] at hk
      rw [mem_inter hok]
      refine ⟨by show k / 65 < 65 + k % 65; omega, k / 65, 65 + k % 65, ⟨(), ?_⟩, rfl, rfl⟩
      rw [hmem]; omega

/-- The path 0 - 1 - 2 - 3 - 4 in the clusters {0, 1}, {2}, {3, 4} and a singleton 3. -/
def exP : Gr Unit := .ofLists [[(1, ())], [(0, ()), (2, ())], [(1, ()), (3, ())], [(2, ()), (4, ())], [(3, ())], []]
  [[(1, ())], [(0, ()), (2, ())], [(1, ()), (3, ())], [(2, ()), (4, ())], [(3, ())], []]

def exCl (v : Nat) : Nat := [0, 0, 1, 2, 2, 3].getD v 0

theorem exP_sym (u v : Nat) (h : Adj exP u v) : Adj exP v u := by
  obtain ⟨w, h⟩ := h
  have hok : exP.Ok := Gr.ofLists_ok (by decide)
  exact ⟨w, (hok.same u v w).1 h⟩

/-- The conditions of the theorems are met and there is a run. -/
example : ∃ GC flags mapping, Contract exP exCl 4 GC flags mapping ∧ IsContraction exP exCl 4 GC flags mapping := by
  obtain ⟨GC, flags, mapping, h⟩ := contract_exists (G := exP) (cl := exCl) (nc := 4) (.inr (by decide))
  exact ⟨GC, flags, mapping, h, contract_partial (Gr.ofLists_ok (by decide)) exP_sym (by decide) h⟩

end Gbbs.Contract
