import Verif.Encoding.ByteLemmas

/-! # Whole lists in the `byte` encoding -/

namespace Gbbs.Byte

open Gbbs EncSpec

variable {W : Type} {c : WCodec W} {ok : W → Prop}

/-- Strictly increasing continuation of a list after neighbour `prev`. -/
def Chain (ok : W → Prop) (prev : Nat) : List (Nat × W) → Prop
  | [] => True
  | (ngh, w) :: rest => prev < ngh ∧ ngh < uintEMod ∧ ok w ∧ Chain ok ngh rest

theorem chain_of_valid {ngh : Nat} {w : W} {rest : List (Nat × W)}
    (h : ValidList ((ngh, w) :: rest)) (hok : ∀ e ∈ rest, ok e.2) : Chain ok ngh rest := by
  induction rest generalizing ngh w with
  | nil => trivial
  | cons e rest ih =>
    obtain ⟨hs, hb⟩ := h
    simp only [List.map_cons] at hs
    have hs' := List.pairwise_cons.1 hs
    refine ⟨hs'.1 _ (by simp), hb e (by simp), hok e (by simp), ?_⟩
    exact ih (ngh := e.1) (w := e.2) ⟨hs'.2, fun x hx => hb x (List.mem_cons_of_mem _ hx)⟩
      (fun x hx => hok x (List.mem_cons_of_mem _ hx))

/-- Bytes of the entries after the first. -/
def encRest (L : Lawful c ok) (prev : Nat) : List (Nat × W) → List UInt8
  | [] => []
  | (ngh, w) :: rest => encEdge (ngh - prev) ++ (L.enc w ++ encRest L ngh rest)

/-- Bytes of a whole list. -/
def encList (L : Lawful c ok) (src : Nat) : List (Nat × W) → List UInt8
  | [] => []
  | (ngh, w) :: rest => encSigned ((ngh : Int) - src) ++ (L.enc w ++ encRest L ngh rest)

theorem diff_eq {prev ngh : Nat} (h1 : prev < ngh) (h2 : ngh < uintEMod) :
    (ngh + (uintEMod - prev)) % uintEMod = ngh - prev := by
  simp only [uintEMod] at *; omega

theorem compressRest_eq (L : Lawful c ok) (m : Mem) (off prev : Nat) (edges : List (Nat × W))
    (h : Chain ok prev edges) :
    compressRest c m off prev edges =
      (m.write off (encRest L prev edges), off + (encRest L prev edges).length) := by
  induction edges generalizing m off prev with
  | nil => rfl
  | cons e rest ih =>
    obtain ⟨ngh, w⟩ := e
    obtain ⟨h1, h2, h3, h4⟩ := h
    simp only [compressRest, diff_eq h1 h2, compressEdge_eq, L.compress_eq _ _ _ h3]
    rw [ih _ _ _ h4]
    simp only [encRest, Mem.write_append, List.length_append, Nat.add_assoc]

theorem sequentialCompressEdgeSet_eq (L : Lawful c ok) (m : Mem) (off src : Nat)
    (edges : List (Nat × W)) (hsrc : src < uintEMod) (h : ValidList edges)
    (hok : ∀ e ∈ edges, ok e.2) :
    sequentialCompressEdgeSet c m off src edges =
      (m.write off (encList L src edges), off + (encList L src edges).length) := by
  cases edges with
  | nil => rfl
  | cons e rest =>
    obtain ⟨ngh, w⟩ := e
    have hn : ngh < uintEMod := h.bounded _ (List.mem_cons_self ..)
    have hc : Chain ok ngh rest := chain_of_valid h (fun e he => hok e (List.mem_cons_of_mem _ he))
    simp only [sequentialCompressEdgeSet]
    rw [compressFirstEdge_eq _ _ _ _ (by simp only [uintEMod] at *; omega)]
    simp only [L.compress_eq _ _ _ (hok (ngh, w) (by simp))]
    rw [compressRest_eq L _ _ _ _ hc]
    simp only [encList, Mem.write_append, List.length_append, Nat.add_assoc]

/-- One decoding step at an encoded non-first entry. -/
theorem eat_step (L : Lawful c ok) {m : Mem} {pos prev ngh : Nat} {w : W}
    {rest : List (Nat × W)} (h : Chain ok prev ((ngh, w) :: rest))
    (hm : m.Has pos (encRest L prev ((ngh, w) :: rest))) :
    eatEdge m pos = some (ngh - prev, pos + (encEdge (ngh - prev)).length) ∧
    (prev + (ngh - prev)) % uintEMod = ngh ∧
    c.eat m (pos + (encEdge (ngh - prev)).length) =
      some (w, pos + (encEdge (ngh - prev)).length + (L.enc w).length) ∧
    m.Has (pos + (encEdge (ngh - prev)).length + (L.enc w).length) (encRest L ngh rest) := by
  obtain ⟨h1, h2, h3, _⟩ := h
  simp only [encRest, Mem.has_append] at hm
  obtain ⟨ha, hb, hc⟩ := hm
  refine ⟨eatEdge_encEdge m pos _ (by omega) (by simp only [uintEMod] at *; omega) ha, ?_,
    L.eat_eq _ _ _ h3 hb, hc⟩
  simp only [uintEMod] at *; omega

/-- Decoding the specially encoded first entry. -/
theorem eat_first (L : Lawful c ok) {m : Mem} {pos src ngh : Nat} {w : W}
    {rest : List (Nat × W)} (hs : src < uintEMod) (hn : ngh < uintEMod) (hw : ok w)
    (hm : m.Has pos (encList L src ((ngh, w) :: rest))) :
    eatFirstEdge m pos src = some (ngh, pos + (encSigned ((ngh : Int) - src)).length) ∧
    c.eat m (pos + (encSigned ((ngh : Int) - src)).length) =
      some (w, pos + (encSigned ((ngh : Int) - src)).length + (L.enc w).length) ∧
    m.Has (pos + (encSigned ((ngh : Int) - src)).length + (L.enc w).length)
      (encRest L ngh rest) := by
  simp only [encList, Mem.has_append] at hm
  obtain ⟨ha, hb, hc⟩ := hm
  exact ⟨eatFirstEdge_encSigned m pos src ngh hs hn ha, L.eat_eq _ _ _ hw hb, hc⟩

theorem decodeLoop_eq {σ : Type} (L : Lawful c ok) (t : σ → Nat → Nat → W → Nat → σ × Bool)
    (m : Mem) (src i pos prev : Nat) (edges : List (Nat × W)) (s : σ)
    (h : Chain ok prev edges) (hm : m.Has pos (encRest L prev edges)) :
    decodeLoop c t m src edges.length i pos prev s = some (visit t src i edges s) := by
  induction edges generalizing i pos prev s with
  | nil => rfl
  | cons e rest ih =>
    obtain ⟨ngh, w⟩ := e
    obtain ⟨e1, e2, e3, e4⟩ := eat_step L h hm
    simp only [List.length_cons, decodeLoop, e1, e2, e3, visit]
    rcases t s src ngh w i with ⟨s', b⟩
    cases b with
    | false => rfl
    | true => exact ih _ _ _ _ h.2.2.2 e4

theorem decode_eq {σ : Type} (L : Lawful c ok) (t : σ → Nat → Nat → W → Nat → σ × Bool)
    (m : Mem) (src pos : Nat) (edges : List (Nat × W)) (s : σ) (hsrc : src < uintEMod)
    (h : ValidList edges) (hok : ∀ e ∈ edges, ok e.2) (hm : m.Has pos (encList L src edges)) :
    decode c t m pos src edges.length s = some (visit t src 0 edges s) := by
  cases edges with
  | nil => rfl
  | cons e rest =>
    obtain ⟨ngh, w⟩ := e
    have hn : ngh < uintEMod := h.bounded _ (List.mem_cons_self ..)
    have hc : Chain ok ngh rest := chain_of_valid h (fun e he => hok e (List.mem_cons_of_mem _ he))
    obtain ⟨e1, e2, e3⟩ := eat_first L hsrc hn (hok (ngh, w) (by simp)) hm
    simp only [List.length_cons, decode, e1, e2, visit]
    rcases t s src ngh w 0 with ⟨s', b⟩
    cases b with
    | false => rfl
    | true => exact decodeLoop_eq L t m src 1 _ _ rest _ hc e3

theorem mapReduceLoop_eq {E : Type} (L : Lawful c ok) (f : Nat → Nat → W → E) (red : E → E → E)
    (m : Mem) (src pos prev : Nat) (edges : List (Nat × W)) (cur : E)
    (h : Chain ok prev edges) (hm : m.Has pos (encRest L prev edges)) :
    mapReduceLoop c f red m src edges.length pos prev cur =
      some (edges.foldl (fun a e => red a (f src e.1 e.2)) cur) := by
  induction edges generalizing pos prev cur with
  | nil => rfl
  | cons e rest ih =>
    obtain ⟨ngh, w⟩ := e
    obtain ⟨e1, e2, e3, e4⟩ := eat_step L h hm
    simp only [List.length_cons, mapReduceLoop, e1, e2, e3, List.foldl_cons]
    exact ih _ _ _ h.2.2.2 e4

theorem mapReduce_eq {E : Type} (L : Lawful c ok) (f : Nat → Nat → W → E) (red : E → E → E)
    (ident : E) (m : Mem) (src pos : Nat) (edges : List (Nat × W)) (hsrc : src < uintEMod)
    (h : ValidList edges) (hok : ∀ e ∈ edges, ok e.2) (hm : m.Has pos (encList L src edges)) :
    mapReduce c f red ident m pos src edges.length = some (reduceList f red ident src edges) := by
  cases edges with
  | nil => rfl
  | cons e rest =>
    obtain ⟨ngh, w⟩ := e
    have hn : ngh < uintEMod := h.bounded _ (List.mem_cons_self ..)
    have hc : Chain ok ngh rest := chain_of_valid h (fun e he => hok e (List.mem_cons_of_mem _ he))
    obtain ⟨e1, e2, e3⟩ := eat_first L hsrc hn (hok (ngh, w) (by simp)) hm
    simp only [List.length_cons, mapReduce, e1, e2, reduceList]
    exact mapReduceLoop_eq L f red m src _ _ rest _ hc e3

theorem ithLoop_eq (L : Lawful c ok) (m : Mem) (pos prev k : Nat) (w0 : W)
    (edges : List (Nat × W)) (h : Chain ok prev edges) (hk : k ≤ edges.length)
    (hm : m.Has pos (encRest L prev edges)) :
    ithLoop c m k pos prev w0 = ((prev, w0) :: edges)[k]? := by
  induction k generalizing pos prev w0 edges with
  | zero => rfl
  | succ k ih =>
    cases edges with
    | nil => simp at hk
    | cons e rest =>
      obtain ⟨ngh, w⟩ := e
      obtain ⟨e1, e2, e3, e4⟩ := eat_step L h hm
      simp only [ithLoop, e1, e2, e3]
      rw [ih _ _ _ _ h.2.2.2 (by simpa using hk) e4]
      simp

theorem getIth_eq (L : Lawful c ok) (m : Mem) (src pos i : Nat) (edges : List (Nat × W))
    (hsrc : src < uintEMod) (h : ValidList edges) (hok : ∀ e ∈ edges, ok e.2)
    (hi : i < edges.length) (hm : m.Has pos (encList L src edges)) :
    getIthNeighbor c m pos src edges.length i = edges[i - 1]? := by
  cases edges with
  | nil => simp at hi
  | cons e rest =>
    obtain ⟨ngh, w⟩ := e
    have hn : ngh < uintEMod := h.bounded _ (List.mem_cons_self ..)
    have hc : Chain ok ngh rest := chain_of_valid h (fun e he => hok e (List.mem_cons_of_mem _ he))
    obtain ⟨e1, e2, e3⟩ := eat_first L hsrc hn (hok (ngh, w) (by simp)) hm
    simp only [List.length_cons] at hi
    simp only [List.length_cons, getIthNeighbor, e1, e2]
    rw [if_neg (by omega)]
    exact ithLoop_eq L m _ ngh (i - 1) w rest hc (by omega) e3

theorem filterLoop_eq (L : Lawful c ok) (pred : Nat → Nat → W → Bool)
    (m : Mem) (src pos prev k : Nat) (edges : List (Nat × W)) (out : List (Nat × Nat × W))
    (h : Chain ok prev edges) (hm : m.Has pos (encRest L prev edges)) (hk : out.map Prod.fst = List.range k) :
    ∃ out', filterLoop c pred m src edges.length pos prev k out = some (out ++ out', k + out'.length) ∧
      (out ++ out').map Prod.fst = List.range (k + out'.length) ∧
      out'.map Prod.snd = edges.filter (fun e => pred src e.1 e.2) := by
  induction edges generalizing pos prev k out with
  | nil => exact ⟨[], by simp [filterLoop], by simpa using hk, rfl⟩
  | cons e rest ih =>
    obtain ⟨ngh, w⟩ := e
    obtain ⟨e1, e2, e3, e4⟩ := eat_step L h hm
    simp only [List.length_cons, filterLoop, e1, e2, e3]
    by_cases hp : pred src ngh w
    · obtain ⟨out', h1, h2, h3⟩ := ih (pos + (encEdge (ngh - prev)).length + (L.enc w).length) ngh (k + 1)
        (out ++ [(k, ngh, w)]) h.2.2.2 e4 (by simp [hk, List.range_succ])
      refine ⟨(k, ngh, w) :: out', ?_, ?_, ?_⟩
      · simp only [hp, if_true, h1]
        simp only [List.append_assoc, List.cons_append, List.nil_append, List.length_cons]
        rw [show k + 1 + out'.length = k + (out'.length + 1) by omega]
      · simp only [List.append_assoc, List.cons_append, List.nil_append] at h2
        rw [h2, List.length_cons, show k + 1 + out'.length = k + (out'.length + 1) by omega]
      · simp [hp, h3]
    · obtain ⟨out', h1, h2, h3⟩ := ih (pos + (encEdge (ngh - prev)).length + (L.enc w).length) ngh k
        out h.2.2.2 e4 hk
      refine ⟨out', ?_, h2, ?_⟩
      · simp only [hp]
        exact h1
      · simp [hp, h3]

theorem filter_eq (L : Lawful c ok) (pred : Nat → Nat → W → Bool)
    (m : Mem) (src pos : Nat) (edges : List (Nat × W)) (hsrc : src < uintEMod)
    (h : ValidList edges) (hok : ∀ e ∈ edges, ok e.2) (hm : m.Has pos (encList L src edges)) :
    ∃ out, filter c pred m pos src edges.length = some (out, out.length) ∧
      out.map Prod.fst = List.range out.length ∧
      out.map Prod.snd = edges.filter (fun e => pred src e.1 e.2) := by
  cases edges with
  | nil => exact ⟨[], by simp [filter], rfl, rfl⟩
  | cons e rest =>
    obtain ⟨ngh, w⟩ := e
    have hn : ngh < uintEMod := h.bounded _ (List.mem_cons_self ..)
    have hc : Chain ok ngh rest := chain_of_valid h (fun e he => hok e (List.mem_cons_of_mem _ he))
    obtain ⟨e1, e2, e3⟩ := eat_first L hsrc hn (hok (ngh, w) (by simp)) hm
    simp only [List.length_cons, filter, e1, e2]
    by_cases hp : pred src ngh w
    · obtain ⟨out', h1, h2, h3⟩ := filterLoop_eq L pred m src _ ngh 1 rest [(0, ngh, w)] hc e3 rfl
      refine ⟨(0, ngh, w) :: out', ?_, ?_, ?_⟩
      · simp only [hp, if_true, h1]
        simp [Nat.add_comm]
      · simpa [Nat.add_comm] using h2
      · simp [hp, h3]
    · obtain ⟨out', h1, h2, h3⟩ := filterLoop_eq L pred m src _ ngh 0 rest [] hc e3 rfl
      refine ⟨out', ?_, ?_, ?_⟩
      · simp only [hp]
        simpa using h1
      · simpa using h2
      · simp [hp, h3]

end Gbbs.Byte
