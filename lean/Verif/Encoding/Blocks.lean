import Verif.Encoding.BytePack
import Verif.Encoding.BlockedModel

/-! # Lemmas shared by the blocked encodings -/

namespace Gbbs.Blk

open Gbbs Byte EncSpec

variable {W : Type} {c : WCodec W} {ok : W → Prop}

/-- How the first entry of a block is turned into a signed difference: any representative of
`ngh - src` modulo `2^32`. -/
structure FirstEnc where
  d : Nat → Nat → Int
  lt : ∀ s n, s < uintEMod → n < uintEMod → (d s n).natAbs < uintEMod
  congr : ∀ s n, s < uintEMod → n < uintEMod → ∃ k : Int, d s n = n - s + k * 4294967296
  tri : ∀ s x n, s < uintEMod → x < n → n < uintEMod → (d s n).natAbs ≤ (d s x).natAbs + (n - x)

/-- The plain difference used by `byte` and `bytepd_amortized`. -/
def plain : FirstEnc where
  d s n := (n : Int) - s
  lt s n h1 h2 := by simp only [uintEMod] at *; omega
  congr s n h1 h2 := ⟨0, by simp⟩
  tri s x n h1 h2 h3 := by omega

theorem firstDiff_cases (s n : Nat) :
    ((n + (4294967296 - s)) % 4294967296 < 2147483648 ∧
      PD.firstDiff s n = ((n + (4294967296 - s)) % 4294967296 : Nat)) ∨
    (2147483648 ≤ (n + (4294967296 - s)) % 4294967296 ∧
      PD.firstDiff s n = ((n + (4294967296 - s)) % 4294967296 : Nat) - (4294967296 : Int)) := by
  show (_ ∧ (if (n + (4294967296 - s)) % 4294967296 < 2147483648 then _ else _) = _) ∨
    (_ ∧ (if (n + (4294967296 - s)) % 4294967296 < 2147483648 then _ else _) = _)
  by_cases h : (n + (4294967296 - s)) % 4294967296 < 2147483648
  · exact Or.inl ⟨h, if_pos h⟩
  · exact Or.inr ⟨by omega, if_neg h⟩

/-- The wrapped difference used by `bytepd`. -/
def wrapped : FirstEnc where
  d := PD.firstDiff
  lt s n h1 h2 := by
    simp only [uintEMod] at *
    rcases firstDiff_cases s n with h | h <;> omega
  congr s n h1 h2 := by
    simp only [uintEMod] at *
    rcases firstDiff_cases s n with h | h
    · by_cases h' : s ≤ n
      · exact ⟨0, by omega⟩
      · exact ⟨1, by omega⟩
    · by_cases h' : s ≤ n
      · exact ⟨-1, by omega⟩
      · exact ⟨0, by omega⟩
  tri s x n h1 h2 h3 := by
    simp only [uintEMod] at *
    rcases firstDiff_cases s n with h | h <;> rcases firstDiff_cases s x with h' | h' <;> omega

/-- Bytes of a block. -/
def encBlk (D : FirstEnc) (L : Lawful c ok) (src : Nat) : List (Nat × W) → List UInt8
  | [] => []
  | (ngh, w) :: rest => encSigned (D.d src ngh) ++ (L.enc w ++ encRest L ngh rest)

theorem encBlk_plain (L : Lawful c ok) (src : Nat) (l : List (Nat × W)) :
    encBlk plain L src l = encList L src l := by
  cases l with
  | nil => rfl
  | cons e r => rfl

theorem eatFirst_enc (D : FirstEnc) (m : Mem) (pos s t : Nat) (hs : s < uintEMod)
    (ht : t < uintEMod) (hm : m.Has pos (encSigned (D.d s t))) :
    eatFirstEdge m pos s = some (t, pos + (encSigned (D.d s t)).length) := by
  obtain ⟨fb, h1, h2⟩ := eatSigned_encSigned m pos (D.d s t) (D.lt s t hs ht) hm
  obtain ⟨k, hk⟩ := D.congr s t hs ht
  have hlt := D.lt s t hs ht
  rw [eatFirstEdge, h1]
  simp only [h2]
  simp only [uintEMod] at *
  by_cases hn : D.d s t < 0
  · simp only [hn, decide_true, if_true, Option.some.injEq, Prod.mk.injEq, and_true]
    omega
  · simp only [hn, decide_false]
    simp
    omega

theorem decodeFrom_eq {σ : Type} (D : FirstEnc) (L : Lawful c ok)
    (t : σ → Nat → Nat → W → Nat → σ × Bool) (m : Mem) (src pos o : Nat) (edges : List (Nat × W))
    (s : σ) (hsrc : src < uintEMod) (h : ValidList edges) (hok : ∀ e ∈ edges, ok e.2)
    (hm : m.Has pos (encBlk D L src edges)) :
    decodeFrom c t m pos src edges.length o s = some (visit t src o edges s) := by
  cases edges with
  | nil => rfl
  | cons e rest =>
    obtain ⟨ngh, w⟩ := e
    have hn : ngh < uintEMod := h.bounded _ (List.mem_cons_self ..)
    have hc : Chain ok ngh rest := chain_of_valid h (fun e he => hok e (List.mem_cons_of_mem _ he))
    simp only [encBlk, Mem.has_append] at hm
    obtain ⟨ha, hb, hcm⟩ := hm
    simp only [List.length_cons, decodeFrom, eatFirst_enc D m pos src ngh hsrc hn ha,
      L.eat_eq _ _ _ (hok (ngh, w) (by simp)) hb, visit]
    rcases t s src ngh w o with ⟨s', b⟩
    cases b with
    | false => rfl
    | true => exact decodeLoop_eq L t m src (o + 1) _ _ rest _ hc hcm

theorem visit_record (ans : Nat → Nat → W → Nat → Bool) (src i : Nat) (l : List (Nat × W))
    (cs : List (Call W)) :
    visit (recordCb ans) src i l (cs, true) = (cs ++ callsUntil ans src i l, allYes ans src i l) := by
  induction l generalizing i cs with
  | nil => simp [visit, callsUntil, allYes]
  | cons e r ih =>
    obtain ⟨n, w⟩ := e
    simp only [visit, recordCb, callsUntil, allYes]
    cases ans src n w i with
    | true => simp [ih]
    | false => simp

theorem visit_keep (pred : Nat → Nat → W → Bool) (src i : Nat) (l tmp : List (Nat × W)) :
    visit (keepCb pred) src i l tmp = tmp ++ l.filter (fun e => pred src e.1 e.2) := by
  induction l generalizing i tmp with
  | nil => simp [visit]
  | cons e r ih =>
    obtain ⟨n, w⟩ := e
    simp only [visit, keepCb, ih, List.filter_cons]
    cases pred src n w <;> simp

theorem visit_reduce {E : Type} (f : Nat → Nat → W → E) (red : E → E → E) (src i : Nat)
    (l : List (Nat × W)) (cur : E) :
    visit (reduceCb f red) src i l cur = l.foldl (fun a e => red a (f src e.1 e.2)) cur := by
  induction l generalizing i cur with
  | nil => rfl
  | cons e r ih => obtain ⟨n, w⟩ := e; simp only [visit, reduceCb, ih, List.foldl_cons]

/-! ## Code lengths of sub-lists -/

theorem encRest_skip (L : Lawful c ok) (prev x : Nat) (K : List (Nat × W)) (hx : prev ≤ x)
    (h : Chain ok x K) :
    (encRest L prev K).length ≤ (encEdge (x - prev)).length + (encRest L x K).length := by
  cases K with
  | nil => simp [encRest]
  | cons e r =>
    obtain ⟨n, w⟩ := e
    obtain ⟨h1, _⟩ := h
    simp only [encRest, List.length_append]
    have := encEdge_length_add (x - prev) (n - x)
    rw [show x - prev + (n - x) = n - prev by omega] at this
    omega

theorem chain_weaken {p q : Nat} {K : List (Nat × W)} (hpq : p ≤ q) (h : Chain ok q K) :
    Chain ok p K := by
  cases K with
  | nil => trivial
  | cons e r => exact ⟨Nat.lt_of_le_of_lt hpq h.1, h.2⟩

theorem chain_sublist {p : Nat} {K R : List (Nat × W)} (hs : K.Sublist R) (h : Chain ok p R) :
    Chain ok p K := by
  induction hs generalizing p with
  | slnil => trivial
  | cons e hs ih => obtain ⟨n, w⟩ := e; exact chain_weaken (Nat.le_of_lt h.1) (ih h.2.2.2)
  | cons_cons e hs ih => obtain ⟨n, w⟩ := e; exact ⟨h.1, h.2.1, h.2.2.1, ih h.2.2.2⟩

theorem encRest_sublist (L : Lawful c ok) (prev : Nat) {K R : List (Nat × W)} (hs : K.Sublist R)
    (h : Chain ok prev R) : (encRest L prev K).length ≤ (encRest L prev R).length := by
  induction hs generalizing prev with
  | slnil => exact Nat.le_refl _
  | @cons l₁ l₂ e hs ih =>
    obtain ⟨n, w⟩ := e
    have h1 := ih n h.2.2.2
    have h2 := encRest_skip L prev n l₁ (Nat.le_of_lt h.1) (chain_sublist hs h.2.2.2)
    simp only [encRest, List.length_append]
    omega
  | @cons_cons l₁ l₂ e hs ih =>
    obtain ⟨n, w⟩ := e
    have h1 := ih n h.2.2.2
    simp only [encRest, List.length_append]
    omega

theorem encSigned_length_le {x y : Int} {d : Nat} (h : x.natAbs ≤ y.natAbs + d) :
    (encSigned x).length ≤ (encSigned y).length + (encEdge d).length := by
  rw [encSigned_length, encSigned_length]
  have h1 : x.natAbs / 64 ≤ y.natAbs / 64 + d := by omega
  have h2 := encEdge_length_mono h1
  have h3 := encEdge_length_add (y.natAbs / 64) d
  omega

/-- A sub-list never needs more bytes. -/
theorem encBlk_sublist (D : FirstEnc) (L : Lawful c ok) (src : Nat) (hsrc : src < uintEMod)
    {K R : List (Nat × W)} (hs : K.Sublist R)
    (h : ValidList R) (hok : ∀ e ∈ R, ok e.2) :
    (encBlk D L src K).length ≤ (encBlk D L src R).length := by
  induction hs with
  | slnil => exact Nat.le_refl _
  | @cons l₁ l₂ e hs _ =>
    obtain ⟨n, w⟩ := e
    have hc : Chain ok n l₂ := chain_of_valid h (fun e he => hok e (List.mem_cons_of_mem _ he))
    have h1 := encRest_sublist L n hs hc
    cases l₁ with
    | nil => simp [encBlk]
    | cons e' r =>
      obtain ⟨n', w'⟩ := e'
      have hc' := chain_sublist hs hc
      have htri := encSigned_length_le (D.tri src n n' hsrc hc'.1 hc'.2.1)
      simp only [encBlk, encRest, List.length_append] at *
      omega
  | @cons_cons l₁ l₂ e hs _ =>
    obtain ⟨n, w⟩ := e
    have hc : Chain ok n l₂ := chain_of_valid h (fun e he => hok e (List.mem_cons_of_mem _ he))
    have h1 := encRest_sublist L n hs hc
    simp only [encBlk, List.length_append]
    omega

theorem ValidList.sublist {K R : List (Nat × W)} (hs : K.Sublist R) (h : ValidList R) :
    ValidList K :=
  ⟨h.sorted.sublist (hs.map _), fun e he => h.bounded e (hs.subset he)⟩

theorem Has.sub {m : Mem} {pos : Nat} {as bs : List UInt8} (h : m.Has pos (as ++ bs)) :
    m.Has pos as := (Mem.has_append.1 h).1

/-! ## `mapM` / `foldlM` over `Option` -/

theorem mapM_some {α β : Type} (f : α → Option β) (g : α → β) (l : List α)
    (h : ∀ x ∈ l, f x = some (g x)) : l.mapM f = some (l.map g) := by
  induction l with
  | nil => rfl
  | cons x l ih =>
    simp only [List.mapM_cons, h x (by simp), ih (fun y hy => h y (List.mem_cons_of_mem _ hy)),
      List.map_cons]
    rfl

theorem foldlM_some {α β : Type} (f : β → α → Option β) (g : β → α → β) (l : List α) (b : β)
    (h : ∀ x ∈ l, ∀ b, f b x = some (g b x)) : l.foldlM f b = some (l.foldl g b) := by
  induction l generalizing b with
  | nil => rfl
  | cons x l ih =>
    simp only [List.foldlM_cons, h x (by simp), List.foldl_cons]
    exact ih _ (fun y hy => h y (List.mem_cons_of_mem _ hy))

/-! ## Cutting a list into blocks -/

theorem block_length (l : List (Nat × W)) (i : Nat) :
    (block l i).length = min (i * 1000 + 1000) l.length - i * 1000 := by
  simp only [block, List.length_take, List.length_drop]; omega

theorem block_sublist (l : List (Nat × W)) (i : Nat) : (block l i).Sublist l :=
  (List.take_sublist _ _).trans (List.drop_sublist _ _)

theorem flatMap_blocks (l : List (Nat × W)) (k : Nat) :
    (List.range k).flatMap (block l) = l.take (k * 1000) := by
  induction k with
  | zero => simp
  | succ k ih =>
    rw [List.range_succ, List.flatMap_append, ih]
    simp only [List.flatMap_cons, List.flatMap_nil, List.append_nil, block]
    rw [show (k + 1) * 1000 = k * 1000 + 1000 by omega, List.take_add]

theorem numBlocks_cover (n : Nat) : n ≤ (1 + (n - 1) / 1000) * 1000 := by omega

theorem flatMap_blocks_all (l : List (Nat × W)) :
    (List.range (1 + (l.length - 1) / 1000)).flatMap (block l) = l := by
  rw [flatMap_blocks, List.take_of_length_le (numBlocks_cover _)]

theorem callsUntil_true (src i : Nat) (l : List (Nat × W)) :
    callsUntil (fun _ _ _ _ => true) src i l = numbered i l := by
  induction l generalizing i with
  | nil => rfl
  | cons e r ih => obtain ⟨n, w⟩ := e; simp [callsUntil, numbered, ih]

theorem allYes_true (src i : Nat) (l : List (Nat × W)) :
    allYes (fun _ _ _ _ => true) src i l = true := by
  induction l generalizing i with
  | nil => rfl
  | cons e r ih => obtain ⟨n, w⟩ := e; simp [allYes, ih]

theorem numbered_append (i : Nat) (l r : List (Nat × W)) :
    numbered i (l ++ r) = numbered i l ++ numbered (i + l.length) r := by
  induction l generalizing i with
  | nil => simp [numbered]
  | cons e l ih =>
    obtain ⟨n, w⟩ := e
    simp only [List.cons_append, numbered, ih, List.length_cons]
    rw [show i + 1 + l.length = i + (l.length + 1) by omega]

end Gbbs.Blk
