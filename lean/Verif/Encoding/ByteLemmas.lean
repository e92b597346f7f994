import Verif.Encoding.ByteModel
import Verif.Encoding.Spec

/-! # Lemmas about the `byte` codec -/

namespace Gbbs

/-- Writing a run of bytes. -/
def Mem.write (m : Mem) (off : Nat) : List UInt8 → Mem
  | [] => m
  | b :: bs => Mem.write (m.store off b) (off + 1) bs

/-- Memory contains the run of bytes at an address. -/
def Mem.Has (m : Mem) (pos : Nat) : List UInt8 → Prop
  | [] => True
  | b :: bs => m pos = b ∧ Mem.Has m (pos + 1) bs

theorem Mem.store_same (m : Mem) (a : Nat) (b : UInt8) : m.store a b a = b := by
  simp [Mem.store]

theorem Mem.store_ne (m : Mem) {a i : Nat} (b : UInt8) (h : i ≠ a) : m.store a b i = m i := by
  simp [Mem.store, h]

theorem Mem.write_outside (m : Mem) (off : Nat) (bs : List UInt8) (i : Nat)
    (h : i < off ∨ off + bs.length ≤ i) : m.write off bs i = m i := by
  induction bs generalizing m off with
  | nil => rfl
  | cons b bs ih =>
    simp only [List.length_cons] at h
    rw [Mem.write, ih _ _ (by omega), Mem.store_ne _ _ (by omega)]

theorem Mem.has_of_agree {m m' : Mem} {pos : Nat} {bs : List UInt8}
    (h : ∀ i, pos ≤ i → i < pos + bs.length → m i = m' i) (hh : m.Has pos bs) :
    m'.Has pos bs := by
  induction bs generalizing pos with
  | nil => trivial
  | cons b bs ih =>
    simp only [List.length_cons] at h
    refine ⟨?_, ih (fun i h1 h2 => h i (by omega) (by omega)) hh.2⟩
    rw [← h pos (by omega) (by omega)]; exact hh.1

theorem Mem.write_has (m : Mem) (off : Nat) (bs : List UInt8) : (m.write off bs).Has off bs := by
  induction bs generalizing m off with
  | nil => trivial
  | cons b bs ih =>
    refine ⟨?_, ?_⟩
    · rw [Mem.write, Mem.write_outside _ _ _ _ (by omega), Mem.store_same]
    · exact ih _ _

theorem Mem.has_append {m : Mem} {pos : Nat} {as bs : List UInt8} :
    m.Has pos (as ++ bs) ↔ m.Has pos as ∧ m.Has (pos + as.length) bs := by
  induction as generalizing pos with
  | nil => simp [Mem.Has]
  | cons a as ih =>
    simp only [List.cons_append, Mem.Has, ih, List.length_cons, and_assoc]
    rw [show pos + 1 + as.length = pos + (as.length + 1) by omega]

theorem Mem.write_append (m : Mem) (off : Nat) (as bs : List UInt8) :
    m.write off (as ++ bs) = (m.write off as).write (off + as.length) bs := by
  induction as generalizing m off with
  | nil => simp [Mem.write]
  | cons a as ih =>
    simp only [List.cons_append, Mem.write, ih, List.length_cons]
    rw [show off + 1 + as.length = off + (as.length + 1) by omega]

namespace Byte

theorem and_7f (x : Nat) : x &&& 0x7f = x % 128 := Nat.and_two_pow_sub_one_eq_mod x 7
theorem and_3f (x : Nat) : x &&& 0x3f = x % 64 := Nat.and_two_pow_sub_one_eq_mod x 6

theorem or_80 {x : Nat} (h : x < 128) : x ||| 0x80 = x + 128 := by
  have := Nat.two_pow_add_eq_or_of_lt (i := 7) (b := x) h 1
  simp at this
  rw [Nat.or_comm]; omega

theorem or_40 {x : Nat} (h : x < 64) : x ||| 0x40 = x + 64 := by
  have := Nat.two_pow_add_eq_or_of_lt (i := 6) (b := x) h 1
  simp at this
  rw [Nat.or_comm]; omega

theorem lastBitSet_ofNat : ∀ x, x < 256 → (lastBitSet (UInt8.ofNat x) = decide (128 ≤ x)) := by
  decide +kernel

theorem bit40_ofNat : ∀ x, x < 256 →
    ((UInt8.ofNat x).toNat &&& 0x40 != 0) = decide (64 ≤ x % 128) := by
  decide +kernel

theorem toNat_ofNat {x : Nat} (h : x < 256) : (UInt8.ofNat x).toNat = x := by
  simp [UInt8.toNat_ofNat', Nat.mod_eq_of_lt h]

/-- The 7-bit groups written for a delta. -/
def encEdge (d : Nat) : List UInt8 :=
  if h : d = 0 then []
  else UInt8.ofNat (if d / 128 > 0 then d % 128 + 128 else d % 128) :: encEdge (d / 128)
termination_by d
decreasing_by exact Nat.div_lt_self (by omega) (by decide)

theorem encEdge_zero : encEdge 0 = [] := by rw [encEdge]; simp

theorem encEdge_pos {d : Nat} (h : 0 < d) : encEdge d =
    UInt8.ofNat (if d / 128 > 0 then d % 128 + 128 else d % 128) :: encEdge (d / 128) := by
  conv => lhs; rw [encEdge]
  rw [dif_neg (by omega)]

theorem compressEdge_eq (m : Mem) (off d : Nat) :
    compressEdge m off d = (m.write off (encEdge d), off + (encEdge d).length) := by
  induction d using Nat.strongRecOn generalizing m off with
  | ind d ih =>
    rw [compressEdge]
    rcases Nat.eq_zero_or_pos d with h0 | h0
    · subst h0; simp [encEdge_zero, Mem.write]
    · have hs : d >>> 7 = d / 128 := Nat.shiftRight_eq_div_pow d 7
      rw [dif_pos (Or.inr h0)]
      simp only [hs, and_7f]
      rw [ih _ (Nat.div_lt_self h0 (by decide)), encEdge_pos h0]
      simp only [Mem.write, List.length_cons, or_80 (Nat.mod_lt d (by decide : 0 < 128))]
      simp only [Prod.mk.injEq, true_and]
      omega

theorem encEdge_lt {d k : Nat} (h : (encEdge d).length = k) : d < 128 ^ k := by
  induction k generalizing d with
  | zero =>
    rcases Nat.eq_zero_or_pos d with h0 | h0
    · subst h0; simp
    · rw [encEdge_pos h0] at h; simp at h
  | succ k ih =>
    rcases Nat.eq_zero_or_pos d with h0 | h0
    · subst h0; exact Nat.pow_pos (by decide)
    · rw [encEdge_pos h0] at h; simp at h
      have := ih h
      rw [Nat.pow_succ]
      omega

theorem encEdge_length_le {d k : Nat} (h : d < 128 ^ k) : (encEdge d).length ≤ k := by
  induction k generalizing d with
  | zero => simp at h; subst h; simp [encEdge_zero]
  | succ k ih =>
    rcases Nat.eq_zero_or_pos d with h0 | h0
    · subst h0; simp [encEdge_zero]
    · rw [encEdge_pos h0]; simp
      apply ih
      rw [Nat.pow_succ] at h
      omega

theorem encEdge_length_pos {d : Nat} (h : 0 < d) : 0 < (encEdge d).length := by
  rw [encEdge_pos h]; simp

theorem encEdge_length_mono {a b : Nat} (h : a ≤ b) : (encEdge a).length ≤ (encEdge b).length :=
  encEdge_length_le (Nat.lt_of_le_of_lt h (encEdge_lt rfl))

/-- The code length is sub-additive: the key fact behind in-place packing. -/
theorem encEdge_length_add (a b : Nat) :
    (encEdge (a + b)).length ≤ (encEdge a).length + (encEdge b).length := by
  rcases Nat.eq_zero_or_pos a with ha | ha
  · subst ha; simp
  rcases Nat.eq_zero_or_pos b with hb | hb
  · subst hb; simp
  have la := encEdge_length_pos ha
  have lb := encEdge_length_pos hb
  have h1 := encEdge_lt (d := a) rfl
  have h2 := encEdge_lt (d := b) rfl
  apply encEdge_length_le
  generalize (encEdge a).length = x at *
  generalize (encEdge b).length = y at *
  rw [Nat.pow_add]
  have hx : 128 ≤ 128 ^ x := by
    calc 128 = 128 ^ 1 := by simp
      _ ≤ 128 ^ x := Nat.pow_le_pow_right (by decide) la
  have hy : 128 ≤ 128 ^ y := by
    calc 128 = 128 ^ 1 := by simp
      _ ≤ 128 ^ y := Nat.pow_le_pow_right (by decide) lb
  generalize 128 ^ x = p at *
  generalize 128 ^ y = q at *
  have : p * q ≥ p + q := by
    have h3 : 2 * q ≤ p * q := Nat.mul_le_mul_right q (by omega)
    have h4 : p * 2 ≤ p * q := Nat.mul_le_mul_left p (by omega)
    omega
  omega

/-- The reading loop inverts the writing loop. -/
theorem eatLoop_encEdge (m : Mem) (pos shift acc d : Nat) (hd : 0 < d)
    (hacc : acc < 2 ^ shift) (hb : acc + d * 2 ^ shift < uintEMod)
    (hm : m.Has pos (encEdge d)) :
    eatLoop m pos shift acc = some (acc + d * 2 ^ shift, pos + (encEdge d).length) := by
  induction d using Nat.strongRecOn generalizing pos shift acc with
  | ind d ih =>
    rw [encEdge_pos hd] at hm
    have hsh : shift < 32 := by
      rcases Nat.lt_or_ge shift 32 with h | h
      · exact h
      · exfalso
        have : 2 ^ 32 ≤ 2 ^ shift := Nat.pow_le_pow_right (by decide) h
        have h2 : 1 * 2 ^ shift ≤ d * 2 ^ shift := Nat.mul_le_mul_right _ hd
        simp only [uintEMod] at hb
        omega
    rw [eatLoop, dif_neg (by omega)]
    obtain ⟨h1, h2⟩ := hm
    rw [h1]
    have hlt : d % 128 < 128 := Nat.mod_lt d (by decide)
    have hsl : (d % 128) <<< shift = (d % 128) * 2 ^ shift := Nat.shiftLeft_eq _ _
    have hdecomp : d = 128 * (d / 128) + d % 128 := (Nat.div_add_mod d 128).symm
    have hmul : d * 2 ^ shift = (d / 128) * 2 ^ (shift + 7) + (d % 128) * 2 ^ shift := by
      rw [Nat.pow_add]
      conv => lhs; rw [hdecomp]
      rw [Nat.add_mul]
      congr 1
      rw [Nat.mul_comm 128, Nat.mul_assoc, Nat.mul_comm 128]
    by_cases hq : d / 128 > 0
    · simp only [hq, if_true]
      have hx : d % 128 + 128 < 256 := by omega
      rw [lastBitSet_ofNat _ hx, toNat_ofNat hx, and_7f]
      simp only [show 128 ≤ d % 128 + 128 by omega, decide_true, if_true]
      rw [show (d % 128 + 128) % 128 = d % 128 by omega, hsl]
      have hle : acc + (d % 128) * 2 ^ shift < uintEMod := by omega
      rw [Nat.mod_eq_of_lt hle]
      rw [ih (d / 128) (Nat.div_lt_self hd (by decide)) (pos + 1) (shift + 7)
        (acc + (d % 128) * 2 ^ shift) hq ?_ (by omega) h2]
      · rw [encEdge_pos hd]
        simp only [List.length_cons, Option.some.injEq, Prod.mk.injEq]
        omega
      · rw [Nat.pow_add]
        have : (d % 128 + 1) * 2 ^ shift ≤ 128 * 2 ^ shift := Nat.mul_le_mul_right _ (by omega)
        rw [Nat.add_mul] at this
        omega
    · have hq0 : d / 128 = 0 := by omega
      simp only [hq, if_false]
      have hx : d % 128 < 256 := by omega
      rw [lastBitSet_ofNat _ hx, toNat_ofNat hx, and_7f]
      simp only [show ¬ 128 ≤ d % 128 by omega, decide_false]
      rw [Nat.mod_mod, hsl]
      have hle : acc + (d % 128) * 2 ^ shift < uintEMod := by omega
      rw [Nat.mod_eq_of_lt hle]
      rw [encEdge_pos hd, hq0, encEdge_zero]
      simp only [List.length_cons, List.length_nil]
      rw [hmul, hq0]
      simp

theorem eatEdge_encEdge (m : Mem) (pos d : Nat) (hd : 0 < d) (hb : d < uintEMod)
    (hm : m.Has pos (encEdge d)) : eatEdge m pos = some (d, pos + (encEdge d).length) := by
  have := eatLoop_encEdge m pos 0 0 d hd (by simp) (by simpa using hb) hm
  simpa [eatEdge] using this

/-- Bytes written for a signed difference. -/
def encSigned (x : Int) : List UInt8 :=
  UInt8.ofNat (x.natAbs % 64 + (if x < 0 then 64 else 0)
    + (if x.natAbs / 64 > 0 then 128 else 0)) :: encEdge (x.natAbs / 64)

theorem compressFirstEdge_eq (m : Mem) (off : Nat) (s t : Int) (h : (t - s).natAbs < uintEMod) :
    compressFirstEdge m off s t =
      (m.write off (encSigned (t - s)), off + (encSigned (t - s)).length) := by
  rw [compressFirstEdge]
  generalize t - s = x at *
  have hs : x.natAbs >>> 6 = x.natAbs / 64 := Nat.shiftRight_eq_div_pow _ 6
  simp only [Nat.mod_eq_of_lt h, hs, and_3f]
  have hlt : x.natAbs % 64 < 64 := Nat.mod_lt _ (by decide)
  have hfb : (if x.natAbs / 64 > 0 then
        (if x < 0 then x.natAbs % 64 ||| 0x40 else x.natAbs % 64) ||| 0x80
        else (if x < 0 then x.natAbs % 64 ||| 0x40 else x.natAbs % 64)) =
      x.natAbs % 64 + (if x < 0 then 64 else 0) + (if x.natAbs / 64 > 0 then 128 else 0) := by
    rw [or_40 hlt]
    split <;> split <;> first | rw [or_80 (by omega)] | simp
  rw [hfb, compressEdge_eq]
  simp only [encSigned, Mem.write, List.length_cons, Prod.mk.injEq, true_and]
  omega

theorem eatSigned_encSigned (m : Mem) (pos : Nat) (x : Int) (h : x.natAbs < uintEMod)
    (hm : m.Has pos (encSigned x)) :
    ∃ fb, eatSigned m pos = some (fb, x.natAbs, pos + (encSigned x).length) ∧
      (fb.toNat &&& 0x40 != 0) = decide (x < 0) := by
  obtain ⟨h1, h2⟩ := hm
  have hlt : x.natAbs % 64 < 64 := Nat.mod_lt _ (by decide)
  refine ⟨m pos, ?_, ?_⟩
  · rw [eatSigned]
    rw [h1]
    have hx : x.natAbs % 64 + (if x < 0 then 64 else 0) +
        (if x.natAbs / 64 > 0 then 128 else 0) < 256 := by split <;> split <;> omega
    rw [lastBitSet_ofNat _ hx, toNat_ofNat hx, and_3f]
    have hmod : (x.natAbs % 64 + (if x < 0 then 64 else 0) +
        (if x.natAbs / 64 > 0 then 128 else 0)) % 64 = x.natAbs % 64 := by
      split <;> split <;> omega
    rw [hmod]
    by_cases hq : x.natAbs / 64 > 0
    · have : 128 ≤ x.natAbs % 64 + (if x < 0 then 64 else 0) +
        (if x.natAbs / 64 > 0 then 128 else 0) := by simp only [hq, if_true]; omega
      simp only [this, decide_true, if_true]
      rw [eatLoop_encEdge m (pos + 1) 6 (x.natAbs % 64) (x.natAbs / 64) hq (by simpa using hlt)
        (by omega) h2]
      simp only [encSigned, List.length_cons, Option.some.injEq, Prod.mk.injEq, true_and]
      omega
    · have : ¬ 128 ≤ x.natAbs % 64 + (if x < 0 then 64 else 0) +
        (if x.natAbs / 64 > 0 then 128 else 0) := by
          simp only [hq, if_false]; split <;> omega
      have hq0 : x.natAbs / 64 = 0 := by omega
      rw [if_neg (by simp only [this, decide_false]; decide)]
      have hx0 : x.natAbs % 64 = x.natAbs := by omega
      simp only [encSigned, hq0, encEdge_zero, hx0, List.length_cons, List.length_nil]
  · rw [h1, bit40_ofNat _ (by split <;> split <;> omega)]
    congr 1
    apply propext
    split <;> split <;> omega

theorem eatFirstEdge_encSigned (m : Mem) (pos s t : Nat) (hs : s < uintEMod) (ht : t < uintEMod)
    (hm : m.Has pos (encSigned ((t : Int) - s))) :
    eatFirstEdge m pos s = some (t, pos + (encSigned ((t : Int) - s)).length) := by
  simp only [uintEMod] at *
  obtain ⟨fb, h1, h2⟩ := eatSigned_encSigned m pos ((t : Int) - s)
    (by simp only [uintEMod]; omega) hm
  rw [eatFirstEdge, h1]
  simp only [h2, uintEMod]
  by_cases hlt : (t : Int) - s < 0
  · simp only [hlt, decide_true, if_true, Option.some.injEq, Prod.mk.injEq, and_true]
    omega
  · simp only [hlt, decide_false]
    simp
    omega

/-- What a weight codec must satisfy: the bytes written, and the reader inverting them. -/
structure Lawful {W : Type} (c : WCodec W) (ok : W → Prop) where
  enc : W → List UInt8
  compress_eq : ∀ m off w, ok w → c.compress m off w = (m.write off (enc w), off + (enc w).length)
  eat_eq : ∀ m pos w, ok w → m.Has pos (enc w) → c.eat m pos = some (w, pos + (enc w).length)

def emptyLawful : Lawful emptyCodec (fun _ => True) where
  enc _ := []
  compress_eq _ _ _ _ := rfl
  eat_eq _ _ _ _ _ := rfl

def floatLawful : Lawful floatCodec (fun _ => True) where
  enc w := [w.1, w.2.1, w.2.2.1, w.2.2.2]
  compress_eq _ _ _ _ := rfl
  eat_eq m pos w _ h := by
    obtain ⟨h1, h2, h3, h4, _⟩ := h
    simp only [floatCodec, h1, h2, h3, h4, List.length_cons, List.length_nil]

open EncSpec in
def intLawful : Lawful intCodec Int32NotMin where
  enc w := encSigned w
  compress_eq m off w h := by
    obtain ⟨h1, h2⟩ := h
    have := compressFirstEdge_eq m off 0 w (by simp only [uintEMod]; omega)
    simpa [intCodec] using this
  eat_eq m pos w h hm := by
    obtain ⟨hl, hu⟩ := h
    obtain ⟨fb, h1, h2⟩ := eatSigned_encSigned m pos w (by simp only [uintEMod]; omega) hm
    simp only [intCodec, h1, h2]
    have h3 : w.natAbs < 2147483648 := by omega
    simp only [h3, if_true]
    by_cases hlt : w < 0
    · simp only [hlt, decide_true, if_true]
      rw [if_neg (by omega)]
      simp only [Option.some.injEq, Prod.mk.injEq, and_true]
      omega
    · simp only [hlt, decide_false]
      simp
      omega

end Byte
end Gbbs
