import Verif.Encoding.ByteLemmas

/-! # 32-bit words inside byte memory -/

namespace Gbbs

/-- The four bytes of a `uintE`, least significant first (the formats are only read back on
the machine that wrote them, so the byte order is immaterial). -/
def le32 (v : Nat) : List UInt8 :=
  [UInt8.ofNat (v % 256), UInt8.ofNat (v / 256 % 256), UInt8.ofNat (v / 65536 % 256),
   UInt8.ofNat (v / 16777216 % 256)]

/-- `*((uintE*)(p)) = v;` (the value is truncated to 32 bits). -/
def Mem.store32 (m : Mem) (a v : Nat) : Mem :=
  (((m.store a (UInt8.ofNat (v % 256))).store (a + 1) (UInt8.ofNat (v / 256 % 256))).store (a + 2)
    (UInt8.ofNat (v / 65536 % 256))).store (a + 3) (UInt8.ofNat (v / 16777216 % 256))

/-- `*((uintE*)(p))` -/
def Mem.load32 (m : Mem) (a : Nat) : Nat :=
  (m a).toNat + 256 * (m (a + 1)).toNat + 65536 * (m (a + 2)).toNat + 16777216 * (m (a + 3)).toNat

theorem Mem.store32_eq (m : Mem) (a v : Nat) : m.store32 a v = m.write a (le32 v) := rfl

theorem le32_length (v : Nat) : (le32 v).length = 4 := rfl

theorem Mem.load32_of_has {m : Mem} {a v : Nat} (h : m.Has a (le32 v)) (hv : v < 4294967296) :
    m.load32 a = v := by
  obtain ⟨h0, h1, h2, h3, _⟩ := h
  simp only [Mem.load32, h0, h1, h2, h3,
    Byte.toNat_ofNat (Nat.mod_lt _ (by decide : 0 < 256))]
  omega

theorem Mem.load32_congr {m m' : Mem} {a : Nat} (h : ∀ i, a ≤ i → i < a + 4 → m i = m' i) :
    m.load32 a = m'.load32 a := by
  simp only [Mem.load32]
  rw [h a (by omega) (by omega), h (a + 1) (by omega) (by omega), h (a + 2) (by omega) (by omega),
    h (a + 3) (by omega) (by omega)]

theorem Mem.load32_lt (m : Mem) (a : Nat) : m.load32 a < 4294967296 := by
  have := (m a).toNat_lt
  have := (m (a + 1)).toNat_lt
  have := (m (a + 2)).toNat_lt
  have := (m (a + 3)).toNat_lt
  simp only [Mem.load32]
  omega

theorem Mem.load32_store32_same (m : Mem) (a v : Nat) (hv : v < 4294967296) :
    (m.store32 a v).load32 a = v := by
  rw [Mem.store32_eq]; exact Mem.load32_of_has (Mem.write_has _ _ _) hv

theorem Mem.store32_outside (m : Mem) (a v i : Nat) (h : i < a ∨ a + 4 ≤ i) :
    m.store32 a v i = m i := by
  rw [Mem.store32_eq]; exact Mem.write_outside _ _ _ _ h

theorem Mem.load32_store32_other (m : Mem) (a b v : Nat) (h : b + 4 ≤ a ∨ a + 4 ≤ b) :
    (m.store32 a v).load32 b = m.load32 b :=
  Mem.load32_congr (fun i h1 h2 => Mem.store32_outside _ _ _ _ (by omega))

end Gbbs
