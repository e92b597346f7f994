/-!
# Byte memory

Model of the `uchar*` buffers used by the compressed adjacency encodings
(`/repo/gbbs/encodings/*.h`).  A buffer is a total function from addresses to bytes;
pointers are natural numbers.  Simplification: no allocation bounds – instead the
theorems state which addresses are read and written.
-/

namespace Gbbs

/-- `uchar*` buffer contents: address ↦ byte. -/
abbrev Mem := Nat → UInt8

/-- `start[offset] = b;` -/
def Mem.store (m : Mem) (a : Nat) (b : UInt8) : Mem := fun i => if i = a then b else m i

/-- Number of distinct values of `uintE` (`gbbs/macros.h`: `uintE` is a 32-bit unsigned). -/
def uintEMod : Nat := 4294967296

end Gbbs
