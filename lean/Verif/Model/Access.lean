import Verif.Model.Store

/-!
# Bytes touched by slot accesses
-/

namespace Verif

/-- Number of bytes of the block of a region, `new uint64_t[word_count]`, diva.hpp:166-168. -/
def blockBytes (n s : Nat) : Nat := ptrWordCount n s * 8

/-- First byte read by `GetSlot` and written by `SetSlot`, diva.hpp:2118-2119, 2130-2131 (`bit_pos` is a `uint32_t`).
The access copies eight bytes, `memcpy(&value, ptr, sizeof(value))`. -/
def slotFirstByte (n s pos : Nat) : Nat := (64 + 1024 + n + pos * s) % 2 ^ 32 / 8

end Verif
