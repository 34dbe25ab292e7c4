/-!
# C integer arithmetic and flat bit memory

64-bit unsigned arithmetic of the code in `/repo/include` on natural numbers below `2^64`,
and the bit memory in which a region's heap block lives.

Shift counts are reduced modulo 64, which is what the x86 `shl`/`shr` instructions do; C++ leaves
counts of 64 and more undefined.
-/

namespace Verif

/-- `a << s` on `uint64_t`. -/
def shl64 (a s : Nat) : Nat := (a <<< (s % 64)) % 2 ^ 64

/-- `a >> s` on `uint64_t`. -/
def shr64 (a s : Nat) : Nat := a >>> (s % 64)

/-- `~a` on `uint64_t`. -/
def not64 (a : Nat) : Nat := a ^^^ (2 ^ 64 - 1)

/-- `a + b` on `uint64_t`. -/
def add64 (a b : Nat) : Nat := (a + b) % 2 ^ 64

/-- `a - b` on `uint64_t` (wraps). -/
def sub64 (a b : Nat) : Nat := (a + (2 ^ 64 - b % 2 ^ 64)) % 2 ^ 64

/-- `-a` on `uint64_t`. -/
def neg64 (a : Nat) : Nat := sub64 0 a

/-- `a - b` on `uint32_t` (wraps). -/
def sub32 (a b : Nat) : Nat := (a + (2 ^ 32 - b % 2 ^ 32)) % 2 ^ 32

/-- `a + b` on `uint32_t` (wraps). -/
def add32 (a b : Nat) : Nat := (a + b) % 2 ^ 32

/-- The macro `BITMASK(n)`, util.hpp:7-9. -/
def bitmask (n : Nat) : Nat := if n = 64 then 2 ^ 64 - 1 else sub64 (shl64 1 n) 1

/-- `__builtin_popcountll`. -/
def popcount (x : Nat) : Nat := (List.range 64).countP fun i => x.testBit i

/-- `__builtin_ia32_tzcnt_u64`: index of the lowest set bit, 64 for zero. -/
def tzcnt (x : Nat) : Nat := ((List.range 64).find? fun i => x.testBit i).getD 64

/-- `__builtin_ia32_lzcnt_u64`: number of leading zero bits, 64 for zero. -/
def lzcnt (x : Nat) : Nat := if x = 0 then 64 else 63 - x.log2

/-- `_pdep_u64(src, mask)`: the `k`-th set bit of `mask` receives bit `k` of `src`
(Intel's definition, the counter `k` written as the number of mask bits below). -/
def pdep (src mask : Nat) : Nat :=
  ((List.range 64).filter fun i =>
    mask.testBit i && src.testBit ((List.range i).countP fun j => mask.testBit j)).foldl
      (fun acc i => acc ||| 1 <<< i) 0

/-- Read `len` bits at bit offset `off` of a block. -/
def readBits (m off len : Nat) : Nat := (m >>> off) % 2 ^ len

/-- Overwrite `len` bits at bit offset `off` of a block with the low bits of `v`. -/
def writeBits (m off len v : Nat) : Nat :=
  ((m >>> (off + len)) <<< len ||| v % 2 ^ len) <<< off ||| m % 2 ^ off

/-- `ptr[i]` for `uint64_t *ptr`. -/
def getW (m i : Nat) : Nat := readBits m (64 * i) 64

/-- `ptr[i] = v`. -/
def putW (m i v : Nat) : Nat := writeBits m (64 * i) 64 v

end Verif
