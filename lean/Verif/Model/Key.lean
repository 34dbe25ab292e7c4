import Verif.Model.Util

/-!
# Keys: `InfiniteByteString` and partial-key extraction

A key is a byte string; the code treats it as followed by infinitely many zero bytes.
-/

namespace Verif

/-- `InfiniteByteString` (diva.hpp:97-155): pointer and length, here the list of bytes. Lengths are
`uint32_t` in the code; the model has no bound on the length and bit positions do not wrap. -/
abbrev Key := List UInt8

/-- Byte `i`, zero past the end. -/
def byteAt (k : Key) (i : Nat) : Nat := (k.getD i 0).toNat

/-- Eight bytes starting at byte `i`, most significant first, zeros past the end (the `memcpy` of
`min(8, length - i)` bytes into a zeroed word followed by `bswap64`, diva.hpp:115-117). -/
def beWord (k : Key) (i : Nat) : Nat :=
  (List.range 8).foldl (fun acc j => acc * 256 + byteAt k (i + j)) 0

/-- `WordAt`, diva.hpp:112-118. -/
def wordAt (k : Key) (bytePos : Nat) : Nat :=
  if bytePos ≥ k.length then 0 else beWord k bytePos

/-- `BitsAt`, diva.hpp:121-128. -/
def bitsAt (k : Key) (bitPos width : Nat) : Nat :=
  if bitPos / 8 ≥ k.length then 0
  else shr64 (beWord k (bitPos / 8)) (sub64 (sub64 64 width) (bitPos % 8)) &&& bitmask width

/-- `GetBit`, diva.hpp:131-133. -/
def keyBit (k : Key) (pos : Nat) : Nat :=
  if pos / 8 < k.length then (byteAt k (pos / 8) >>> (7 - pos % 8)) &&& 1 else 0

/-- `IsPrefixOf`, diva.hpp:136-140. The empty key (for which the code evaluates `str[length - 1]` out
of bounds) is never a partial boundary key; the model answers `false`. -/
def isPrefixOf (k other : Key) (bitsToIgnore : Nat) : Bool :=
  k.length != 0 && k.length ≤ other.length && k.take (k.length - 1) == other.take (k.length - 1) &&
    (byteAt k (k.length - 1) ||| bitmask bitsToIgnore) ==
      (byteAt other (k.length - 1) ||| bitmask bitsToIgnore)

/-- `operator<=`, diva.hpp:147-150: `memcmp` on the common length, then the length. -/
def keyLe : Key → Key → Bool
  | [], _ => true
  | _ :: _, [] => false
  | a :: as, b :: bs => a < b || (a == b && keyLe as bs)

/-- `operator<`, diva.hpp:142-145. -/
def keyLt : Key → Key → Bool
  | [], [] => false
  | [], _ :: _ => true
  | _ :: _, [] => false
  | a :: as, b :: bs => a < b || (a == b && keyLt as bs)

/-- First loop of `GetSharedIgnoreImplicitLengths`, diva.hpp:1027-1034; returns `share` and the value
of `ind` after `ind--`. `none`: every word of the two keys agrees and the loop never ends. -/
def sharedLoop (k1 k2 : Key) : Nat → Nat → Nat → Option (Nat × Nat)
  | 0, _, _ => none
  | fuel + 1, ind, share =>
    let delta := lzcnt (wordAt k1 (ind * 8) ^^^ wordAt k2 (ind * 8))
    if delta = 64 then sharedLoop k1 k2 fuel (ind + 1) (share + delta) else some (share + delta, ind)

/-- Second loop, diva.hpp:1037-1044. It ends at the latest behind the last word of `k1`. -/
def ignoreLoop (k1 k2 : Key) (share : Nat) : Nat → Nat → Nat → Nat
  | 0, _, ignore => ignore
  | fuel + 1, ind, ignore =>
    let offset := if ind > share / 64 then 0 else share % 64 + 1
    let delta := lzcnt ((not64 (wordAt k1 (ind * 8)) ||| wordAt k2 (ind * 8)) &&& bitmask (64 - offset))
    let ignore' := ignore + (delta - offset)
    if delta = 64 then ignoreLoop k1 k2 share fuel (ind + 1) ignore' else ignore'

/-- Number of words after which both keys have only padding, plus one. -/
def wordFuel (k1 k2 : Key) : Nat := (k1.length + k2.length) / 8 + 2

/-- `GetSharedIgnoreImplicitLengths`, diva.hpp:1021-1052 (`base_implicit_size` is 10). -/
def sharedIgnoreImplicit (k1 k2 : Key) : Option (Nat × Nat × Nat) :=
  match sharedLoop k1 k2 (wordFuel k1 k2) 0 0 with
  | none => none
  | some (share, ind) =>
    let ignore := ignoreLoop k1 k2 share (wordFuel k1 k2) ind 0
    let implicit1 := bitsAt k1 (share + ignore + 1) 9
    let implicit2 := (1 <<< 9) ||| bitsAt k2 (share + ignore + 1) 9
    let extra := if shl64 (add64 (sub64 implicit2 implicit1) 1) 1 < 1 <<< 10 then 1 else 0
    some (share, ignore, 10 + extra)

/-- `ExtractPartialKey`, diva.hpp:1434-1445, for infix size `s`. -/
def extractPartialKey (s : Nat) (key : Key) (shared ignore implicitSize msb : Nat) : Nat :=
  let d := shared + ignore
  let res := shr64 (wordAt key (d / 8)) (sub32 (sub32 (sub32 63 (implicitSize - 1)) s) (d % 8))
  let res := res &&& bitmask (implicitSize - 1 + s)
  res ||| shl64 msb (implicitSize - 1 + s)

/-- The byte encoding of the integer API: `bswap64` on a little-endian machine, diva.hpp:430-433,
527-531, 644-647, 1449-1452. -/
def encodeInt (x : Nat) : Key :=
  (List.range 8).map fun i => UInt8.ofNat (x >>> (8 * (7 - i)))

end Verif
