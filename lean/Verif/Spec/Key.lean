import Verif.Model.Key

/-!
# Specification vocabulary for keys

A key is read as an infinite bit string, zero padded. Nothing here refers to how the code computes.
-/

namespace Verif

/-- Bit `i` of the zero-padded key, most significant bit of the first byte first. -/
def kbit (k : Key) (i : Nat) : Nat := byteAt k (i / 8) / 2 ^ (7 - i % 8) % 2

/-- The first `p` bits of the zero-padded key as a number. -/
def pre : Nat → Key → Nat
  | 0, _ => 0
  | p + 1, k => 2 * pre p k + kbit k p

/-- `k1` is smaller than `k2` as zero-padded bit strings. -/
def PadLt (k1 k2 : Key) : Prop := ∃ p, pre p k1 < pre p k2

/-- Equal, or smaller as zero-padded strings. -/
def PadLeq (k1 k2 : Key) : Prop := k1 = k2 ∨ PadLt k1 k2

/-- Equal keys stand next to each other, as in a sorted list or a list without repetitions. -/
def Grouped (K : List Key) : Prop :=
  ∀ i j l, i < j → j ≤ l → l < K.length → K.getD i [] = K.getD l [] → K.getD i [] = K.getD j []

/-- The keys at positions 0, 1024, 2048, … and at the end: each differs from the next. -/
def Sampled (K : List Key) : Prop :=
  (∀ j, 1024 * (j + 1) < K.length → K.getD (1024 * j) [] ≠ K.getD (1024 * (j + 1)) []) ∧
    K.getD (1024 * ((K.length - 1) / 1024)) [] ≠ K.getD (K.length - 1) []

/-- `k1` and `k2` are the same zero-padded bit string. -/
def PadEq (k1 k2 : Key) : Prop := ∀ p, pre p k1 = pre p k2

end Verif
