import Verif.Model.Filter

/-!
# SetupScaleFactors

The scaling tables of a filter object, diva.hpp:405-426, with IEEE round-to-nearest-even arithmetic on
positive binary floating point numbers. All numbers that occur are normal and below `2^52`, so a number
is a pair `(m, e)` standing for `m / 2^e`.
-/

namespace Verif

/-- `num / den` rounded to a significand of `bits` bits, ties to even. -/
def roundTo (bits num den : Nat) : Nat × Nat :=
  let k0 := bits + den.log2 - num.log2
  let k := if 2 ^ bits ≤ num * 2 ^ k0 / den then k0 - 1 else k0
  let q := num * 2 ^ k / den
  let r := num * 2 ^ k % den
  (if 2 * r > den ∨ (2 * r = den ∧ q % 2 = 1) then q + 1 else q, k)

/-- Product of two doubles. -/
def mulD (a b : Nat × Nat) : Nat × Nat := roundTo 53 (a.1 * b.1) (2 ^ (a.2 + b.2))

/-- Quotient of two doubles. -/
def divD (a b : Nat × Nat) : Nat × Nat := roundTo 53 (a.1 * 2 ^ b.2) (b.1 * 2 ^ a.2)

/-- `static_cast<uint64_t>(a * (1ULL << 15))`; the product by a power of two is exact. -/
def floorScaled (a : Nat × Nat) : Nat := a.1 * 2 ^ 15 / 2 ^ a.2

/-- The `float` 0.95 (default member initialisers, diva.hpp:236-237). -/
def lf95 : Nat × Nat := (15938355, 24)

/-- `pw` after `i` rounds of the first loop of `SetupScaleFactors`, diva.hpp:407-412. -/
def pwDown (lf : Nat × Nat) : Nat → Nat × Nat
  | 0 => (1, 0)
  | i + 1 => mulD (pwDown lf i) lf

/-- `pw` after `i` rounds of the second loop, diva.hpp:414-419. -/
def pwUp (lf : Nat × Nat) : Nat → Nat × Nat
  | 0 => divD (1, 0) lf
  | i + 1 => divD (pwUp lf i) lf

/-- `size_scalars_[g]`, diva.hpp:409, 416, for an object with load factor `lf`. The first loop uses
`load_factor_alt_`, which is always 0.95. -/
def sizeScalarOf (lf : Nat × Nat) (g : Nat) : Nat :=
  if g < growSep then floorScaled (pwDown lf95 (growSep - 1 - g))
  else floorScaled (pwUp lf (g - growSep))

/-- The tables of a filter object with load factor `lf` and infix size `s`. `exception_scaled_size_`,
diva.hpp:413, is a product in `float` arithmetic. -/
def cfgOf (lf : Nat × Nat) (s : Nat) : Cfg where
  infixSize := s
  sizeScalar := sizeScalarOf lf
  exceptionSize :=
    let p := roundTo 24 (((1024 * sizeScalarOf lf 0) >>> 15) * lf95.1) (2 ^ lf95.2)
    p.1 / 2 ^ p.2

/-- The tables for the load factor 0.95: the value the deserialiser insists on, diva.hpp:1394-1400, and the
default for objects it builds. -/
def cfg95 (s : Nat) : Cfg := cfgOf lf95 s

/-- `SetupScaleFactors`, diva.hpp:405-426, for a `const float load_factor` between 0 and 2: the conversions at
lines 409 and 416 are undefined if the value does not fit in `uint64_t`. (The product at line 417 wraps from
scalar `2 ^ 54` on; `cfgOf` does not, so the model is exact for the grades with a smaller scalar.) -/
def setupScaleFactors (lf : Nat × Nat) (s : Nat) : Res Cfg :=
  if (List.range 500).all fun g => decide (sizeScalarOf lf g < 2 ^ 64) then .ok (cfgOf lf s) else .ub

end Verif
