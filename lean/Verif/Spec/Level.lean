import Verif.Spec.Key

/-!
# Specification of the resolution of a region

A region lies between two neighbouring boundary keys. The filter keeps `p + s - 1` leading bits of
every key of the region, where `s` is the infix size and `p` is the level of the region.
-/

namespace Verif

/-- Number of steps of the bit prefixes of length `p` between two keys. -/
def gap (prev next : Key) (p : Nat) : Nat := pre p next - pre p prev

/-- `p` is the level of the region between `prev` and `next`: behind the first `sh` common bits and the
first different one come `ig` bits that are 1 in `prev` and 0 in `next` and carry no information inside
the region. The level counts these, the different bit and nine more bits; a tenth is added if there
would be fewer than 512 prefixes. -/
def Level (prev next : Key) (p : Nat) : Prop :=
  ∃ sh ig, (∀ i, i < sh → kbit prev i = kbit next i) ∧ kbit prev sh = 0 ∧ kbit next sh = 1 ∧
    (∀ i, sh < i → i < sh + 1 + ig → kbit prev i = 1 ∧ kbit next i = 0) ∧
    ¬ (kbit prev (sh + 1 + ig) = 1 ∧ kbit next (sh + 1 + ig) = 0) ∧
    p = sh + ig + (if gap prev next (sh + ig + 10) + 1 < 512 then 11 else 10)

end Verif
