import Verif.Model.Filter
import Verif.Spec.Key

/-!
# Specification of false positives
-/

namespace Verif

/-- `[l, r]` is a range of `w` keys of `n` bytes: read as numbers, `r` is `w - 1` above `l`. -/
def Window (n w : Nat) (l r : Key) : Prop :=
  l.length = n ∧ r.length = n ∧ 1 ≤ w ∧ pre (8 * n) r + 1 = pre (8 * n) l + w

/-- The filter answers yes for `[l, r]`, but none of the keys `S` is in the range. -/
def FalseRange (io : Bool) (f : Filter) (S : List Key) (l r : Key) : Prop :=
  rangeQuery io f l r = .ok true ∧ ∀ x ∈ S, ¬ (keyLe l x = true ∧ keyLe x r = true)

end Verif
