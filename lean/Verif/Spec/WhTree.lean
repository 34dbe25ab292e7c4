import Verif.Model.WhTree

/-!
# Deletions that the leaves of the integer tree do not survive
-/

namespace Verif

/-- Deleting `k` merges its leaf with the next one while at most one key above `k` is left in its leaf. -/
def mergeHazard : Wh → Key → Bool
  | l :: n :: t, k =>
    ((l.entries.any fun e => e.1 == k) &&
      decide (n.nr ≠ 0 ∧ (l.nr = 1 ∨ l.nr - 1 + n.nr < 24) ∧ (l.entries.filter fun e => keyLt k e.1).length ≤ 1)) ||
    mergeHazard (n :: t) k
  | _, _ => false

end Verif
