import Verif.Model.Filter
import Verif.Spec.Level

/-!
# Specification of the resolution of a filter

A region keeps `q + s - 1` bits of a key, `q` being the level of the region and `s` the infix size. Keys
of one region that agree on these bits cannot be told apart.
-/

namespace Verif

/-- The boundary keys of a filter. -/
def boundaries (f : Filter) : List Key := f.tree.map Prod.fst

/-- `prev` and `next` are neighbouring boundary keys. -/
def Adjacent (f : Filter) (prev next : Key) : Prop :=
  ∃ i, (boundaries f)[i]? = some prev ∧ (boundaries f)[i + 1]? = some next

/-- `k` lies strictly between two neighbouring boundaries, `key` in the same region, and both agree on
all bits the region keeps. -/
def SameCell (f : Filter) (key k : Key) : Prop :=
  ∃ prev next q, Adjacent f prev next ∧ Level prev next q ∧ keyLe prev key = true ∧ keyLt key next = true ∧
    keyLt prev k = true ∧ keyLt k next = true ∧ pre (q + f.cfg.infixSize - 1) k = pre (q + f.cfg.infixSize - 1) key

/-- `[l, r]` lies strictly between two neighbouring boundaries, `key` in the same region, and the kept
bits of `key` are between those of `l` and those of `r`. -/
def CellMeets (f : Filter) (key l r : Key) : Prop :=
  ∃ prev next q, Adjacent f prev next ∧ Level prev next q ∧ keyLe prev key = true ∧ keyLt key next = true ∧
    keyLt prev l = true ∧ keyLt r next = true ∧ pre (q + f.cfg.infixSize - 1) l ≤ pre (q + f.cfg.infixSize - 1) key ∧
    pre (q + f.cfg.infixSize - 1) key ≤ pre (q + f.cfg.infixSize - 1) r

end Verif
