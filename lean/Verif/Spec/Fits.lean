import Verif.Model.Filter
import Verif.Spec.Cell
import Verif.Spec.Cap

/-!
# Side conditions on the sizes of numbers

The code keeps counters and shifted values in fixed-width words without checking for overflow. These
conditions say that a call of `Insert` stays inside the widths.
-/

namespace Verif

/-- The region that receives `key` stays below the largest number of items, which is `2 ^ 20` for load factor 0.95. -/
def SimpleFits (f : Filter) (key : Key) : Prop :=
  ∀ i prev st next, locate f.tree key = .ok (i, prev, st, next) → st.elemCount + 1 < f.cfg.cap

/-- A split re-encodes items at a level that is larger by `shamtL` and `shamtG` bits: shifted items fit
into a word, and the counters of the two new regions do not overflow. -/
structure SplitFits (f : Filter) (d : SplitPlan) : Prop where
  shamtL : d.shamtL + f.cfg.infixSize ≤ 54
  shamtG : d.shamtG + f.cfg.infixSize ≤ 54
  left : d.left.length < f.cfg.cap
  right : d.right.length < f.cfg.cap

/-- `Insert(key)` stays inside the widths. -/
def InsertFits (f : Filter) (key : Key) (split : Bool) : Prop :=
  match split, planSplit f key with
  | true, .ok (some d) => SplitFits f d
  | _, _ => SimpleFits f key

/-- `E` is `key`, or `key` with all bits from the `z`-th on set to zero, `z` at least `p`. -/
def CutOf (p : Nat) (key E : Key) : Prop := E = key ∨ ∃ z, p ≤ z ∧ pre z E = pre z key ∧ ∀ i, z ≤ i → kbit E i = 0

/-- A sufficient condition for `shamtL` and `shamtG` in terms of levels: splitting the region of `key` at
`key`, or at a shortened `key`, gives two regions whose levels are at most `54 - s` larger. -/
def LevelsFit (f : Filter) (key : Key) : Prop :=
  ∀ prev next E p, Adjacent f prev next → keyLe prev key = true → keyLt key next = true → Level prev next p →
    CutOf p key E → (∀ pL, Level prev E pL → pL + f.cfg.infixSize ≤ p + 54) ∧
      ∀ pG, Level E next pG → pG + f.cfg.infixSize ≤ p + 54

end Verif
