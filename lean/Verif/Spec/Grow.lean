import Verif.Spec.Fits

/-!
# Histories of inserts that keep the resolution
-/

namespace Verif

/-- `key` is at least as long as the prefixes that its region keeps. -/
def LongKey (f : Filter) (key : Key) : Prop :=
  ∀ prev next q, Adjacent f prev next → keyLe prev key = true → keyLt key next = true → Level prev next q →
    q + f.cfg.infixSize - 1 ≤ 8 * key.length

/-- `Grown n f f' X`: calls of `Insert` with the keys `X` lead from `f` to `f'`, whatever the random generator
decided; all stay inside the fixed widths, all keys have at most `n` bytes, and keys given to a splitting insert
are not shorter than the prefixes of their region. -/
inductive Grown (n : Nat) (f : Filter) : Filter → List Key → Prop
  | refl : Grown n f f []
  | insert {g f' : Filter} {X : List Key} {key : Key} {split : Bool} : Grown n f g X → key.length ≤ n →
      InsertFits g key split → (split = true → LongKey g key) → insert g key split = .ok f' → Grown n f f' (key :: X)

end Verif
