import Verif.Model.Filter

/-!
# Shrinking the infix size of a whole filter
-/

namespace Verif

/-- `ShrinkInfixSize`, diva.hpp:1055-1095. Every store of the tree is rewritten with the old
`infix_size_`; the member is set afterwards. The loop is a `do … while`, so on an empty tree it
dereferences an invalid iterator. The load factor tables do not depend on the infix size. -/
def shrinkInfixSize (f : Filter) (s' : Nat) : Res Filter :=
  if f.tree = [] then .ub
  else .ok ⟨{ f.cfg with infixSize := s' }, f.tree.map fun e => (e.1, shrinkStore f.cfg e.2 s')⟩

end Verif
