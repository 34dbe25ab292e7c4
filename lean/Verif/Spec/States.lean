import Verif.Spec.History
import Verif.Spec.Tame
import Verif.Spec.Shrunk

/-!
# States reached through the API
-/

namespace Verif

/-- `States c n f`: the filter `f` comes from any bulk load and inserts of keys of at most `n` bytes, or from a bulk
load of keys of `n` bytes, inserts and deletions that avoid the known faults, or from a bulk load, inserts and
`ShrinkInfixSize` of filters whose regions are empty or have size grade 55. -/
inductive States (c : Cfg) (n : Nat) : Filter → Prop
  | reach {f : Filter} : Reach c n f → States c n f
  | tame {ins : Bool} {f : Filter} {S : List Key} : OpsTame c n ins f S → States c n f
  | shrunk {s : Nat} {f : Filter} : c = cfg95 s → Shrunk n s f → States c n f

end Verif
