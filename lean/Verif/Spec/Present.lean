import Verif.Spec.Tame
import Verif.Spec.Shrunk

/-!
# Keys a filter must report
-/

namespace Verif

/-- `Present c n f S`: the filter `f`, loaded with configuration `c`, has a history after which the keys `S`, of at most `n`
bytes, are present: any load and inserts, or a load, inserts and deletions that avoid the known faults, or a load, inserts
and shrinks of regions that are empty or of size grade 55. -/
inductive Present (c : Cfg) (n : Nat) (f : Filter) (S : List Key) : Prop
  | built : BuiltVar c n f S → Present c n f S
  | tame {ins : Bool} : OpsTame c n ins f S → Present c n f S
  | shrunk {s : Nat} : BuiltShrunk n s f S → Present c n f S

end Verif
