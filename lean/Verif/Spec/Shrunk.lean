import Verif.Spec.History
import Verif.Model.Shrink
import Verif.Model.Scale

/-!
# States after `ShrinkInfixSize`
-/

namespace Verif

/-- The regions of `f` that hold items have size grade 55; so has the store of the last boundary, which belongs to no
region. Regions of other grades lose items (`C19_false`). -/
def Shrinkable (f : Filter) : Prop :=
  (∀ e ∈ f.tree, e.2.sizeGrade = growSep ∨ e.2.elemCount = 0) ∧
    ∀ e, f.tree.getLast? = some e → e.2.sizeGrade = growSep

/-- `Shrunk n s f`: a filter of load factor 0.95 was loaded, filled by inserts, shrunk to `s` bits while
`Shrinkable`, and then possibly shrunk again or filled by further inserts. -/
inductive Shrunk (n : Nat) : Nat → Filter → Prop
  | first {s s' : Nat} {f f' : Filter} : Reach (cfg95 s) n f → 1 ≤ s' → s' ≤ s → s ≤ 46 →
      Shrinkable f → shrinkInfixSize f s' = .ok f' → Shrunk n s' f'
  | again {s s' : Nat} {f f' : Filter} : Shrunk n s f → 1 ≤ s' → s' ≤ s →
      Shrinkable f → shrinkInfixSize f s' = .ok f' → Shrunk n s' f'
  | insert {s : Nat} {f f' : Filter} {key : Key} {split : Bool} : Shrunk n s f → key.length ≤ n →
      InsertFits f key split → Verif.insert f key split = .ok f' → Shrunk n s f'

/-- The same from the load on, with the loaded and inserted keys `S`. -/
inductive BuiltShrunk (n : Nat) : Nat → Filter → List Key → Prop
  | start {s : Nat} {f : Filter} {S : List Key} : 1 ≤ s → s ≤ 46 → BuiltVar (cfg95 s) n f S → BuiltShrunk n s f S
  | shrink {s s' : Nat} {f f' : Filter} {S : List Key} : BuiltShrunk n s f S → 1 ≤ s' → s' ≤ s →
      Shrinkable f → shrinkInfixSize f s' = .ok f' → BuiltShrunk n s' f' S
  | insert {s : Nat} {f f' : Filter} {S : List Key} {key : Key} {split : Bool} : BuiltShrunk n s f S → key.length ≤ n →
      InsertFits f key split → (split = true → ∀ k ∈ S, k <+: key → k = key) → Verif.insert f key split = .ok f' →
      BuiltShrunk n s f' (key :: S)

end Verif
