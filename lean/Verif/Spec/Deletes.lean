import Verif.Spec.History
import Verif.Spec.Cell
import Verif.Spec.Region
import Verif.Model.Delete

/-!
# Histories with deletions, and the items of a region
-/

namespace Verif

/-- `Ops c n f S`: the filter `f` comes from a bulk load of sorted distinct keys of `n` bytes followed by calls of
`Insert` that stay inside the fixed widths and calls of `Delete` with present keys, all of which returned. `S` are
the present keys: a key inserted twice and deleted once is still present. -/
inductive Ops (c : Cfg) (n : Nat) : Filter → List Key → Prop
  | load {K : List Key} {f : Filter} : (∀ k ∈ K, k.length = n) → K.Pairwise (fun a b => keyLt a b = true) →
      bulkFixed c n K = .ok f → Ops c n f K
  | insert {f f' : Filter} {S : List Key} {key : Key} {split : Bool} : Ops c n f S → key.length = n →
      InsertFits f key split → insert f key split = .ok f' → Ops c n f' (key :: S)
  | delete {f f' : Filter} {S : List Key} {key : Key} : Ops c n f S → key ∈ S →
      delete f key = .ok f' → Ops c n f' (S.erase key)

/-- The items that are read back from the region above the boundary key `prev`. -/
def itemsOf (f : Filter) (prev : Key) : List Nat :=
  match f.tree.find? fun e => e.1 == prev with
  | some e => getInfixList f.cfg e.2
  | none => []

/-- Number of stored items of all regions. -/
def itemCount (f : Filter) : Nat := (f.tree.map fun e => (getInfixList f.cfg e.2).length).sum

/-- An item `x` of a region with level `q` above the boundary key `prev` stands for a bit string: the first `q`
bits of `prev`, plus `x` counted in units of `2 ^ -s`, up to but not including the lowest set bit. It is a
prefix of `k`. -/
def PrefixItem (s q : Nat) (prev : Key) (x : Nat) (k : Key) : Prop :=
  pre (q + s - 1 - Nat.log2 (lowbit x)) k = (pre q prev * 2 ^ s + x) / (2 * lowbit x)

end Verif
