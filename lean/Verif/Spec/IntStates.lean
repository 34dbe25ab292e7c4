import Verif.Spec.WhTree
import Verif.Spec.States
import Verif.Model.WhScan

/-!
# States of `Diva<true>` on its tree
-/

namespace Verif

/-- The slots in use of all leaves, in whatever order, as an ordered map. -/
def Wh.contents (t : Wh) : Tree := (t.flatMap Leaf.entries).foldl (fun m e => treePut m e.1 e.2) []

/-- The filter with the leaves forgotten. -/
def WhFilter.flat (w : WhFilter) : Filter := ⟨w.cfg, w.tree.contents⟩

/-- `Delete(key)` removes no boundary whose removal merges two leaves at the end of the first one; see `C45_false`. -/
def DeleteCalm (w : WhFilter) (key : Key) : Prop :=
  ∀ f' b, delete w.flat key = .ok f' → b ∈ boundaries w.flat → b ∉ boundaries f' → mergeHazard w.tree b = false

/-- `IntReach c n w`: a load of keys of at most `n` bytes, then any inserts and queries. -/
inductive IntReach (c : Cfg) (n : Nat) : WhFilter → Prop
  | load {m : Nat} {K : List Key} {w : WhFilter} : m ≤ n → (∀ k ∈ K, k.length = m) →
      K.Pairwise (fun a b => keyLe a b = true) → whBulkFixed c m K = .ok w → IntReach c n w
  | insert {w w' : WhFilter} {key : Key} {split : Bool} : IntReach c n w → key.length ≤ n →
      InsertFits w.flat key split → whInsert w key split = .ok w' → IntReach c n w'
  | point {w w' : WhFilter} {key : Key} {b : Bool} : IntReach c n w → key.length ≤ n →
      whPointQuery w key = .ok (w', b) → IntReach c n w'
  | range {w w' : WhFilter} {l r : Key} {b : Bool} : IntReach c n w → l.length ≤ n →
      whRangeQuery w l r = .ok (w', b) → IntReach c n w'

/-- `IntOps c n ins w S`: the same with deletions that avoid the known faults; `S` are the stored keys as in
`OpsTame`, `ins` says whether inserts may still follow. -/
inductive IntOps (c : Cfg) (n : Nat) : Bool → WhFilter → List Key → Prop
  | load {K S : List Key} {w : WhFilter} : (∀ k ∈ K, k.length = n) → K.Pairwise (fun a b => keyLe a b = true) →
      (∀ k, S.count k ≤ K.count k) → (∀ k ∈ K, k ∈ S) → whBulkFixed c n K = .ok w → (∀ k ∈ boundaries w.flat, S.count k ≤ 1) →
      IntOps c n true w S
  | stream {K S : List Key} {w : WhFilter} : (∀ k ∈ K, k.length = n) → K.Pairwise (fun a b => keyLe a b = true) → Sampled K →
      (K.length ≤ 1024 ∨ (K.getD 0 [] ≠ List.replicate n 0 ∧ K.getLastD [] ≠ List.replicate n 255)) →
      (∀ k, S.count k ≤ K.count k) → (∀ k ∈ K, k ∈ S) → whStreamAll c K = .ok w →
      (∀ k ∈ boundaries w.flat, S.count k ≤ 1) → IntOps c n true w S
  | insert {w w' : WhFilter} {S : List Key} {key : Key} {split : Bool} : IntOps c n true w S → key.length = n →
      InsertFits w.flat key split → whInsert w key split = .ok w' → IntOps c n true w' (key :: S)
  | delete {ins ins' : Bool} {w w' : WhFilter} {S : List Key} {key : Key} : IntOps c n ins w S → key ∈ S →
      (ins' = true → ins = true) → DeleteTame ins' w.flat key → DeleteCalm w key → whDelete w key = .ok w' →
      IntOps c n ins' w' (S.erase key)
  | point {ins : Bool} {w w' : WhFilter} {S : List Key} {key : Key} {b : Bool} : IntOps c n ins w S → key.length ≤ n →
      whPointQuery w key = .ok (w', b) → IntOps c n ins w' S
  | range {ins : Bool} {w w' : WhFilter} {S : List Key} {l r : Key} {b : Bool} : IntOps c n ins w S → l.length ≤ n →
      whRangeQuery w l r = .ok (w', b) → IntOps c n ins w' S

/-- `IntStates c n w`: the filter `w` is reached through the API of `Diva<true>`. -/
inductive IntStates (c : Cfg) (n : Nat) : WhFilter → Prop
  | reach {w : WhFilter} : IntReach c n w → IntStates c n w
  | ops {ins : Bool} {w : WhFilter} {S : List Key} : IntOps c n ins w S → IntStates c n w

end Verif
