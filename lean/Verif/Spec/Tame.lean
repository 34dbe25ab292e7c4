import Verif.Spec.Deletes

/-!
# Histories with deletions that avoid the known faults

`C15_false`, `C16_false`, `C36_false` and `C37_false` show four ways in which a history of deletions goes wrong.
The conditions below exclude them.
-/

namespace Verif

/-- Some used slot lies before an unused one: the items are not packed against the end of the region. -/
def Loose (c : Cfg) (st : Store) : Prop :=
  ∃ i k, i < k ∧ k < c.size st.sizeGrade ∧ getSlot st.mem (c.size st.sizeGrade) c.infixSize i ≠ 0 ∧
    getSlot st.mem (c.size st.sizeGrade) c.infixSize k = 0

/-- The store on which `DeleteRawFromInfixStore` removes the item: the region itself or its shrunk
version, diva.hpp:2375-2380. -/
def deleteBase (c : Cfg) (st : Store) (T : Nat) : Store :=
  if st.sizeGrade > 0 ∧ st.elemCount ≤ (if st.sizeGrade > 1 then c.size (st.sizeGrade - 2) else c.exceptionSize) then
    resizeStore c st false T else st

/-- Number of bits of a key that an item of a region with level `q` keeps. -/
def itemLen (s q x : Nat) : Nat := q + s - 1 - Nat.log2 (lowbit x)

/-- Number of bits of a partial boundary key. -/
def boundaryLen (p : Key × Store) : Nat := 8 * p.1.length - p.2.invalidBits

/-- `Delete(k)` for a key of the region of level `q` above the boundary `p` removes the boundary: `k` is that
boundary, or the boundary is partial and every item that is a prefix of `k` is shorter. -/
def Removes (f : Filter) (p : Key × Store) (q : Nat) (k : Key) : Prop :=
  if p.2.isPartial then ∀ x ∈ itemsOf f p.1, PrefixItem f.cfg.infixSize q p.1 x k → itemLen f.cfg.infixSize q x < boundaryLen p
  else p.1 = k

/-- `Delete(k)` in the region of level `q` between `p` and `e`, both in the tree, avoids the faults.
* `prefixed`: a partial boundary is removed only if it is a prefix of `k` (compare `C15_false`, `C16_false`).
* `long`: when a boundary is removed, no item of its region that is a prefix of it is shorter than the items of the
  merged region (compare `C37_false`).
* `count`: the 20-bit counter of the merged region does not overflow.
* `loose`: when an item is removed and inserts may follow (`ins`), the region is not packed against its end
  (compare `C36_false`). -/
structure TameAt (ins : Bool) (f : Filter) (A : Tree) (p e : Key × Store) (q : Nat) (k : Key) : Prop where
  prefixed : p.2.isPartial = true → Removes f p q k → pre (boundaryLen p) k = pre (boundaryLen p) p.1
  long : Removes f p q k → ∀ A' a N, A = A' ++ [a] → Level a.1 e.1 N → ∀ x ∈ itemsOf f p.1,
    PrefixItem f.cfg.infixSize q p.1 x p.1 → N + f.cfg.infixSize - 1 ≤ itemLen f.cfg.infixSize q x
  count : Removes f p q k → ∀ A' a, A = A' ++ [a] → (itemsOf f a.1).length + (itemsOf f p.1).length < f.cfg.cap
  loose : ins = true → ¬ Removes f p q k → Loose f.cfg (deleteBase f.cfg p.2 (gap p.1 e.1 q + 1))

/-- `Delete(k)` avoids the faults. -/
def DeleteTame (ins : Bool) (f : Filter) (k : Key) : Prop :=
  ∀ A p e B q, f.tree = A ++ p :: e :: B → keyLe p.1 k = true → keyLt k e.1 = true → Level p.1 e.1 q →
    TameAt ins f A p e q k

/-- `OpsTame c n ins f S`: a history as in `Ops`, or after streaming, in which every deletion avoids the faults. `ins` says whether
inserts may still follow. A key loaded several times counts as often, except that a boundary key counts once. -/
inductive OpsTame (c : Cfg) (n : Nat) : Bool → Filter → List Key → Prop
  | load {K S : List Key} {f : Filter} : (∀ k ∈ K, k.length = n) → K.Pairwise (fun a b => keyLe a b = true) →
      (∀ k, S.count k ≤ K.count k) → (∀ k ∈ K, k ∈ S) → bulkFixed c n K = .ok f → (∀ k ∈ boundaries f, S.count k ≤ 1) → OpsTame c n true f S
  | stream {K S : List Key} {f : Filter} : (∀ k ∈ K, k.length = n) → K.Pairwise (fun a b => keyLe a b = true) → Sampled K →
      (K.length ≤ 1024 ∨ K.getD 0 [] ≠ List.replicate n 0) → (∀ k, S.count k ≤ K.count k) → (∀ k ∈ K, k ∈ S) →
      streamAll c K = .ok f → (∀ k ∈ boundaries f, S.count k ≤ 1) → OpsTame c n true f S
  | insert {f f' : Filter} {S : List Key} {key : Key} {split : Bool} : OpsTame c n true f S → key.length = n →
      InsertFits f key split → insert f key split = .ok f' → OpsTame c n true f' (key :: S)
  | delete {ins ins' : Bool} {f f' : Filter} {S : List Key} {key : Key} : OpsTame c n ins f S → key ∈ S →
      (ins' = true → ins = true) → DeleteTame ins' f key → delete f key = .ok f' → OpsTame c n ins' f' (S.erase key)

end Verif
