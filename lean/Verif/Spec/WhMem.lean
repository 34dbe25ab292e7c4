import Verif.Model.WhMem
import Verif.Spec.StrClient
import Verif.Spec.WhIndex

/-!
# Memory of the trees, what is expected
-/

namespace Verif

/-- Both tables after splits and merges of leaves, with the anchors of the leaves in order. -/
inductive PairHist : Tables → List Key → Prop
  | create {hp : TreeHeap} {s : Tables} : (∀ i, hp.next ≤ i → hp.block i = none) → (∀ i b n, hp.block i ≠ some (.mkey b n)) →
      Tables.create hp = .ok s → PairHist s [[]]
  | split {s s' : Tables} {A B : List Key} {p a : Key} : PairHist s (A ++ p :: B) → Ladder (A ++ p :: a :: B) →
      s.split p a B.head? = .ok s' → PairHist s' (A ++ p :: a :: B)
  | merge {s s' : Tables} {A B : List Key} {p a : Key} : PairHist s (A ++ p :: a :: B) →
      s.merge p a B.head? = .ok s' → PairHist s' (A ++ p :: B)

/-- How many nodes of `K` have their key in block `id`. -/
def users (K : List (Key × Nat)) (id : Nat) : Nat := K.countP fun e => e.2 == id

/-- Every node has its key in a block that starts with its prefix, and every index key on the heap belongs to as many nodes as it counts, at
least one. -/
structure KeysHeld (s : Tables) : Prop where
  node : ∀ x ∈ [s.cur, s.other], ∀ p, x.index.get p ≠ none → ∃ id b n, (p, id) ∈ x.keys ∧ s.heap.block id = some (.mkey b n) ∧ p <+: b
  once : ∀ x ∈ [s.cur, s.other], (x.keys.map Prod.fst).Nodup
  only : ∀ x ∈ [s.cur, s.other], ∀ e ∈ x.keys, x.index.get e.1 ≠ none
  count : ∀ id b n, s.heap.block id = some (.mkey b n) → n = users (s.cur.keys ++ s.other.keys) id ∧ 0 < n

/-- Every pair in the leaves and every leaf has one block of its own, and there is no other pair or leaf on the heap. -/
structure BlocksHeld (s : MemMap) : Prop where
  keys : ∀ k, (∃ id, (k, id) ∈ s.pairs) ↔ ∃ e ∈ s.leaves.pairs, e.1 = k
  once : (s.pairs.map Prod.fst).Nodup ∧ (s.pairs.map Prod.snd).Nodup
  pair : ∀ i, s.tabs.heap.block i = some .pair ↔ ∃ k, (k, i) ∈ s.pairs
  leaves : s.nodes.Nodup ∧ s.nodes.length = s.leaves.length
  leaf : ∀ i, s.tabs.heap.block i = some .leaf ↔ i ∈ s.nodes

/-- A program on a new tree with its blocks. -/
def Client.onNewHeap {α : Type} (tags : Tags) (p : Client α) : Res (MemMap × α) := MemMap.create.bind fun s => p.onHeap tags s

/-- The history of a `Diva<false>` on a tree with its blocks: final state and answers. -/
def runHeap (tags : Tags) (c : Cfg) (ld : Load) (calls : List FilterCall) : Res (MemMap × Cfg × List Answer) :=
  (runClient c ld calls).onNewHeap tags

end Verif
