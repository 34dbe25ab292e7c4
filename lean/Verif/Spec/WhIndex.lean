import Verif.Model.WhFull

/-!
# What the index is for
-/

namespace Verif

/-- Among the anchors `A`, `r` is the one of the leaf where `key` belongs: the greatest that is not above `key`. -/
def Owns (A : Key → Prop) (key r : Key) : Prop :=
  A r ∧ keyLe r key = true ∧ ∀ a, A a → keyLe a key = true → keyLe a r = true

/-- Anchors increase, and fit into the buffer of the index. -/
abbrev Rising (as : List Key) : Prop := (as.Pairwise fun a b => keyLt a b = true) ∧ ∀ a ∈ as, a.length ≤ pbufRoom

/-- The first anchor is the empty one. -/
def Ladder (as : List Key) : Prop := as.head? = some [] ∧ Rising as

/-- The index after splits and merges of leaves, with the anchors of the leaves in order. -/
inductive IndexHist : Index → List Key → Prop
  | empty : IndexHist Index.empty [[]]
  | split {x x' : Index} {A B : List Key} {p a : Key} : IndexHist x (A ++ p :: B) → Ladder (A ++ p :: a :: B) →
      indexSplit x p a B.head? = .ok x' → IndexHist x' (A ++ p :: a :: B)
  | merge {x x' : Index} {A B : List Key} {p a : Key} : IndexHist x (A ++ p :: a :: B) →
      indexMerge x p a B.head? = .ok x' → IndexHist x' (A ++ p :: B)

/-- The tags answer yes for every prefix in the table. -/
def Tags.Sound (tags : Tags) : Prop := ∀ n x p, x.get p ≠ none → tags n x p = true

/-- A call of the filter. -/
inductive Call
  | insert (key : Key) (split : Bool)
  | delete (key : Key)
  | point (key : Key)
  | range (l r : Key)

/-- Calls on the filter over the leaves, with the answers of the queries. -/
def whRun : WhFilter → List Call → Res (WhFilter × List Bool)
  | w, [] => .ok (w, [])
  | w, .insert k b :: l => (whInsert w k b).bind fun w => whRun w l
  | w, .delete k :: l => (whDelete w k).bind fun w => whRun w l
  | w, .point k :: l => (whPointQuery w k).bind fun q => (whRun q.1 l).bind fun q' => .ok (q'.1, q.2 :: q'.2)
  | w, .range a b :: l => (whRangeQuery w a b).bind fun q => (whRun q.1 l).bind fun q' => .ok (q'.1, q.2 :: q'.2)

/-- Calls on the filter over leaves and index. -/
def ixRun (tags : Tags) : IxFilter → List Call → Res (IxFilter × List Bool)
  | w, [] => .ok (w, [])
  | w, .insert k b :: l => (ixInsert tags w k b).bind fun w => ixRun tags w l
  | w, .delete k :: l => (ixDelete tags w k).bind fun w => ixRun tags w l
  | w, .point k :: l => (ixPointQuery tags w k).bind fun q => (ixRun tags q.1 l).bind fun q' => .ok (q'.1, q.2 :: q'.2)
  | w, .range a b :: l => (ixRangeQuery tags w a b).bind fun q => (ixRun tags q.1 l).bind fun q' => .ok (q'.1, q.2 :: q'.2)

end Verif
