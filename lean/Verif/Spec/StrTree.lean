import Verif.Model.WhStrFilter

/-!
# The tree of `Diva<false>` as an ordered map
-/

namespace Verif

/-- The pairs in the slots of a leaf, in whatever order. -/
def SLeaf.pairs (l : SLeaf) : List (Key × Store) := (l.hs.filterMap id).map Slot.kv

/-- The pairs of the tree. -/
def STree.pairs (t : STree) : List (Key × Store) := t.flatMap SLeaf.pairs

/-- `seek` and then any number of steps forwards (`true`) and backwards. -/
def STree.steps : STree → Cursor → List Bool → Res (STree × Cursor)
  | t, cur, [] => .ok (t, cur)
  | t, cur, b :: bs => (if b then t.skip1 cur else t.skip1Rev cur).bind fun q => STree.steps q.1 q.2 bs

def STree.walk (t : STree) (k : Key) (bs : List Bool) : Res (STree × Cursor) := (t.seek k).bind fun q => q.1.steps q.2 bs

/-- What `Diva<false>` does with the tree: put, delete, move an iterator, write through an iterator if it is at the key. -/
inductive TreeCall
  | put (k : Key) (st : Store)
  | del (k : Key)
  | walk (k : Key) (bs : List Bool)
  | write (k : Key) (st : Store)

/-- One call; the Boolean is the result of `wh_put`, and true for the other calls. -/
def TreeCall.run (t : STree) : TreeCall → Res (STree × Bool)
  | .put k st => t.put k st
  | .del k => (t.del k).bind fun t => .ok (t, true)
  | .walk k bs => (t.walk k bs).bind fun q => .ok (q.1, true)
  | .write k st => (t.seek k).bind fun (t, cur) =>
    match cur with
    | none => .ok (t, true)
    | some c => (t.peek (some c)).bind fun e => .ok (if e.1 == k then t.write (some c) st else t, true)

/-- The calls one after the other, on the empty tree; did they all return true? -/
def treeRun (calls : List TreeCall) : Res (STree × Bool) :=
  calls.foldl (fun r call => r.bind fun q => (call.run q.1).bind fun p => .ok (p.1, q.2 && p.2)) (.ok (STree.empty, true))

/-- What a call means for a map. -/
def TreeCall.effect (live : Key → Option Store) : TreeCall → Key → Option Store
  | .put k st, k' => if k' = k then some st else live k'
  | .del k, k' => if k' = k then none else live k'
  | .walk _ _, k' => live k'
  | .write k st, k' => if k' = k then (live k').map fun _ => st else live k'

/-- The map after the calls. -/
def mapAfter (calls : List TreeCall) : Key → Option Store := calls.foldl TreeCall.effect fun _ => none

/-- No key put is longer than `n` bytes. -/
def PutsLe (n : Nat) (calls : List TreeCall) : Prop := ∀ k st, TreeCall.put k st ∈ calls → k.length ≤ n

/-- `e` is the first pair of the map whose key is not below `k`; `none` if there is none. -/
def FirstFrom (live : Key → Option Store) (k : Key) : Option (Key × Store) → Prop
  | none => ∀ k' st, live k' = some st → keyLt k' k = true
  | some e => live e.1 = some e.2 ∧ keyLe k e.1 = true ∧
      ∀ k' st, live k' = some st → keyLe k k' = true → keyLe e.1 k' = true

/-- `e` is the first pair above `k`. -/
def FirstAbove (live : Key → Option Store) (k : Key) : Option (Key × Store) → Prop
  | none => ∀ k' st, live k' = some st → keyLe k' k = true
  | some e => live e.1 = some e.2 ∧ keyLt k e.1 = true ∧
      ∀ k' st, live k' = some st → keyLt k k' = true → keyLe e.1 k' = true

/-- `e` is the last pair below `k`. -/
def LastBelow (live : Key → Option Store) (k : Key) : Option (Key × Store) → Prop
  | none => ∀ k' st, live k' = some st → keyLe k k' = true
  | some e => live e.1 = some e.2 ∧ keyLt e.1 k = true ∧
      ∀ k' st, live k' = some st → keyLt k' k = true → keyLe k' e.1 = true

/-- What the iterator is at: nothing, or the pair that `wh_iter_peek_ref` returns. -/
def STree.at (t : STree) (cur : Cursor) (o : Option (Key × Store)) : Prop :=
  match o with
  | none => cur = none
  | some e => t.peek cur = .ok e

end Verif
