import Verif.Model.Delete
import Verif.Model.Shrink
import Verif.Model.Serial

/-!
# Who owns the blocks of the regions

Every tree key carries an `InfixStore` whose `ptr` is a raw pointer, diva.hpp:157-162; copies of an `InfixStore` share
the pointer, and nothing but explicit `delete[]` releases a block. Each function below follows the control flow of one
operation of the filter and performs only its uses, `new uint64_t[]` and `delete[]` of blocks. What a block contains
is modelled elsewhere. Memory inside the tree is not modelled.
-/

namespace Verif

/-- A value of `InfixStore::ptr`: a block from `new`, or a place inside the buffer that was given to the deserialising
constructor (diva.hpp:1427). -/
inductive Ptr where
  | heap (id : Nat)
  | buffer
  deriving DecidableEq, Repr

/-- `ptr k` is the pointer in the store of the tree key `k`; `live` are the blocks that are allocated. -/
structure Heap where
  ptr : Key → Option Ptr
  live : List Nat
  next : Nat

/-- The heap before the first operation. -/
def Heap.empty : Heap := ⟨fun _ => none, [], 0⟩

/-- `delete[] p`. Undefined unless `p` came from `new` and was not deleted yet. -/
def Heap.free (h : Heap) : Ptr → Res Heap
  | .heap id => if id ∈ h.live then .ok { h with live := h.live.erase id } else .ub
  | .buffer => .ub

/-- `new uint64_t[n]`: a block that was never used before. -/
def Heap.new (h : Heap) : Nat × Heap := (h.next, { h with live := h.next :: h.live, next := h.next + 1 })

/-- The pointer in the store of `k`. -/
def Heap.get (h : Heap) (k : Key) : Res Ptr :=
  match h.ptr k with
  | none => .ub
  | some p => .ok p

/-- Reading or writing the block of `k`. Undefined after the block was deleted. -/
def Heap.use (h : Heap) (k : Key) : Res Ptr :=
  (h.get k).bind fun p =>
    match p with
    | .heap id => if id ∈ h.live then .ok p else .ub
    | .buffer => .ok p

/-- `wh_put`: the old pointer, if any, is overwritten. -/
def Heap.put (h : Heap) (k : Key) (p : Ptr) : Heap := { h with ptr := fun x => if x = k then some p else h.ptr x }

/-- `wh_del`. -/
def Heap.del (h : Heap) (k : Key) : Heap := { h with ptr := fun x => if x = k then none else h.ptr x }

/-- A new store for the tree key `k`: `AddTreeKey`, diva.hpp:732-738, or the store of a bulk-loaded region, for example
diva.hpp:1766-1771. -/
def Heap.add (h : Heap) (k : Key) : Heap := h.new.2.put k (.heap h.new.1)

/-- `ResizeInfixStore` on the store of `k`, diva.hpp:2672-2679. -/
def Heap.resize (h : Heap) (k : Key) : Res Heap :=
  (h.use k).bind fun p => (h.free p).bind fun h => .ok (h.add k)

/-- Does `InsertRawIntoInfixStore` resize? diva.hpp:2247-2251. -/
def growsOn (c : Cfg) (st : Store) : Bool :=
  decide ((if st.sizeGrade ≠ 0 then c.size (st.sizeGrade - 1) else c.exceptionSize) ≤ st.elemCount)

/-- Does `DeleteRawFromInfixStore` resize? diva.hpp:2375-2380. -/
def shrinksOn (c : Cfg) (st : Store) : Bool :=
  decide (st.sizeGrade > 0 ∧ st.elemCount ≤ (if st.sizeGrade > 1 then c.size (st.sizeGrade - 2) else c.exceptionSize))

/-- `InsertSimple`, diva.hpp:452-523. -/
def heapSimple (f : Filter) (h : Heap) (key : Key) : Res Heap :=
  (locate f.tree key).bind fun (_, prev, st, _) =>
    if growsOn f.cfg st then h.resize prev
    else (h.use prev).bind fun _ => .ok h

/-- Second half of `InsertSplit`, diva.hpp:905-938: two new stores, of which the second may be resized by the insert at
921, two `wh_put`s, and `delete[]` of the pointer that was in the tree before. -/
def heapSplit (f : Filter) (h : Heap) (key : Key) (d : SplitPlan) : Res Heap :=
  let c := f.cfg
  (h.use d.prev).bind fun old =>
  let (a, h) := h.new
  let (b, h) := h.new
  let h := h.put d.prev (.heap a)
  match d.zeroPos with
  | some _ =>
    if growsOn c (allocWithList c (d.right.drop 1) d.totalG) then
      (h.free (.heap b)).bind fun h => (h.add d.edited).free old
    else (h.put d.edited (.heap b)).free old
  | none => (h.put key (.heap b)).free old

/-- `Insert`, diva.hpp:443-449. -/
def heapInsert (f : Filter) (h : Heap) (key : Key) (split : Bool) : Res Heap :=
  if split then
    (planSplit f key).bind fun
      | none => heapSimple f h key
      | some d => heapSplit f h key d
  else heapSimple f h key

/-- `DeleteMerge`, diva.hpp:1565-1643: both lists are read, both blocks deleted, the middle key leaves the tree and the
left key gets a new store. -/
def heapMerge (f : Filter) (h : Heap) (i : Nat) : Res Heap :=
  (treePeek f.tree i).bind fun (middle, _) =>
  (treePeek f.tree (i + 1)).bind fun _ =>
  if i = 0 then .ub
  else (treePeek f.tree (i - 1)).bind fun (left, _) =>
    (h.use left).bind fun pl => (h.use middle).bind fun pr =>
    (h.free pl).bind fun h => (h.free pr).bind fun h => .ok ((h.del middle).add left)

/-- `Delete`, diva.hpp:1461-1562. -/
def heapDelete (f : Filter) (h : Heap) (key : Key) : Res Heap :=
  let c := f.cfg
  let s := c.infixSize
  let j := treeSeek f.tree key
  (treePeek f.tree j).bind fun e =>
  if e.1 == key && !e.2.isPartial then heapMerge f h j
  else
  (locate f.tree key).bind fun (i, prev, st, next) =>
  (getFrame s prev next).bind fun fr =>
    if st.isPartial && mergesPartial c fr prev st (fr.item s key) then
      (h.use prev).bind fun _ => heapMerge f h i
    else if shrinksOn c st then h.resize prev
    else (h.use prev).bind fun _ => .ok h

/-- The loop of `ShrinkInfixSize`, diva.hpp:1066-1092, with `ShrinkInfixStoreInfixSize`, diva.hpp:2684-2708, on every
store: the new block is allocated before the old one is deleted. -/
def heapShrink : List Key → Heap → Res Heap
  | [], h => .ok h
  | k :: ks, h => (h.use k).bind fun p => ((h.add k).free p).bind fun h => heapShrink ks h

/-- A query uses the block of the region it looks at, which is one of the blocks of the tree; here: all of them can be
used. -/
def heapUsable (f : Filter) (h : Heap) : Prop := ∀ k ∈ f.tree.map Prod.fst, ∃ p, h.use k = .ok p

/-- The keys at which the main loop of a bulk load puts a store, in order, and the index of the last boundary key;
diva.hpp:1738-1779, compare `bulkLoop`. -/
def loopPuts (keys : List Key) : Nat → Nat → Nat → List Key × Nat
  | 0, _, last => ([], last)
  | fuel + 1, j, last =>
    if j % 1024 = 0 then
      let r := loopPuts keys fuel (j + 1) (last + 1024)
      (keys.getD last [] :: r.1, r.2)
    else loopPuts keys fuel (j + 1) last

/-- The keys at which `bulkCore` puts a store. -/
def corePuts (keys : List Key) : List Key :=
  let r := loopPuts keys (keys.length - 1) 1 0
  r.1 ++ [keys.getD r.2 []] ++ (if keys.length - 1 ≠ r.2 then [keys.getD (keys.length - 1) []] else [])

/-- One new store after the other. -/
def heapPuts (ks : List Key) : Heap := ks.foldl Heap.add Heap.empty

/-- Constructor for fixed-length keys, diva.hpp:340-369. -/
def heapFixed (keyLen : Nat) (keys : List Key) : Heap :=
  heapPuts ([List.replicate keyLen 0, List.replicate keyLen 255] ++ corePuts keys)

/-- Constructor for variable-length keys, diva.hpp:374-401 and 1902-1907. -/
def heapVar (keys : List Key) : Heap :=
  heapPuts ([List.replicate 8 0] ++ corePuts keys ++ [List.replicate (keys.foldl (fun m k => max m k.length) 0) 255])

/-- The members of the streaming loader after one more key, compare `streamKey`. -/
def Stream.step (b : Stream) (key : Key) : Stream :=
  match b.left with
  | none => { b with left := some key, maxLen := key.length }
  | some left =>
    if b.keys.length < 1023 then ⟨some left, b.keys ++ [key], max b.maxLen key.length⟩
    else ⟨some key, [], max b.maxLen key.length⟩

/-- `BulkLoadStreaming`, diva.hpp:1925-1963: a full region is put into the tree. -/
def heapStreamKey (q : Heap × Stream) (key : Key) : Heap × Stream :=
  (match q.2.left with
    | none => q.1
    | some left => if q.2.keys.length < 1023 then q.1 else q.1.add left, q.2.step key)

/-- `BulkLoadStreamingFinish`, diva.hpp:1967-2007. -/
def heapStreamFinish (q : Heap × Stream) : Heap :=
  let h := (q.1.add (List.replicate q.2.maxLen 0)).add (List.replicate q.2.maxLen 255)
  if q.2.keys.length > 0 then (h.add (q.2.left.getD [])).add (q.2.keys.getLastD []) else h

/-- Constructor without keys, streaming of all keys, and the end of it. -/
def heapStream (keys : List Key) : Heap :=
  heapStreamFinish (keys.foldl heapStreamKey (Heap.empty, ⟨none, [], 0⟩))

/-- The deserialising constructor, diva.hpp:1275-1317 with 1427: every store points into the buffer. -/
def heapRestored (f : Filter) : Heap := ⟨fun k => if k ∈ f.tree.map Prod.fst then some .buffer else none, [], 0⟩

/-- The loop of the destructor, diva.hpp:1331-1336 and 1346-1351. -/
def heapDestroyLoop : List Key → Heap → Res Heap
  | [], h => .ok h
  | k :: ks, h => (h.get k).bind fun p => (h.free p).bind fun h => heapDestroyLoop ks h

/-- `~Diva`, diva.hpp:1320-1356. -/
def heapDestroy (f : Filter) (h : Heap) : Res Heap := heapDestroyLoop (f.tree.map Prod.fst) h

end Verif
