import Verif.Model.WhFull
import Verif.Model.WhStrScan

/-!
# The string tree with its index

The operations of Verif/Model/WhStr.lean once more, with the leaf of a key found through the index and the index changed
when leaves split or merge. `diva.hpp` touches the tree through eight calls only; `Client` is a program that makes such
calls, and below the functions of `Diva<false>` are written as such programs. A client can be run on the leaves alone or on
leaves and index.
-/

namespace Verif

/-- `struct wormhole`, wh.c:87-108. `calls` as in `WhMap`. -/
structure StrMap where
  leaves : STree
  index : Index
  calls : Nat

/-- `wormhole_create_internal`, wh.c:1100-1166. -/
def StrMap.empty : StrMap := ⟨STree.empty, Index.empty, 0⟩

/-- Anchor of the leaf at a position, if there is one. -/
def STree.anchorAt (t : STree) (i : Nat) : Option Key := t[i]?.map SLeaf.anchor

/-- Store other leaves. -/
def StrMap.with (s : StrMap) (t : STree) : StrMap := ⟨t, s.index, s.calls + 1⟩

section
variable (tags : Tags)

/-- `wormhole_jump_leaf_read` and `wormhole_jump_leaf_write`, wh.c:1323-1376: the position of the leaf. -/
def StrMap.jump (s : StrMap) (key : Key) : Res Nat :=
  (indexJump (tags s.calls s.index) s.index key).bind fun a =>
    match s.leaves.findIdx? (fun l => l.anchor == a) with
    | none => .ub
    | some i => .ok i

/-- `wormhole_put`, wh.c:2608-2642, with `wormhole_split_insert` and `wormhole_split_meta`, 2384-2402, 2327-2380. -/
def StrMap.put (s : StrMap) (k : Key) (st : Store) : Res (StrMap × Bool) :=
  (s.jump tags k).bind fun i =>
  match s.leaves[i]? with
  | none => .ub
  | some l =>
    match l.matchHs k with
    | some ih => (l.update ih (k, st)).bind fun l => .ok (s.with (s.leaves.set i l), true)
    | none =>
      if l.nr < 32 then (l.insert (k, st)).bind fun l => .ok (s.with (s.leaves.set i l), true)
      else
        (l.split (decide (i + 1 < s.leaves.length)) (k, st)).bind fun
          | none => l.sync.bind fun l => .ok (s.with (s.leaves.set i l), false)
          | some (a, b) =>
            (indexSplit s.index a.anchor b.anchor (s.leaves.anchorAt (i + 1))).bind fun x =>
            .ok (⟨s.leaves.take i ++ a :: b :: s.leaves.drop (i + 1), x, s.calls + 1⟩, true)

/-- `wormhole_del_try_merge`, `wormhole_meta_leaf_merge` and `wormhole_meta_merge`, wh.c:2864-2876, 2569-2586, 2527-2565, on
leaf `i`. -/
def StrMap.tryMerge (s : StrMap) (t : STree) (i : Nat) : Res StrMap :=
  match t[i]?, t[i + 1]? with
  | some l, some n =>
    if l.nr = 0 ∨ l.nr + n.nr < 24 then
      if l.nr + n.nr ≤ 32 then (l.merge n).bind fun l' =>
        (indexMerge s.index l.anchor n.anchor (t.anchorAt (i + 2))).bind fun x =>
        .ok ⟨t.take i ++ l' :: t.drop (i + 2), x, s.calls + 1⟩
      else .ok (s.with t)
    else .ok (s.with t)
  | _, _ => .ok (s.with t)

/-- `wormhole_del`, wh.c:2878-2896. -/
def StrMap.del (s : StrMap) (k : Key) : Res StrMap :=
  (s.jump tags k).bind fun i =>
  match s.leaves[i]? with
  | none => .ub
  | some l =>
    match l.matchHs k with
    | some ih => (l.removeIh ih).bind fun l => s.tryMerge (s.leaves.set i l) i
    | none => .ok s

/-- `wormhole_iter_seek`, wh.c:3107-3120. -/
def StrMap.seek (s : StrMap) (key : Key) : Res (StrMap × Cursor) :=
  (s.jump tags key).bind fun i =>
  match s.leaves[i]? with
  | none => .ub
  | some l =>
    l.sync.bind fun l => (l.seek key).bind fun is =>
      (siterFix (s.leaves.length + 1) (s.leaves.set i l) i is).bind fun (t, cur) => .ok (s.with t, cur)

/-- The other calls do not look at the index. -/
def StrMap.skip1 (s : StrMap) (cur : Cursor) : Res (StrMap × Cursor) :=
  (s.leaves.skip1 cur).bind fun (t, cur) => .ok (s.with t, cur)

/-- See `STree.skip1Rev`. -/
def StrMap.skip1Rev (s : StrMap) (cur : Cursor) : Res (StrMap × Cursor) :=
  (s.leaves.skip1Rev cur).bind fun (t, cur) => .ok (s.with t, cur)

end

/-! ## Clients -/

/-- A program that calls the tree: `wh_put` (with its result), `wh_del` (also with two slots that are read again after it,
which only `Diva<true>` does, Verif/Model/WhIntClient.lean; the pairs of the string tree do not move), `wh_iter_seek`, `wh_iter_skip1`,
`wh_iter_skip1_rev`, `wh_iter_peek_ref`, a store through the pointer that the last one returned, and
`if (it.leaf) wormleaf_unlock_read(it.leaf)`, which matters for locks only (Verif/Model/WhLock.lean). What it does next may
depend on all that was returned before. `fuel` is the number of pairs; the programs below use it only to bound loops.
`ret` ends the program, possibly with undefined behaviour or without end. -/
inductive Client (α : Type) : Type
  | ret (r : Res α)
  | put (k : Key) (st : Store) (next : Bool → Client α)
  | del (k : Key) (next : Client α)
  | delRead (k : Key) (c1 c2 : Cursor) (next : Key × Store → Key × Store → Client α)
  | seek (k : Key) (next : Cursor → Client α)
  | skip (cur : Cursor) (next : Cursor → Client α)
  | back (cur : Cursor) (next : Cursor → Client α)
  | peek (cur : Cursor) (next : Key × Store → Client α)
  | write (cur : Cursor) (st : Store) (next : Client α)
  | release (cur : Cursor) (next : Client α)
  | fuel (next : Nat → Client α)

namespace Client

variable {α β : Type}

/-- One program after the other. -/
def bind : Client α → (α → Client β) → Client β
  | ret (.ok a), f => f a
  | ret .ub, _ => ret .ub
  | ret .hang, _ => ret .hang
  | put k st next, f => put k st fun b => (next b).bind f
  | del k next, f => del k (next.bind f)
  | delRead k c1 c2 next, f => delRead k c1 c2 fun e1 e2 => (next e1 e2).bind f
  | seek k next, f => seek k fun c => (next c).bind f
  | skip cur next, f => skip cur fun c => (next c).bind f
  | back cur next, f => back cur fun c => (next c).bind f
  | peek cur next, f => peek cur fun e => (next e).bind f
  | write cur st next, f => write cur st (next.bind f)
  | release cur next, f => release cur (next.bind f)
  | fuel next, f => fuel fun n => (next n).bind f

instance : Monad Client where
  pure a := ret (.ok a)
  bind := bind

/-- On the leaves alone. -/
def onLeaves : Client α → STree → Res (STree × α)
  | ret r, t => r.bind fun a => .ok (t, a)
  | put k st next, t => (t.put k st).bind fun (t, b) => (next b).onLeaves t
  | del k next, t => (t.del k).bind fun t => next.onLeaves t
  | delRead k c1 c2 next, t =>
    (t.peek c1).bind fun e1 => (t.peek c2).bind fun e2 => (t.del k).bind fun t => (next e1 e2).onLeaves t
  | seek k next, t => (t.seek k).bind fun (t, c) => (next c).onLeaves t
  | skip cur next, t => (t.skip1 cur).bind fun (t, c) => (next c).onLeaves t
  | back cur next, t => (t.skip1Rev cur).bind fun (t, c) => (next c).onLeaves t
  | peek cur next, t => (t.peek cur).bind fun e => (next e).onLeaves t
  | write cur st next, t => next.onLeaves (t.write cur st)
  | release _ next, t => next.onLeaves t
  | fuel next, t => (next (slotCount t)).onLeaves t

/-- On leaves and index. -/
def onIndex (tags : Tags) : Client α → StrMap → Res (StrMap × α)
  | ret r, s => r.bind fun a => .ok (s, a)
  | put k st next, s => (s.put tags k st).bind fun (s, b) => (next b).onIndex tags s
  | del k next, s => (s.del tags k).bind fun s => next.onIndex tags s
  | delRead k c1 c2 next, s =>
    (s.leaves.peek c1).bind fun e1 => (s.leaves.peek c2).bind fun e2 => (s.del tags k).bind fun s => (next e1 e2).onIndex tags s
  | seek k next, s => (s.seek tags k).bind fun (s, c) => (next c).onIndex tags s
  | skip cur next, s => (s.skip1 cur).bind fun (s, c) => (next c).onIndex tags s
  | back cur next, s => (s.skip1Rev cur).bind fun (s, c) => (next c).onIndex tags s
  | peek cur next, s => (s.leaves.peek cur).bind fun e => (next e).onIndex tags s
  | write cur st next, s => next.onIndex tags (s.with (s.leaves.write cur st))
  | release _ next, s => next.onIndex tags s
  | fuel next, s => (next (slotCount s.leaves)).onIndex tags s

/-! ## The filter as a client -/

/-- `wh_put`, its result ignored. -/
def doPut (k : Key) (st : Store) : Client Unit := put k st fun _ => pure ()

def doDel (k : Key) : Client Unit := del k (pure ())

def doSeek (k : Key) : Client Cursor := seek k pure

def doSkip (cur : Cursor) : Client Cursor := skip cur pure

def doBack (cur : Cursor) : Client Cursor := back cur pure

def doPeek (cur : Cursor) : Client (Key × Store) := peek cur pure

def doWrite (cur : Cursor) (st : Store) : Client Unit := write cur st (pure ())

def doRelease (cur : Cursor) : Client Unit := release cur (pure ())

/-- A step that does not touch the tree. -/
def lift (r : Res α) : Client α := ret r

/-- As `STree.locate`. -/
def locate (key : Key) : Client (Cursor × Key × Store × Key) := do
  let cur ← doSeek key
  let e ← doPeek cur
  if e.1 == key then
    let nx ← doSkip cur
    let e' ← doPeek nx
    doRelease nx
    pure (cur, e.1, e.2, e'.1)
  else
    let pv ← doBack cur
    let p ← doPeek pv
    doRelease pv
    pure (pv, p.1, p.2, e.1)

/-- As `strPointQuery`. -/
def pointQuery (c : Cfg) (key : Key) : Client Bool := do
  let cur ← doSeek key
  let e ← doPeek cur
  if e.1 == key then
    doRelease cur
    pure true
  else
    let cur ← doBack cur
    let p ← doPeek cur
    doRelease cur
    if p.2.isPartial && isPrefixOf p.1 key p.2.invalidBits then pure true
    else
      let fr ← lift (getFrame c.infixSize p.1 e.1)
      pure (pointQueryStore c p.2 (sub64 (fr.extract c.infixSize key) (shl64 fr.prevImplicit c.infixSize)))

/-- As `strRangeQuery`. -/
def rangeQuery (c : Cfg) (l r : Key) : Client Bool := do
  let cur ← doSeek l
  let e ← doPeek cur
  if keyLe e.1 r then
    doRelease cur
    pure true
  else
    let cur ← doBack cur
    let p ← doPeek cur
    doRelease cur
    if p.2.isPartial && isPrefixOf p.1 l p.2.invalidBits then pure true
    else
      let fr ← lift (getFrame c.infixSize p.1 e.1)
      pure (rangeTail c p.2 fr l r)

/-- As `strInsertSimple`. -/
def insertSimple (c : Cfg) (key : Key) : Client Unit := do
  let q ← locate key
  let fr ← lift (getFrame c.infixSize q.2.1 q.2.2.2)
  doWrite q.1 (insertRaw c q.2.2.1 (fr.item c.infixSize key) fr.total)

/-- As `strInsertSplit`. -/
def insertSplit (c : Cfg) (key : Key) : Client Unit := do
  let q ← locate key
  match ← lift (planAt c key q.2.1 q.2.2.1 q.2.2.2) with
  | none => insertSimple c key
  | some d =>
    let storeL := ((allocWithList c d.left d.totalL).setInvalidBits d.store.invalidBits).setPartial d.store.isPartial
    match d.zeroPos with
    | some zp =>
      if d.right.length = 0 then lift .ub
      else
        let storeG := insertRaw c (allocWithList c (d.right.drop 1) d.totalG) d.keyItem d.totalG
        doPut d.prev storeL
        doPut d.edited ((storeG.setInvalidBits (7 - (zp - 1) % 8)).setPartial true)
    | none =>
      doPut d.prev storeL
      doPut key (allocWithList c d.right d.totalG)

/-- As `strInsert`. -/
def insert (c : Cfg) (key : Key) (split : Bool) : Client Unit := if split then insertSplit c key else insertSimple c key

/-- As `strDeleteMerge`. -/
def deleteMerge (c : Cfg) (cm : Cursor) : Client Unit := do
  let s := c.infixSize
  let mid ← doPeek cm
  let cr ← doSkip cm
  let right ← doPeek cr
  let cm ← doBack cr
  let cl ← doBack cm
  let left ← doPeek cl
  doRelease cl
  let listL := getInfixList c left.2
  let listR := getInfixList c mid.2
  let fr ← lift (getFrame s left.1 right.1)
  if listL.length ≠ left.2.elemCount ∨ listR.length ≠ mid.2.elemCount then lift .ub
  else
    let newL ← lift (updateInfixListDelete s fr.shared fr.ignore fr.implicitSize left.1 mid.1 listL)
    let newR ← lift (updateInfixListDelete s fr.shared fr.ignore fr.implicitSize mid.1 right.1 listR)
    let list := (newL ++ newR).map fun x => sub64 x (shl64 fr.prevImplicit s)
    doDel mid.1
    doPut left.1 (((allocWithList c list fr.total).setPartial left.2.isPartial).setInvalidBits left.2.invalidBits)

/-- As `STree.around`. -/
def around (cur : Cursor) (e : Key × Store) (key : Key) : Client (Cursor × Key × Store × Key) := do
  if e.1 == key then
    let nx ← doSkip cur
    let e' ← doPeek nx
    let cur ← doBack nx
    pure (cur, e.1, e.2, e'.1)
  else
    let pv ← doBack cur
    let p ← doPeek pv
    pure (pv, p.1, p.2, e.1)

/-- As `strDelete`. -/
def delete (c : Cfg) (key : Key) : Client Unit := do
  let cur ← doSeek key
  let e ← doPeek cur
  if e.1 == key && !e.2.isPartial then deleteMerge c cur
  else
    let q ← around cur e key
    let fr ← lift (getFrame c.infixSize q.2.1 q.2.2.2)
    let deletee := fr.item c.infixSize key
    if q.2.2.1.isPartial && mergesPartial c fr q.2.1 q.2.2.1 deletee then deleteMerge c q.1
    else
      doRelease q.1
      doWrite q.1 (deleteRaw c q.2.2.1 deletee fr.total)

/-- As `strAddTreeKey`. -/
def addTreeKey (key : Key) : Client Unit := doPut key (Store.new growSep)

/-- As `strBulkRegion`. -/
def bulkRegion (c : Cfg) (left right : Key) (keys : List Key) (g : Nat) : Client Unit := do
  let fr ← lift (getFrame c.infixSize left right)
  doPut left (loadList c (Store.new g) (bulkItems c.infixSize fr keys) fr.total false)

/-- As `strBulkLoop`. -/
def bulkLoop (c : Cfg) (keys : List Key) : Nat → Nat → Nat → Client Nat
  | 0, _, last => pure last
  | n + 1, j, last =>
    if j % 1024 = 0 then do
      bulkRegion c (keys.getD last []) (keys.getD j []) ((keys.drop (last + 1)).take 1023) growSep
      bulkLoop c keys n (j + 1) (last + 1024)
    else bulkLoop c keys n (j + 1) last

/-- As `strBulkCore`. -/
def bulkCore (c : Cfg) (keys : List Key) : Client Unit :=
  if keys.length = 0 then lift .ub
  else do
    let last ← bulkLoop c keys (keys.length - 1) 1 0
    let n := keys.length
    let right := keys.getD (n - 1) []
    let mid := (keys.drop (last + 1)).take (n - 1 - (last + 1))
    bulkRegion c (keys.getD last []) right mid (findGrade c mid.length 500 0)
    if n - 1 ≠ last then addTreeKey right else pure ()

/-- As `strBulkFixed`. -/
def bulkFixed (c : Cfg) (keyLen : Nat) (keys : List Key) : Client Cfg := do
  addTreeKey (List.replicate keyLen 0)
  addTreeKey (List.replicate keyLen 255)
  bulkCore c keys
  pure c

/-- As `strBulkVar`. -/
def bulkVar (c : Cfg) (keys : List Key) : Client Cfg := do
  addTreeKey (List.replicate 8 0)
  bulkCore c keys
  addTreeKey (List.replicate (keys.foldl (fun m k => max m k.length) 0) 255)
  pure c

/-- As `strStreamKey`. -/
def streamKey (c : Cfg) (b : Stream) (key : Key) : Client Stream :=
  match b.left with
  | none => pure { b with left := some key, maxLen := key.length }
  | some left =>
    let maxLen := max b.maxLen key.length
    if b.keys.length < 1023 then pure ⟨some left, b.keys ++ [key], maxLen⟩
    else do
      bulkRegion c left key b.keys growSep
      pure ⟨some key, [], maxLen⟩

/-- As `strStreamFinish`. -/
def streamFinish (c : Cfg) (b : Stream) : Client Unit :=
  if b.left.isNone then lift .ub
  else do
    addTreeKey (List.replicate b.maxLen 0)
    addTreeKey (List.replicate b.maxLen 255)
    if b.keys.length > 0 then
      let right := b.keys.getLastD []
      let keys := b.keys.dropLast
      bulkRegion c (b.left.getD []) right keys (findGrade c keys.length 500 0)
      addTreeKey right
    else pure ()

/-- `BulkLoadStreaming` on every key. -/
def streamKeys (c : Cfg) : List Key → Stream → Client Stream
  | [], b => pure b
  | k :: ks, b => do
    let b ← streamKey c b k
    streamKeys c ks b

/-- As `strStreamAll`. -/
def streamAll (c : Cfg) (keys : List Key) : Client Cfg := do
  let b ← streamKeys c keys ⟨none, [], 0⟩
  streamFinish c b
  pure c

/-- As `STree.scanLoop`. The loop ends with `it.leaf` null, so nothing is unlocked after it; so in `shrinkLoop`. -/
def scanLoop (g : α → Key × Store → α) : Nat → Cursor → α → Client α
  | 0, _, _ => lift .hang
  | n + 1, cur, acc =>
    match cur with
    | none => pure acc
    | some c => do
      let e ← doPeek (some c)
      let cur ← doSkip (some c)
      scanLoop g n cur (g acc e)

/-- As `STree.scan`. -/
def scan (g : α → Key × Store → α) (acc : α) : Client α := do
  let cur ← doSeek []
  fuel fun n => scanLoop g (n + 1) cur acc

/-- As `strSize`. -/
def size (c : Cfg) : Client Nat := do
  let res ← scan (fun res e => res + sizeEntry false c e) (1 + 12 * 4)
  pure ((res + 4) % 2 ^ 32)

/-- As `strSerialize`. -/
def serialize (seed lf : Nat) (c : Cfg) : Client (List UInt8) := do
  let out ← scan (fun out e => out ++ serializeEntry c e) (serializeMetadata false c.infixSize seed lf)
  pure (out ++ leBytes 4 (2 ^ 32 - 1))

/-- As `strShrinkLoop`. -/
def shrinkLoop (c : Cfg) (s' : Nat) : Nat → Cursor → Client Unit
  | 0, _ => lift .hang
  | n + 1, cur => do
    let e ← doPeek cur
    doWrite cur (shrinkStore c e.2 s')
    let cur ← doSkip cur
    if cur.isSome then shrinkLoop c s' n cur else pure ()

/-- As `strShrink`. -/
def shrink (c : Cfg) (s' : Nat) : Client Cfg := do
  let cur ← doSeek []
  fuel fun n => shrinkLoop c s' (n + 1) cur
  pure { c with infixSize := s' }

/-- As `strDeserLoop`. -/
def deserLoop (c : Cfg) : Nat → List UInt8 → Client Unit
  | 0, _ => lift .hang
  | n + 1, buf => do
    let q ← lift (readLe 4 buf)
    if q.1 = 2 ^ 32 - 1 then pure ()
    else if q.1 > 20000 ∨ q.2.length < roundKeyLen q.1 then lift .ub
    else
      let p ← lift (deserializeStore c (q.2.drop (roundKeyLen q.1)))
      doPut (q.2.take q.1) p.1
      deserLoop c n p.2

/-- As `strDeserialize`. -/
def deserialize (buf : List UInt8) : Client Cfg := do
  let q ← lift (deserializeMetadata false buf)
  deserLoop (cfg95 q.1) (q.2.2.length + 1) q.2.2
  pure (cfg95 q.1)

end Client

end Verif
