import Verif.Model.WhMeta

/-!
# The integer tree with its index

The operations of Verif/Model/WhTree.lean once more, now with the leaf of a key found through the index, and the index
changed when leaves split or merge. The operations of the filter on top are the same code over this tree.
-/

namespace Verif

/-- `struct wormhole_int`, wh_int.c:100-120. `calls` counts the calls made so far; what the tags of the hash table answer
for absent prefixes may depend on it. -/
structure WhMap where
  leaves : Wh
  index : Index
  calls : Nat

/-- `wormhmap_peek`, wh_int.c:764-772: whether a tag of the prefix is found. -/
abbrev Tags := Nat → Index → Key → Bool

/-- `wormhole_create_internal`, wh_int.c:1133-1199. -/
def WhMap.empty : WhMap := ⟨Wh.empty, Index.empty, 0⟩

variable (tags : Tags)

/-- `wormhole_jump_leaf_read` and `wormhole_jump_leaf_write`, wh_int.c:1357-1409: the position of the leaf. -/
def WhMap.jump (s : WhMap) (key : Key) : Res Nat :=
  (indexJump (tags s.calls s.index) s.index key).bind fun a =>
    match s.leaves.findIdx? (fun l => l.anchor == a) with
    | none => .ub
    | some i => .ok i

/-- Anchor of the leaf at a position, if there is one. -/
def Wh.anchorAt (t : Wh) (i : Nat) : Option Key := t[i]?.map Leaf.anchor

/-- Store other leaves. -/
def WhMap.with (s : WhMap) (t : Wh) : WhMap := ⟨t, s.index, s.calls + 1⟩

/-- `wormhole_int_put`, wh_int.c:2381-2408, with `wormhole_split_meta`, 2097-2151. -/
def WhMap.put (s : WhMap) (k : Key) (st : Store) : Res WhMap :=
  (s.jump tags k).bind fun i =>
  match s.leaves[i]? with
  | none => .ub
  | some l =>
    (l.searchEq k).bind fun
      | some pos => .ok (s.with (s.leaves.set i (l.update pos (k, st))))
      | none =>
        if l.nr < 32 then (l.append (k, st)).bind fun l => .ok (s.with (s.leaves.set i l))
        else (l.split (decide (i + 1 < s.leaves.length)) (k, st)).bind fun (a, b) =>
          (indexSplit s.index a.anchor b.anchor (s.leaves.anchorAt (i + 1))).bind fun x =>
          .ok ⟨s.leaves.take i ++ a :: b :: s.leaves.drop (i + 1), x, s.calls + 1⟩

/-- `wormhole_del_try_merge` and `wormhole_meta_merge`, wh_int.c:2471-2483, 2296-2338, on leaf `i`. -/
def WhMap.tryMerge (s : WhMap) (t : Wh) (i : Nat) : Res WhMap :=
  match t[i]?, t[i + 1]? with
  | some l, some n =>
    if l.nr = 0 ∨ l.nr + n.nr < 24 then
      if l.nr + n.nr ≤ 32 then (l.merge n).bind fun l' =>
        (indexMerge s.index l.anchor n.anchor (t.anchorAt (i + 2))).bind fun x =>
        .ok ⟨t.take i ++ l' :: t.drop (i + 2), x, s.calls + 1⟩
      else .ok (s.with t)
    else .ok (s.with t)
  | _, _ => .ok (s.with t)

/-- `wormhole_int_del`, wh_int.c:2485-2499. -/
def WhMap.del (s : WhMap) (k : Key) : Res WhMap :=
  (s.jump tags k).bind fun i =>
  match s.leaves[i]? with
  | none => .ub
  | some l =>
    (l.searchEq k).bind fun
      | some pos => s.tryMerge (s.leaves.set i (l.remove pos)) i
      | none => .ok s

/-- `wormhole_int_iter_seek`, wh_int.c:2709-2721. -/
def WhMap.seek (s : WhMap) (key : Key) : Res (WhMap × Cursor) :=
  (s.jump tags key).bind fun i =>
  match s.leaves[i]? with
  | none => .ub
  | some l =>
    l.sync.bind fun l => (l.search key).bind fun is =>
      (iterFix (s.leaves.length + 1) (s.leaves.set i l) i is).bind fun (t, cur) => .ok (s.with t, cur)

/-- The other calls do not look at the index. -/
def WhMap.skip1 (s : WhMap) (cur : Cursor) : Res (WhMap × Cursor) :=
  (s.leaves.skip1 cur).bind fun (t, cur) => .ok (s.with t, cur)

/-- See `Wh.skip1Rev`. -/
def WhMap.skip1Rev (s : WhMap) (cur : Cursor) : Res (WhMap × Cursor) :=
  (s.leaves.skip1Rev cur).bind fun (t, cur) => .ok (s.with t, cur)

/-- See `Wh.peek`. -/
def WhMap.peek (s : WhMap) (cur : Cursor) : Res (Key × Store) := s.leaves.peek cur

/-- See `Wh.write`. -/
def WhMap.write (s : WhMap) (cur : Cursor) (st : Store) : WhMap := s.with (s.leaves.write cur st)

/-! ## The filter -/

/-- As `WhFilter`. -/
structure IxFilter where
  cfg : Cfg
  tree : WhMap

/-- The region of a modified key, diva.hpp:459-482. -/
def WhMap.locate (s : WhMap) (key : Key) : Res (WhMap × Cursor × Key × Store × Key) :=
  (s.seek tags key).bind fun (t, cur) =>
  (t.peek cur).bind fun e =>
  if e.1 == key then
    (t.skip1 cur).bind fun (t, nx) => (t.peek nx).bind fun e' => .ok (t, cur, e.1, e.2, e'.1)
  else (t.skip1Rev cur).bind fun (t, pv) => (t.peek pv).bind fun p => .ok (t, pv, p.1, p.2, e.1)

/-- `PointQuery` of `Diva<true>`, diva.hpp:657-728. -/
def ixPointQuery (f : IxFilter) (key : Key) : Res (IxFilter × Bool) :=
  let s := f.cfg.infixSize
  (f.tree.seek tags key).bind fun (t, cur) =>
  (t.peek cur).bind fun e =>
    if e.1 == key then .ok (⟨f.cfg, t⟩, true)
    else (t.skip1Rev cur).bind fun (t, cur) =>
      (t.peek cur).bind fun p =>
      if p.2.isPartial && isPrefixOf p.1 key p.2.invalidBits then .ok (⟨f.cfg, t⟩, true)
      else (getFrame s p.1 e.1).bind fun fr =>
        .ok (⟨f.cfg, t⟩, pointQueryStore f.cfg p.2 (sub64 (fr.extract s key) (shl64 fr.prevImplicit s)))

/-- `RangeQuery` of `Diva<true>`, diva.hpp:543-628. -/
def ixRangeQuery (f : IxFilter) (l r : Key) : Res (IxFilter × Bool) :=
  let s := f.cfg.infixSize
  (f.tree.seek tags l).bind fun (t, cur) =>
  (t.peek cur).bind fun e =>
    if keyLe e.1 r then .ok (⟨f.cfg, t⟩, true)
    else (t.skip1Rev cur).bind fun (t, cur) =>
      (t.peek cur).bind fun p =>
      if p.2.isPartial && isPrefixOf p.1 l p.2.invalidBits then .ok (⟨f.cfg, t⟩, true)
      else (getFrame s p.1 e.1).bind fun fr => .ok (⟨f.cfg, t⟩, rangeTailInt f.cfg p.2 fr p.1 l r)

/-- `InsertSimple` of `Diva<true>`, diva.hpp:452-523. -/
def ixInsertSimple (f : IxFilter) (key : Key) : Res IxFilter :=
  let c := f.cfg
  (f.tree.locate tags key).bind fun (t, cur, prev, st, next) =>
    (getFrame c.infixSize prev next).bind fun fr =>
      .ok ⟨c, t.write cur (insertRaw c st (fr.item c.infixSize key) fr.total)⟩

/-- `InsertSplit` of `Diva<true>`, diva.hpp:742-938. -/
def ixInsertSplit (f : IxFilter) (key : Key) : Res IxFilter :=
  let c := f.cfg
  (f.tree.locate tags key).bind fun (t, _, prev, st, next) =>
  (planAt c key prev st next).bind fun
    | none => ixInsertSimple tags ⟨c, t⟩ key
    | some d =>
      let storeL := ((allocWithList c d.left d.totalL).setInvalidBits d.store.invalidBits).setPartial d.store.isPartial
      match d.zeroPos with
      | some zp =>
        if d.right.length = 0 then .ub
        else
          let storeG := insertRaw c (allocWithList c (d.right.drop 1) d.totalG) d.keyItem d.totalG
          let storeG := (storeG.setInvalidBits (7 - (zp - 1) % 8)).setPartial true
          (t.put tags d.prev storeL).bind fun t => (t.put tags d.edited storeG).bind fun t => .ok ⟨c, t⟩
      | none =>
        (t.put tags d.prev storeL).bind fun t =>
        (t.put tags key (allocWithList c d.right d.totalG)).bind fun t => .ok ⟨c, t⟩

/-- `Insert` of `Diva<true>`, diva.hpp:443-449. -/
def ixInsert (f : IxFilter) (key : Key) (split : Bool) : Res IxFilter :=
  if split then ixInsertSplit tags f key else ixInsertSimple tags f key

/-- `DeleteMerge` of `Diva<true>`, diva.hpp:1565-1643, as in `whDeleteMerge`. -/
def ixDeleteMerge (c : Cfg) (t : WhMap) (cm : Cursor) : Res IxFilter :=
  let s := c.infixSize
  (t.peek cm).bind fun (middle, storeR) =>
  (t.skip1 cm).bind fun (t, cr) =>
  (t.peek cr).bind fun (right, _) =>
  (t.skip1Rev cr).bind fun (t, cm) =>
  (t.skip1Rev cm).bind fun (t, cl) =>
  (t.peek cl).bind fun (left, storeL) =>
    let listL := getInfixList c storeL
    let listR := getInfixList c storeR
    (getFrame s left right).bind fun fr =>
    if listL.length ≠ storeL.elemCount ∨ listR.length ≠ storeR.elemCount then .ub
    else
    (updateInfixListDelete s fr.shared fr.ignore fr.implicitSize left middle listL).bind fun newL =>
    (updateInfixListDelete s fr.shared fr.ignore fr.implicitSize middle right listR).bind fun newR =>
    let list := (newL ++ newR).map fun x => sub64 x (shl64 fr.prevImplicit s)
    (t.jump tags middle).bind fun i =>
    (t.del tags middle).bind fun t' =>
    (Wh.reread t.leaves t'.leaves i cl).bind fun (keyL, storeL') =>
    (Wh.reread t.leaves t'.leaves i cr).bind fun (keyR, _) =>
      let left' := slotBytes keyL left.length
      let right' := slotBytes keyR right.length
      let leftExtraction := extractPartialKey s left' fr.shared fr.ignore fr.implicitSize 0
      let rightExtraction := extractPartialKey s right' fr.shared fr.ignore fr.implicitSize 1
      let total := add32 (sub64 (rightExtraction >>> s) (leftExtraction >>> s) % 2 ^ 32) 1
      let store := ((allocWithList c list total).setPartial storeL'.isPartial).setInvalidBits storeL'.invalidBits
      (t'.put tags left' store).bind fun t => .ok ⟨c, t⟩

/-- The region of a deleted key, diva.hpp:1481-1497. -/
def WhMap.around (t : WhMap) (cur : Cursor) (e : Key × Store) (key : Key) : Res (WhMap × Cursor × Key × Store × Key) :=
  if e.1 == key then
    (t.skip1 cur).bind fun (t, nx) => (t.peek nx).bind fun e' =>
    (t.skip1Rev nx).bind fun (t, cur) => .ok (t, cur, e.1, e.2, e'.1)
  else (t.skip1Rev cur).bind fun (t, pv) => (t.peek pv).bind fun p => .ok (t, pv, p.1, p.2, e.1)

/-- `Delete` of `Diva<true>`, diva.hpp:1461-1562. -/
def ixDelete (f : IxFilter) (key : Key) : Res IxFilter :=
  let c := f.cfg
  let s := c.infixSize
  (f.tree.seek tags key).bind fun (t, cur) =>
  (t.peek cur).bind fun e =>
  if e.1 == key && !e.2.isPartial then ixDeleteMerge tags c t cur
  else
  (t.around cur e key).bind fun (t, cur, prev, st, next) =>
  (getFrame s prev next).bind fun fr =>
    let deletee := fr.item s key
    if st.isPartial && mergesPartial c fr prev st deletee then ixDeleteMerge tags c t cur
    else .ok ⟨c, t.write cur (deleteRaw c st deletee fr.total)⟩

/-- `AddTreeKey` of `Diva<true>`, diva.hpp:732-738. -/
def ixAddTreeKey (t : WhMap) (key : Key) : Res WhMap := t.put tags key (Store.new growSep)

/-- One region, diva.hpp:1748-1771, 1791-1816. -/
def ixBulkRegion (c : Cfg) (t : WhMap) (left right : Key) (keys : List Key) (g : Nat) : Res WhMap :=
  (getFrame c.infixSize left right).bind fun fr =>
    t.put tags left (loadList c (Store.new g) (bulkItems c.infixSize fr keys) fr.total false)

/-- Main loop of `BulkLoadFixedLength`, diva.hpp:1738-1779. -/
def ixBulkLoop (c : Cfg) (keys : List Key) : Nat → Nat → Nat → WhMap → Res (WhMap × Nat)
  | 0, _, last, t => .ok (t, last)
  | fuel + 1, j, last, t =>
    if j % 1024 = 0 then
      (ixBulkRegion tags c t (keys.getD last []) (keys.getD j []) ((keys.drop (last + 1)).take 1023) growSep).bind fun t' =>
        ixBulkLoop c keys fuel (j + 1) (last + 1024) t'
    else ixBulkLoop c keys fuel (j + 1) last t

/-- The bulk load up to the last key's `AddTreeKey`, diva.hpp:1728-1819. -/
def ixBulkCore (c : Cfg) (t : WhMap) (keys : List Key) : Res WhMap :=
  if keys.length = 0 then .ub
  else
    (ixBulkLoop tags c keys (keys.length - 1) 1 0 t).bind fun (t1, last) =>
      let n := keys.length
      let right := keys.getD (n - 1) []
      let mid := (keys.drop (last + 1)).take (n - 1 - (last + 1))
      (ixBulkRegion tags c t1 (keys.getD last []) right mid (findGrade c mid.length 500 0)).bind fun t2 =>
        if n - 1 ≠ last then ixAddTreeKey tags t2 right else .ok t2

/-- Constructor of `Diva<true>` for fixed-length keys, diva.hpp:340-369. -/
def ixBulkFixed (c : Cfg) (keyLen : Nat) (keys : List Key) : Res IxFilter :=
  (ixAddTreeKey tags WhMap.empty (List.replicate keyLen 0)).bind fun t =>
  (ixAddTreeKey tags t (List.replicate keyLen 255)).bind fun t =>
  (ixBulkCore tags c t keys).bind fun t => .ok ⟨c, t⟩

end Verif
