import Verif.Model.WhInt
import Verif.Model.Delete

/-!
# The leaves of the integer tree

`Diva<true>` keeps its boundary keys in a `wormhole_int` (wh_int.c): a doubly linked list of leaves with up to 32
unsorted slots each, and an index that finds the leaf of a key. Here: the leaves, the iterator, `put` and `del`, and the
operations of the filter on top of them. Leaves are looked up by their
anchors here; Verif/Model/WhMeta.lean and Verif/Model/WhFull.lean model the index.

Simplifications: one thread, so locks and versions are left out (Verif/Model/WhIntLock.lean adds them);
allocations succeed; keys have at most eight bytes, so the anchors are short.
-/

namespace Verif

/-- A slot cleared by `memset`, wh_int.c:486. -/
def Store.zero : Store := ⟨0, 0⟩

/-- `struct wormleaf_int`, wh_int.c:60-79: `kvs` (always 32 slots, the ones from `nr_keys` on are leftovers), `nr_keys`,
`nr_sorted`. The slots below `nr_sorted` are meant to be in order. -/
structure Leaf where
  anchor : Key
  slots : List (Key × Store)
  nr : Nat
  sorted : Nat

/-- `wormleaf_int_alloc`, wh_int.c:465-488. -/
def Leaf.new (anchor : Key) : Leaf := ⟨anchor, List.replicate 32 ([], Store.zero), 0, 0⟩

/-- The list of leaves in the order of the links. -/
abbrev Wh := List Leaf

/-- `wormhole_create_leaf0`, wh_int.c:1094-1131. -/
def Wh.empty : Wh := [Leaf.new []]

/-- The slots in use. -/
def Leaf.entries (l : Leaf) : List (Key × Store) := l.slots.take l.nr

/-! ## Reading a leaf -/

/-- The loop of `wormleaf_int_search` and `wormleaf_int_search_eq`, wh_int.c:1451-1461, 1430-1439. -/
def leafLoop (slots : List (Key × Store)) (key : Key) : Nat → Int → Int → Res Nat
  | 0, _, hi => .ok hi.toNat
  | fuel + 1, lo, hi =>
    if hi - lo > 1 then
      let i := (lo + hi) / 2
      match slots[i.toNat]? with
      | none => .ub
      | some e => if compareKeys key e.1 ≤ 0 then leafLoop slots key fuel lo i else leafLoop slots key fuel i hi
    else .ok hi.toNat

/-- `wormleaf_int_search`, wh_int.c:1447-1463. (The null pointer of line 1449 comes with the empty key, for which the
loop returns 0 too.) -/
def Leaf.search (l : Leaf) (key : Key) : Res Nat := leafLoop l.slots key (l.sorted + 1) (-1) l.sorted

/-- `wormleaf_int_search_eq`, wh_int.c:1427-1442. Only the sorted slots and the one behind them are looked at. -/
def Leaf.searchEq (l : Leaf) (key : Key) : Res (Option Nat) :=
  (l.search key).bind fun hi =>
    if hi < l.nr then
      match l.slots[hi]? with
      | none => .ub
      | some e => .ok (if compareKeys key e.1 = 0 then some hi else none)
    else .ok none

/-! ## Writing a leaf -/

/-- Insert into a sorted list of slots. -/
def slotInsert (x : Key × Store) : List (Key × Store) → List (Key × Store)
  | [] => [x]
  | y :: l => if compareKeys x.1 y.1 ≤ 0 then x :: y :: l else y :: slotInsert x l

/-- `wormleaf_sort_range`, wh_int.c:1554-1557: `qsort_r`. Keys in a leaf are distinct, so the order of equal keys does
not matter. -/
def slotSort : List (Key × Store) → List (Key × Store)
  | [] => []
  | x :: l => slotInsert x (slotSort l)

/-- `wormleaf_int_sort_m2`, wh_int.c:1492-1543. The code merges in place, forwards or backwards depending on the
lengths; both give the merged list. Equal keys end in `debug_die` (lib.c:455-460), which waits forever. -/
def mergeSlots : Nat → List (Key × Store) → List (Key × Store) → Res (List (Key × Store))
  | _, [], b => .ok b
  | _, x :: a, [] => .ok (x :: a)
  | 0, _ :: _, _ :: _ => .hang
  | fuel + 1, x :: a, y :: b =>
    if compareKeys x.1 y.1 < 0 then (mergeSlots fuel a (y :: b)).bind fun r => .ok (x :: r)
    else if compareKeys x.1 y.1 > 0 then (mergeSlots fuel (x :: a) b).bind fun r => .ok (y :: r)
    else .hang

/-- `wormleaf_int_sync_sorted`, wh_int.c:1560-1572. If `nr_sorted` exceeds `nr_keys` the number of slots to sort wraps
around and `qsort_r` runs over memory outside the leaf. -/
def Leaf.sync (l : Leaf) : Res Leaf :=
  if l.sorted = l.nr then .ok l
  else if l.nr < l.sorted then .ub
  else
    (mergeSlots 64 (l.entries.take l.sorted) (slotSort (l.entries.drop l.sorted))).bind fun r =>
      .ok { l with slots := r ++ l.slots.drop l.nr, sorted := l.nr }

/-- `wormleaf_int_insert` and `wormleaf_int_insert_isp`, wh_int.c:1589-1634: the slot is appended; `nr_sorted` grows if
the leaf is in order and stays so. -/
def Leaf.append (l : Leaf) (e : Key × Store) : Res Leaf :=
  if l.nr ≥ 32 then .ub
  else .ok { l with
    slots := l.slots.set l.nr e
    nr := l.nr + 1
    sorted :=
      if l.nr = l.sorted then
        if l.nr ≠ 0 then
          if compareKeys (l.slots.getD (l.nr - 1) ([], Store.zero)).1 e.1 ≤ 0 then l.nr + 1 else l.sorted
        else 1
      else l.sorted }

/-- `wormleaf_int_remove`, wh_int.c:1637-1645: the last slot takes the place of the removed one. -/
def Leaf.remove (l : Leaf) (pos : Nat) : Leaf :=
  { l with
    slots := l.slots.set pos (l.slots.getD (l.nr - 1) ([], Store.zero))
    sorted := if l.sorted > pos then pos else l.sorted
    nr := l.nr - 1 }

/-- `wormleaf_int_update`, wh_int.c:1659-1666. -/
def Leaf.update (l : Leaf) (pos : Nat) (e : Key × Store) : Leaf := { l with slots := l.slots.set pos e }

/-! ## Splitting a leaf -/

/-- `isp_key_lcp`, wh_int.c:138-143: number of equal leading bytes. -/
def keyLcp : Key → Key → Nat
  | a :: as, b :: bs => if a = b then keyLcp as bs + 1 else 0
  | _, _ => 0

/-- `wormhole_isp_split_cut_alen_check`, wh_int.c:1679-1685. The shift selects byte `8 - alen`, not byte `alen - 1` as the
version for strings does, because the key is kept in little-endian order; the test only chooses where to cut. -/
def alenCheck (alen : Nat) (k1 k2 : Key) : Bool :=
  k1.length < alen || byteAt k1 (8 - alen) != byteAt k2 (8 - alen)

/-- The loop of `wormhole_split_cut_search1`, wh_int.c:1711-1729; `all` is the list of keys with the new one. -/
def cutLoop (all : List (Key × Store)) (alen target : Nat) : Nat → Nat → Nat → Nat
  | 0, _, h => h
  | fuel + 1, l, h =>
    if l + 1 < h then
      let m := (l + h + 1) / 2
      let at' := fun i => (all.getD i ([], Store.zero)).1
      if m ≤ target then
        if alenCheck alen (at' m) (at' h) then cutLoop all alen target fuel m h
        else cutLoop all alen target fuel l m
      else if alenCheck alen (at' l) (at' m) then cutLoop all alen target fuel l m
      else cutLoop all alen target fuel m h
    else h

/-- A leaf with exactly these slots, all in order. -/
def Leaf.full (anchor : Key) (es : List (Key × Store)) : Leaf :=
  ⟨anchor, es ++ List.replicate (32 - es.length) ([], Store.zero), es.length, es.length⟩

/-- `wormhole_split_leaf` and its helpers, wh_int.c:1698-1849; `hasNext` tells whether the leaf has a next one
(line 1710). -/
def Leaf.split (l : Leaf) (hasNext : Bool) (e : Key × Store) : Res (Leaf × Leaf) :=
  l.sync.bind fun l =>
  (l.search e.1).bind fun is1 =>
    let all := l.entries.take is1 ++ e :: l.entries.drop is1
    let at' := fun i => (all.getD i ([], Store.zero)).1
    let cut := cutLoop all (keyLcp (at' 0) (at' l.nr) + 1) (if hasNext then 16 else 24) 64 0 l.nr
    let anchor := (at' cut).take (keyLcp (at' (cut - 1)) (at' cut) + 1)
    .ok (Leaf.full l.anchor (all.take cut), Leaf.full anchor (all.drop cut))

/-! ## The tree -/

/-- `wormhole_int_jump_leaf`, wh_int.c:1346-1411: the leaf of a key, by its meaning: the last one whose anchor is not above the
key. `WhMap.jump` goes through the index. -/
def Wh.jump (t : Wh) (key : Key) : Nat := t.findIdx (fun l => keyLt key l.anchor) - 1

/-- `wormhole_int_put`, wh_int.c:2381-2408, with `wormhole_split_insert`, 2157-2174, and the links, 2118-2122. -/
def Wh.put (t : Wh) (k : Key) (st : Store) : Res Wh :=
  let i := t.jump k
  match t[i]? with
  | none => .ub
  | some l =>
    (l.searchEq k).bind fun
      | some pos => .ok (t.set i (l.update pos (k, st)))
      | none =>
        if l.nr < 32 then (l.append (k, st)).bind fun l => .ok (t.set i l)
        else (l.split (decide (i + 1 < t.length)) (k, st)).bind fun (a, b) => .ok (t.take i ++ a :: b :: t.drop (i + 1))

/-- `wormleaf_merge`, wh_int.c:1860-1871. -/
def Leaf.merge (l1 l2 : Leaf) : Res Leaf :=
  (l2.entries.foldl (fun r e => Res.bind r fun l => l.append e) (Res.ok l1)).bind fun l =>
    .ok (if l1.nr = l1.sorted then { l with sorted := l.sorted + l2.sorted } else l)

/-- `wormhole_del_try_merge` and `wormhole_meta_leaf_merge`, wh_int.c:2471-2483, 2341-2358, on leaf `i`. -/
def Wh.tryMerge (t : Wh) (i : Nat) : Res Wh :=
  match t[i]?, t[i + 1]? with
  | some l, some n =>
    if l.nr = 0 ∨ l.nr + n.nr < 24 then
      if l.nr + n.nr ≤ 32 then (l.merge n).bind fun l => .ok (t.take i ++ l :: t.drop (i + 2)) else .ok t
    else .ok t
  | _, _ => .ok t

/-- `wormhole_int_del`, wh_int.c:2485-2499. -/
def Wh.del (t : Wh) (k : Key) : Res Wh :=
  let i := t.jump k
  match t[i]? with
  | none => .ub
  | some l =>
    (l.searchEq k).bind fun
      | some pos => Wh.tryMerge (t.set i (l.remove pos)) i
      | none => .ok t

/-! ## The iterator -/

/-- `leaf` and `is` of `struct wormhole_int_iter`, wh_int.h:22-27; `none` is the null leaf. -/
abbrev Cursor := Option (Nat × Nat)

/-- `wormhole_int_iter_fix`, wh_int.c:2660-2682. -/
def iterFix : Nat → Wh → Nat → Nat → Res (Wh × Cursor)
  | 0, _, _, _ => .hang
  | fuel + 1, t, i, is =>
    match t[i]? with
    | none => .ub
    | some l =>
      if is ≥ l.sorted then
        match t[i + 1]? with
        | none => .ok (t, none)
        | some n => n.sync.bind fun n => iterFix fuel (t.set (i + 1) n) (i + 1) 0
      else .ok (t, some (i, is))

/-- `wormhole_int_iter_fix_rev`, wh_int.c:2684-2706, when `is` is -1 in leaf `i`. -/
def iterFixRev : Wh → Nat → Res (Wh × Cursor)
  | t, 0 => .ok (t, none)
  | t, i + 1 =>
    match t[i]? with
    | none => .ub
    | some p => p.sync.bind fun p => if p.nr = 0 then iterFixRev (t.set i p) i else .ok (t.set i p, some (i, p.nr - 1))

/-- `wormhole_int_iter_seek`, wh_int.c:2709-2721. -/
def Wh.seek (t : Wh) (key : Key) : Res (Wh × Cursor) :=
  let i := t.jump key
  match t[i]? with
  | none => .ub
  | some l =>
    l.sync.bind fun l => (l.search key).bind fun is => iterFix (t.length + 1) (t.set i l) i is

/-- `wormhole_int_iter_skip1`, wh_int.c:2774-2780. -/
def Wh.skip1 (t : Wh) : Cursor → Res (Wh × Cursor)
  | none => .ok (t, none)
  | some (i, is) => iterFix (t.length + 1) t i (is + 1)

/-- `wormhole_int_iter_skip1_rev`, wh_int.c:2803-2810. -/
def Wh.skip1Rev (t : Wh) : Cursor → Res (Wh × Cursor)
  | none => .ok (t, none)
  | some (i, is) => if is = 0 then iterFixRev t i else .ok (t, some (i, is - 1))

/-- `wh_int_iter_peek_ref`, wh_int.c:3317-3325: undefined on a null leaf. -/
def Wh.peek (t : Wh) : Cursor → Res (Key × Store)
  | none => .ub
  | some (i, is) =>
    match t[i]? with
    | none => .ub
    | some l =>
      match l.slots[is]? with
      | none => .ub
      | some e => .ok e

/-- Write access through the pointer that `wh_int_iter_peek_ref` returned. -/
def Wh.write (t : Wh) (cur : Cursor) (st : Store) : Wh :=
  match cur with
  | none => t
  | some (i, is) =>
    match t[i]? with
    | none => t
    | some l => t.set i { l with slots := l.slots.set is ((l.slots.getD is ([], Store.zero)).1, st) }

/-! ## The filter on the tree

`next_key`, `prev_key` and `infix_store_ptr` point into the slots. The model reads the slots at once; where the code
reads them again after the tree has changed, so does the model. -/

/-- Members `infix_size_`, the scale tables and `better_tree_int_`, diva.hpp:229-239. -/
structure WhFilter where
  cfg : Cfg
  tree : Wh

/-- The region of a modified key, diva.hpp:459-482 (same code at 749-772): sorted leaves, cursor of the lower boundary,
lower boundary, its store, upper boundary. -/
def Wh.locate (t : Wh) (key : Key) : Res (Wh × Cursor × Key × Store × Key) :=
  (t.seek key).bind fun (t, cur) =>
  (t.peek cur).bind fun e =>
  if e.1 == key then
    (t.skip1 cur).bind fun (t, nx) => (t.peek nx).bind fun e' => .ok (t, cur, e.1, e.2, e'.1)
  else (t.skip1Rev cur).bind fun (t, pv) => (t.peek pv).bind fun p => .ok (t, pv, p.1, p.2, e.1)

/-- `PointQuery` of `Diva<true>`, diva.hpp:657-728. Queries sort leaves, so they return the tree. -/
def whPointQuery (f : WhFilter) (key : Key) : Res (WhFilter × Bool) :=
  let s := f.cfg.infixSize
  (f.tree.seek key).bind fun (t, cur) =>
  (t.peek cur).bind fun e =>
    if e.1 == key then .ok (⟨f.cfg, t⟩, true)
    else (t.skip1Rev cur).bind fun (t, cur) =>
      (t.peek cur).bind fun p =>
      if p.2.isPartial && isPrefixOf p.1 key p.2.invalidBits then .ok (⟨f.cfg, t⟩, true)
      else (getFrame s p.1 e.1).bind fun fr =>
        .ok (⟨f.cfg, t⟩, pointQueryStore f.cfg p.2 (sub64 (fr.extract s key) (shl64 fr.prevImplicit s)))

/-- `RangeQuery` of `Diva<true>`, diva.hpp:543-628. -/
def whRangeQuery (f : WhFilter) (l r : Key) : Res (WhFilter × Bool) :=
  let s := f.cfg.infixSize
  (f.tree.seek l).bind fun (t, cur) =>
  (t.peek cur).bind fun e =>
    if keyLe e.1 r then .ok (⟨f.cfg, t⟩, true)
    else (t.skip1Rev cur).bind fun (t, cur) =>
      (t.peek cur).bind fun p =>
      if p.2.isPartial && isPrefixOf p.1 l p.2.invalidBits then .ok (⟨f.cfg, t⟩, true)
      else (getFrame s p.1 e.1).bind fun fr => .ok (⟨f.cfg, t⟩, rangeTailInt f.cfg p.2 fr p.1 l r)

/-- `InsertSimple` of `Diva<true>`, diva.hpp:452-523. -/
def whInsertSimple (f : WhFilter) (key : Key) : Res WhFilter :=
  let c := f.cfg
  (f.tree.locate key).bind fun (t, cur, prev, st, next) =>
    (getFrame c.infixSize prev next).bind fun fr =>
      .ok ⟨c, t.write cur (insertRaw c st (fr.item c.infixSize key) fr.total)⟩

/-- `InsertSplit` of `Diva<true>`, diva.hpp:742-938. The fallback searches the tree again. -/
def whInsertSplit (f : WhFilter) (key : Key) : Res WhFilter :=
  let c := f.cfg
  (f.tree.locate key).bind fun (t, _, prev, st, next) =>
  (planAt c key prev st next).bind fun
    | none => whInsertSimple ⟨c, t⟩ key
    | some d =>
      let storeL := ((allocWithList c d.left d.totalL).setInvalidBits d.store.invalidBits).setPartial d.store.isPartial
      match d.zeroPos with
      | some zp =>
        if d.right.length = 0 then .ub
        else
          let storeG := insertRaw c (allocWithList c (d.right.drop 1) d.totalG) d.keyItem d.totalG
          let storeG := (storeG.setInvalidBits (7 - (zp - 1) % 8)).setPartial true
          (t.put d.prev storeL).bind fun t => (t.put d.edited storeG).bind fun t => .ok ⟨c, t⟩
      | none =>
        (t.put d.prev storeL).bind fun t => (t.put key (allocWithList c d.right d.totalG)).bind fun t => .ok ⟨c, t⟩

/-- `Insert` of `Diva<true>`, diva.hpp:443-449. -/
def whInsert (f : WhFilter) (key : Key) (split : Bool) : Res WhFilter :=
  if split then whInsertSplit f key else whInsertSimple f key

/-- What a pointer to slot `cur` reads after `wh_int_del` has removed a key from leaf `i` of `old`. A merge frees the next
leaf; its memory goes back to the slab and keeps its slots until the next leaf is allocated (lib.c:2523-2526). -/
def Wh.reread (old new : Wh) (i : Nat) : Cursor → Res (Key × Store)
  | none => .ub
  | some (j, is) => if j = i then new.peek (some (j, is)) else old.peek (some (j, is))

/-- The key that `len` bytes at the key of a slot make; the slot holds eight bytes, zero padded, wh_int.c:75-78. -/
def slotBytes (k : Key) (len : Nat) : Key := (k ++ List.replicate 8 0).take len

/-- `DeleteMerge` of `Diva<true>`, diva.hpp:1565-1643. `left_key`, `right_key` and `store_l` are read again after the
deletion (1630-1637), with the lengths from before. -/
def whDeleteMerge (c : Cfg) (t : Wh) (cm : Cursor) : Res WhFilter :=
  let s := c.infixSize
  (t.peek cm).bind fun (middle, storeR) =>
  (t.skip1 cm).bind fun (t, cr) =>
  (t.peek cr).bind fun (right, _) =>
  (t.skip1Rev cr).bind fun (t, cm) =>
  (t.skip1Rev cm).bind fun (t, cl) =>
  (t.peek cl).bind fun (left, storeL) =>
    let listL := getInfixList c storeL
    let listR := getInfixList c storeR
    (getFrame s left right).bind fun fr =>
    if listL.length ≠ storeL.elemCount ∨ listR.length ≠ storeR.elemCount then .ub
    else
    (updateInfixListDelete s fr.shared fr.ignore fr.implicitSize left middle listL).bind fun newL =>
    (updateInfixListDelete s fr.shared fr.ignore fr.implicitSize middle right listR).bind fun newR =>
    let list := (newL ++ newR).map fun x => sub64 x (shl64 fr.prevImplicit s)
    (t.del middle).bind fun t' =>
    (Wh.reread t t' (t.jump middle) cl).bind fun (keyL, storeL') =>
    (Wh.reread t t' (t.jump middle) cr).bind fun (keyR, _) =>
      let left' := slotBytes keyL left.length
      let right' := slotBytes keyR right.length
      let leftExtraction := extractPartialKey s left' fr.shared fr.ignore fr.implicitSize 0
      let rightExtraction := extractPartialKey s right' fr.shared fr.ignore fr.implicitSize 1
      let total := add32 (sub64 (rightExtraction >>> s) (leftExtraction >>> s) % 2 ^ 32) 1
      let store := ((allocWithList c list total).setPartial storeL'.isPartial).setInvalidBits storeL'.invalidBits
      (t'.put left' store).bind fun t => .ok ⟨c, t⟩

/-- The region of a deleted key, diva.hpp:1481-1497; the iterator is at the first boundary `e` not below the key. -/
def Wh.around (t : Wh) (cur : Cursor) (e : Key × Store) (key : Key) : Res (Wh × Cursor × Key × Store × Key) :=
  if e.1 == key then
    (t.skip1 cur).bind fun (t, nx) => (t.peek nx).bind fun e' =>
    (t.skip1Rev nx).bind fun (t, cur) => .ok (t, cur, e.1, e.2, e'.1)
  else (t.skip1Rev cur).bind fun (t, pv) => (t.peek pv).bind fun p => .ok (t, pv, p.1, p.2, e.1)

/-- `Delete` of `Diva<true>`, diva.hpp:1461-1562. -/
def whDelete (f : WhFilter) (key : Key) : Res WhFilter :=
  let c := f.cfg
  let s := c.infixSize
  (f.tree.seek key).bind fun (t, cur) =>
  (t.peek cur).bind fun e =>
  if e.1 == key && !e.2.isPartial then whDeleteMerge c t cur
  else
  (t.around cur e key).bind fun (t, cur, prev, st, next) =>
  (getFrame s prev next).bind fun fr =>
    let deletee := fr.item s key
    if st.isPartial && mergesPartial c fr prev st deletee then whDeleteMerge c t cur
    else .ok ⟨c, t.write cur (deleteRaw c st deletee fr.total)⟩

/-! ## Construction -/

/-- `AddTreeKey` of `Diva<true>`, diva.hpp:732-738. -/
def whAddTreeKey (t : Wh) (key : Key) : Res Wh := t.put key (Store.new growSep)

/-- One region, diva.hpp:1748-1771, 1791-1816. -/
def whBulkRegion (c : Cfg) (t : Wh) (left right : Key) (keys : List Key) (g : Nat) : Res Wh :=
  (getFrame c.infixSize left right).bind fun fr =>
    t.put left (loadList c (Store.new g) (bulkItems c.infixSize fr keys) fr.total false)

/-- Main loop of `BulkLoadFixedLength`, diva.hpp:1738-1779, as in `bulkLoop`. -/
def whBulkLoop (c : Cfg) (keys : List Key) : Nat → Nat → Nat → Wh → Res (Wh × Nat)
  | 0, _, last, t => .ok (t, last)
  | fuel + 1, j, last, t =>
    if j % 1024 = 0 then
      (whBulkRegion c t (keys.getD last []) (keys.getD j []) ((keys.drop (last + 1)).take 1023) growSep).bind fun t' =>
        whBulkLoop c keys fuel (j + 1) (last + 1024) t'
    else whBulkLoop c keys fuel (j + 1) last t

/-- The bulk load up to the last key's `AddTreeKey`, diva.hpp:1728-1819, as in `bulkCore`. -/
def whBulkCore (c : Cfg) (t : Wh) (keys : List Key) : Res Wh :=
  if keys.length = 0 then .ub
  else
    (whBulkLoop c keys (keys.length - 1) 1 0 t).bind fun (t1, last) =>
      let n := keys.length
      let right := keys.getD (n - 1) []
      let mid := (keys.drop (last + 1)).take (n - 1 - (last + 1))
      (whBulkRegion c t1 (keys.getD last []) right mid (findGrade c mid.length 500 0)).bind fun t2 =>
        if n - 1 ≠ last then whAddTreeKey t2 right else .ok t2

/-- Constructor of `Diva<true>` for fixed-length keys, diva.hpp:340-369. -/
def whBulkFixed (c : Cfg) (keyLen : Nat) (keys : List Key) : Res WhFilter :=
  (whAddTreeKey Wh.empty (List.replicate keyLen 0)).bind fun t =>
  (whAddTreeKey t (List.replicate keyLen 255)).bind fun t =>
  (whBulkCore c t keys).bind fun t => .ok ⟨c, t⟩

end Verif
