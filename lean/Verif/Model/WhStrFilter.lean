import Verif.Model.WhStr
import Verif.Model.Delete

/-!
# The filter on the tree for keys of any length

`Diva<false>` keeps its boundaries in `better_tree_` (wh.c). A slot points to a record with the key and the store, which is
allocated on its own (wh.c:3666) and freed only when its key is put again or deleted. Pointers to the records of other
keys stay valid, so here, unlike in Model/WhTree, nothing is read twice.
-/

namespace Verif

/-- Members `infix_size_`, the scale tables and `better_tree_`, diva.hpp:229-239. -/
structure StrFilter where
  cfg : Cfg
  tree : STree

/-- `wh_put`, wh.c:3662-3672. All callers ignore the result (diva.hpp:737, 918, 927, 933, 1642, 1771, 1816, 1863, 1900,
1958, 1995). -/
def STree.wput (t : STree) (k : Key) (st : Store) : Res STree := (t.put k st).bind fun q => .ok q.1

/-- The region of a modified key, diva.hpp:484-506 (same code at 774-796): sorted leaves, cursor of the lower boundary,
lower boundary, its store, upper boundary. -/
def STree.locate (t : STree) (key : Key) : Res (STree × Cursor × Key × Store × Key) :=
  (t.seek key).bind fun (t, cur) =>
  (t.peek cur).bind fun e =>
  if e.1 == key then
    (t.skip1 cur).bind fun (t, nx) => (t.peek nx).bind fun e' => .ok (t, cur, e.1, e.2, e'.1)
  else (t.skip1Rev cur).bind fun (t, pv) => (t.peek pv).bind fun p => .ok (t, pv, p.1, p.2, e.1)

/-- `PointQuery` of `Diva<false>`, diva.hpp:657-728. Queries sort leaves, so they return the tree. -/
def strPointQuery (f : StrFilter) (key : Key) : Res (StrFilter × Bool) :=
  let s := f.cfg.infixSize
  (f.tree.seek key).bind fun (t, cur) =>
  (t.peek cur).bind fun e =>
    if e.1 == key then .ok (⟨f.cfg, t⟩, true)
    else (t.skip1Rev cur).bind fun (t, cur) =>
      (t.peek cur).bind fun p =>
      if p.2.isPartial && isPrefixOf p.1 key p.2.invalidBits then .ok (⟨f.cfg, t⟩, true)
      else (getFrame s p.1 e.1).bind fun fr =>
        .ok (⟨f.cfg, t⟩, pointQueryStore f.cfg p.2 (sub64 (fr.extract s key) (shl64 fr.prevImplicit s)))

/-- `RangeQuery` of `Diva<false>`, diva.hpp:543-640. -/
def strRangeQuery (f : StrFilter) (l r : Key) : Res (StrFilter × Bool) :=
  let s := f.cfg.infixSize
  (f.tree.seek l).bind fun (t, cur) =>
  (t.peek cur).bind fun e =>
    if keyLe e.1 r then .ok (⟨f.cfg, t⟩, true)
    else (t.skip1Rev cur).bind fun (t, cur) =>
      (t.peek cur).bind fun p =>
      if p.2.isPartial && isPrefixOf p.1 l p.2.invalidBits then .ok (⟨f.cfg, t⟩, true)
      else (getFrame s p.1 e.1).bind fun fr => .ok (⟨f.cfg, t⟩, rangeTail f.cfg p.2 fr l r)

/-- `InsertSimple` of `Diva<false>`, diva.hpp:452-523. -/
def strInsertSimple (f : StrFilter) (key : Key) : Res StrFilter :=
  let c := f.cfg
  (f.tree.locate key).bind fun (t, cur, prev, st, next) =>
    (getFrame c.infixSize prev next).bind fun fr =>
      .ok ⟨c, t.write cur (insertRaw c st (fr.item c.infixSize key) fr.total)⟩

/-- `InsertSplit` of `Diva<false>`, diva.hpp:742-938. The fallback searches the tree again. The first put frees the record
that `prev_key` and `infix_store` point to; neither is used afterwards. -/
def strInsertSplit (f : StrFilter) (key : Key) : Res StrFilter :=
  let c := f.cfg
  (f.tree.locate key).bind fun (t, _, prev, st, next) =>
  (planAt c key prev st next).bind fun
    | none => strInsertSimple ⟨c, t⟩ key
    | some d =>
      let storeL := ((allocWithList c d.left d.totalL).setInvalidBits d.store.invalidBits).setPartial d.store.isPartial
      match d.zeroPos with
      | some zp =>
        if d.right.length = 0 then .ub
        else
          let storeG := insertRaw c (allocWithList c (d.right.drop 1) d.totalG) d.keyItem d.totalG
          let storeG := (storeG.setInvalidBits (7 - (zp - 1) % 8)).setPartial true
          (t.wput d.prev storeL).bind fun t => (t.wput d.edited storeG).bind fun t => .ok ⟨c, t⟩
      | none =>
        (t.wput d.prev storeL).bind fun t => (t.wput key (allocWithList c d.right d.totalG)).bind fun t => .ok ⟨c, t⟩

/-- `Insert` of `Diva<false>`, diva.hpp:443-449. -/
def strInsert (f : StrFilter) (key : Key) (split : Bool) : Res StrFilter :=
  if split then strInsertSplit f key else strInsertSimple f key

/-- `DeleteMerge` of `Diva<false>`, diva.hpp:1565-1643. -/
def strDeleteMerge (c : Cfg) (t : STree) (cm : Cursor) : Res StrFilter :=
  let s := c.infixSize
  (t.peek cm).bind fun (middle, storeR) =>
  (t.skip1 cm).bind fun (t, cr) =>
  (t.peek cr).bind fun (right, _) =>
  (t.skip1Rev cr).bind fun (t, cm) =>
  (t.skip1Rev cm).bind fun (t, cl) =>
  (t.peek cl).bind fun (left, storeL) =>
    let listL := getInfixList c storeL
    let listR := getInfixList c storeR
    (getFrame s left right).bind fun fr =>
    if listL.length ≠ storeL.elemCount ∨ listR.length ≠ storeR.elemCount then .ub
    else
    (updateInfixListDelete s fr.shared fr.ignore fr.implicitSize left middle listL).bind fun newL =>
    (updateInfixListDelete s fr.shared fr.ignore fr.implicitSize middle right listR).bind fun newR =>
    let list := (newL ++ newR).map fun x => sub64 x (shl64 fr.prevImplicit s)
    (t.del middle).bind fun t =>
      let store := ((allocWithList c list fr.total).setPartial storeL.isPartial).setInvalidBits storeL.invalidBits
      (t.wput left store).bind fun t => .ok ⟨c, t⟩

/-- The region of a deleted key, diva.hpp:1506-1522; the iterator is at the first boundary `e` not below the key. -/
def STree.around (t : STree) (cur : Cursor) (e : Key × Store) (key : Key) : Res (STree × Cursor × Key × Store × Key) :=
  if e.1 == key then
    (t.skip1 cur).bind fun (t, nx) => (t.peek nx).bind fun e' =>
    (t.skip1Rev nx).bind fun (t, cur) => .ok (t, cur, e.1, e.2, e'.1)
  else (t.skip1Rev cur).bind fun (t, pv) => (t.peek pv).bind fun p => .ok (t, pv, p.1, p.2, e.1)

/-- `Delete` of `Diva<false>`, diva.hpp:1461-1562. -/
def strDelete (f : StrFilter) (key : Key) : Res StrFilter :=
  let c := f.cfg
  let s := c.infixSize
  (f.tree.seek key).bind fun (t, cur) =>
  (t.peek cur).bind fun e =>
  if e.1 == key && !e.2.isPartial then strDeleteMerge c t cur
  else
  (t.around cur e key).bind fun (t, cur, prev, st, next) =>
  (getFrame s prev next).bind fun fr =>
    let deletee := fr.item s key
    if st.isPartial && mergesPartial c fr prev st deletee then strDeleteMerge c t cur
    else .ok ⟨c, t.write cur (deleteRaw c st deletee fr.total)⟩

/-! ## Construction -/

/-- `AddTreeKey` of `Diva<false>`, diva.hpp:732-738. -/
def strAddTreeKey (t : STree) (key : Key) : Res STree := t.wput key (Store.new growSep)

/-- One region, diva.hpp:1748-1771, 1791-1816 (same code at 1841-1862, 1877-1901). -/
def strBulkRegion (c : Cfg) (t : STree) (left right : Key) (keys : List Key) (g : Nat) : Res STree :=
  (getFrame c.infixSize left right).bind fun fr =>
    t.wput left (loadList c (Store.new g) (bulkItems c.infixSize fr keys) fr.total false)

/-- Main loop of both bulk loads, diva.hpp:1738-1779, as in `bulkLoop`. -/
def strBulkLoop (c : Cfg) (keys : List Key) : Nat → Nat → Nat → STree → Res (STree × Nat)
  | 0, _, last, t => .ok (t, last)
  | fuel + 1, j, last, t =>
    if j % 1024 = 0 then
      (strBulkRegion c t (keys.getD last []) (keys.getD j []) ((keys.drop (last + 1)).take 1023) growSep).bind fun t' =>
        strBulkLoop c keys fuel (j + 1) (last + 1024) t'
    else strBulkLoop c keys fuel (j + 1) last t

/-- Both bulk loads up to the last key's `AddTreeKey`, diva.hpp:1728-1819 and 1829-1903, as in `bulkCore`. -/
def strBulkCore (c : Cfg) (t : STree) (keys : List Key) : Res STree :=
  if keys.length = 0 then .ub
  else
    (strBulkLoop c keys (keys.length - 1) 1 0 t).bind fun (t1, last) =>
      let n := keys.length
      let right := keys.getD (n - 1) []
      let mid := (keys.drop (last + 1)).take (n - 1 - (last + 1))
      (strBulkRegion c t1 (keys.getD last []) right mid (findGrade c mid.length 500 0)).bind fun t2 =>
        if n - 1 ≠ last then strAddTreeKey t2 right else .ok t2

/-- Constructor of `Diva<false>` for fixed-length keys, diva.hpp:340-369. -/
def strBulkFixed (c : Cfg) (keyLen : Nat) (keys : List Key) : Res StrFilter :=
  (strAddTreeKey STree.empty (List.replicate keyLen 0)).bind fun t =>
  (strAddTreeKey t (List.replicate keyLen 255)).bind fun t =>
  (strBulkCore c t keys).bind fun t => .ok ⟨c, t⟩

/-- Constructor of `Diva<false>` for keys of any length, diva.hpp:374-401 and 1902-1907. -/
def strBulkVar (c : Cfg) (keys : List Key) : Res StrFilter :=
  (strAddTreeKey STree.empty (List.replicate 8 0)).bind fun t =>
  (strBulkCore c t keys).bind fun t =>
  (strAddTreeKey t (List.replicate (keys.foldl (fun m k => max m k.length) 0) 255)).bind fun t => .ok ⟨c, t⟩

/-- `BulkLoadStreaming` of `Diva<false>`, diva.hpp:1925-1963, as in `streamKey`. -/
def strStreamKey (f : StrFilter) (b : Stream) (key : Key) : Res (StrFilter × Stream) :=
  match b.left with
  | none => .ok (f, { b with left := some key, maxLen := key.length })
  | some left =>
    let maxLen := max b.maxLen key.length
    if b.keys.length < 1023 then .ok (f, ⟨some left, b.keys ++ [key], maxLen⟩)
    else
      (strBulkRegion f.cfg f.tree left key b.keys growSep).bind fun t =>
        .ok (⟨f.cfg, t⟩, ⟨some key, [], maxLen⟩)

/-- `BulkLoadStreamingFinish` of `Diva<false>`, diva.hpp:1967-2007, as in `streamFinish`. -/
def strStreamFinish (f : StrFilter) (b : Stream) : Res (StrFilter × Stream) :=
  if b.left.isNone then .ub else
  (strAddTreeKey f.tree (List.replicate b.maxLen 0)).bind fun t =>
  (strAddTreeKey t (List.replicate b.maxLen 255)).bind fun t =>
  if b.keys.length > 0 then
    let right := b.keys.getLastD []
    let keys := b.keys.dropLast
    (strBulkRegion f.cfg t (b.left.getD []) right keys (findGrade f.cfg keys.length 500 0)).bind fun t =>
      (strAddTreeKey t right).bind fun t => .ok (⟨f.cfg, t⟩, ⟨none, [], b.maxLen⟩)
  else .ok (⟨f.cfg, t⟩, ⟨none, [], b.maxLen⟩)

/-- The constructor without keys (diva.hpp:316-335), then `BulkLoadStreaming` on every key and `BulkLoadStreamingFinish`. -/
def strStreamAll (c : Cfg) (keys : List Key) : Res StrFilter :=
  (keys.foldl (fun r k => Res.bind r fun (f, b) => strStreamKey f b k) (Res.ok (⟨c, STree.empty⟩, ⟨none, [], 0⟩))).bind
    fun (f, b) => (strStreamFinish f b).bind fun (f, _) => .ok f

end Verif
