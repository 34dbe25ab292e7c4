import Verif.Model.Store
import Verif.Model.Key

/-!
# The filter: tree of boundary keys, queries and inserts

The ordered tree (wormhole) is an association list; its iterators are list indices. A call that
dereferences an invalid iterator or reads uninitialised memory has outcome `ub`; a call that never
returns has outcome `hang`. Fixed-width arithmetic wraps silently as in the code.
-/

namespace Verif

/-- Outcome of an operation. -/
inductive Res (α : Type) where
  | ok (a : α)
  | ub
  | hang
  deriving DecidableEq, Repr

def Res.bind {α β : Type} : Res α → (α → Res β) → Res β
  | .ok a, f => f a
  | .ub, _ => .ub
  | .hang, _ => .hang

instance : Monad Res where
  pure := .ok
  bind := Res.bind

abbrev Tree := List (Key × Store)

/-- Members `infix_size_`, the scale tables, and the tree, diva.hpp:229-239. -/
structure Filter where
  cfg : Cfg
  tree : Tree

/-! ## Tree -/

/-- `wh_iter_seek`: position of the first key not below `key`; the list length if there is none. -/
def treeSeek (t : Tree) (key : Key) : Nat := t.findIdx fun e => keyLe key e.1

/-- `wh_iter_peek_ref`: undefined on an invalid iterator. -/
def treePeek (t : Tree) (i : Nat) : Res (Key × Store) :=
  match t[i]? with
  | none => .ub
  | some e => .ok e

/-- `wh_put`: insert or replace. -/
def treePut : Tree → Key → Store → Tree
  | [], k, st => [(k, st)]
  | e :: t, k, st =>
    if keyLt k e.1 then (k, st) :: e :: t
    else if k == e.1 then (k, st) :: t
    else e :: treePut t k st

/-- `wh_del`. -/
def treeDel (t : Tree) (k : Key) : Tree := t.filter fun e => e.1 != k

/-! ## Regions of the tree -/

/-- The region a modified key belongs to: index of the lower boundary, lower boundary, its store and
the upper boundary. diva.hpp:459-506 (same code at 749-796). A key that equals a boundary belongs to
the region above it. -/
def locate (t : Tree) (key : Key) : Res (Nat × Key × Store × Key) :=
  let i := treeSeek t key
  (treePeek t i).bind fun e =>
    if e.1 == key then
      (treePeek t (i + 1)).bind fun e' => .ok (i, e.1, e.2, e'.1)
    else if i = 0 then .ub
    else (treePeek t (i - 1)).bind fun e' => .ok (i - 1, e'.1, e'.2, e.1)

/-- The values every operation derives from the two boundaries, diva.hpp:515-520. -/
structure RFrame where
  shared : Nat
  ignore : Nat
  implicitSize : Nat
  prevImplicit : Nat
  total : Nat
  deriving DecidableEq, Repr

/-- diva.hpp:515, 518-520 (also 604/633-635, 721-725, 1532-1537, 1748-1751, 1791-1794). -/
def getFrame (s : Nat) (prev next : Key) : Res RFrame :=
  match sharedIgnoreImplicit prev next with
  | none => .hang
  | some (sh, ig, imp) =>
    let prevImplicit := extractPartialKey s prev sh ig imp 0 >>> s
    let nextImplicit := extractPartialKey s next sh ig imp 1 >>> s
    .ok ⟨sh, ig, imp, prevImplicit, add32 (sub64 nextImplicit prevImplicit % 2 ^ 32) 1⟩

/-- `ExtractPartialKey(key, shared, ignore, implicit_size, key.GetBit(shared))`. -/
def RFrame.extract (fr : RFrame) (s : Nat) (key : Key) : Nat :=
  extractPartialKey s key fr.shared fr.ignore fr.implicitSize (keyBit key fr.shared)

/-- `(extraction | 1) - (prev_implicit << infix_size_)`, diva.hpp:521. -/
def RFrame.item (fr : RFrame) (s : Nat) (key : Key) : Nat :=
  sub64 (fr.extract s key ||| 1) (shl64 fr.prevImplicit s)

/-! ## Queries -/

/-- `PointQuery`, diva.hpp:657-728. -/
def pointQuery (f : Filter) (key : Key) : Res Bool :=
  let s := f.cfg.infixSize
  let i := treeSeek f.tree key
  (treePeek f.tree i).bind fun e =>
    if e.1 == key then .ok true
    else if i = 0 then .ub
    else (treePeek f.tree (i - 1)).bind fun p =>
      if p.2.isPartial && isPrefixOf p.1 key p.2.invalidBits then .ok true
      else (getFrame s p.1 e.1).bind fun fr =>
        .ok (pointQueryStore f.cfg p.2 (sub64 (fr.extract s key) (shl64 fr.prevImplicit s)))

/-- Generic tail of `RangeQuery`, diva.hpp:631-638. -/
def rangeTail (c : Cfg) (st : Store) (fr : RFrame) (l r : Key) : Bool :=
  rangeQueryStore c st (fr.item c.infixSize l) (fr.item c.infixSize r)

/-- Integer tail of `RangeQuery`, diva.hpp:607-628. The casts read eight bytes at the key pointer;
query keys have eight bytes and the integer tree stores every key in a zero-padded 64-bit field
(wh_int.c:74-78, 1598). `std::max<int>(0, …)` is truncated subtraction. -/
def rangeTailInt (c : Cfg) (st : Store) (fr : RFrame) (prev l r : Key) : Bool :=
  let s := c.infixSize
  let lInt := beWord l 0
  let rInt := beWord r 0
  let prevInt := beWord prev 0
  let d := fr.shared + fr.ignore + fr.implicitSize
  let shamtLeft := d + s - 64
  let shamtRight := 64 - (d + s)
  let shamtLeftImpl := d - 64
  let shamtRightImpl := 64 - d
  let ext := fun x => shl64 (shr64 x (63 - fr.shared) &&& 1) (fr.implicitSize - 1 + s) |||
    (shr64 (shl64 x shamtLeft) shamtRight &&& bitmask (fr.implicitSize - 1 + s))
  let prevImplicit := shr64 (shl64 prevInt shamtLeftImpl) shamtRightImpl &&& bitmask (fr.implicitSize - 1)
  let lVal := sub64 (ext lInt ||| 1) (shl64 prevImplicit s)
  let rVal := sub64 (ext rInt ||| 1) (shl64 prevImplicit s)
  rangeQueryStore c st lVal rVal

/-- `RangeQuery`, diva.hpp:543-640; `intOpt` is the template parameter. (The null test of line 596 is
never taken: every store in the tree owns a block.) -/
def rangeQuery (intOpt : Bool) (f : Filter) (l r : Key) : Res Bool :=
  let s := f.cfg.infixSize
  let i := treeSeek f.tree l
  (treePeek f.tree i).bind fun e =>
    if keyLe e.1 r then .ok true
    else if i = 0 then .ub
    else (treePeek f.tree (i - 1)).bind fun p =>
      if p.2.isPartial && isPrefixOf p.1 l p.2.invalidBits then .ok true
      else (getFrame s p.1 e.1).bind fun fr =>
        if intOpt then .ok (rangeTailInt f.cfg p.2 fr p.1 l r)
        else .ok (rangeTail f.cfg p.2 fr l r)

/-! ## Insert -/

/-- `InsertSimple`, diva.hpp:452-523. -/
def insertSimple (f : Filter) (key : Key) : Res Filter :=
  let c := f.cfg
  (locate f.tree key).bind fun (i, prev, st, next) =>
    (getFrame c.infixSize prev next).bind fun fr =>
      .ok { f with tree := f.tree.set i (prev, insertRaw c st (fr.item c.infixSize key) fr.total) }

/-- Binary search for the separator, diva.hpp:822-830; returns `sep_r` (`sep_l = sep_r - 1`). -/
def sepSearch (list : List Nat) (separator : Nat) : Nat → Int → Int → Int
  | 0, _, r => r
  | fuel + 1, l, r =>
    if r - l > 1 then
      let mid := (l + r) / 2
      if nolb64 (list.getD mid.toNat 0) ≤ sub64 separator 1 then sepSearch list separator fuel mid r
      else sepSearch list separator fuel l mid
    else r

/-- The scan for stored prefixes of the new key, diva.hpp:831-839. `i + 1` items remain to be looked
at, `base` is `shared + ignore + implicit_size + infix_size_`. -/
def zeroScan (list : List Nat) (s separator base : Nat) : Nat → Nat × Option Nat → Nat × Option Nat
  | 0, acc => acc
  | i + 1, acc =>
    let x := list.getD i 0
    if x >>> s = separator >>> s then
      let mask := sub64 (shl64 (lb64 x) 1) 1
      let acc' := if x ||| mask = separator ||| mask then (i, some (base - lowbitPos x - 1)) else acc
      zeroScan list s separator base i acc'
    else acc

/-- Truncation of the new boundary to `zero_pos` bits, diva.hpp:840-847. -/
def editKey (key : Key) : Option Nat → Key
  | none => key
  | some zp =>
    if key.length > (zp - 1) / 8 then
      key.take ((zp - 1) / 8) ++
        [UInt8.ofNat (byteAt key ((zp - 1) / 8) &&& not64 (bitmask (7 - (zp - 1) % 8)))]
    else key

/-- `GetExpandedInfixListLength`, diva.hpp:943-964. -/
def expandedLength (s shamt lower upper : Nat) : List Nat → Nat × Bool → Nat × Bool
  | [], acc => acc
  | x :: list, acc =>
    let acc' :=
      if lowbitPos x + shamt ≥ s then
        let implicitPart := shl64 x shamt >>> s
        let start := sub64 implicitPart (lb64 implicitPart)
        let stop := implicitPart ||| sub64 implicitPart 1
        (add32 acc.1 (sub64 (min stop (upper >>> s)) (max start (lower >>> s)) % 2 ^ 32), true)
      else acc
    expandedLength s shamt lower upper list acc'

/-- The comparator of the sort, diva.hpp:1006-1011. -/
def infixLess (a b : Nat) : Bool :=
  nolb64 a < nolb64 b || (nolb64 a == nolb64 b && lb64 a > lb64 b)

/-- Insert into a sorted list. -/
def sortInsert (x : Nat) : List Nat → List Nat
  | [] => [x]
  | y :: l => if infixLess y x then y :: sortInsert x l else x :: y :: l

/-- `std::sort`, diva.hpp:1012: the comparator is a total order of the values, so the sorted
permutation is unique. -/
def sortInfixes : List Nat → List Nat
  | [] => []
  | x :: l => sortInsert x (sortInfixes l)

/-- Expansion of one item, diva.hpp:986-999. -/
def expandItem (s shamt lower upper x : Nat) : List Nat :=
  let val := shl64 x shamt
  let implicitPart := val >>> s
  if val &&& bitmask s = 0 then
    let start := sub64 implicitPart (lb64 implicitPart)
    let stop := implicitPart ||| sub64 implicitPart 1
    let a := max start (lower >>> s)
    let b := min stop (upper >>> s)
    (List.range (b + 1 - a)).map fun d => shl64 (sub64 (a + d) (lower >>> s)) s ||| 1 <<< (s - 1)
  else [sub64 val lower]

/-- `UpdateInfixList`, diva.hpp:969-1018. -/
def updateInfixList (s shamt lower upper : Nat) (expanded : Bool) (list : List Nat) : List Nat :=
  if expanded then sortInfixes (list.flatMap (expandItem s shamt lower upper))
  else list.map fun x => sub64 (shl64 x shamt) lower

/-- The pair of calls at diva.hpp:883-892 and 894-903. If the number of values written differs from
the computed length the code reads uninitialised stack memory or writes past the array. -/
def rewriteList (s shamt lower upper : Nat) (list : List Nat) : Res (List Nat) :=
  let (len, expanded) := expandedLength s shamt lower upper list (list.length, false)
  let res := updateInfixList s shamt lower upper expanded list
  if res.length = len then .ok res else .ub

/-- `GetSharedIgnoreImplicitLengths` on the keys without their first `drop` bytes, diva.hpp:853-856. -/
def siiFrom (drop : Nat) (k1 k2 : Key) : Res (Nat × Nat × Nat) :=
  match sharedIgnoreImplicit (k1.drop drop) (k2.drop drop) with
  | none => .hang
  | some (sh, ig, imp) => .ok (sh + drop * 8, ig, imp)

/-- Everything `InsertSplit` computes before it writes. -/
structure SplitPlan where
  prev : Key
  store : Store
  edited : Key
  zeroPos : Option Nat
  shamtL : Nat
  shamtG : Nat
  totalL : Nat
  totalG : Nat
  left : List Nat
  right : List Nat
  keyItem : Nat

/-- `InsertSplit` once the region is found, diva.hpp:803-903 and 920: `none` means the call falls back to `InsertSimple`
(808 and 879). The values between 857 and 876 have no side effect; the model computes them after the test
of line 878. -/
def planAt (c : Cfg) (key prev : Key) (st : Store) (next : Key) : Res (Option SplitPlan) :=
  let s := c.infixSize
  if st.isPartial && isPrefixOf prev key st.invalidBits then .ok none
  else
  match sharedIgnoreImplicit prev next with
  | none => .hang
  | some (sh, ig, imp) =>
    let extraction := extractPartialKey s key sh ig imp (keyBit key sh)
    let prevExtraction := extractPartialKey s prev sh ig imp 0
    let nextExtraction := extractPartialKey s next sh ig imp 1
    let separator := sub64 (extraction ||| 1) (prevExtraction &&& shl64 (bitmask imp) s)
    let list := getInfixList c st
    let sepR := (sepSearch list separator (list.length + 2) (-1) list.length).toNat
    let (splitPos, zeroPos) := zeroScan list s separator (sh + ig + imp + s) sepR (sepR, none)
    let edited := editKey key zeroPos
    let extraction := if zeroPos.isSome then extractPartialKey s edited sh ig imp (keyBit edited sh) else extraction
    let swb := sh / 64 * 8
    (siiFrom swb prev edited).bind fun (shL, igL, impL) =>
    (siiFrom swb edited next).bind fun (shG, igG, impG) =>
    if zeroPos.isSome && zeroPos.getD 0 ≤ max shL shG then .ok none
    else
    let p := sh + ig + imp
    let shamtL := sub32 (shL + igL + impL) p
    let leftStart := shl64 (bitsAt prev p shamtL) s
    let leftEnd := shl64 (sub64 (extraction >>> s) (prevExtraction >>> s)) (s + shamtL) |||
      shl64 (bitsAt edited p shamtL) s
    let totalL := add32 (sub64 (extractPartialKey s edited shL igL impL 1 >>> s)
      (extractPartialKey s prev shL igL impL 0 >>> s) % 2 ^ 32) 1
    let shamtG := sub32 (shG + igG + impG) p
    let rightStart := shl64 (sub64 (extraction >>> s) (prevExtraction >>> s)) (s + shamtG) |||
      shl64 (bitsAt edited p shamtG) s
    let rightEnd := shl64 (sub64 (nextExtraction >>> s) (prevExtraction >>> s)) (s + shamtG) |||
      shl64 (bitsAt next p shamtG) s
    let totalG := add32 (sub64 (extractPartialKey s next shG igG impG 1 >>> s)
      (extractPartialKey s edited shG igG impG 0 >>> s) % 2 ^ 32) 1
    (rewriteList s shamtL leftStart leftEnd (list.take splitPos)).bind fun left =>
    (rewriteList s shamtG rightStart rightEnd (list.drop splitPos)).bind fun right =>
    .ok (some ⟨prev, st, edited, zeroPos, shamtL, shamtG, totalL, totalG, left, right,
      extractPartialKey s key shG igG impG 0 &&& bitmask s ||| 1⟩)

/-- `InsertSplit`, diva.hpp:742-903 and 920. -/
def planSplit (f : Filter) (key : Key) : Res (Option SplitPlan) :=
  (locate f.tree key).bind fun (_, prev, st, next) => planAt f.cfg key prev st next

/-- Second half of `InsertSplit`, diva.hpp:905-938. With `zero_pos` set the first value of the right
list is dropped; an empty right list would make its length wrap around. -/
def applySplit (f : Filter) (key : Key) (d : SplitPlan) : Res Filter :=
  let c := f.cfg
  let storeL := ((allocWithList c d.left d.totalL).setInvalidBits d.store.invalidBits).setPartial d.store.isPartial
  let tree := treePut f.tree d.prev storeL
  match d.zeroPos with
  | some zp =>
    if d.right.length = 0 then .ub
    else
      let storeG := insertRaw c (allocWithList c (d.right.drop 1) d.totalG) d.keyItem d.totalG
      let storeG := (storeG.setInvalidBits (7 - (zp - 1) % 8)).setPartial true
      .ok { f with tree := treePut tree d.edited storeG }
  | none => .ok { f with tree := treePut tree key (allocWithList c d.right d.totalG) }

/-- `InsertSplit`, diva.hpp:742-938. -/
def insertSplit (f : Filter) (key : Key) : Res Filter :=
  (planSplit f key).bind fun
    | none => insertSimple f key
    | some d => applySplit f key d

/-- `Insert`, diva.hpp:443-449; `split` is the outcome of `rng_() % 1024 == 0`. -/
def insert (f : Filter) (key : Key) (split : Bool) : Res Filter :=
  if split then insertSplit f key else insertSimple f key

/-! ## Construction -/

/-- `AddTreeKey`, diva.hpp:732-738. -/
def addTreeKey (t : Tree) (key : Key) : Tree := treePut t key (Store.new growSep)

/-- The infix list of a bulk-loaded region, diva.hpp:1753-1764, 1795-1808 (keys strictly between the
two boundary keys). -/
def bulkItems (s : Nat) (fr : RFrame) (keys : List Key) : List Nat := keys.map (fr.item s)

/-- One region between `left` and `right` in a block of size grade `g`, diva.hpp:1748-1771, 1791-1816. -/
def bulkRegion (c : Cfg) (t : Tree) (left right : Key) (keys : List Key) (g : Nat) : Res Tree :=
  (getFrame c.infixSize left right).bind fun fr =>
    .ok (treePut t left (loadList c (Store.new g) (bulkItems c.infixSize fr keys) fr.total false))

/-- Main loop of `BulkLoadFixedLength`, diva.hpp:1738-1779: `j` counts the keys seen, `last` is the
index of `last_key_it`. Returns the tree and `last`; `left_key` is the key at `last`. -/
def bulkLoop (c : Cfg) (keys : List Key) : Nat → Nat → Nat → Tree → Res (Tree × Nat)
  | 0, _, last, t => .ok (t, last)
  | fuel + 1, j, last, t =>
    if j % 1024 = 0 then
      (bulkRegion c t (keys.getD last []) (keys.getD j []) ((keys.drop (last + 1)).take 1023) growSep).bind fun t' =>
        bulkLoop c keys fuel (j + 1) (last + 1024) t'
    else bulkLoop c keys fuel (j + 1) last t

/-- Both bulk loads up to and including the last key's `AddTreeKey`, diva.hpp:1728-1819 and 1829-1903.
Dereferencing `begin` of an empty range is undefined. -/
def bulkCore (c : Cfg) (t : Tree) (keys : List Key) : Res Tree :=
  if keys.length = 0 then .ub
  else
    (bulkLoop c keys (keys.length - 1) 1 0 t).bind fun (t1, last) =>
      let n := keys.length
      let right := keys.getD (n - 1) []
      let mid := (keys.drop (last + 1)).take (n - 1 - (last + 1))
      (bulkRegion c t1 (keys.getD last []) right mid (findGrade c mid.length 500 0)).bind fun t2 =>
        .ok (if n - 1 ≠ last then addTreeKey t2 right else t2)

/-- Constructor for fixed-length keys, diva.hpp:340-369. -/
def bulkFixed (c : Cfg) (keyLen : Nat) (keys : List Key) : Res Filter :=
  let t := addTreeKey (addTreeKey [] (List.replicate keyLen 0)) (List.replicate keyLen 255)
  (bulkCore c t keys).bind fun t => .ok ⟨c, t⟩

/-- Constructor for variable-length keys, diva.hpp:374-401 and 1902-1907. -/
def bulkVar (c : Cfg) (keys : List Key) : Res Filter :=
  let t := addTreeKey [] (List.replicate 8 0)
  (bulkCore c t keys).bind fun t =>
    .ok ⟨c, addTreeKey t (List.replicate (keys.foldl (fun m k => max m k.length) 0) 255)⟩

/-! ## Streaming construction -/

/-- Members of the streaming loader, diva.hpp:241-242. `left = none` is the null pointer; `keys` is
`bulk_load_key_list_[0 .. bulk_load_streaming_ind_)`. -/
structure Stream where
  left : Option Key
  keys : List Key
  maxLen : Nat

/-- `BulkLoadStreaming`, diva.hpp:1925-1963. A zero-length key allocates zero bytes, which is not the
null pointer. -/
def streamKey (f : Filter) (b : Stream) (key : Key) : Res (Filter × Stream) :=
  match b.left with
  | none => .ok (f, { b with left := some key, maxLen := key.length })
  | some left =>
    let maxLen := max b.maxLen key.length
    if b.keys.length < 1023 then .ok (f, ⟨some left, b.keys ++ [key], maxLen⟩)
    else
      (bulkRegion f.cfg f.tree left key b.keys growSep).bind fun t =>
        .ok ({ f with tree := t }, ⟨some key, [], maxLen⟩)

/-- `BulkLoadStreamingFinish`, diva.hpp:1967-2007. Without a preceding `BulkLoadStreaming` the maximal
length (1968) is uninitialised. -/
def streamFinish (f : Filter) (b : Stream) : Res (Filter × Stream) :=
  if b.left.isNone then .ub else
  let t := addTreeKey (addTreeKey f.tree (List.replicate b.maxLen 0)) (List.replicate b.maxLen 255)
  if b.keys.length > 0 then
    let right := b.keys.getLastD []
    let keys := b.keys.dropLast
    (bulkRegion f.cfg t (b.left.getD []) right keys (findGrade f.cfg keys.length 500 0)).bind fun t =>
      .ok ({ f with tree := addTreeKey t right }, ⟨none, [], b.maxLen⟩)
  else .ok ({ f with tree := t }, ⟨none, [], b.maxLen⟩)

/-- The constructor without keys (diva.hpp:316-335), then `BulkLoadStreaming` on every key and
`BulkLoadStreamingFinish`. -/
def streamAll (c : Cfg) (keys : List Key) : Res Filter :=
  (keys.foldl (fun r k => Res.bind r fun (f, b) => streamKey f b k) (Res.ok (⟨c, []⟩, ⟨none, [], 0⟩))).bind
    fun (f, b) => (streamFinish f b).bind fun (f, _) => .ok f

end Verif
