import Verif.Model.WhTree
import Verif.Model.Util

/-!
# The index over the leaves

Both trees find the leaf of a key through a hash table with a node (`wormmeta`) for every prefix of every anchor. The
code is the same in wh.c and wh_int.c; the lines are those of wh_int.c.

Simplifications: the hash table is a function from prefixes to nodes. `wormhmap_peek` compares 16-bit tags only, so it may
find a prefix that is not there; which ones is left open. A leaf pointer is the anchor of the leaf. Allocations succeed. The
code keeps two copies of the table for concurrent readers and changes both in the same way; there is one here.
-/

namespace Verif

/-- `struct wormmeta`, wh_int.c:44-50. `bitmin` and `bitmax` are 256 (`WH_FO`) if there is no child. Nodes with at most one
child have no bitmap; any access is then outside the allocated node. -/
structure Meta where
  lmost : Key
  rmost : Key
  lpath : Key
  bitmin : Nat
  bitmax : Nat
  bitmap : Option Nat

/-- The hash table and `maxplen`, wh_int.c:87-99. -/
structure Index where
  get : Key → Option Meta
  maxplen : Nat

/-- `wormhmap_set`, `wormhmap_replace` and `wormhmap_del`, wh_int.c:690-1090, and stores through a pointer to a node. -/
def Index.put (x : Index) (p : Key) (m : Option Meta) : Index :=
  { x with get := fun q => if q = p then m else x.get q }

/-! ## Children -/

/-- `meta->bitmap[ix]`. -/
def bmWord (b ix : Nat) : Nat := b / 2 ^ (64 * ix) % 2 ^ 64

/-- The loop of `wormmeta_bm_gt`, wh_int.c:312-316. -/
def bmUp (b : Nat) : Nat → Nat → Nat
  | 0, _ => 256
  | fuel + 1, ix =>
    if ix < 4 then
      if bmWord b ix ≠ 0 then 64 * ix + tzcnt (bmWord b ix) else bmUp b fuel (ix + 1)
    else 256

/-- `wormmeta_bm_gt`, wh_int.c:304-319. It includes bit `id0` itself. -/
def bmGt (b id0 : Nat) : Nat :=
  let ix := id0 / 64
  let bits := bmWord b ix &&& not64 (bitmask (id0 % 64))
  if bits ≠ 0 then 64 * ix + tzcnt bits else bmUp b 4 (ix + 1)

/-- The loop of `wormmeta_bm_lt`, wh_int.c:331-335. -/
def bmDown (b : Nat) : Nat → Nat
  | 0 => 256
  | ix + 1 => if bmWord b ix ≠ 0 then 64 * ix + Nat.log2 (bmWord b ix) else bmDown b ix

/-- `wormmeta_bm_lt`, wh_int.c:323-338; `63 - clz` is the position of the highest bit. -/
def bmLt (b id0 : Nat) : Nat :=
  let ix := id0 / 64
  let bits := bmWord b ix &&& bitmask (id0 % 64)
  if bits ≠ 0 then 64 * ix + Nat.log2 bits else bmDown b ix

/-- `wormmeta_bm_test`, wh_int.c:263-274. -/
def Meta.test (m : Meta) (id : Nat) : Res Bool :=
  if m.bitmin = m.bitmax then .ok (m.bitmin == id)
  else match m.bitmap with
    | none => .ub
    | some b => .ok (b.testBit id)

/-- `wormmeta_bm_set`, wh_int.c:278-297. -/
def Meta.set (m : Meta) (id : Nat) : Res Meta :=
  match m.bitmap with
  | none => .ub
  | some b =>
    if b.testBit id then .ok m
    else .ok { m with
      bitmap := some (b ||| 2 ^ id)
      bitmin := if id < m.bitmin then id else m.bitmin
      bitmax := if m.bitmax = 256 ∨ id > m.bitmax then id else m.bitmax }

/-- `wormmeta_bm_clear`, wh_int.c:341-353. -/
def Meta.clear (m : Meta) (id : Nat) : Res Meta :=
  match m.bitmap with
  | none => .ub
  | some b =>
    let b' := if b.testBit id then b ^^^ 2 ^ id else b
    .ok { m with
      bitmap := some b'
      bitmin := if id = m.bitmin then bmGt b' id else m.bitmin
      bitmax := if id = m.bitmax then bmLt b' id else m.bitmax }

/-- `wormmeta_bm_set_helper` with `wormmeta_expand`, wh_int.c:1976-2017. The node that is replaced goes to the slab of small nodes (line 1994), so it
must be small. -/
def Meta.setHelper (m : Meta) (id : Nat) : Res Meta :=
  if m.bitmin < m.bitmax then m.set id
  else if id = m.bitmin then .ok m
  else if m.bitmin = 256 then .ok { m with bitmin := id, bitmax := id }
  else if m.bitmap.isSome then .ub
  else { m with bitmap := some (2 ^ m.bitmin) }.set id

/-- `wormmeta_bm_clear_helper` with `wormmeta_shrink`, wh_int.c:2225-2253. -/
def Meta.clearHelper (m : Meta) (id : Nat) : Res Meta :=
  if m.bitmin = m.bitmax then .ok { m with bitmin := 256, bitmax := 256 }
  else (m.clear id).bind fun m => .ok (if m.bitmin = m.bitmax then { m with bitmap := none } else m)

/-- `wormmeta_lmost_store`, wh_int.c:216-224, in the node of a prefix of length `plen`; `prev` is the leaf before `leaf`. -/
def Meta.setLmost (m : Meta) (plen : Nat) (leaf prev : Key) : Meta :=
  { m with lmost := leaf, lpath := if leaf.length = plen then leaf else prev }

/-! ## Lookup -/

/-- The first two loops of `wormhole_meta_lcp`, wh_int.c:1231-1257: `lo` afterwards. -/
def lcpPeek (peek : Key → Bool) (key : Key) : Nat → Nat → Nat → Nat
  | 0, lo, _ => lo
  | fuel + 1, lo, gd =>
    if 1 < gd then
      let inc := if 7 < gd then gd / 8 * 4 else gd / 2
      if peek (key.take (lo + inc)) then lcpPeek peek key fuel (lo + inc) (gd - inc)
      else lcpPeek peek key fuel lo inc
    else lo

/-- The last two loops, wh_int.c:1270-1315, and the lookup behind them: length of the prefix and its node. -/
def lcpExact (x : Index) (key : Key) : Nat → Nat → Nat → Res (Nat × Meta)
  | 0, _, _ => .hang
  | fuel + 1, lo, gd =>
    if 1 < gd then
      let inc := gd * 3 / 4
      match x.get (key.take (lo + inc)) with
      | some m =>
        match key[lo + inc]? with
        | none => .ub
        | some b => (m.test b.toNat).bind fun t =>
          if t then lcpExact x key fuel (lo + inc + 1) (gd - inc - 1) else .ok (lo + inc, m)
      | none => lcpExact x key fuel lo inc
    else match x.get (key.take lo) with
      | none => .ub
      | some m => .ok (lo, m)

/-- `wormhole_meta_lcp`, wh_int.c:1223-1322. -/
def metaLcp (peek : Key → Bool) (x : Index) (key : Key) : Res (Nat × Meta) :=
  let gd := (if x.maxplen < key.length then x.maxplen else key.length) + 1
  let lo := lcpPeek peek key gd 0 gd
  match x.get (key.take lo) with
  | some m => .ok (lo, m)
  | none => lcpExact x key (lo + 1) 0 lo

/-- `wormhole_meta_down`, wh_int.c:1327-1343: the leaf, by its anchor. -/
def metaDown (x : Index) (key : Key) (len : Nat) (m : Meta) : Res Key :=
  match key[len]? with
  | some id0 =>
    if m.bitmin > id0.toNat then .ok m.lpath
    else if m.bitmax < id0.toNat then .ok m.rmost
    else match m.bitmap with
      | none => .ub
      | some b =>
        match x.get (key.take len ++ [UInt8.ofNat (bmLt b id0.toNat)]) with
        | none => .ub
        | some m' => .ok m'.rmost
  | none => .ok m.lpath

/-- `wormhole_jump_leaf`, wh_int.c:1346-1355. -/
def indexJump (peek : Key → Bool) (x : Index) (key : Key) : Res Key :=
  (metaLcp peek x key).bind fun (len, m) => metaDown x key len m

/-! ## Changes -/

/-- `wormhole_create_leaf0`, wh_int.c:1112-1127: the node of the empty prefix. -/
def Index.empty : Index := ⟨fun p => if p = [] then some ⟨[], [], [], 256, 256, none⟩ else none, 0⟩

/-- The bit of the new child, wh_int.c:2026-2027; none if the prefix is the whole anchor. -/
def Meta.touchBit (m : Meta) : Option UInt8 → Res Meta
  | some b => m.setHelper b.toNat
  | none => .ok m

/-- `wormmeta_split_touch` and `wormmeta_init`, wh_int.c:2020-2039, 240-258, for the first `i` bytes of the anchor of the new
leaf. -/
def touchMeta (a prev : Key) (next : Option Key) (i : Nat) (m : Option Meta) : Res Meta :=
  match m with
  | some m =>
    (m.touchBit a[i]?).bind fun m =>
    .ok (if some m.lmost = next then m.setLmost i a prev else if m.rmost = prev then { m with rmost := a } else m)
  | none =>
    let bit := match a[i]? with
      | some b => b.toNat
      | none => 256
    .ok ⟨a, a, if a.length = i then a else prev, bit, bit, none⟩

/-- The loop of `wormmeta_split`, wh_int.c:2077-2083. -/
def touchLoop (a prev : Key) (next : Option Key) : Nat → Nat → Index → Res Index
  | 0, _, _ => .hang
  | fuel + 1, i, x =>
    (touchMeta a prev next i (x.get (a.take i))).bind fun m =>
      let x := x.put (a.take i) (some m)
      if i ≥ a.length then .ok { x with maxplen := if i > x.maxplen then i else x.maxplen }
      else touchLoop a prev next fuel (i + 1) x

/-- The loop of `wormmeta_lpath_update`, wh_int.c:2050-2060. -/
def lpathLoop (a2 lpath : Key) : Nat → Nat → Index → Res Index
  | 0, _, _ => .hang
  | fuel + 1, i, x =>
    if i < a2.length then
      match x.get (a2.take i) with
      | none => .ub
      | some m => lpathLoop a2 lpath fuel (i + 1) (x.put (a2.take i) (some { m with lpath := lpath }))
    else .ok x

/-- The longest anchor that fits into `pbuf`: the buffer has 65536 bytes (wh_int.c:1144, wh.c:1111), and `kv_dup2_key`
(kv.c:256-268) copies 16 bytes of `struct kv` before the key. -/
def pbufRoom : Nat := 65520

/-- `wormmeta_lpath_update`, wh_int.c:2041-2061. It copies `a2` to `pbuf` (line 2045). -/
def lpathUpdate (x : Index) (a1 a2 lpath : Key) : Res Index :=
  if a2.length > pbufRoom then .ub else lpathLoop a2 lpath (a2.length + 1) (keyLcp a1 a2 + 1) x

/-- `wormmeta_split`, wh_int.c:2065-2095: a leaf with anchor `a` between `prev` and `next`. -/
def indexSplit (x : Index) (prev a : Key) (next : Option Key) : Res Index :=
  match next with
  | some n =>
    if a.length < keyLcp prev n then .ub
    else (touchLoop a prev next (a.length + 1) (keyLcp prev n) x).bind fun x => lpathUpdate x a n a
  | none => touchLoop a prev next (a.length + 1) 0 x

/-- New `lmost` and `rmost` of a node with other leaves than `a`, wh_int.c:2280-2283. -/
def adjustMeta (a prev : Key) (next : Option Key) (i : Nat) (m : Meta) : Res Meta :=
  if m.lmost = a then
    match next with
    | none => .ub
    | some n => .ok (m.setLmost i n prev)
  else .ok (if m.rmost = a then { m with rmost := prev } else m)

/-- The bit of a removed child goes from the node before, wh_int.c:2274-2277. -/
def dropChild (a : Key) (i : Nat) (x : Index) : Res Index :=
  match x.get (a.take (i - 1)), a[i - 1]? with
  | some m, some b => (m.clearHelper b.toNat).bind fun m => .ok (x.put (a.take (i - 1)) (some m))
  | _, _ => .ub

/-- The loop of `wormmeta_merge`, wh_int.c:2267-2291; `par` tells whether `parent` is set, it is the node before.
`wormmeta_free` (wh_int.c:541-546) gives the node to the slab of small nodes, so it must be small. -/
def mergeLoop (a prev : Key) (next : Option Key) : Nat → Nat → Bool → Index → Res Index
  | 0, _, _, _ => .hang
  | fuel + 1, i, par, x =>
    match x.get (a.take i) with
    | none => .ub
    | some m =>
      if m.lmost = m.rmost then
        if m.bitmap.isSome then .ub else
        (if par then dropChild a i (x.put (a.take i) none) else .ok (x.put (a.take i) none)).bind fun x =>
        if m.bitmin = 256 then .ok x
        else if i ≥ a.length then .ok x
        else mergeLoop a prev next fuel (i + 1) false x
      else
        (adjustMeta a prev next i m).bind fun m =>
        if i ≥ a.length then .ok (x.put (a.take i) (some m))
        else mergeLoop a prev next fuel (i + 1) true (x.put (a.take i) (some m))

/-- `wormmeta_merge`, wh_int.c:2256-2295: the leaf with anchor `a` between `prev` and `next` goes away. It
copies `a` to `pbuf` (line 2259). -/
def indexMerge (x : Index) (prev a : Key) (next : Option Key) : Res Index :=
  if a.length > pbufRoom then .ub
  else match next with
  | some n =>
    if a.length < keyLcp prev n then .ub
    else (mergeLoop a prev next (a.length + 1) (keyLcp prev n) false x).bind fun x => lpathUpdate x a n prev
  | none => mergeLoop a prev next (a.length + 1) 0 false x

end Verif
