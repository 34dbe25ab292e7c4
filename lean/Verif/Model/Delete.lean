import Verif.Model.Filter

/-!
# Delete

Filter-level deletion, diva.hpp:1448-1723. Outcomes as in `Verif.Model.Filter`.
-/

namespace Verif

/-- Lengths of the old and the new region used by `UpdateInfixListDelete`. -/
structure MergeFrame where
  shared : Nat
  ignore : Nat
  implicitSize : Nat
  oldShared : Nat
  oldIgnore : Nat
  oldImplicitSize : Nat
  oldLeftImplicit : Nat

/-- First lines of both loops, diva.hpp:1662-1667 and 1689-1694: the top bit of the old value, and the rest
moved to the new width. -/
def MergeFrame.rescale (mf : MergeFrame) (s x : Nat) : Nat × Nat :=
  let old := mf.oldImplicitSize + s
  let new := mf.implicitSize + s
  let v := add64 x (shl64 mf.oldLeftImplicit s)
  let diff := shr64 v (old - 1)
  let v := v &&& bitmask (old - 1)
  (diff, if new > old then shl64 v (new - old) else shr64 v (old - new) ||| (v &&& 1))

/-- Last lines of both loops, diva.hpp:1675-1681 and 1710-1716. -/
def recoverTail (new cnt recovered v : Nat) : Nat :=
  if cnt < new then recovered ||| shr64 v (cnt - 1) ||| (if lowbitPos v < cnt - 1 then 1 else 0)
  else recovered ||| 1

/-- Loop body for `old_shared == shared`, diva.hpp:1661-1685. -/
def recoverSame (mf : MergeFrame) (s x : Nat) : Nat :=
  let new := mf.implicitSize + s
  let (diff, v) := mf.rescale s x
  let r := shl64 diff (new - 1)
  let bits := min (sub32 mf.oldIgnore mf.ignore) (sub32 new 1)
  let cnt := add32 1 bits
  let r := r ||| shl64 (sub64 (shl64 1 bits) (1 ^^^ diff) &&& bitmask bits) (sub32 new cnt)
  recoverTail new cnt r v

/-- Loop body for `old_shared != shared`, diva.hpp:1688-1721. `GetBit` returns a `uint32_t`, so the shift of
line 1696 is undefined when its count reaches 32. -/
def recoverBelow (mf : MergeFrame) (s : Nat) (left : Key) (x : Nat) : Res Nat :=
  let new := mf.implicitSize + s
  let (diff, v) := mf.rescale s x
  if new - 1 ≥ 32 then .ub
  else
    let r := keyBit left mf.shared <<< (new - 1) % 2 ^ 32
    let bits := min (sub32 (sub32 (sub32 mf.oldShared mf.shared) mf.ignore) 1) (sub32 new 1)
    let cnt := add32 1 bits
    let r := r ||| shl64 (bitsAt left (mf.shared + mf.ignore + 1) bits) (sub32 new cnt)
    if cnt < new then
      let r := r ||| shl64 diff (sub32 (sub32 new cnt) 1)
      let bits := min (add32 mf.oldIgnore 1) (sub32 new cnt)
      let cnt := add32 cnt bits
      let r := r ||| (if bits > 1 then
          shl64 (sub64 (shl64 1 (bits - 1)) (1 ^^^ diff) &&& bitmask (bits - 1)) (sub32 new cnt)
        else 0)
      .ok (recoverTail new cnt r v)
    else .ok (recoverTail new cnt r v)

/-- The loop over the list. -/
def mapRes (f : Nat → Res Nat) : List Nat → Res (List Nat)
  | [] => .ok []
  | x :: l => (f x).bind fun y => (mapRes f l).bind fun l' => .ok (y :: l')

/-- `UpdateInfixListDelete`, diva.hpp:1646-1723. -/
def updateInfixListDelete (s shared ignore implicitSize : Nat) (left right : Key) (list : List Nat) : Res (List Nat) :=
  (siiFrom (shared / 64 * 8) left right).bind fun (oSh, oIg, oImp) =>
    let mf : MergeFrame := ⟨shared, ignore, implicitSize, oSh, oIg, oImp, extractPartialKey s left oSh oIg oImp 0 >>> s⟩
    if oSh = shared then .ok (list.map (recoverSame mf s))
    else mapRes (recoverBelow mf s left) list

/-- `DeleteMerge`, diva.hpp:1565-1643, `i` is the index of the middle key. The iterator of a first or last key
has no neighbour. The list has room for `elem_count` values of each region. -/
def deleteMerge (f : Filter) (i : Nat) : Res Filter :=
  let c := f.cfg
  let s := c.infixSize
  (treePeek f.tree i).bind fun (middle, storeR) =>
  (treePeek f.tree (i + 1)).bind fun (right, _) =>
  if i = 0 then .ub
  else (treePeek f.tree (i - 1)).bind fun (left, storeL) =>
    let listL := getInfixList c storeL
    let listR := getInfixList c storeR
    (getFrame s left right).bind fun fr =>
    if listL.length ≠ storeL.elemCount ∨ listR.length ≠ storeR.elemCount then .ub
    else
    (updateInfixListDelete s fr.shared fr.ignore fr.implicitSize left middle listL).bind fun newL =>
    (updateInfixListDelete s fr.shared fr.ignore fr.implicitSize middle right listR).bind fun newR =>
      let list := (newL ++ newR).map fun x => sub64 x (shl64 fr.prevImplicit s)
      let store := ((allocWithList c list fr.total).setPartial storeL.isPartial).setInvalidBits storeL.invalidBits
      .ok { f with tree := treePut (treeDel f.tree middle) left store }

/-- Does `Delete` of a key below a partial boundary remove the boundary instead of an item?
diva.hpp:1540-1542. -/
def mergesPartial (c : Cfg) (fr : RFrame) (prev : Key) (st : Store) (deletee : Nat) : Bool :=
  let len := longestMatch c st deletee
  len == 0 || decide (sub32 (8 * prev.length) st.invalidBits > sub32 (fr.shared + fr.ignore + fr.implicitSize + len) 1)

/-- `Delete`, diva.hpp:1461-1562. -/
def delete (f : Filter) (key : Key) : Res Filter :=
  let c := f.cfg
  let s := c.infixSize
  let j := treeSeek f.tree key
  (treePeek f.tree j).bind fun e =>
  if e.1 == key && !e.2.isPartial then deleteMerge f j
  else
  (locate f.tree key).bind fun (i, prev, st, next) =>
  (getFrame s prev next).bind fun fr =>
    let deletee := fr.item s key
    if st.isPartial && mergesPartial c fr prev st deletee then deleteMerge f i
    else .ok { f with tree := f.tree.set i (prev, deleteRaw c st deletee fr.total) }

end Verif
