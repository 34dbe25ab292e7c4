import Verif.Model.WhScan
import Verif.Model.WhStrFull

/-!
# `Diva<true>` as a client of its tree

Where the code of `Diva<true>` and `Diva<false>` is the same but for the names of the tree's functions, the programs are those of
Verif/Model/WhStrFull.lean. Here are the others.
-/

namespace Verif

namespace Client

variable {α : Type}

/-- On the leaves of the integer tree. `wh_int_put` returns true, because allocations succeed. -/
def onWh : Client α → Wh → Res (Wh × α)
  | ret r, t => r.bind fun a => .ok (t, a)
  | put k st next, t => (t.put k st).bind fun t => (next true).onWh t
  | del k next, t => (t.del k).bind fun t => next.onWh t
  | delRead k c1 c2 next, t =>
    (t.del k).bind fun t' =>
    (Wh.reread t t' (t.jump k) c1).bind fun e1 => (Wh.reread t t' (t.jump k) c2).bind fun e2 => (next e1 e2).onWh t'
  | seek k next, t => (t.seek k).bind fun (t, c) => (next c).onWh t
  | skip cur next, t => (t.skip1 cur).bind fun (t, c) => (next c).onWh t
  | back cur next, t => (t.skip1Rev cur).bind fun (t, c) => (next c).onWh t
  | peek cur next, t => (t.peek cur).bind fun e => (next e).onWh t
  | write cur st next, t => next.onWh (t.write cur st)
  | release _ next, t => next.onWh t
  | fuel next, t => (next t.count).onWh t

/-- As `whRangeQuery`; the iterator is released at diva.hpp:564-565, 571-572. -/
def intRangeQuery (c : Cfg) (l r : Key) : Client Bool := do
  let cur ← doSeek l
  let e ← doPeek cur
  if keyLe e.1 r then
    doRelease cur
    pure true
  else
    let cur ← doBack cur
    let p ← doPeek cur
    doRelease cur
    if p.2.isPartial && isPrefixOf p.1 l p.2.invalidBits then pure true
    else
      let fr ← lift (getFrame c.infixSize p.1 e.1)
      pure (rangeTailInt c p.2 fr p.1 l r)

/-- As `whDeleteMerge`; the iterator is released at diva.hpp:1584-1585. -/
def intDeleteMerge (c : Cfg) (cm : Cursor) : Client Unit := do
  let s := c.infixSize
  let mid ← doPeek cm
  let cr ← doSkip cm
  let right ← doPeek cr
  let cm ← doBack cr
  let cl ← doBack cm
  let left ← doPeek cl
  doRelease cl
  let listL := getInfixList c left.2
  let listR := getInfixList c mid.2
  let fr ← lift (getFrame s left.1 right.1)
  if listL.length ≠ left.2.elemCount ∨ listR.length ≠ mid.2.elemCount then lift .ub
  else
    let newL ← lift (updateInfixListDelete s fr.shared fr.ignore fr.implicitSize left.1 mid.1 listL)
    let newR ← lift (updateInfixListDelete s fr.shared fr.ignore fr.implicitSize mid.1 right.1 listR)
    let list := (newL ++ newR).map fun x => sub64 x (shl64 fr.prevImplicit s)
    delRead mid.1 cl cr fun eL eR =>
      let left' := slotBytes eL.1 left.1.length
      let right' := slotBytes eR.1 right.1.length
      let leftExtraction := extractPartialKey s left' fr.shared fr.ignore fr.implicitSize 0
      let rightExtraction := extractPartialKey s right' fr.shared fr.ignore fr.implicitSize 1
      let total := add32 (sub64 (rightExtraction >>> s) (leftExtraction >>> s) % 2 ^ 32) 1
      doPut left' (((allocWithList c list total).setPartial eL.2.isPartial).setInvalidBits eL.2.invalidBits)

/-- As `whDelete`; the iterator is released at diva.hpp:1553-1554. -/
def intDelete (c : Cfg) (key : Key) : Client Unit := do
  let cur ← doSeek key
  let e ← doPeek cur
  if e.1 == key && !e.2.isPartial then intDeleteMerge c cur
  else
    let q ← around cur e key
    let fr ← lift (getFrame c.infixSize q.2.1 q.2.2.2)
    let deletee := fr.item c.infixSize key
    if q.2.2.1.isPartial && mergesPartial c fr q.2.1 q.2.2.1 deletee then intDeleteMerge c q.1
    else
      doRelease q.1
      doWrite q.1 (deleteRaw c q.2.2.1 deletee fr.total)

/-- As `whSize`. -/
def intSize (c : Cfg) : Client Nat := do
  let res ← scan (fun res e => res + sizeEntry true c e) (1 + 12 * 4)
  pure ((res + 4) % 2 ^ 32)

/-- As `whSerialize`. -/
def intSerialize (seed lf : Nat) (c : Cfg) : Client (List UInt8) := do
  let out ← scan (fun out e => out ++ serializeEntry c e) (serializeMetadata true c.infixSize seed lf)
  pure (out ++ leBytes 4 (2 ^ 32 - 1))

/-- As `whDeserialize`. -/
def intDeserialize (buf : List UInt8) : Client Cfg := do
  let q ← lift (deserializeMetadata true buf)
  deserLoop (cfg95 q.1) (q.2.2.length + 1) q.2.2
  pure (cfg95 q.1)

end Client

end Verif
