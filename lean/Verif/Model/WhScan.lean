import Verif.Model.WhTree
import Verif.Model.Serial
import Verif.Model.Shrink

/-!
# Calls of `Diva<true>` that visit the whole tree, restoring, and the streaming load
-/

namespace Verif

/-- `for (wh_int_iter_seek(&it, nullptr, 0); wh_int_iter_valid(&it); wh_int_iter_skip1(&it)) { wh_int_iter_peek_ref(…); … }`,
from the test on: diva.hpp:1117-1124, 1176-1186. `acc` is what the body adds to. Running out of `fuel` is `hang`. -/
def Wh.scanLoop {α : Type} (g : α → Key × Store → α) : Nat → Wh → Cursor → α → Res (Wh × α)
  | 0, _, _, _ => .hang
  | fuel + 1, t, cur, acc =>
    match cur with
    | none => .ok (t, acc)
    | some c =>
      (t.peek (some c)).bind fun e => (t.skip1 (some c)).bind fun (t, cur) => Wh.scanLoop g fuel t cur (g acc e)

/-- Number of used slots; only for the fuel. -/
def Wh.count (t : Wh) : Nat := (t.flatMap Leaf.entries).length

/-- The whole loop. -/
def Wh.scan {α : Type} (g : α → Key × Store → α) (t : Wh) (acc : α) : Res (Wh × α) :=
  (t.seek []).bind fun (t, cur) => Wh.scanLoop g (t.count + 1) t cur acc

/-- `Size` of `Diva<true>`, diva.hpp:1098-1159. -/
def whSize (f : WhFilter) : Res (WhFilter × Nat) :=
  (f.tree.scan (fun res e => res + sizeEntry true f.cfg e) (1 + 12 * 4)).bind fun (t, res) =>
    .ok (⟨f.cfg, t⟩, (res + 4) % 2 ^ 32)

/-- `Serialize` of `Diva<true>`, diva.hpp:1162-1214. -/
def whSerialize (seed lf : Nat) (f : WhFilter) : Res (WhFilter × List UInt8) :=
  (f.tree.scan (fun out e => out ++ serializeEntry f.cfg e) (serializeMetadata true f.cfg.infixSize seed lf)).bind fun (t, out) =>
    .ok (⟨f.cfg, t⟩, out ++ leBytes 4 (2 ^ 32 - 1))

/-- The loop of `ShrinkInfixSize`, diva.hpp:1068-1073: `do … while`, writing through the pointers. -/
def whShrinkLoop (c : Cfg) (s' : Nat) : Nat → Wh → Cursor → Res Wh
  | 0, _, _ => .hang
  | fuel + 1, t, cur =>
    (t.peek cur).bind fun e =>
    ((t.write cur (shrinkStore c e.2 s')).skip1 cur).bind fun (t, cur) =>
      if cur.isSome then whShrinkLoop c s' fuel t cur else .ok t

/-- `ShrinkInfixSize` of `Diva<true>`, diva.hpp:1055-1095. -/
def whShrink (f : WhFilter) (s' : Nat) : Res WhFilter :=
  (f.tree.seek []).bind fun (t, cur) =>
  (whShrinkLoop f.cfg s' (t.count + 1) t cur).bind fun t => .ok ⟨{ f.cfg with infixSize := s' }, t⟩

/-- Loop of the deserialising constructor of `Diva<true>`, diva.hpp:1294-1316, as in `deserLoop`. The model is meant for keys
of at most eight bytes; a slot has no room for more (wh_int.c:75-78). -/
def whDeserLoop (c : Cfg) : Nat → Wh → List UInt8 → Res Wh
  | 0, _, _ => .hang
  | fuel + 1, t, buf =>
    (readLe 4 buf).bind fun (len, buf) =>
    if len = 2 ^ 32 - 1 then .ok t
    else if len > 20000 ∨ buf.length < roundKeyLen len then .ub
    else (deserializeStore c (buf.drop (roundKeyLen len))).bind fun (st, rest) =>
      (t.put (buf.take len) st).bind fun t => whDeserLoop c fuel t rest

/-- The deserialising constructor of `Diva<true>`, diva.hpp:1275-1317. -/
def whDeserialize (buf : List UInt8) : Res WhFilter :=
  (deserializeMetadata true buf).bind fun (s, _, rest) =>
  (whDeserLoop (cfg95 s) (rest.length + 1) Wh.empty rest).bind fun t => .ok ⟨cfg95 s, t⟩

/-- `BulkLoadStreaming` of `Diva<true>`, diva.hpp:1925-1963, as in `streamKey`. -/
def whStreamKey (f : WhFilter) (b : Stream) (key : Key) : Res (WhFilter × Stream) :=
  match b.left with
  | none => .ok (f, { b with left := some key, maxLen := key.length })
  | some left =>
    let maxLen := max b.maxLen key.length
    if b.keys.length < 1023 then .ok (f, ⟨some left, b.keys ++ [key], maxLen⟩)
    else
      (whBulkRegion f.cfg f.tree left key b.keys growSep).bind fun t =>
        .ok (⟨f.cfg, t⟩, ⟨some key, [], maxLen⟩)

/-- `BulkLoadStreamingFinish` of `Diva<true>`, diva.hpp:1967-2007, as in `streamFinish`. -/
def whStreamFinish (f : WhFilter) (b : Stream) : Res (WhFilter × Stream) :=
  if b.left.isNone then .ub else
  (whAddTreeKey f.tree (List.replicate b.maxLen 0)).bind fun t =>
  (whAddTreeKey t (List.replicate b.maxLen 255)).bind fun t =>
  if b.keys.length > 0 then
    let right := b.keys.getLastD []
    let keys := b.keys.dropLast
    (whBulkRegion f.cfg t (b.left.getD []) right keys (findGrade f.cfg keys.length 500 0)).bind fun t =>
      (whAddTreeKey t right).bind fun t => .ok (⟨f.cfg, t⟩, ⟨none, [], b.maxLen⟩)
  else .ok (⟨f.cfg, t⟩, ⟨none, [], b.maxLen⟩)

/-- The constructor without keys (diva.hpp:316-335), then `BulkLoadStreaming` on every key and `BulkLoadStreamingFinish`. -/
def whStreamAll (c : Cfg) (keys : List Key) : Res WhFilter :=
  (keys.foldl (fun r k => Res.bind r fun (f, b) => whStreamKey f b k) (Res.ok (⟨c, Wh.empty⟩, ⟨none, [], 0⟩))).bind
    fun (f, b) => (whStreamFinish f b).bind fun (f, _) => .ok f

end Verif
