import Verif.Model.WhStrFilter
import Verif.Model.Serial
import Verif.Model.Shrink

/-!
# Calls of `Diva<false>` that visit the whole tree
-/

namespace Verif

/-- `for (wh_iter_seek(&it, nullptr, 0); wh_iter_valid(&it); wh_iter_skip1(&it)) { wh_iter_peek_ref(…); … }`, from the test on:
diva.hpp:1136-1156, 1197-1209. `acc` is what the body adds to. Running out of `fuel` is `hang`. -/
def STree.scanLoop {α : Type} (g : α → Key × Store → α) : Nat → STree → Cursor → α → Res (STree × α)
  | 0, _, _, _ => .hang
  | fuel + 1, t, cur, acc =>
    match cur with
    | none => .ok (t, acc)
    | some c =>
      (t.peek (some c)).bind fun e => (t.skip1 (some c)).bind fun (t, cur) => STree.scanLoop g fuel t cur (g acc e)

/-- Number of used slots; only for the fuel. -/
def slotCount (t : STree) : Nat := (t.flatMap fun l => l.hs.filterMap id).length

/-- The whole loop. -/
def STree.scan {α : Type} (g : α → Key × Store → α) (t : STree) (acc : α) : Res (STree × α) :=
  (t.seek []).bind fun (t, cur) => STree.scanLoop g (slotCount t + 1) t cur acc

/-- `Size` of `Diva<false>`, diva.hpp:1098-1159. -/
def strSize (f : StrFilter) : Res (StrFilter × Nat) :=
  (f.tree.scan (fun res e => res + sizeEntry false f.cfg e) (1 + 12 * 4)).bind fun (t, res) =>
    .ok (⟨f.cfg, t⟩, (res + 4) % 2 ^ 32)

/-- `Serialize` of `Diva<false>`, diva.hpp:1162-1214. -/
def strSerialize (seed lf : Nat) (f : StrFilter) : Res (StrFilter × List UInt8) :=
  (f.tree.scan (fun out e => out ++ serializeEntry f.cfg e) (serializeMetadata false f.cfg.infixSize seed lf)).bind fun (t, out) =>
    .ok (⟨f.cfg, t⟩, out ++ leBytes 4 (2 ^ 32 - 1))

/-- The loop of `ShrinkInfixSize`, diva.hpp:1086-1091: `do … while`, writing through the pointers. -/
def strShrinkLoop (c : Cfg) (s' : Nat) : Nat → STree → Cursor → Res STree
  | 0, _, _ => .hang
  | fuel + 1, t, cur =>
    (t.peek cur).bind fun e =>
    ((t.write cur (shrinkStore c e.2 s')).skip1 cur).bind fun (t, cur) =>
      if cur.isSome then strShrinkLoop c s' fuel t cur else .ok t

/-- `ShrinkInfixSize` of `Diva<false>`, diva.hpp:1055-1095. -/
def strShrink (f : StrFilter) (s' : Nat) : Res StrFilter :=
  (f.tree.seek []).bind fun (t, cur) =>
  (strShrinkLoop f.cfg s' (slotCount t + 1) t cur).bind fun t => .ok ⟨{ f.cfg with infixSize := s' }, t⟩

/-- Loop of the deserialising constructor of `Diva<false>`, diva.hpp:1294-1316, as in `deserLoop`. -/
def strDeserLoop (c : Cfg) : Nat → STree → List UInt8 → Res STree
  | 0, _, _ => .hang
  | fuel + 1, t, buf =>
    (readLe 4 buf).bind fun (len, buf) =>
    if len = 2 ^ 32 - 1 then .ok t
    else if len > 20000 ∨ buf.length < roundKeyLen len then .ub
    else (deserializeStore c (buf.drop (roundKeyLen len))).bind fun (st, rest) =>
      (t.wput (buf.take len) st).bind fun t => strDeserLoop c fuel t rest

/-- The deserialising constructor of `Diva<false>`, diva.hpp:1275-1317. -/
def strDeserialize (buf : List UInt8) : Res StrFilter :=
  (deserializeMetadata false buf).bind fun (s, _, rest) =>
  (strDeserLoop (cfg95 s) (rest.length + 1) STree.empty rest).bind fun t => .ok ⟨cfg95 s, t⟩

end Verif
