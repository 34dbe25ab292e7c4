import Verif.Model.WhIntClient
import Verif.Model.WhLock

/-!
# The locks of the integer tree

The functions of Verif/Model/WhTree.lean with the locks and versions that they take and compare. Taking and releasing them is the
same code as in the string tree (wh_int.c:551-598, 621-641, 1354-1411), so the functions on the locks are those of
Verif/Model/WhLock.lean, with the simplifications stated there.
-/

namespace Verif

namespace LockMap

/-- `whsafe_int_put` and `wormhole_int_put`, wh_int.c:2410-2417, 2381-2408; `wormhole_split_insert` and `wormhole_split_meta`,
2157-2174, 2098-2152. -/
def iput (s : LockMap Leaf) (k : Key) (st : Store) : Res (LockMap Leaf) :=
  ({ s with parked := false }.jumpWrite (Wh.jump s.leaves k)).bind fun (s, i) =>
  ((match s.leaves[i]? with
    | none => .ub
    | some l =>
      (l.searchEq k).bind fun
        | some pos => (s.setLeaves (s.leaves.set i (l.update pos (k, st)))).unlockWrite i
        | none =>
          if l.nr < 32 then (l.append (k, st)).bind fun l => (s.setLeaves (s.leaves.set i l)).unlockWrite i
          else (l.split (decide (i + 1 < s.leaves.length)) (k, st)).bind fun (a, b) => s.splitInsert i a b) : Res (LockMap Leaf)).bind fun s =>
  .ok { s with parked := true }

/-- `wormhole_del_try_merge` and `wormhole_meta_leaf_merge`, wh_int.c:2471-2483, 2341-2358; `wormhole_meta_merge`, 2299-2337. -/
def itryMerge (s : LockMap Leaf) (i : Nat) : Res (LockMap Leaf) :=
  match s.leaves[i]?, s.leaves[i + 1]? with
  | some l, some n =>
    if l.nr = 0 ∨ l.nr + n.nr < 24 then
      (s.lockWrite (i + 1)).bind fun s =>
      if l.nr + n.nr ≤ 32 then (l.merge n).bind fun l => s.metaMerge i l
      else (s.unlockWrite i).bind fun s => s.unlockWrite (i + 1)
    else s.unlockWrite i
  | _, _ => s.unlockWrite i

/-- `whsafe_int_del` and `wormhole_int_del`, wh_int.c:2501-2508, 2485-2499. -/
def idel (s : LockMap Leaf) (k : Key) : Res (LockMap Leaf) :=
  ({ s with parked := false }.jumpWrite (Wh.jump s.leaves k)).bind fun (s, i) =>
  ((match s.leaves[i]? with
    | none => .ub
    | some l =>
      (l.searchEq k).bind fun
        | some pos => (s.setLeaves (s.leaves.set i (l.remove pos))).itryMerge i
        | none => s.unlockWrite i) : Res (LockMap Leaf)).bind fun s =>
  .ok { s with parked := true }

/-- `wormhole_int_iter_fix`, wh_int.c:2660-2682. -/
def ifix : Nat → LockMap Leaf → Nat → Nat → Res (LockMap Leaf × Cursor)
  | 0, _, _, _ => .hang
  | fuel + 1, s, i, is =>
    match s.leaves[i]? with
    | none => .ub
    | some l =>
      if is ≥ l.sorted then
        match s.leaves[i + 1]? with
        | none => (s.unlockRead i).bind fun s => .ok (s, none)
        | some n =>
          (s.lockRead (i + 1)).bind fun s => (s.unlockRead i).bind fun s =>
          n.sync.bind fun n => ifix fuel (s.setLeaves (s.leaves.set (i + 1) n)) (i + 1) 0
      else .ok (s, some (i, is))

/-- `wormhole_int_iter_fix_rev`, wh_int.c:2684-2706, when `is` is -1 in leaf `i`. -/
def ifixRev : Nat → LockMap Leaf → Res (LockMap Leaf × Cursor)
  | 0, s => (s.unlockRead 0).bind fun s => .ok (s, none)
  | i + 1, s =>
    match s.leaves[i]? with
    | none => .ub
    | some p =>
      (s.lockRead i).bind fun s => (s.unlockRead (i + 1)).bind fun s =>
      p.sync.bind fun p => if p.nr = 0 then ifixRev i (s.setLeaves (s.leaves.set i p)) else .ok (s.setLeaves (s.leaves.set i p), some (i, p.nr - 1))

/-- `whsafe_int_iter_seek` and `wormhole_int_iter_seek`, wh_int.c:2723-2728, 2708-2721, of an iterator with `leaf` null. -/
def iseek (s : LockMap Leaf) (key : Key) : Res (LockMap Leaf × Cursor) :=
  ({ s with parked := false }.jumpRead (Wh.jump s.leaves key)).bind fun (s, i) =>
  match s.leaves[i]? with
  | none => .ub
  | some l => l.sync.bind fun l => (l.search key).bind fun is => ifix (s.leaves.length + 1) (s.setLeaves (s.leaves.set i l)) i is

/-- `wormhole_int_iter_skip1`, wh_int.c:2773-2780. -/
def iskip1 (s : LockMap Leaf) : Cursor → Res (LockMap Leaf × Cursor)
  | none => .ok (s, none)
  | some (i, is) => ifix (s.leaves.length + 1) s i (is + 1)

/-- `wormhole_int_iter_skip1_rev`, wh_int.c:2803-2810. -/
def iskip1Rev (s : LockMap Leaf) : Cursor → Res (LockMap Leaf × Cursor)
  | none => .ok (s, none)
  | some (i, is) => if is = 0 then ifixRev i s else .ok (s, some (i, is - 1))

end LockMap

/-- A client on the integer tree with locks. -/
def Client.onIntLocks {α : Type} : Client α → LockMap Leaf → Res (LockMap Leaf × α)
  | ret r, s => r.bind fun a => .ok (s, a)
  | put k st next, s => (s.iput k st).bind fun s => (next true).onIntLocks s
  | del k next, s => (s.idel k).bind fun s => next.onIntLocks s
  | delRead k c1 c2 next, s =>
    (s.idel k).bind fun s' =>
    (Wh.reread s.leaves s'.leaves (Wh.jump s.leaves k) c1).bind fun e1 =>
    (Wh.reread s.leaves s'.leaves (Wh.jump s.leaves k) c2).bind fun e2 => (next e1 e2).onIntLocks s'
  | seek k next, s => (s.iseek k).bind fun (s, c) => (next c).onIntLocks s
  | skip cur next, s => (s.iskip1 cur).bind fun (s, c) => (next c).onIntLocks s
  | back cur next, s => (s.iskip1Rev cur).bind fun (s, c) => (next c).onIntLocks s
  | peek cur next, s => (Wh.peek s.leaves cur).bind fun e => (next e).onIntLocks s
  | write cur st next, s => next.onIntLocks (s.setLeaves (Wh.write s.leaves cur st))
  | release cur next, s => (s.release cur).bind fun s => next.onIntLocks s
  | fuel next, s => (next (Wh.count s.leaves)).onIntLocks s

end Verif
