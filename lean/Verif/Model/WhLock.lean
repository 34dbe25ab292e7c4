import Verif.Model.WhStrFull

/-!
# The locks of the trees

The functions of Verif/Model/WhStr.lean (of Verif/Model/WhTree.lean: Verif/Model/WhIntLock.lean) once more, with the locks and versions that they take and compare, for one thread.
What no other thread can change never changes while the thread waits, so waiting is `hang`. A lock that is released although
it is not held is `ub`.

Simplifications: a leaf is its position, and the lock of a leaf is at the same position in a second list. The lock of the
sorting (`sortlock`, wh.c:3039-3043) is taken and released around a function without calls of the tree, so it is left out.
Of the two copies of the index only the version of the one in use is kept. Versions do not wrap around at 2^64.
-/

namespace Verif

/-- `leaflock` and `lv` of `struct wormleaf`, wh.c:50-55; a lock has a number of readers or a writer, lib.c:1325-1509. -/
structure LeafLock where
  readers : Nat
  writer : Bool
  version : Nat

/-- The tree, its locks, the version of the index in use, and the one reference to the tree: its version and whether it is
parked (`struct wormref`, `struct qsbr_ref_real`, lib.c:2839-2850). -/
structure LockMap (L : Type) where
  leaves : List L
  locks : List LeafLock
  metalock : Bool
  version : Nat
  qstate : Nat
  parked : Bool

namespace LockMap

variable {L : Type}

/-- `wormhole_create_internal`, wh.c:1100-1146, and `whsafe_ref`, wh.c:3362-3369. The memory of the leaf is fresh, so its
version is zero. `t` is the one empty leaf. -/
def new (t : List L) : LockMap L := ⟨t, [⟨0, false, 0⟩], false, 0, 0, true⟩

def setLeaves (s : LockMap L) (t : List L) : LockMap L := { s with leaves := t }

def setLock (s : LockMap L) (i : Nat) (k : LeafLock) : LockMap L := { s with locks := s.locks.set i k }

/-- `wormleaf_lock_read`, wh.c:517-525. -/
def lockRead (s : LockMap L) (i : Nat) : Res (LockMap L) :=
  match s.locks[i]? with
  | none => .ub
  | some k => if k.writer then .hang else .ok (s.setLock i { k with readers := k.readers + 1 })

/-- `wormleaf_unlock_read`, wh.c:534-538. -/
def unlockRead (s : LockMap L) (i : Nat) : Res (LockMap L) :=
  match s.locks[i]? with
  | none => .ub
  | some k => if k.readers = 0 then .ub else .ok (s.setLock i { k with readers := k.readers - 1 })

/-- `wormleaf_lock_write`, wh.c:506-515. -/
def lockWrite (s : LockMap L) (i : Nat) : Res (LockMap L) :=
  match s.locks[i]? with
  | none => .ub
  | some k => if k.writer ∨ k.readers ≠ 0 then .hang else .ok (s.setLock i { k with writer := true })

/-- `wormleaf_unlock_write`, wh.c:527-531. -/
def unlockWrite (s : LockMap L) (i : Nat) : Res (LockMap L) :=
  match s.locks[i]? with
  | none => .ub
  | some k => if k.writer then .ok (s.setLock i { k with writer := false }) else .ub

/-- `wormleaf_version_store`, wh.c:595-599. -/
def stamp (s : LockMap L) (i v : Nat) : LockMap L :=
  match s.locks[i]? with
  | none => s
  | some k => s.setLock i { k with version := v }

/-- `wormhmap_lock`, wh.c:540-548. -/
def lockMeta (s : LockMap L) : Res (LockMap L) := if s.metalock then .hang else .ok { s with metalock := true }

/-- `wormhmap_unlock`, wh.c:550-554. -/
def unlockMeta (s : LockMap L) : Res (LockMap L) := if s.metalock then .ok { s with metalock := false } else .ub

/-- `qsbr_wait`, lib.c:2973-3014: until the reference is parked or has seen the version. -/
def wait (s : LockMap L) (v : Nat) : Res (LockMap L) := if s.parked ∨ s.qstate = v then .ok s else .hang

/-- The test of the version after the lock was taken, wh.c:1337-1340: a newer leaf is released and searched again, which
finds the same. -/
def check (s : LockMap L) (i : Nat) : Res (LockMap L) :=
  match s.locks[i]? with
  | none => .ub
  | some k => if k.version ≤ s.version then .ok s else .hang

/-- `wormhole_jump_leaf_read`, wh.c:1323-1348; `i` is the leaf that the search finds. -/
def jumpRead (s : LockMap L) (i : Nat) : Res (LockMap L × Nat) :=
  ({ s with qstate := s.version }.lockRead i).bind fun s => (s.check i).bind fun s => .ok (s, i)

/-- `wormhole_jump_leaf_write`, wh.c:1350-1376. -/
def jumpWrite (s : LockMap L) (i : Nat) : Res (LockMap L × Nat) :=
  ({ s with qstate := s.version }.lockWrite i).bind fun s => (s.check i).bind fun s => .ok (s, i)

/-- The new versions of leaves `i` and `i + 1` and of the index, and the change to the other copy of it, wh.c:2355-2366,
2540-2553. -/
def publish (s : LockMap L) (i : Nat) : LockMap L :=
  let v := s.version + 1
  { (s.stamp i v).stamp (i + 1) v with version := v, qstate := v }

/-- `wormhole_split_insert` and `wormhole_split_meta`, wh.c:2384-2402, 2325-2380: `a` and `b` take the place of leaf `i`,
which is locked for writing. -/
def splitInsert (s : LockMap L) (i : Nat) (a b : L) : Res (LockMap L) :=
  ({ s with leaves := s.leaves.take i ++ a :: b :: s.leaves.drop (i + 1),
            locks := s.locks.take (i + 1) ++ (⟨0, false, 0⟩ : LeafLock) :: s.locks.drop (i + 1) }.lockWrite (i + 1)).bind fun s =>
  s.lockMeta.bind fun s =>
  ((s.publish i).unlockWrite i).bind fun s =>
  (s.unlockWrite (i + 1)).bind fun s =>
  (s.wait s.version).bind fun s => s.unlockMeta

/-- `whsafe_put` and `wormhole_put`, wh.c:2644-2651, 2608-2642. -/
def put (s : LockMap SLeaf) (k : Key) (st : Store) : Res (LockMap SLeaf × Bool) :=
  ({ s with parked := false }.jumpWrite (STree.jump s.leaves k)).bind fun (s, i) =>
  ((match s.leaves[i]? with
    | none => .ub
    | some l =>
      match l.matchHs k with
      | some ih => (l.update ih (k, st)).bind fun l => ((s.setLeaves (s.leaves.set i l)).unlockWrite i).bind fun s => .ok (s, true)
      | none =>
        if l.nr < 32 then
          (l.insert (k, st)).bind fun l => ((s.setLeaves (s.leaves.set i l)).unlockWrite i).bind fun s => .ok (s, true)
        else
          (l.split (decide (i + 1 < s.leaves.length)) (k, st)).bind fun
            | none => l.sync.bind fun l => ((s.setLeaves (s.leaves.set i l)).unlockWrite i).bind fun s => .ok (s, false)
            | some (a, b) => (s.splitInsert i a b).bind fun s => .ok (s, true)) : Res (LockMap SLeaf × Bool)).bind fun (s, r) =>
  .ok ({ s with parked := true }, r)

/-- `wormhole_meta_merge`, wh.c:2526-2565: `l` takes the place of leaves `i` and `i + 1`, which are locked for writing. -/
def metaMerge (s : LockMap L) (i : Nat) (l : L) : Res (LockMap L) :=
  s.lockMeta.bind fun s =>
  ((s.publish i).unlockWrite i).bind fun s =>
  (s.unlockWrite (i + 1)).bind fun s =>
  (s.wait s.version).bind fun s =>
  { s with leaves := s.leaves.take i ++ l :: s.leaves.drop (i + 2),
           locks := s.locks.take (i + 1) ++ s.locks.drop (i + 2) }.unlockMeta

/-- `wormhole_del_try_merge` and `wormhole_meta_leaf_merge`, wh.c:2864-2876, 2567-2586. -/
def tryMerge (s : LockMap SLeaf) (i : Nat) : Res (LockMap SLeaf) :=
  match s.leaves[i]?, s.leaves[i + 1]? with
  | some l, some n =>
    if l.nr = 0 ∨ l.nr + n.nr < 24 then
      (s.lockWrite (i + 1)).bind fun s =>
      if l.nr + n.nr ≤ 32 then (l.merge n).bind fun l => s.metaMerge i l
      else (s.unlockWrite i).bind fun s => s.unlockWrite (i + 1)
    else s.unlockWrite i
  | _, _ => s.unlockWrite i

/-- `whsafe_del` and `wormhole_del`, wh.c:2897-2904, 2878-2896. -/
def del (s : LockMap SLeaf) (k : Key) : Res (LockMap SLeaf) :=
  ({ s with parked := false }.jumpWrite (STree.jump s.leaves k)).bind fun (s, i) =>
  ((match s.leaves[i]? with
    | none => .ub
    | some l =>
      match l.matchHs k with
      | some ih => (l.removeIh ih).bind fun l => (s.setLeaves (s.leaves.set i l)).tryMerge i
      | none => s.unlockWrite i) : Res (LockMap SLeaf)).bind fun s =>
  .ok { s with parked := true }

/-- `wormhole_iter_fix`, wh.c:3059-3081. -/
def fix : Nat → LockMap SLeaf → Nat → Nat → Res (LockMap SLeaf × Cursor)
  | 0, _, _, _ => .hang
  | fuel + 1, s, i, is =>
    match s.leaves[i]? with
    | none => .ub
    | some l =>
      if is ≥ l.sorted then
        match s.leaves[i + 1]? with
        | none => (s.unlockRead i).bind fun s => .ok (s, none)
        | some n =>
          (s.lockRead (i + 1)).bind fun s => (s.unlockRead i).bind fun s =>
          n.sync.bind fun n => fix fuel (s.setLeaves (s.leaves.set (i + 1) n)) (i + 1) 0
      else .ok (s, some (i, is))

/-- `wormhole_iter_fix_rev`, wh.c:3083-3105, when `is` is -1 in leaf `i`. -/
def fixRev : Nat → LockMap SLeaf → Res (LockMap SLeaf × Cursor)
  | 0, s => (s.unlockRead 0).bind fun s => .ok (s, none)
  | i + 1, s =>
    match s.leaves[i]? with
    | none => .ub
    | some p =>
      (s.lockRead i).bind fun s => (s.unlockRead (i + 1)).bind fun s =>
      p.sync.bind fun p => if p.nr = 0 then fixRev i (s.setLeaves (s.leaves.set i p)) else .ok (s.setLeaves (s.leaves.set i p), some (i, p.nr - 1))

/-- `whsafe_iter_seek` and `wormhole_iter_seek`, wh.c:3122-3127, 3107-3120, of an iterator with `leaf` null, as `Diva` has it. -/
def seek (s : LockMap SLeaf) (key : Key) : Res (LockMap SLeaf × Cursor) :=
  ({ s with parked := false }.jumpRead (STree.jump s.leaves key)).bind fun (s, i) =>
  match s.leaves[i]? with
  | none => .ub
  | some l => l.sync.bind fun l => (l.seek key).bind fun is => fix (s.leaves.length + 1) (s.setLeaves (s.leaves.set i l)) i is

/-- `wormhole_iter_skip1`, wh.c:3179-3186. -/
def skip1 (s : LockMap SLeaf) : Cursor → Res (LockMap SLeaf × Cursor)
  | none => .ok (s, none)
  | some (i, is) => fix (s.leaves.length + 1) s i (is + 1)

/-- `wormhole_iter_skip1_rev`, wh.c:3209-3216. -/
def skip1Rev (s : LockMap SLeaf) : Cursor → Res (LockMap SLeaf × Cursor)
  | none => .ok (s, none)
  | some (i, is) => if is = 0 then fixRev i s else .ok (s, some (i, is - 1))

/-- `if (it.leaf) wormleaf_unlock_read(it.leaf)`, for instance diva.hpp:504-505. -/
def release (s : LockMap L) : Cursor → Res (LockMap L)
  | none => .ok s
  | some (i, _) => s.unlockRead i

end LockMap

/-- A client on the tree with locks. -/
def Client.onLocks {α : Type} : Client α → LockMap SLeaf → Res (LockMap SLeaf × α)
  | ret r, s => r.bind fun a => .ok (s, a)
  | put k st next, s => (s.put k st).bind fun (s, b) => (next b).onLocks s
  | del k next, s => (s.del k).bind fun s => next.onLocks s
  | delRead k c1 c2 next, s =>
    (STree.peek s.leaves c1).bind fun e1 => (STree.peek s.leaves c2).bind fun e2 => (s.del k).bind fun s => (next e1 e2).onLocks s
  | seek k next, s => (s.seek k).bind fun (s, c) => (next c).onLocks s
  | skip cur next, s => (s.skip1 cur).bind fun (s, c) => (next c).onLocks s
  | back cur next, s => (s.skip1Rev cur).bind fun (s, c) => (next c).onLocks s
  | peek cur next, s => (STree.peek s.leaves cur).bind fun e => (next e).onLocks s
  | write cur st next, s => next.onLocks (s.setLeaves (STree.write s.leaves cur st))
  | release cur next, s => (s.release cur).bind fun s => next.onLocks s
  | fuel next, s => (next (slotCount s.leaves)).onLocks s

end Verif
