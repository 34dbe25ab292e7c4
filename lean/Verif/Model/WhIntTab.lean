import Verif.Model.WhTab
import Verif.Model.WhIntClient

/-!
# The integer tree with its index in its hash table

The operations of Verif/Model/WhFull.lean with the index of Verif/Model/WhTab.lean.
-/

namespace Verif

/-- `struct wormhole_int`, wh_int.c:100-120. -/
structure IntTab where
  leaves : Wh
  index : TabIndex

section
variable (h : Key → Nat) (depth : Nat)

/-- `wormhole_create_internal`, wh_int.c:1133-1199. -/
def IntTab.create : Res IntTab := (TabIndex.create h depth).bind fun x => .ok ⟨Wh.empty, x⟩

/-- `wormhole_jump_leaf_read` and `wormhole_jump_leaf_write`, wh_int.c:1357-1409: the position of the leaf. -/
def IntTab.jump (s : IntTab) (key : Key) : Res Nat :=
  (s.index.jump h key).bind fun a =>
    match s.leaves.findIdx? (fun l => l.anchor == a) with
    | none => .ub
    | some i => .ok i

/-- `wormhole_int_put`, wh_int.c:2381-2408, with `wormhole_split_meta`, 2097-2151. -/
def IntTab.put (s : IntTab) (k : Key) (st : Store) : Res IntTab :=
  (s.jump h k).bind fun i =>
  match s.leaves[i]? with
  | none => .ub
  | some l =>
    (l.searchEq k).bind fun
      | some pos => .ok ⟨s.leaves.set i (l.update pos (k, st)), s.index⟩
      | none =>
        if l.nr < 32 then (l.append (k, st)).bind fun l => .ok ⟨s.leaves.set i l, s.index⟩
        else (l.split (decide (i + 1 < s.leaves.length)) (k, st)).bind fun (a, b) =>
          (s.index.split h depth a.anchor b.anchor (s.leaves.anchorAt (i + 1))).bind fun x =>
          .ok ⟨s.leaves.take i ++ a :: b :: s.leaves.drop (i + 1), x⟩

/-- `wormhole_del_try_merge` and `wormhole_meta_merge`, wh_int.c:2471-2483, 2296-2338, on leaf `i`. -/
def IntTab.tryMerge (s : IntTab) (t : Wh) (i : Nat) : Res IntTab :=
  match t[i]?, t[i + 1]? with
  | some l, some n =>
    if l.nr = 0 ∨ l.nr + n.nr < 24 then
      if l.nr + n.nr ≤ 32 then (l.merge n).bind fun l' =>
        (s.index.merge h l.anchor n.anchor (t.anchorAt (i + 2))).bind fun x =>
        .ok ⟨t.take i ++ l' :: t.drop (i + 2), x⟩
      else .ok ⟨t, s.index⟩
    else .ok ⟨t, s.index⟩
  | _, _ => .ok ⟨t, s.index⟩

/-- `wormhole_int_del`, wh_int.c:2485-2499. -/
def IntTab.del (s : IntTab) (k : Key) : Res IntTab :=
  (s.jump h k).bind fun i =>
  match s.leaves[i]? with
  | none => .ub
  | some l =>
    (l.searchEq k).bind fun
      | some pos => s.tryMerge h (s.leaves.set i (l.remove pos)) i
      | none => .ok s

/-- `wormhole_int_iter_seek`, wh_int.c:2709-2721. -/
def IntTab.seek (s : IntTab) (key : Key) : Res (IntTab × Cursor) :=
  (s.jump h key).bind fun i =>
  match s.leaves[i]? with
  | none => .ub
  | some l =>
    l.sync.bind fun l => (l.search key).bind fun is =>
      (iterFix (s.leaves.length + 1) (s.leaves.set i l) i is).bind fun (t, cur) => .ok (⟨t, s.index⟩, cur)

/-- A client on leaves, index and hash table; see `Client.onWh`. -/
def Client.onIntTable {α : Type} : Client α → IntTab → Res (IntTab × α)
  | ret r, s => r.bind fun a => .ok (s, a)
  | put k st next, s => (s.put h depth k st).bind fun s => (next true).onIntTable s
  | del k next, s => (s.del h k).bind fun s => next.onIntTable s
  | delRead k c1 c2 next, s =>
    (s.jump h k).bind fun i => (s.del h k).bind fun s' =>
    (Wh.reread s.leaves s'.leaves i c1).bind fun e1 => (Wh.reread s.leaves s'.leaves i c2).bind fun e2 => (next e1 e2).onIntTable s'
  | seek k next, s => (s.seek h k).bind fun (s, c) => (next c).onIntTable s
  | skip cur next, s => (s.leaves.skip1 cur).bind fun (t, c) => (next c).onIntTable ⟨t, s.index⟩
  | back cur next, s => (s.leaves.skip1Rev cur).bind fun (t, c) => (next c).onIntTable ⟨t, s.index⟩
  | peek cur next, s => (s.leaves.peek cur).bind fun e => (next e).onIntTable s
  | write cur st next, s => next.onIntTable ⟨s.leaves.write cur st, s.index⟩
  | release _ next, s => next.onIntTable s
  | fuel next, s => (next s.leaves.count).onIntTable s

end

end Verif
