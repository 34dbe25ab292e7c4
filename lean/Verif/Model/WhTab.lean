import Verif.Model.WhHash
import Verif.Model.WhStrFull

/-!
# The string tree with its index in its hash table

The operations of Verif/Model/WhMeta.lean that change the index once more, with the nodes in the hash table of
Verif/Model/WhHash.lean instead of a map: a node is looked up by its prefix, a new one is inserted, which may move others or
grow the table or not return, and a removed one is deleted. The code is the same in wh.c and wh_int.c; the lines are those of
wh_int.c unless noted.

`h` is the hash function; the recursion of an insertion is followed to the depth `depth`, deeper ones are `hang`.

Simplifications: as in the two modules; a pointer to a node is its prefix.
-/

namespace Verif

/-- `struct wormhmap`, wh_int.c:87-99: the table, the nodes that its entries point to, and `maxplen`. -/
structure TabIndex where
  tab : HTab
  node : Key → Meta
  maxplen : Nat

section
variable (h : Key → Nat) (depth : Nat)

/-- `wormhmap_get` and the access through the pointer, wh_int.c:789-800. -/
def TabIndex.find (x : TabIndex) (p : Key) : Option Meta := (x.tab.get h p).map fun e => x.node e.key

/-- What the search of a key sees, besides tags. -/
def TabIndex.view (x : TabIndex) : Index := ⟨x.find h, x.maxplen⟩

/-- Stores through a pointer to a node; also `wormhmap_replace`, wh_int.c:1062-1089, which changes the pointer in the entry. -/
def TabIndex.store (x : TabIndex) (p : Key) (m : Meta) : TabIndex := { x with node := fun q => if q = p then m else x.node q }

/-- `wormmeta_alloc` and `wormhmap_set`, wh_int.c:2035-2037. -/
def TabIndex.add (x : TabIndex) (p : Key) (m : Meta) : Res TabIndex :=
  (x.tab.set h depth p).bind fun t => .ok ({ x with tab := t }.store p m)

/-- `wormhmap_del` and `wormmeta_free`, wh_int.c:2270-2271: undefined if the entry stays. -/
def TabIndex.remove (x : TabIndex) (p : Key) : Res TabIndex :=
  match x.tab.del h p with
  | none => .ub
  | some t => .ok { x with tab := t }

/-- `wormhole_create_leaf0`, wh_int.c:1112-1127, in an empty table. -/
def TabIndex.create : Res TabIndex := TabIndex.add h depth ⟨HTab.init, fun _ => ⟨[], [], [], 256, 256, none⟩, 0⟩ [] ⟨[], [], [], 256, 256, none⟩

/-- `wormhole_jump_leaf`, wh_int.c:1346-1355: the search reads tags and nodes only. -/
def TabIndex.jump (x : TabIndex) (key : Key) : Res Key := indexJump (x.tab.peek h) (x.view h) key

/-- `wormmeta_split_touch`, wh_int.c:2020-2039: an old node is changed in place, a new one inserted. -/
def tabTouch (a prev : Key) (next : Option Key) (i : Nat) (x : TabIndex) : Res TabIndex :=
  match x.find h (a.take i) with
  | some m => (touchMeta a prev next i (some m)).bind fun m => .ok (x.store (a.take i) m)
  | none => (touchMeta a prev next i none).bind fun m => x.add h depth (a.take i) m

/-- The loop of `wormmeta_split`, wh_int.c:2077-2083. -/
def tabTouchLoop (a prev : Key) (next : Option Key) : Nat → Nat → TabIndex → Res TabIndex
  | 0, _, _ => .hang
  | n + 1, i, x =>
    (tabTouch h depth a prev next i x).bind fun x =>
      if i ≥ a.length then .ok { x with maxplen := if i > x.maxplen then i else x.maxplen }
      else tabTouchLoop a prev next n (i + 1) x

/-- The loop of `wormmeta_lpath_update`, wh_int.c:2050-2060. -/
def tabPathLoop (a2 lpath : Key) : Nat → Nat → TabIndex → Res TabIndex
  | 0, _, _ => .hang
  | n + 1, i, x =>
    if i < a2.length then
      match x.find h (a2.take i) with
      | none => .ub
      | some m => tabPathLoop a2 lpath n (i + 1) (x.store (a2.take i) { m with lpath := lpath })
    else .ok x

/-- `wormmeta_lpath_update`, wh_int.c:2041-2061; see `lpathUpdate`. -/
def tabPath (x : TabIndex) (a1 a2 lpath : Key) : Res TabIndex :=
  if a2.length > pbufRoom then .ub else tabPathLoop h a2 lpath (a2.length + 1) (keyLcp a1 a2 + 1) x

/-- `wormmeta_split`, wh_int.c:2065-2095. -/
def TabIndex.split (x : TabIndex) (prev a : Key) (next : Option Key) : Res TabIndex :=
  match next with
  | some n =>
    if a.length < keyLcp prev n then .ub
    else (tabTouchLoop h depth a prev next (a.length + 1) (keyLcp prev n) x).bind fun x => tabPath h x a n a
  | none => tabTouchLoop h depth a prev next (a.length + 1) 0 x

/-- The bit of a removed child goes from the node before, wh_int.c:2272-2275. -/
def tabDropChild (a : Key) (i : Nat) (x : TabIndex) : Res TabIndex :=
  match x.find h (a.take (i - 1)), a[i - 1]? with
  | some m, some b => (m.clearHelper b.toNat).bind fun m => .ok (x.store (a.take (i - 1)) m)
  | _, _ => .ub

/-- The loop of `wormmeta_merge`, wh_int.c:2264-2290. -/
def tabMergeLoop (a prev : Key) (next : Option Key) : Nat → Nat → Bool → TabIndex → Res TabIndex
  | 0, _, _, _ => .hang
  | n + 1, i, par, x =>
    match x.find h (a.take i) with
    | none => .ub
    | some m =>
      if m.lmost = m.rmost then
        if m.bitmap.isSome then .ub else
        (x.remove h (a.take i)).bind fun x =>
        (if par then tabDropChild h a i x else .ok x).bind fun x =>
        if m.bitmin = 256 then .ok x
        else if i ≥ a.length then .ok x
        else tabMergeLoop a prev next n (i + 1) false x
      else
        (adjustMeta a prev next i m).bind fun m =>
        if i ≥ a.length then .ok (x.store (a.take i) m)
        else tabMergeLoop a prev next n (i + 1) true (x.store (a.take i) m)

/-- `wormmeta_merge`, wh_int.c:2252-2294; see `indexMerge`. -/
def TabIndex.merge (x : TabIndex) (prev a : Key) (next : Option Key) : Res TabIndex :=
  if a.length > pbufRoom then .ub
  else match next with
  | some n =>
    if a.length < keyLcp prev n then .ub
    else (tabMergeLoop h a prev next (a.length + 1) (keyLcp prev n) false x).bind fun x => tabPath h x a n prev
  | none => tabMergeLoop h a prev next (a.length + 1) 0 false x

end

/-! ## The tree -/

/-- `struct wormhole`, wh.c:87-108. -/
structure TabMap where
  leaves : STree
  index : TabIndex

section
variable (h : Key → Nat) (depth : Nat)

/-- `wormhole_create_internal`, wh.c:1100-1166. -/
def TabMap.create : Res TabMap := (TabIndex.create h depth).bind fun x => .ok ⟨STree.empty, x⟩

/-- `wormhole_jump_leaf_read` and `wormhole_jump_leaf_write`, wh.c:1323-1376: the position of the leaf. -/
def TabMap.jump (s : TabMap) (key : Key) : Res Nat :=
  (s.index.jump h key).bind fun a =>
    match s.leaves.findIdx? (fun l => l.anchor == a) with
    | none => .ub
    | some i => .ok i

/-- `wormhole_put`, wh.c:2608-2642, with `wormhole_split_insert` and `wormhole_split_meta`, 2384-2402, 2327-2380. -/
def TabMap.put (s : TabMap) (k : Key) (st : Store) : Res (TabMap × Bool) :=
  (s.jump h k).bind fun i =>
  match s.leaves[i]? with
  | none => .ub
  | some l =>
    match l.matchHs k with
    | some ih => (l.update ih (k, st)).bind fun l => .ok (⟨s.leaves.set i l, s.index⟩, true)
    | none =>
      if l.nr < 32 then (l.insert (k, st)).bind fun l => .ok (⟨s.leaves.set i l, s.index⟩, true)
      else
        (l.split (decide (i + 1 < s.leaves.length)) (k, st)).bind fun
          | none => l.sync.bind fun l => .ok (⟨s.leaves.set i l, s.index⟩, false)
          | some (a, b) =>
            (s.index.split h depth a.anchor b.anchor (s.leaves.anchorAt (i + 1))).bind fun x =>
            .ok (⟨s.leaves.take i ++ a :: b :: s.leaves.drop (i + 1), x⟩, true)

/-- `wormhole_del_try_merge`, `wormhole_meta_leaf_merge` and `wormhole_meta_merge`, wh.c:2864-2876, 2569-2586, 2527-2565, on
leaf `i`. -/
def TabMap.tryMerge (s : TabMap) (t : STree) (i : Nat) : Res TabMap :=
  match t[i]?, t[i + 1]? with
  | some l, some n =>
    if l.nr = 0 ∨ l.nr + n.nr < 24 then
      if l.nr + n.nr ≤ 32 then (l.merge n).bind fun l' =>
        (s.index.merge h l.anchor n.anchor (t.anchorAt (i + 2))).bind fun x =>
        .ok ⟨t.take i ++ l' :: t.drop (i + 2), x⟩
      else .ok ⟨t, s.index⟩
    else .ok ⟨t, s.index⟩
  | _, _ => .ok ⟨t, s.index⟩

/-- `wormhole_del`, wh.c:2878-2896. -/
def TabMap.del (s : TabMap) (k : Key) : Res TabMap :=
  (s.jump h k).bind fun i =>
  match s.leaves[i]? with
  | none => .ub
  | some l =>
    match l.matchHs k with
    | some ih => (l.removeIh ih).bind fun l => s.tryMerge h (s.leaves.set i l) i
    | none => .ok s

/-- `wormhole_iter_seek`, wh.c:3107-3120. -/
def TabMap.seek (s : TabMap) (key : Key) : Res (TabMap × Cursor) :=
  (s.jump h key).bind fun i =>
  match s.leaves[i]? with
  | none => .ub
  | some l =>
    l.sync.bind fun l => (l.seek key).bind fun is =>
      (siterFix (s.leaves.length + 1) (s.leaves.set i l) i is).bind fun (t, cur) => .ok (⟨t, s.index⟩, cur)

/-- A client on leaves, index and hash table; see `Client.onIndex`. -/
def Client.onTable {α : Type} : Client α → TabMap → Res (TabMap × α)
  | ret r, s => r.bind fun a => .ok (s, a)
  | put k st next, s => (s.put h depth k st).bind fun (s, b) => (next b).onTable s
  | del k next, s => (s.del h k).bind fun s => next.onTable s
  | delRead k c1 c2 next, s =>
    (s.leaves.peek c1).bind fun e1 => (s.leaves.peek c2).bind fun e2 => (s.del h k).bind fun s => (next e1 e2).onTable s
  | seek k next, s => (s.seek h k).bind fun (s, c) => (next c).onTable s
  | skip cur next, s => (s.leaves.skip1 cur).bind fun (t, c) => (next c).onTable ⟨t, s.index⟩
  | back cur next, s => (s.leaves.skip1Rev cur).bind fun (t, c) => (next c).onTable ⟨t, s.index⟩
  | peek cur next, s => (s.leaves.peek cur).bind fun e => (next e).onTable s
  | write cur st next, s => next.onTable ⟨s.leaves.write cur st, s.index⟩
  | release _ next, s => next.onTable s
  | fuel next, s => (next (slotCount s.leaves)).onTable s

end

end Verif
