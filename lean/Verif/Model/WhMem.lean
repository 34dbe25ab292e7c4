import Verif.Model.WhStrFull

/-!
# Memory of the string tree

The tree keeps its pairs, its leaves and the keys of its index on the heap. A node of the index does not own its prefix: it
points to an index key (`mkey`), a copy of the anchor that was split off when the node came up, and shares it with the nodes
of other prefixes of that anchor, in both tables. The key counts its users and is freed with the last one. Below the
operations of Verif/Model/WhStrFull.lean once more with every allocation, use and release of such blocks. Use of a block
that is not there is undefined behaviour.

Not modelled here: the slabs that nodes and leaves come from (the leaf and its anchor are one block), the buffers of the two tables, `struct wormhole`,
`struct qsbr`. wh_int.c handles index keys with the same functions (wh_int.c:228-258, 525-545, 2020-2095, 2256-2295).
-/

namespace Verif

/-- What a block holds: a pair (`struct kv` from `kv_create`), a leaf with its anchor, an index key with the number of its users
(`refcnt`), a `struct wormref`. -/
inductive Block
  | pair
  | leaf
  | mkey (bytes : Key) (refcnt : Nat)
  | ref
deriving DecidableEq

/-- The heap, by block number; numbers from `next` on were never given out. -/
structure TreeHeap where
  block : Nat → Option Block
  next : Nat

/-- No block. -/
def TreeHeap.empty : TreeHeap := ⟨fun _ => none, 0⟩

/-- Change one block. -/
def TreeHeap.put (hp : TreeHeap) (id : Nat) (b : Option Block) : TreeHeap := ⟨fun i => if i = id then b else hp.block i, hp.next⟩

/-- `malloc`, with the content that is stored in it next. -/
def TreeHeap.alloc (hp : TreeHeap) (b : Block) : TreeHeap := ⟨(hp.put hp.next (some b)).block, hp.next + 1⟩

/-- `free` of a pair, a leaf or a reference. -/
def TreeHeap.free (hp : TreeHeap) (id : Nat) (b : Block) : Res TreeHeap := if hp.block id = some b then .ok (hp.put id none) else .ub

/-- `keyref->refcnt++` in `wormmeta_init`, wh.c:203. -/
def TreeHeap.retain (hp : TreeHeap) (id : Nat) : Res TreeHeap :=
  match hp.block id with
  | some (.mkey b n) => .ok (hp.put id (some (.mkey b (n + 1))))
  | _ => .ub

/-- `wormmeta_keyref_release`, wh.c:487-495. -/
def TreeHeap.release (hp : TreeHeap) (id : Nat) : Res TreeHeap :=
  match hp.block id with
  | some (.mkey _ 1) => .ok (hp.put id none)
  | some (.mkey b (n + 2)) => .ok (hp.put id (some (.mkey b (n + 1))))
  | _ => .ub

/-- `if (mkey->refcnt == 0) wormhole_free_mkey(mkey)`, wh.c:2377-2378. -/
def TreeHeap.dropUnused (hp : TreeHeap) (id : Nat) : Res TreeHeap :=
  match hp.block id with
  | some (.mkey _ 0) => .ok (hp.put id none)
  | some (.mkey _ _) => .ok hp
  | _ => .ub

/-! ## One table -/

/-- `struct wormhmap`, wh.c:73-84: the index, and for every node in it the block of its key (`keyref`). -/
structure RefIndex where
  index : Index
  keys : List (Key × Nat)

/-- The node of `p` can be compared: its key is there and starts with `p`. -/
def TreeHeap.spells (hp : TreeHeap) (p : Key) (id : Nat) : Bool :=
  match hp.block id with
  | some (.mkey b _) => p.isPrefixOf b
  | _ => false

/-- All of the table can be searched: a search may compare with any node whose tag happens to be the same
(`wormhmap_get`, wh.c:756-789). -/
def RefIndex.readable (x : RefIndex) (hp : TreeHeap) : Bool := x.keys.all fun e => hp.spells e.1 e.2

/-- `wormhmap_get`. -/
def RefIndex.get (x : RefIndex) (hp : TreeHeap) (p : Key) : Res (Option Meta) := if x.readable hp then .ok (x.index.get p) else .ub

/-- Store into a node that is there. -/
def RefIndex.store (x : RefIndex) (p : Key) (m : Meta) : RefIndex := ⟨x.index.put p (some m), x.keys⟩

/-- `wormmeta_alloc` and `wormhmap_set`: a new node with the key in block `id`. -/
def RefIndex.add (x : RefIndex) (p : Key) (m : Meta) (id : Nat) (hp : TreeHeap) : Res (RefIndex × TreeHeap) :=
  (hp.retain id).bind fun hp => .ok (⟨x.index.put p (some m), (p, id) :: x.keys⟩, hp)

/-- `wormhmap_del` and `wormmeta_free`, wh.c:497-502, 2498-2499. -/
def RefIndex.remove (x : RefIndex) (p : Key) (hp : TreeHeap) : Res (RefIndex × TreeHeap) :=
  match x.keys.find? (·.1 == p) with
  | none => .ub
  | some e => (hp.release e.2).bind fun hp => .ok (⟨x.index.put p none, x.keys.filter (·.1 != p)⟩, hp)

/-- Store into the node if there is one, add it otherwise, wh.c:2252-2264. -/
def RefIndex.touch (x : RefIndex) (p : Key) (m : Meta) (id : Nat) (o : Option Meta) (hp : TreeHeap) : Res (RefIndex × TreeHeap) :=
  match o with
  | some _ => .ok (x.store p m, hp)
  | none => x.add p m id hp

/-- `touchLoop` with the key of the new nodes in block `id`, wh.c:2248-2265, 2302-2315. -/
def refTouchLoop (a prev : Key) (next : Option Key) (id : Nat) : Nat → Nat → RefIndex → TreeHeap → Res (RefIndex × TreeHeap)
  | 0, _, _, _ => .hang
  | fuel + 1, i, x, hp =>
    (x.get hp (a.take i)).bind fun o =>
    (touchMeta a prev next i o).bind fun m =>
    (x.touch (a.take i) m id o hp).bind fun (x, hp) =>
    if i ≥ a.length then .ok (⟨{ x.index with maxplen := if i > x.index.maxplen then i else x.index.maxplen }, x.keys⟩, hp)
    else refTouchLoop a prev next id fuel (i + 1) x hp

/-- `lpathLoop`, wh.c:2276-2287. -/
def refPathLoop (a2 lpath : Key) : Nat → Nat → RefIndex → TreeHeap → Res RefIndex
  | 0, _, _, _ => .hang
  | fuel + 1, i, x, hp =>
    if i < a2.length then
      (x.get hp (a2.take i)).bind fun
        | none => .ub
        | some m => refPathLoop a2 lpath fuel (i + 1) (x.store (a2.take i) { m with lpath := lpath }) hp
    else .ok x

/-- `lpathUpdate`, wh.c:2268-2288. -/
def refPath (x : RefIndex) (hp : TreeHeap) (a1 a2 lpath : Key) : Res RefIndex :=
  if a2.length > pbufRoom then .ub else refPathLoop a2 lpath (a2.length + 1) (keyLcp a1 a2 + 1) x hp

/-- `wormmeta_split`, wh.c:2290-2323. -/
def refSplit (x : RefIndex) (hp : TreeHeap) (id : Nat) (prev a : Key) (next : Option Key) : Res (RefIndex × TreeHeap) :=
  match next with
  | some n =>
    if a.length < keyLcp prev n then .ub
    else (refTouchLoop a prev next id (a.length + 1) (keyLcp prev n) x hp).bind fun (x, hp) =>
      (refPath x hp a n a).bind fun x => .ok (x, hp)
  | none => refTouchLoop a prev next id (a.length + 1) 0 x hp

/-- `dropChild`, wh.c:2500-2503; the parent is at hand, there is no search. -/
def refDropChild (a : Key) (i : Nat) (x : RefIndex) : Res RefIndex :=
  match x.index.get (a.take (i - 1)), a[i - 1]? with
  | some m, some b => (m.clearHelper b.toNat).bind fun m => .ok (x.store (a.take (i - 1)) m)
  | _, _ => .ub

/-- `mergeLoop`, wh.c:2492-2519. -/
def refMergeLoop (a prev : Key) (next : Option Key) : Nat → Nat → Bool → RefIndex → TreeHeap → Res (RefIndex × TreeHeap)
  | 0, _, _, _, _ => .hang
  | fuel + 1, i, par, x, hp =>
    (x.get hp (a.take i)).bind fun
    | none => .ub
    | some m =>
      if m.lmost = m.rmost then
        if m.bitmap.isSome then .ub else
        (x.remove (a.take i) hp).bind fun (x, hp) =>
        (if par then refDropChild a i x else .ok x).bind fun x =>
        if m.bitmin = 256 then .ok (x, hp)
        else if i ≥ a.length then .ok (x, hp)
        else refMergeLoop a prev next fuel (i + 1) false x hp
      else
        (adjustMeta a prev next i m).bind fun m =>
        if i ≥ a.length then .ok (x.store (a.take i) m, hp)
        else refMergeLoop a prev next fuel (i + 1) true (x.store (a.take i) m) hp

/-- `wormmeta_merge`, wh.c:2479-2523. -/
def refMerge (x : RefIndex) (hp : TreeHeap) (prev a : Key) (next : Option Key) : Res (RefIndex × TreeHeap) :=
  if a.length > pbufRoom then .ub
  else match next with
  | some n =>
    if a.length < keyLcp prev n then .ub
    else (refMergeLoop a prev next (a.length + 1) (keyLcp prev n) false x hp).bind fun (x, hp) =>
      (refPath x hp a n prev).bind fun x => .ok (x, hp)
  | none => refMergeLoop a prev next (a.length + 1) 0 false x hp

/-! ## Both tables -/

/-- `map->hmap2`: the table in use (`map->hmap`) and the other one. -/
structure Tables where
  cur : RefIndex
  other : RefIndex
  heap : TreeHeap

/-- `wormhole_split_meta`, wh.c:2326-2380: a copy of the new anchor, the other table first, then it is the one in use. -/
def Tables.split (s : Tables) (prev a : Key) (next : Option Key) : Res Tables :=
  let id := s.heap.next
  (refSplit s.other (s.heap.alloc (.mkey a 0)) id prev a next).bind fun (x, hp) =>
  (refSplit s.cur hp id prev a next).bind fun (y, hp) =>
  (hp.dropUnused id).bind fun hp => .ok ⟨x, y, hp⟩

/-- `wormhole_meta_merge`, wh.c:2526-2565, without `wormleaf_free`. -/
def Tables.merge (s : Tables) (prev a : Key) (next : Option Key) : Res Tables :=
  (refMerge s.other s.heap prev a next).bind fun (x, hp) =>
  (refMerge s.cur hp prev a next).bind fun (y, hp) => .ok ⟨x, y, hp⟩

/-- The two nodes of the empty prefix, `wormhole_create_leaf0`, wh.c:1079-1094. -/
def Tables.create (hp : TreeHeap) : Res Tables :=
  let id := hp.next
  ((hp.alloc (.mkey [] 0)).retain id).bind fun hp => (hp.retain id).bind fun hp =>
  .ok ⟨⟨Index.empty, [([], id)]⟩, ⟨Index.empty, [([], id)]⟩, hp⟩

/-- The keys of all nodes of one table are released, `wormhole_clean_hmap`, wh.c:3405-3411. -/
def releaseAll : List (Key × Nat) → TreeHeap → Res TreeHeap
  | [], hp => .ok hp
  | e :: es, hp => (hp.release e.2).bind fun hp => releaseAll es hp

/-! ## The tree -/

/-- `struct wormhole` with its blocks: the leaves, the block of each leaf, the block of the pair of each key, and the `struct wormref` that
`wh_ref` returned. -/
structure MemMap where
  leaves : STree
  tabs : Tables
  nodes : List Nat
  pairs : List (Key × Nat)
  ref : Nat

/-- `wh_create` and `wh_ref`: `wormhole_create_leaf0` and `wormhole_ref`, wh.c:1061-1098, 3348-3360. -/
def MemMap.create : Res MemMap :=
  let hp := TreeHeap.empty
  let l := hp.next
  (Tables.create (hp.alloc .leaf)).bind fun ts =>
  .ok ⟨STree.empty, { ts with heap := ts.heap.alloc .ref }, [l], [], ts.heap.next⟩

/-- Other leaves. -/
def MemMap.with (s : MemMap) (t : STree) : MemMap := { s with leaves := t }

/-- The block of the pair of a key. -/
def MemMap.pairOf (s : MemMap) (k : Key) : Res Nat :=
  match s.pairs.find? (·.1 == k) with
  | none => .ub
  | some e => .ok e.2

section
variable (tags : Tags)

/-- See `StrMap.jump`. -/
def MemMap.jump (s : MemMap) (key : Key) : Res Nat :=
  if s.tabs.cur.readable s.tabs.heap then StrMap.jump tags ⟨s.leaves, s.tabs.cur.index, 0⟩ key else .ub

/-- `wh_put` and `wormhole_put`, wh.c:3661-3672, 2608-2642: a new pair; the old pair of the key is freed, or the new one if no split point is
found. -/
def MemMap.put (s : MemMap) (k : Key) (st : Store) : Res (MemMap × Bool) :=
  let id := s.tabs.heap.next
  let s := { s with tabs := { s.tabs with heap := s.tabs.heap.alloc .pair } }
  (s.jump tags k).bind fun i =>
  match s.leaves[i]? with
  | none => .ub
  | some l =>
    match l.matchHs k with
    | some ih => (l.update ih (k, st)).bind fun l => (s.pairOf k).bind fun old => (s.tabs.heap.free old .pair).bind fun hp =>
      .ok ({ s with
        leaves := s.leaves.set i l
        tabs := { s.tabs with heap := hp }
        pairs := (k, id) :: s.pairs.filter (·.1 != k) }, true)
    | none =>
      if l.nr < 32 then (l.insert (k, st)).bind fun l =>
        .ok ({ s with leaves := s.leaves.set i l, pairs := (k, id) :: s.pairs }, true)
      else
        (l.split (decide (i + 1 < s.leaves.length)) (k, st)).bind fun
          | none => l.sync.bind fun l => (s.tabs.heap.free id .pair).bind fun hp =>
            .ok ({ s with leaves := s.leaves.set i l, tabs := { s.tabs with heap := hp } }, false)
          | some (a, b) =>
            let leaf := s.tabs.heap.next
            (Tables.split { s.tabs with heap := s.tabs.heap.alloc .leaf } a.anchor b.anchor (s.leaves.anchorAt (i + 1))).bind fun ts =>
            .ok ({ s with
              leaves := s.leaves.take i ++ a :: b :: s.leaves.drop (i + 1)
              tabs := ts
              nodes := s.nodes.take (i + 1) ++ leaf :: s.nodes.drop (i + 1)
              pairs := (k, id) :: s.pairs }, true)

/-- See `StrMap.tryMerge`; `wormleaf_free` of the second leaf, wh.c:446-453, 2563. -/
def MemMap.tryMerge (s : MemMap) (t : STree) (i : Nat) : Res MemMap :=
  match t[i]?, t[i + 1]? with
  | some l, some n =>
    if l.nr = 0 ∨ l.nr + n.nr < 24 then
      if l.nr + n.nr ≤ 32 then (l.merge n).bind fun l' =>
        (s.tabs.merge l.anchor n.anchor (t.anchorAt (i + 2))).bind fun ts =>
        match s.nodes[i + 1]? with
        | none => .ub
        | some id => (ts.heap.free id .leaf).bind fun hp =>
          .ok { s with leaves := t.take i ++ l' :: t.drop (i + 2), tabs := { ts with heap := hp }, nodes := s.nodes.eraseIdx (i + 1) }
      else .ok (s.with t)
    else .ok (s.with t)
  | _, _ => .ok (s.with t)

/-- `wormhole_del`, wh.c:2878-2896: the pair is freed last. -/
def MemMap.del (s : MemMap) (k : Key) : Res MemMap :=
  (s.jump tags k).bind fun i =>
  match s.leaves[i]? with
  | none => .ub
  | some l =>
    match l.matchHs k with
    | some ih => (l.removeIh ih).bind fun l => (s.pairOf k).bind fun id =>
      (s.tryMerge (s.leaves.set i l) i).bind fun s => (s.tabs.heap.free id .pair).bind fun hp =>
      .ok { s with tabs := { s.tabs with heap := hp }, pairs := s.pairs.filter (·.1 != k) }
    | none => .ok s

/-- See `StrMap.seek`. -/
def MemMap.seek (s : MemMap) (key : Key) : Res (MemMap × Cursor) :=
  (s.jump tags key).bind fun i =>
  match s.leaves[i]? with
  | none => .ub
  | some l =>
    l.sync.bind fun l => (l.seek key).bind fun is =>
      (siterFix (s.leaves.length + 1) (s.leaves.set i l) i is).bind fun (t, cur) => .ok (s.with t, cur)

/-- `wh_iter_peek_ref`: the block of the pair that is read. -/
def MemMap.peek (s : MemMap) (cur : Cursor) : Res (Key × Store) :=
  (s.leaves.peek cur).bind fun e => (s.pairOf e.1).bind fun id => if s.tabs.heap.block id = some .pair then .ok e else .ub

/-- A client on the leaves with both tables and the heap. The store of `write` goes into the pair that was read. -/
def Client.onHeap {α : Type} : Client α → MemMap → Res (MemMap × α)
  | ret r, s => r.bind fun a => .ok (s, a)
  | put k st next, s => (s.put tags k st).bind fun (s, b) => (next b).onHeap s
  | del k next, s => (s.del tags k).bind fun s => next.onHeap s
  | delRead k c1 c2 next, s =>
    (s.peek c1).bind fun e1 => (s.peek c2).bind fun e2 => (s.del tags k).bind fun s => (next e1 e2).onHeap s
  | seek k next, s => (s.seek tags k).bind fun (s, c) => (next c).onHeap s
  | skip cur next, s => (s.leaves.skip1 cur).bind fun (t, c) => (next c).onHeap (s.with t)
  | back cur next, s => (s.leaves.skip1Rev cur).bind fun (t, c) => (next c).onHeap (s.with t)
  | peek cur next, s => (s.peek cur).bind fun e => (next e).onHeap s
  | write cur st next, s => next.onHeap (s.with (s.leaves.write cur st))
  | release _ next, s => next.onHeap s
  | fuel next, s => (next (slotCount s.leaves)).onHeap s

end

/-- The pairs of a leaf are freed, the loop of `wormhole_free_leaf_keys`, wh.c:3424-3429. -/
def freePairs (pairs : List (Key × Nat)) (l : SLeaf) : List Nat → TreeHeap → Res TreeHeap
  | [], hp => .ok hp
  | is :: rest, hp =>
    (l.kvAt is).bind fun e =>
    match pairs.find? (·.1 == e.1) with
    | none => .ub
    | some p => (hp.free p.2 .pair).bind fun hp => freePairs pairs l rest hp

/-- The loop of `wormhole_clean_helper`, wh.c:3437-3438; behind its pairs the leaf is freed, wh.c:3430, 3439. -/
def freeLeaves (pairs : List (Key × Nat)) : STree → List Nat → TreeHeap → Res TreeHeap
  | [], _, hp => .ok hp
  | _ :: _, [], _ => .ub
  | l :: t, id :: ids, hp =>
    (freePairs pairs l (List.range l.nr) hp).bind fun hp => (hp.free id .leaf).bind fun hp => freeLeaves pairs t ids hp

/-- `wh_destroy` and `wormhole_destroy`, wh.c:3451-3465: what is left on the heap. -/
def MemMap.destroy (s : MemMap) : Res TreeHeap :=
  (releaseAll s.tabs.cur.keys s.tabs.heap).bind fun hp =>
  (releaseAll s.tabs.other.keys hp).bind fun hp => freeLeaves s.pairs s.leaves s.nodes hp

/-- `wh_unref`, wh.c:3371-3378, which `diva.hpp` never calls. -/
def MemMap.unref (s : MemMap) (hp : TreeHeap) : Res TreeHeap := hp.free s.ref .ref

end Verif
