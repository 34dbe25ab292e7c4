import Verif.Model.WhHash

/-!
# The tree of `Diva<false>`

`Diva<false>` keeps its boundary keys in a `wormhole` (wh.c): a doubly linked list of leaves of up to 32 keys. A leaf is a
small hash table `hs`, ordered by 16-bit tags, with a second array `ss` that lists the slots of `hs` in the order of their
keys, as far as they have been sorted. Here: the leaves, the iterator, `put` and `del`. Leaves are looked up by their
anchors; Verif/Model/WhMeta.lean models the index (the code of wh.c for it is the same as that of wh_int.c).

Simplifications: one thread, so locks and versions are left out; allocations succeed; a pointer to a key-value pair is the
pair.
-/

namespace Verif

/-- `struct entry13`: `e1`, the tag, and the pair `e3` points to. The empty slot (`e1 = 0`) is `none`. -/
structure Slot where
  tag : Nat
  kv : Key × Store

/-- `struct wormleaf`, wh.c:50-65. `ss` has 32 bytes; the ones from `nr_keys` on are leftovers. -/
structure SLeaf where
  anchor : Key
  hs : List (Option Slot)
  ss : List Nat
  nr : Nat
  sorted : Nat

/-- `wormleaf_alloc`, wh.c:420-444: `hs` is cleared, `ss` is not (zeros stand for what is there). -/
def SLeaf.new (anchor : Key) : SLeaf := ⟨anchor, List.replicate 32 none, List.replicate 32 0, 0, 0⟩

/-- The list of leaves in the order of the links. -/
abbrev STree := List SLeaf

/-- `wormhole_create_leaf0`, wh.c:1060-1098. -/
def STree.empty : STree := [SLeaf.new []]

/-- `wormhole_pkey` (wh.c:310-315) of the hash of a key, wh.c:1414, 1841. -/
def kvTag (k : Key) : Nat := pkey16 (crc32c k)

/-- `pkey / WH_HDIV`, wh.c:25: the slot where a tag belongs. -/
def home (p : Nat) : Nat := p / 2048

/-- `hs[i]`. -/
abbrev slotAt (hs : List (Option Slot)) (i : Nat) : Option Slot := hs.getD i none

/-! ## Reading a leaf -/

/-- `while (i >= 0 && hs[i].e1 && c(i)) i--`, from `i - 1`; the result is one above the slot where it stops. -/
def scanDown (hs : List (Option Slot)) (c : Nat → Slot → Bool) : Nat → Nat
  | 0 => 0
  | i + 1 =>
    match slotAt hs i with
    | none => i + 1
    | some s => if c i s then scanDown hs c i else i + 1

/-- `while (i < WH_KPN && hs[i].e1 && c(i)) i++`. -/
def scanUp (hs : List (Option Slot)) (c : Nat → Slot → Bool) : Nat → Nat → Nat
  | 0, i => i
  | fuel + 1, i =>
    match slotAt hs i with
    | none => i
    | some s => if c i s then scanUp hs c fuel (i + 1) else i

/-- The search to the left in `wormleaf_match_hs`, wh.c:1426-1437, from slot `i - 1`. -/
def matchLeft (hs : List (Option Slot)) (p : Nat) (key : Key) : Nat → Option Nat
  | 0 => none
  | i + 1 =>
    match slotAt hs i with
    | none => none
    | some s =>
      if s.tag = p then if s.kv.1 == key then some i else matchLeft hs p key i
      else if s.tag < p then none
      else matchLeft hs p key i

/-- The search to the right in `wormleaf_match_hs`, wh.c:1439-1450. -/
def matchRight (hs : List (Option Slot)) (p : Nat) (key : Key) : Nat → Nat → Option Nat
  | 0, _ => none
  | fuel + 1, i =>
    match slotAt hs i with
    | none => none
    | some s =>
      if s.tag = p then if s.kv.1 == key then some i else matchRight hs p key fuel (i + 1)
      else if s.tag > p then none
      else matchRight hs p key fuel (i + 1)

/-- `wormleaf_match_hs`, wh.c:1411-1454. -/
def SLeaf.matchHs (l : SLeaf) (key : Key) : Option Nat :=
  let p := kvTag key
  let i0 := home p
  match slotAt l.hs i0 with
  | none => none
  | some s =>
    if s.tag = p ∧ s.kv.1 = key then some i0
    else (matchLeft l.hs p key i0).or (matchRight l.hs p key (32 - (i0 + 1)) (i0 + 1))

/-- `wormleaf_search_is`, wh.c:1500-1536: the first byte of `ss` equal to `ih`. The bytes are compared 16 or 32 at a time,
leftovers included; if none is equal the code waits forever (`debug_die`). -/
def SLeaf.searchIs (l : SLeaf) (ih : Nat) : Res Nat :=
  if l.nr = 0 then .hang
  else
    match l.ss.findIdx? (· == ih) with
    | none => .hang
    | some is => .ok is

/-- `wormleaf_kv_at_is`, wh.c:1388-1392: undefined if the slot is empty. -/
def SLeaf.kvAt (l : SLeaf) (is : Nat) : Res (Key × Store) :=
  match l.ss[is]? with
  | none => .ub
  | some ih =>
    match slotAt l.hs ih with
    | none => .ub
    | some s => .ok s.kv

/-- The loop of `wormleaf_search_ss`, wh.c:1545-1552. -/
def searchSsLoop (l : SLeaf) (key : Key) : Nat → Nat → Nat → Res Nat
  | 0, lo, _ => .ok lo
  | fuel + 1, lo, hi =>
    if lo < hi then
      let i := (lo + hi) / 2
      (l.kvAt i).bind fun e =>
        if keyLt key e.1 then searchSsLoop l key fuel lo i else searchSsLoop l key fuel (i + 1) hi
    else .ok lo

/-- `wormleaf_search_ss`, wh.c:1540-1554, for a key that is not in the leaf. -/
def SLeaf.searchSs (l : SLeaf) (key : Key) : Res Nat := searchSsLoop l key (l.sorted + 1) 0 l.sorted

/-- `wormleaf_seek`, wh.c:1556-1566. -/
def SLeaf.seek (l : SLeaf) (key : Key) : Res Nat :=
  match l.matchHs key with
  | some ih => l.searchIs ih
  | none => l.searchSs key

/-! ## Sorting a leaf -/

/-- Insert a slot number into a sorted list of them. -/
def idxInsert (ke : Nat → Key) (x : Nat) : List Nat → List Nat
  | [] => [x]
  | y :: l => if keyLe (ke x) (ke y) then x :: y :: l else y :: idxInsert ke x l

/-- `wormleaf_sort_range`, wh.c:1657-1665: `qsort_r`. -/
def idxSort (ke : Nat → Key) : List Nat → List Nat
  | [] => []
  | x :: l => idxInsert ke x (idxSort ke l)

/-- `wormleaf_sort_m2`, wh.c:1588-1636. The code merges in place, forwards or backwards depending on the lengths; both give
the merged list. Equal keys end in `debug_die`. -/
def idxMerge (ke : Nat → Key) : Nat → List Nat → List Nat → Res (List Nat)
  | _, [], b => .ok b
  | _, x :: a, [] => .ok (x :: a)
  | 0, _ :: _, _ :: _ => .hang
  | fuel + 1, x :: a, y :: b =>
    if keyLt (ke x) (ke y) then (idxMerge ke fuel a (y :: b)).bind fun r => .ok (x :: r)
    else if keyLt (ke y) (ke x) then (idxMerge ke fuel (x :: a) b).bind fun r => .ok (y :: r)
    else .hang

/-- The pair in a slot. -/
def pairAt (hs : List (Option Slot)) (i : Nat) : Key × Store := ((slotAt hs i).map Slot.kv).getD ([], Store.zero)

/-- The slots in use, in the order of `ss`. -/
def SLeaf.idx (l : SLeaf) : List Nat := l.ss.take l.nr

/-- `wormleaf_sync_sorted`, wh.c:1668-1681. If `nr_sorted` exceeds `nr_keys` the number of bytes to sort wraps around;
comparing an empty slot dereferences a null pointer. -/
def SLeaf.sync (l : SLeaf) : Res SLeaf :=
  if l.sorted = l.nr then .ok l
  else if l.nr < l.sorted then .ub
  else if l.idx.any fun i => (slotAt l.hs i).isNone then .ub
  else
    let ke := fun i => (pairAt l.hs i).1
    (idxMerge ke 64 (l.idx.take l.sorted) (idxSort ke (l.idx.drop l.sorted))).bind fun r =>
      .ok { l with ss := r ++ l.ss.drop l.nr, sorted := l.nr }

/-! ## Writing a leaf -/

/-- A byte as a signed number. -/
def s8 (x : Nat) : Int := if x % 256 < 128 then x % 256 else (x % 256 : Int) - 256

/-- The comparison of bytes in `wormleaf_shift_inc` and `wormleaf_shift_dec`, wh.c:1694-1699, 1734-1739: is the slot number
`v` one of the `nr` that are moved, beginning at `src`? -/
def inShift (src nr v : Nat) : Bool := s8 (v + (128 + 256 * 256 - src - nr)) > s8 (127 + 256 * 256 - nr)

/-- `memmove(&(hs[dst]), &(hs[src]), nr)`. -/
def moveSlots (hs : List (Option Slot)) (dst src nr : Nat) : List (Option Slot) :=
  (List.range hs.length).map fun i => if dst ≤ i ∧ i < dst + nr then slotAt hs (i - dst + src) else slotAt hs i

/-- `wormleaf_shift_inc(leaf, src + 1, src, nr)`, wh.c:1684-1721. The blocks of `ss` that hold a used byte are changed;
32 bytes (AVX2) are one block. -/
def SLeaf.shiftInc (l : SLeaf) (src nr : Nat) : Res SLeaf :=
  if src + 1 + nr > 32 then .ub
  else .ok { l with
    hs := moveSlots l.hs (src + 1) src nr
    ss := if l.nr = 0 then l.ss else l.ss.map fun v => if inShift src nr v then (v + 1) % 256 else v }

/-- `wormleaf_shift_dec(leaf, dst, dst + 1, nr)`, wh.c:1724-1761. -/
def SLeaf.shiftDec (l : SLeaf) (dst nr : Nat) : Res SLeaf :=
  if dst + 1 + nr > 32 then .ub
  else .ok { l with
    hs := moveSlots l.hs dst (dst + 1) nr
    ss := if l.nr = 0 then l.ss else l.ss.map fun v => if inShift (dst + 1) nr v then (v + 255) % 256 else v }

/-- The insertion points and empty slots that `wormleaf_insert_hs` looks for, wh.c:1779-1803: `il + 1`, `el + 1`, `ir` and
`er`. -/
def insertPoints (hs : List (Option Slot)) (p : Nat) : Nat × Nat × Nat × Nat :=
  let i0 := home p
  let q := scanUp hs (fun _ s => s.tag < p) 32 (scanDown hs (fun _ s => s.tag ≥ p) i0)
  let el := scanDown hs (fun _ _ => true) (if i0 = 0 then q else if q = 0 then i0 else min q i0)
  let ir := scanUp hs (fun _ s => s.tag == p) 32 q
  let er := scanUp hs (fun _ _ => true) 32 (max ir (i0 + 1))
  (q, el, ir, er)

/-- `wormleaf_insert_hs`, wh.c:1764-1821: the leaf and the slot of the new entry. -/
def SLeaf.insertHs (l : SLeaf) (e : Slot) : Res (SLeaf × Nat) :=
  let i0 := home e.tag
  match slotAt l.hs i0 with
  | none => .ok ({ l with hs := l.hs.set i0 (some e) }, i0)
  | some _ =>
    let (q, el, ir, er) := insertPoints l.hs e.tag
    let dl := if el ≠ 0 then (q + 2 ^ 32 - el) % 2 ^ 32 else 32
    let dr := if er < 32 then (er + 2 ^ 32 - ir) % 2 ^ 32 else 32
    if dl ≤ dr then
      (if dl ≠ 0 then l.shiftDec (el - 1) dl else .ok l).bind fun l =>
        if q = 0 ∨ q > 32 then .ub else .ok ({ l with hs := l.hs.set (q - 1) (some e) }, q - 1)
    else
      (if dr ≠ 0 then l.shiftInc ir dr else .ok l).bind fun l =>
        if ir ≥ 32 then .ub else .ok ({ l with hs := l.hs.set ir (some e) }, ir)

/-- `wormleaf_insert_e13`, wh.c:1823-1833. -/
def SLeaf.insertE13 (l : SLeaf) (e : Slot) : Res SLeaf :=
  (l.insertHs e).bind fun (l, ih) =>
    if l.nr ≥ 32 then .ub else .ok { l with ss := l.ss.set l.nr ih, nr := l.nr + 1 }

/-- `wormleaf_insert`, wh.c:1835-1856. -/
def SLeaf.insert (l : SLeaf) (e : Key × Store) : Res SLeaf :=
  (l.insertE13 ⟨kvTag e.1, e⟩).bind fun l' =>
    if l.nr = l.sorted then
      if l.nr ≠ 0 then
        (l'.kvAt (l.nr - 1)).bind fun last => .ok (if keyLt last.1 e.1 then { l' with sorted := l.nr + 1 } else l')
      else .ok { l' with sorted := 1 }
    else .ok l'

/-- `wormleaf_pull_ih`, wh.c:1858-1883. -/
def SLeaf.pull (l : SLeaf) (ih : Nat) : Res SLeaf :=
  let i := scanDown l.hs (fun i s => home s.tag > i) ih
  if i < ih then (l.shiftInc i (ih - i)).bind fun l => .ok { l with hs := l.hs.set i none }
  else
    let j := scanUp l.hs (fun i s => home s.tag < i) 32 (ih + 1) - 1
    if j > ih then (l.shiftDec ih (j - ih)).bind fun l => .ok { l with hs := l.hs.set j none }
    else .ok l

/-- `wormleaf_remove`, wh.c:1886-1902: the last byte of `ss` takes the place of the removed one. -/
def SLeaf.remove (l : SLeaf) (ih is : Nat) : Res SLeaf :=
  SLeaf.pull { l with
    ss := l.ss.set is (l.ss.getD (l.nr - 1) 0)
    sorted := if l.sorted > is then is else l.sorted
    hs := l.hs.set ih none
    nr := l.nr - 1 } ih

/-- `wormleaf_remove_ih`, wh.c:1905-1912. -/
def SLeaf.removeIh (l : SLeaf) (ih : Nat) : Res SLeaf := (l.searchIs ih).bind fun is => l.remove ih is

/-- `wormleaf_update`, wh.c:1934-1944: the tag stays. -/
def SLeaf.update (l : SLeaf) (ih : Nat) (e : Key × Store) : Res SLeaf :=
  match slotAt l.hs ih with
  | none => .ub
  | some s => .ok { l with hs := l.hs.set ih (some ⟨s.tag, e⟩) }

/-! ## Splitting and merging leaves -/

/-- `wormhole_split_cut_alen_check`, wh.c:1950-1955. -/
def alenCheckS (alen : Nat) (k1 k2 : Key) : Res Bool :=
  if k2.length < alen then .ub else .ok (decide (k1.length < alen) || byteAt k1 (alen - 1) != byteAt k2 (alen - 1))

/-- The loop of `wormhole_split_cut_search1`, wh.c:1981-1998; `all` is the list of entries with the new one. -/
def cutLoopS (all : List Slot) (alen target : Nat) : Nat → Nat → Nat → Res Nat
  | 0, _, h => .ok h
  | fuel + 1, l, h =>
    if l + 1 < h then
      let m := (l + h + 1) / 2
      let at' := fun i => (all.getD i ⟨0, [], Store.zero⟩).kv.1
      if m ≤ target then
        (alenCheckS alen (at' m) (at' h)).bind fun b =>
          if b then cutLoopS all alen target fuel m h else cutLoopS all alen target fuel l m
      else
        (alenCheckS alen (at' l) (at' m)).bind fun b =>
          if b then cutLoopS all alen target fuel l m else cutLoopS all alen target fuel m h
    else .ok h

/-- Repeated `wormleaf_insert_e13`. -/
def SLeaf.fill (l : SLeaf) (es : List Slot) : Res SLeaf := es.foldl (fun r e => Res.bind r fun l => l.insertE13 e) (Res.ok l)

/-- The entries in the order of `ss`; reading an empty one copies zeros. -/
def SLeaf.slots (l : SLeaf) : List Slot := l.idx.filterMap (slotAt l.hs)

/-- `wormhole_split_leaf` and its helpers, wh.c:1967-2097; `hasNext` tells whether the leaf has a next one (line 1980).
`none`: the anchor would be too long. -/
def SLeaf.split (l : SLeaf) (hasNext : Bool) (e : Key × Store) : Res (Option (SLeaf × SLeaf)) :=
  l.sync.bind fun l =>
  (l.searchSs e.1).bind fun is1 =>
    let all := l.slots.take is1 ++ ⟨kvTag e.1, e⟩ :: l.slots.drop is1
    let at' := fun i => (all.getD i ⟨0, [], Store.zero⟩).kv.1
    let alen := keyLcp (at' 0) (at' l.nr) + 1
    if alen > 65535 then .ok none
    else
      (cutLoopS all alen (if hasNext then 16 else 24) 64 0 l.nr).bind fun cut =>
      (SLeaf.fill (SLeaf.new ((at' cut).take (keyLcp (at' (cut - 1)) (at' cut) + 1))) (all.drop cut)).bind fun l2 =>
      (SLeaf.fill { l with hs := List.replicate 32 none, nr := 0 } (all.take cut)).bind fun l1 =>
        .ok (some ({ l1 with sorted := cut }, { l2 with sorted := l2.nr }))

/-- `wormleaf_merge`, wh.c:2109-2121. -/
def SLeaf.merge (l1 l2 : SLeaf) : Res SLeaf :=
  (l1.fill l2.slots).bind fun l => .ok (if l1.nr = l1.sorted then { l with sorted := l.sorted + l2.sorted } else l)

/-! ## The tree -/

/-- `wormhole_jump_leaf`, wh.c:1313-1321: the leaf of a key, by its meaning: the last one whose anchor is not above the key. -/
def STree.jump (t : STree) (key : Key) : Nat := t.findIdx (fun l => keyLt key l.anchor) - 1

/-- `wormhole_put`, wh.c:2608-2642, with `wormhole_split_insert`, wh.c:2384-2402. The result tells whether the key was put. -/
def STree.put (t : STree) (k : Key) (st : Store) : Res (STree × Bool) :=
  let i := t.jump k
  match t[i]? with
  | none => .ub
  | some l =>
    match l.matchHs k with
    | some ih => (l.update ih (k, st)).bind fun l => .ok (t.set i l, true)
    | none =>
      if l.nr < 32 then (l.insert (k, st)).bind fun l => .ok (t.set i l, true)
      else
        (l.split (decide (i + 1 < t.length)) (k, st)).bind fun
          | none => l.sync.bind fun l => .ok (t.set i l, false)
          | some (a, b) => .ok (t.take i ++ a :: b :: t.drop (i + 1), true)

/-- `wormhole_del_try_merge` and `wormhole_meta_leaf_merge`, wh.c:2864-2876, 2569-2586, on leaf `i`. -/
def STree.tryMerge (t : STree) (i : Nat) : Res STree :=
  match t[i]?, t[i + 1]? with
  | some l, some n =>
    if l.nr = 0 ∨ l.nr + n.nr < 24 then
      if l.nr + n.nr ≤ 32 then (l.merge n).bind fun l => .ok (t.take i ++ l :: t.drop (i + 2)) else .ok t
    else .ok t
  | _, _ => .ok t

/-- `wormhole_del`, wh.c:2878-2896. -/
def STree.del (t : STree) (k : Key) : Res STree :=
  let i := t.jump k
  match t[i]? with
  | none => .ub
  | some l =>
    match l.matchHs k with
    | some ih => (l.removeIh ih).bind fun l => STree.tryMerge (t.set i l) i
    | none => .ok t

/-! ## The iterator -/

/-- `wormhole_iter_fix`, wh.c:3059-3081. -/
def siterFix : Nat → STree → Nat → Nat → Res (STree × Cursor)
  | 0, _, _, _ => .hang
  | fuel + 1, t, i, is =>
    match t[i]? with
    | none => .ub
    | some l =>
      if is ≥ l.sorted then
        match t[i + 1]? with
        | none => .ok (t, none)
        | some n => n.sync.bind fun n => siterFix fuel (t.set (i + 1) n) (i + 1) 0
      else .ok (t, some (i, is))

/-- `wormhole_iter_fix_rev`, wh.c:3083-3105, when `is` is -1 in leaf `i`. -/
def siterFixRev : STree → Nat → Res (STree × Cursor)
  | t, 0 => .ok (t, none)
  | t, i + 1 =>
    match t[i]? with
    | none => .ub
    | some p => p.sync.bind fun p => if p.nr = 0 then siterFixRev (t.set i p) i else .ok (t.set i p, some (i, p.nr - 1))

/-- `wormhole_iter_seek`, wh.c:3107-3120. -/
def STree.seek (t : STree) (key : Key) : Res (STree × Cursor) :=
  let i := t.jump key
  match t[i]? with
  | none => .ub
  | some l => l.sync.bind fun l => (l.seek key).bind fun is => siterFix (t.length + 1) (t.set i l) i is

/-- `wormhole_iter_skip1`, wh.c:3179-3186. -/
def STree.skip1 (t : STree) : Cursor → Res (STree × Cursor)
  | none => .ok (t, none)
  | some (i, is) => siterFix (t.length + 1) t i (is + 1)

/-- `wormhole_iter_skip1_rev`, wh.c:3209-3216. -/
def STree.skip1Rev (t : STree) : Cursor → Res (STree × Cursor)
  | none => .ok (t, none)
  | some (i, is) => if is = 0 then siterFixRev t i else .ok (t, some (i, is - 1))

/-- `wh_iter_peek_ref`, wh.c:3827-3838, with `wormhole_iter_kvref`, wh.c:3168-3177: undefined on a null leaf. -/
def STree.peek (t : STree) : Cursor → Res (Key × Store)
  | none => .ub
  | some (i, is) =>
    match t[i]? with
    | none => .ub
    | some l => l.kvAt is

/-- Write access through the pointer that `wh_iter_peek_ref` returned. -/
def STree.write (t : STree) (cur : Cursor) (st : Store) : STree :=
  match cur with
  | none => t
  | some (i, is) =>
    match t[i]? with
    | none => t
    | some l =>
      let ih := l.ss.getD is 0
      t.set i { l with hs := l.hs.set ih ((slotAt l.hs ih).map fun s => ⟨s.tag, s.kv.1, st⟩) }

end Verif
