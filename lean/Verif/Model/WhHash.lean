import Verif.Model.WhMeta

/-!
# The hash table under the index

`struct wormhmap`, wh_int.c:81-99 and 686-1092 (wh.c has the same code): a cuckoo hash table of buckets with eight slots, a
16-bit tag and a pointer to an index node in each. A node belongs in one of two buckets, given by its hash and by the
hash with the bytes reversed.

Simplifications: a node is known by its prefix, since there is one node for each; a bucket is the list of its used slots,
which come first (the first zero tag ends a bucket, wh_int.c:868-873, and no tag in use is zero); allocations succeed.
-/

namespace Verif

/-- A used slot: `wmap[..].t[i]` and `pmap[..].e[i]`. -/
structure Ent where
  tag : Nat
  key : Key
deriving DecidableEq

/-- `struct wormhmap`, wh_int.c:87-98: `mask` and the buckets. -/
structure HTab where
  mask : Nat
  bkts : List (List Ent)
deriving DecidableEq

/-- `wormhole_pkey`, wh_int.c:354-359. -/
def pkey16 (x : Nat) : Nat :=
  let p := (x % 65536) ^^^ (x / 65536 % 65536)
  if p = 0 then 1 else p

/-- `wormhole_bswap`, wh_int.c:361-365. -/
def bswap32 (x : Nat) : Nat := x % 256 * 16777216 + x / 256 % 256 * 65536 + x / 65536 % 256 * 256 + x / 16777216 % 256

/-- `wormhmap_init`, wh_int.c:688-706: 4096 empty buckets. -/
def HTab.init : HTab := ⟨4095, List.replicate 4096 []⟩

/-- `wmap[i]`, `pmap[i]`. -/
def HTab.bkt (t : HTab) (i : Nat) : List Ent := t.bkts.getD i []

/-- Write into the first free slot. -/
def HTab.push (t : HTab) (i : Nat) (e : Ent) : HTab := ⟨t.mask, t.bkts.set i (t.bkt i ++ [e])⟩

/-- Overwrite slot `j`. -/
def HTab.write (t : HTab) (i j : Nat) (e : Ent) : HTab := ⟨t.mask, t.bkts.set i ((t.bkt i).set j e)⟩

/-- Empty slot `j` and move the last used one there, wh_int.c:1039-1042, 896-903. -/
def HTab.drop (t : HTab) (i j : Nat) : HTab :=
  ⟨t.mask, t.bkts.set i (((t.bkt i).set j ((t.bkt i).getD ((t.bkt i).length - 1) ⟨0, []⟩)).dropLast)⟩

/-- `crc32c_u8`, lib.c:241-249: the instruction, by its definition. -/
def crc32cByte (crc : Nat) (b : UInt8) : Nat :=
  (List.range 8).foldl (fun c _ => if c % 2 = 1 then (c / 2) ^^^ 0x82F63B78 else c / 2) (crc ^^^ b.toNat)

/-- `kv_crc32c`, kv.c:18-22; seed kv.h:15. The steps of several bytes at once are repeated steps of one byte. -/
def crc32c (k : Key) : Nat := k.foldl crc32cByte 0xDEADBEEF

variable (h : Key → Nat)

/-- The bucket of the first hash. -/
def HTab.first (t : HTab) (k : Key) : Nat := h k &&& t.mask

/-- The bucket of the second hash. -/
def HTab.second (t : HTab) (k : Key) : Nat := bswap32 (h k) &&& t.mask

/-- `wormhmap_peek`, wh_int.c:764-772. -/
def HTab.peek (t : HTab) (k : Key) : Bool :=
  (t.bkt (t.first h k)).any (fun e => e.tag == pkey16 (h k)) || (t.bkt (t.second h k)).any (fun e => e.tag == pkey16 (h k))

/-- `wormhmap_get_slot`, wh_int.c:774-787, and its variants for prefixes of the searched key, 802-849. -/
def HTab.getSlot (t : HTab) (mid : Nat) (k : Key) : Option Ent :=
  (t.bkt mid).find? fun e => e.tag == pkey16 (h k) && e.key == k

/-- `wormhmap_get`, wh_int.c:789-800. -/
def HTab.get (t : HTab) (k : Key) : Option Ent := (t.getSlot h (t.first h k) k).or (t.getSlot h (t.second h k) k)

/-- The loop of `wormhmap_cuckoo`, wh_int.c:984-1003; `rec` is the recursive call. -/
def HTab.cuckooLoop (rec : HTab → Nat → Ent → Nat → Res (Bool × HTab)) (mid0 : Nat) (e0 : Ent) (depth : Nat) :
    List Nat → HTab → Res (Bool × HTab)
  | [], t => .ok (false, t)
  | i :: is, t =>
    match (t.bkt mid0)[i]? with
    | none => .ub
    | some e =>
      let midt := if t.first h e.key ≠ mid0 then t.first h e.key else t.second h e.key
      if midt ≠ mid0 then
        (rec t midt e (if midt = t.first h e.key then depth else depth - 1)).bind fun q =>
          if q.1 = true then .ok (true, q.2.write mid0 i e0) else HTab.cuckooLoop rec mid0 e0 depth is q.2
      else HTab.cuckooLoop rec mid0 e0 depth is t

/-- `wormhmap_cuckoo`, wh_int.c:967-1006. `fuel` bounds the depth of the recursion; `hang` is a recursion that goes deeper. -/
def HTab.cuckoo : Nat → HTab → Nat → Ent → Nat → Res (Bool × HTab)
  | 0, _, _, _, _ => .hang
  | fuel + 1, t, mid0, e0, depth =>
    if (t.bkt mid0).length < 8 then .ok (true, t.push mid0 e0)
    else if depth = 0 then .ok (false, t)
    else HTab.cuckooLoop h (HTab.cuckoo fuel) mid0 e0 depth (List.range 8) t

/-- One entry of `wormhmap_expand`, wh_int.c:945-955; a ninth entry would be written behind the bucket. -/
def HTab.expandEnt (mask0 s : Nat) (t : HTab) (e : Ent) : Res HTab :=
  let idx1 := (if h e.key &&& mask0 = s then h e.key else bswap32 (h e.key)) &&& t.mask
  if (t.bkt idx1).length < 8 then .ok (t.push idx1 e) else .ub

/-- The entries of one bucket. -/
def HTab.expandBkt (mask0 s : Nat) : List Ent → HTab → Res HTab
  | [], t => .ok t
  | e :: es, t => (t.expandEnt h mask0 s e).bind fun t => HTab.expandBkt mask0 s es t

/-- All buckets from `s` on, wh_int.c:942-956. -/
def HTab.expandAll (mask0 : Nat) : Nat → List (List Ent) → HTab → Res HTab
  | _, [], t => .ok t
  | s, b :: bs, t => (HTab.expandBkt h mask0 s b t).bind fun t => HTab.expandAll mask0 (s + 1) bs t

/-- The inner loop of `wormhmap_squeeze`, wh_int.c:885-905, downwards from slot `ei - 1`; `ci` is the number of used slots. -/
def HTab.squeezeBkt (si : Nat) : Nat → HTab → Res HTab
  | 0, t => .ok t
  | ei + 1, t =>
    match (t.bkt si)[ei]? with
    | none => .ub
    | some e =>
      let sj := t.first h e.key
      if sj = si then HTab.squeezeBkt si ei t
      else if (t.bkt sj).length < 8 then HTab.squeezeBkt si ei ((t.push sj e).drop si ei)
      else HTab.squeezeBkt si ei t

/-- `wormhmap_squeeze`, wh_int.c:875-907: `n` buckets from `si` on. -/
def HTab.squeeze : Nat → Nat → HTab → Res HTab
  | 0, _, t => .ok t
  | n + 1, si, t => (HTab.squeezeBkt h si (t.bkt si).length t).bind fun t => HTab.squeeze n (si + 1) t

/-- `wormhmap_expand`, wh_int.c:909-964. With 2^32 buckets the process is ended (`hang`). -/
def HTab.expand (t : HTab) : Res HTab :=
  if t.mask = 4294967295 then .hang
  else
    (HTab.expandAll h t.mask 0 t.bkts ⟨2 * t.mask + 1, List.replicate (2 * (t.mask + 1)) []⟩).bind fun t1 =>
      HTab.squeeze h (t1.mask + 1) 0 t1

/-- `wormhmap_set`, wh_int.c:1008-1027. -/
def HTab.set : Nat → HTab → Key → Res HTab
  | 0, _, _ => .hang
  | fuel + 1, t, k =>
    let e : Ent := ⟨pkey16 (h k), k⟩
    (t.cuckoo h fuel (t.first h k) e 1).bind fun q =>
    if q.1 = true then .ok q.2
    else (q.2.cuckoo h fuel (t.second h k) e 1).bind fun q =>
    if q.1 = true then .ok q.2
    else (q.2.cuckoo h fuel (t.first h k) e 2).bind fun q =>
    if q.1 = true then .ok q.2
    else (q.2.expand h).bind fun t => HTab.set fuel t k

/-- `wormhmap_del_slot`, wh_int.c:1029-1049. -/
def HTab.delSlot (t : HTab) (mid : Nat) (k : Key) : Option HTab :=
  ((t.bkt mid).findIdx? fun e => e.tag == pkey16 (h k) && e.key == k).map fun i => t.drop mid i

/-- `wormhmap_del`, wh_int.c:1051-1060. -/
def HTab.del (t : HTab) (k : Key) : Option HTab := (t.delSlot h (t.first h k) k).or (t.delSlot h (t.second h k) k)

end Verif
