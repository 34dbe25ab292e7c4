# Formal model of Diva (range filter) in Lean 4

Source of truth: `/repo/include/diva.hpp` and `/repo/include/util.hpp`, the header-only C++ template
`Diva<int_optimized>`, and the two ordered trees it uses, `/repo/include/wormhole/wh_int.c` (for
integers) and `/repo/include/wormhole/wh.c` (for strings): key comparison, leaves, iterator, index, hash table. Nothing was compiled or run; the model is a hand
translation, function by function, and every definition cites the lines it models.

* `lean/Verif/Model` the code
* `lean/Verif/Spec` vocabulary of the properties, independent of how the code computes
* `lean/Verif/Proof` lemmas
* `lean/Verif/Props` the property theorems, named after the ids of `properties.jsonl`, with examples

## The model

| file | code | remarks |
|------|------|---------|
| `Model/Word` | C integer arithmetic, `memcpy` of words | 64-bit arithmetic wraps explicitly. Shift counts are taken modulo 64 as x86 does; C++ leaves counts of 64 and more undefined. |
| `Model/Util` | `util.hpp`: select, rank, scans, bitmap bits and shifts | Loops recurse on fuel that is at least the number of iterations. The specification lemmas (C28, C29) would be false with too little. |
| `Model/Select` | the table-driven `_select64` of the build without BMI2 | |
| `Model/Store` | `InfixStore` and the functions on one region, diva.hpp:157-227, 2010-2881 | The heap block is one natural number, read as little-endian bit memory of unlimited length: bytes behind the block exist and may be anything. So the model says what the code does when it touches them (C25, C26). |
| `Model/Key` | `InfiniteByteString`, `GetSharedIgnoreImplicitLengths`, `ExtractPartialKey` | |
| `Model/Filter` | `Insert` (simple, split), `PointQuery`, `RangeQuery` (both template variants), the three bulk loads | |
| `Model/Delete` | `Delete`, `DeleteMerge`, `UpdateInfixListDelete` | |
| `Model/Shrink` | `ShrinkInfixSize` | |
| `Model/Serial` | `Serialize`, `Size`, the deserialising constructor | bytes of the buffer |
| `Model/Rng` | `rng_` (mt19937, from its definition in the C++ standard) and the object with filter, seed and generator | only used by C40; everything else holds for any decisions |
| `Model/Scale` | `SetupScaleFactors` | IEEE doubles with exact round-to-nearest-even; `implicit_scalars_[i]` is the integer `2^25 / (512 + i)` (the quotient is at least 1/1024 away from the next integer, so rounding cannot cross it). |
| `Model/Access` | which bytes a slot access touches | |
| `Model/Own` | uses, `new[]` and `delete[]` of the region blocks in every operation and in the destructor | a heap of block numbers beside the filter. The control flow is that of the other models; `insertRaw_grows` and `deleteRaw_shrinks` tie the resize decisions to them. Leaks of the copied keys in the streaming loader are not covered. |
| `Model/WhInt` | key comparison and leaf search of the integer tree | |
| `Model/WhTree` | leaves of the integer tree: put, del, iterators, sorting, splitting, merging, and the operations of `Diva<true>` on them | one thread. The leaf of a key is found by its anchor, not through the hash table. All other files use an ordered list instead of the leaves; C45 connects the two. |
| `Model/WhScan` | `Size`, `Serialize`, `ShrinkInfixSize`, restoring and the streaming load of `Diva<true>` on the leaves | as `Model/WhTree` |
| `Model/WhStr`, `Model/WhStrFilter`, `Model/WhStrScan` | leaves of the string tree (wh.c): the small hash table in a leaf, its shifts, the array of slots in key order, put, del, split, merge, iterators; every call of `Diva<false>` on them | one thread. The leaf of a key is found by its anchor. A record is the pair it holds. Both ways to merge two sorted parts (`wormleaf_sort_m2`) are one. The comparison of 32 bytes at a time in the shifts is modelled byte by byte with its signed arithmetic. All other files use an ordered list; C49 connects the two. |
| `Model/WhStrFull` | the same tree with the leaf found through the index and the index changed by splits and merges; `Diva<false>` once more, as programs that call the tree | the functions of wh.c for the index have the same text as those of wh_int.c, so `Model/WhMeta` is used for both. The hash table of the index is a map here. |
| `Model/WhTab` | the same tree a last time, with the nodes of the index in the hash table of `Model/WhHash`: lookup, insertion and deletion of a node are those of the table, which may not return | as for `WhHash`; the two copies of the index of which one is written while the other is read are one here. |
| `Model/WhLock` | the functions of `Model/WhStr` with their locks: `leaflock`, `metalock`, versions of leaves and index, `qsbr` reference, wh.c:506-554, 1323-1376, 2325-2402, 2526-2586, 2608-2651, 2864-2904, 3059-3127, 3179-3216 | one thread, so waiting is `hang`; releasing a lock that is not held is `ub`. The lock of the sorting is left out, and versions do not wrap around |
| `Model/WhIntClient`, `Model/WhIntLock` | `Diva<true>` as programs that call the tree, and the functions of `Model/WhTree` with their locks, wh_int.c:551-598, 1354-1411, 2098-2174, 2299-2358, 2381-2417, 2471-2508, 2660-2728, 2774-2810 | as `Model/WhLock`, on whose locks it works; `Client.delRead` is a deletion after which two slots are read again |
| `Model/WhIntTab` | the integer tree with its index in the hash table, wh_int.c:1354-1411, 2098-2174, 2299-2358 with the functions of `Model/WhTab` for the index | as `Model/WhTab`; the leaf functions are those of `Model/WhTree` |
| `Model/WhMem` | the string tree of `Model/WhStrFull` with its blocks: pairs, leaves, the reference of `wh_ref`, and the counted keys of the index (`mkey`, `keyref`) in both tables, wh.c:190-206, 455-502, 1061-1098, 2230-2380, 2479-2565, 3348-3378, 3400-3465 | use or release of a block that is not there is `ub`. Leaf and anchor are one block. Left out: the slabs (but in `Model/WhMeta` a node with a bitmap that is given to the slab of small nodes is `ub`), the buffers of the tables, iterators, `struct wormhole`. An allocation never fails |
| `Model/WhMeta`, `Model/WhFull` | the index over the leaves: search (`wormhole_jump_leaf`), split and merge of nodes; the integer tree and `Diva<true>` on leaves and index | the hash table is a partial map from prefixes to nodes; what its tags answer for absent prefixes is left open. The index code of wh.c is the same. |
| `Model/WhHash` | the hash table of the index: `wormhmap_get`, `_peek`, `_set`, `_cuckoo`, `_expand`, `_squeeze`, `_del`, the checksum | a node is its prefix; a bucket is the list of its used slots. The recursion has fuel; running out is `hang`, and theorems about `hang` hold for every fuel. `Model/WhMeta` uses a map instead; C48 connects the two for the search. |

Outcomes: `Res` is `ok v`, `ub` (an invalid iterator is dereferenced or an uninitialised pointer is used) or `hang`
(a loop that never ends). A query or insert outside the boundary keys is `ub`, not a default value, so no theorem gets
true through a totalised definition.

Random choices: `Insert` splits with probability 1/1024. The decision is an argument `split : Bool` and all theorems
hold for all decisions.

Template parameter: `io : Bool` is `int_optimized`. Integer keys are 8-byte big-endian strings (C23).

Tables: theorems hold for every `Cfg` that satisfies `Cfg.WF` (infix size 1 to 46, growing slot counts and bounds
that keep `GetMappedPos` inside 64 bits). `cfgOf_wf` shows it for every float load factor from 0.93 to 0.995 and every
such infix size, by bounding the rounding errors of the doubles in `SetupScaleFactors`. `c.cap` is the number of items
a region must stay below: `2 ^ 20` (20-bit counter) for load factor 0.95, less if the 8-bit grade runs out first.

## Histories

| predicate | calls |
|-----------|-------|
| `Built` | fixed-length bulk load, inserts; all keys of `n` bytes |
| `BuiltFit` | the same, and every insert stays inside the fixed widths (`InsertFits`) |
| `BuiltVar` | any of the three bulk loads, keys of different lengths, inserts inside the widths |
| `Reach` | as `BuiltVar` without the list of keys and without the prefix condition |
| `Ops` | fixed-length load, inserts, deletions of present keys |
| `OpsTame` | the same after a load or streaming of keys of `n` bytes with repetitions, and every deletion avoids the four faults found (`DeleteTame`) |
| `OpsPlain` | load or streaming of distinct keys, inserts that do not split, then deletions; no further condition |
| `Shrunk`, `BuiltShrunk` | load, inserts and `ShrinkInfixSize` in any order (load factor 0.95), each shrink of a filter whose regions are empty or of size grade 55 |
| `States` | `Reach`, `OpsTame` or `Shrunk` |
| `Present` | `BuiltVar`, `OpsTame` or `BuiltShrunk`, with the keys that must be found |
| `HeapRun`, `HeapTidy` | load of any keys, any inserts, deletions and shrinks, with the heap; `HeapTidy`: no extreme loaded key, equal loaded keys together, inserts only into states of `Reach`, `OpsTame` or `Shrunk` |
| `IntReach`, `IntOps`, `IntStates` | the same on the leaves of the integer tree, queries included because they sort leaves; deletions avoid `mergeHazard` |
| `RegionRun` | inserts into one region, growing included |

`InsertFits` says that the regions stay below `c.cap` items and that a split shifts no item out of its 64-bit word. It is a
condition on the state, computed by the model. `LevelsFit` is a sufficient condition in terms of keys only, and
`C01_false` shows that the second half cannot be dropped.

## Invariants

* `Layout`, `Rep` (Proof/Layout, Proof/Mem): which slot belongs to which item, and the bits that represent it.
* `StoreHas c T st L`: the region `st` holds exactly the items `L`, each at or after its home slot; `StoreHasW`: the
  same without the home slots, which is all that is left after deletions.
* `RegionHas`, `RegionW`, `RegionBase`: the same between two boundary keys, in terms of key prefixes.
* `FilterOK` (all regions `RegionHas`), `FilterW` (all `RegionW`), `FilterQ` (all `RegionBase`; enough for queries).
* `ReachInv`, `TameInv`, `PlainInv`: invariants of the histories. `TameInv` contains `Serve`: each present key has a
  holder of its own (a boundary, or an occurrence of an item), which is what makes deletions safe.
* The items of a region are read as prefixes of keys: `pre n k` is the value of the first `n` bits of the zero-padded
  key `k`; `Level prev next q` says how many bits are implied by the boundaries.
* `CleanStore`: the bits behind the last slot of a region are zero. `StoreHas.unique`: the items and the status word
  determine the block.

## Per property

"Violated" means: there is a theorem `Cxx_false…` with a concrete state of the model, reached through API calls, in
which the code breaks the property; the `_partial` theorem says under which conditions it holds for all inputs.

| id | result | how |
|----|--------|-----|
| C01, C02 | violated; holds inside the widths | a split can shift an item out of its word. Induction over the history with `FilterOK`; each insert keeps every hit (C06) and adds the new key |
| C03, C04, C33 | violated after a faulty merge; holds in all `States` | both queries are characterised by the same set of prefixes (`region_prefixes`) |
| C05 | proved, every state | the two scans of a run test the same condition for equal end points; no invariant needed (`rangeQuery_self`) |
| C06 | violated; holds inside the widths | simple insert: list of the region grows by one item; split: re-encoded lists cover the old ones (Proof/Rewrite, Cut, Split) |
| C07 | proved | `region_prefixes`; after bulk load the prefixes are those of the loaded keys |
| C08 | proved | permutation of the inserts gives the same item lists |
| C09, C10, C25, C31, C32 | proved | region invariant along `RegionRun`; `regions_of_reach`: every region of a reachable filter has such a history |
| C11 | violated | endless loop if the number of keys is 1 modulo 1024, proved for every such number |
| C12 | violated | streaming load loses keys if the number is 1 modulo 1024, or if an all-zero key comes first |
| C13, C14 | violated | extreme keys and some splits; otherwise defined and returning (`C13_partial`, `C14_partial`, `C13_delete_partial`) |
| C15, C36, C37 | violated | `TameInv` along `OpsTame`; no side condition for `OpsPlain` |
| C16 | violated | a partial boundary is removed although an item matches; otherwise exactly the longest matching item goes |
| C17 | violated for keys above 20000 bytes | byte-level round trip; the restored filter answers alike for all keys and ranges |
| C18 | violated | integer variant with a shortened boundary |
| C19 | violated | only empty regions and regions of size grade 55 survive; proved for those, and the shrunk filter is again one of `States` |
| C20, C21, C23 | proved | arithmetic of `pre`; C23 includes the binary search in a leaf |
| C22 | proved, every state | the extracted end points are equal as words |
| C24 | proved | every sorted tree |
| C26 | violated | exact overhang of every slot access |
| C27 | violated | a split at a key of which a loaded key is a proper prefix; otherwise proved |
| C28, C29, C30 | proved | bit extensionality, both builds of select |
| C34 | violated for boundary keys | otherwise the item is already there |
| C35 | proved | inserts change one region |
| C38 | violated for restored filters and for loads with an extreme key | `Owned`: every tree key has its own live block and `n` blocks are lost; kept by every operation on any state |
| C39 | violated below 0.92, from 1 on, and for restoring | relative error of `roundTo`, induction over the rounds of the loop |
| C40 | violated | the generator position is not saved; the filter itself comes back bit for bit, because nothing is ever written behind the last slot (`CleanTree`, part of all history invariants) |
| C41 | proved | two inserts into a region commute: same items, same status word, and these determine the block (`insertRaw_comm`); swaps generate all permutations |
| C42 | violated for boundary keys; inserts that do not split | the longest matching item is the one just inserted (`hits_full`), sorted lists with the same items are equal |
| C43 | violated in narrow regions | the re-encoded lists of a split match exactly the keys the old list matched (`rewrite_spec`, both directions); what the partial flag and the key's own item cover was covered by the cut item before (`SplitLists.back`); levels grow with splits (`SplitLists.cell`) |
| C44 | violated after faulty merges | an item that meets a range covers a key in it (`MeetL.hit`) |
| C45 | violated by deletions that merge two leaves | `WhRep`: the leaves, sorted and joined, are the ordered list; kept by every operation (Proof/WhLeaf, WhSplit, WhTree, WhIter), then each filter function step by step (Proof/WhFilter, WhBulk) |
| C46 | proved after loading; violated after splits of narrow regions | every positive range in a region meets the cell of a present key (C43, C44); count the windows that meet a cell but miss its key (`count_windows`), compare with the 510 steps of the level inside a region (`Lengths.total`), sum over the regions |
| C47 | proved for the index; for the filter up to the deletions missing in C45 | invariant `IdxOK` (a node for each prefix of an anchor, with first and last anchor below it, children and the leaf before it), kept by `indexSplit` and `indexMerge`; the binary search over prefix lengths finds the longest one; forward simulation of every call from leaves to leaves with index |
| C48 | proved, but for insertion coming to an end, which is false | invariant `TabOK` (each entry in one of its two buckets, with its tag, at most eight in a bucket) and the multiset of entries; the chain of moves of a successful insertion visits no bucket twice (`cuckoo_place`, by least fuel); insertions into the first table keep the entries away from home free of circles (`Tidy`), so the recursion ends; runs with the checksum for the failures |
| C49 | proved for keys of at most 65535 bytes; violated beyond | invariant `HsOK` of the table in a leaf (tags ascend, no empty slot between an entry and its home), kept by the shifts (Proof/WhStrHs, WhStrIns); `SLeafOK` (`ss` lists exactly the used slots, its sorted part ascends); `SRep`: the leaves, sorted and joined, are the ordered list; then every call of `Diva<false>` step by step (Proof/WhStrFilter, WhStrScan), for all outcomes |
| C50 | proved for keys of at most 65520 bytes; beyond that violated (`C50_false`: an anchor overflows the 64 kB buffer of the index) | a client is any program that calls the tree and may go on as it likes with what is returned; `Ix.client` (Proof/WhStrFull) shows by induction over the client that leaves with index do what leaves alone do, for all outcomes; each function of `Diva<false>` is such a client (Proof/StrClient), so C49 carries over; none of them puts a longer key than it is given or reads (Proof/StrShort) |
| C51 | violated by streaming 1026 to 2048 keys of which the last is all ones, and by the deletions of C45 | `WhRep` for the calls that visit all leaves (Proof/WhScan) and for streaming (Proof/WhStream); a split never makes a boundary that is already there, in any state in order (`planSplit_fresh`), so inserts need no condition on the state; induction over the calls |
| C52 | violated: an insertion into the table may not return, and then neither does a load or insert of the filter; otherwise proved | `Good` (Proof/WhTab): the table is the outcome of insertions and deletions (C48), without doubles, and every function of the index does on it what it does on the map, unless an insertion hangs; `Tx.client` (Proof/WhTabStr) lifts this to any client, so C50 carries over. With at most eight prefixes for each bucket no insertion moves an entry, so all return. For the violation one block of four bytes that the checksum maps to its own start value. `crowd` (Proof/Crowd): a leaf has at most 32 keys, and an anchor between two keys has their common prefix, so a prefix of 33 boundaries is a prefix of an anchor whatever the history was; every 1024th key of a load is a boundary, and "t" does not change the checksum of "cxrlv" |
| C53 | proved for the string tree, one thread | `At` (Proof/WhLock): which locks are held, that no leaf has a newer version than the index, and that the reference has seen the version of the index; every function of the tree has the outcome of the function without locks; induction over clients. `Bal` (Proof/LockFilter): every function of `Diva<false>` has one iterator at a time and releases it |
| C54 | proved for the integer tree, one thread | The functions of `Diva<true>` as clients (Proof/IntClient), shared with `Diva<false>` where the code is the same; the lemmas on locks of C53, for any kind of leaf; every function of the integer tree has the outcome of the function without locks (Proof/WhIntLock) |
| C55 | violated: with 45 chosen integers an insertion never returns, nor does a load of 41984; otherwise proved for the histories of C51 | `Tx.client` (Proof/WhIntTab): a program that keeps the anchors in order does on the table what it does on the leaves, unless an insertion hangs; all programs of `Diva<true>` delete before they put and put last (`PutsLast`, Proof/IntTabRuns), so the states in which they put are those of C51, whose anchors are in order. The counterexample: the byte 24 maps the checksum `0xf2991a19` to itself, so the last prefixes of four chosen anchors all have this hash. For the load: puts do not depend on the stores (Proof/IntBare), so the anchors follow from every 1024th key. `crowd` as for C52 |
| C56 | violated: the destructor leaves the block of `wh_ref`; all else proved for the string tree, index keys for both | `Counted` (Proof/WhMem): every node has a live key with its prefix, every key counts its nodes in both tables; kept by each step of `wormmeta_split` and `wormmeta_merge`, also between the two tables, where the new key may be unused. `Mx` (Proof/WhMemStr): blocks of pairs and leaves are those in the leaves of C50; induction over clients |
| C57 | violated if two neighbours among the sampled keys are equal; exact condition proved | The load proofs (Proof/Bulk, Loaded, LoadVar) only need keys sorted with repetitions: each region holds the items of the keys between its two samples (`RegionIn`), and `GetSharedIgnoreImplicitLengths` of two equal keys never returns. All histories (`Reach`, `BuiltFit`, `BuiltVar`, `IntReach`, `OpsTame`, `IntOps`) start from such loads. Deletions (`OpsTame`): every copy of a key that is not a boundary has an item of its own (`RegionIn`), so `Serve` counts all copies; of a boundary key one copy is counted |

## Trusted base

* The Lean 4.33 kernel. Axioms: at most `propext`, `Classical.choice`, `Quot.sound` (checked by `vcheck`); no `sorry`, no
  `native_decide`, no own axioms. Negation witnesses and finite tables use `decide +kernel`.
* The hand translation of the code.
* Not modelled:
  * locks with more than one thread (with one: C53, C54), memory of the trees beyond C56. The leaves and iterators of both trees are modelled
    (C45, C49), so is the index over the leaves (C47, C50, for any anchors of at most 65520 bytes, with a map in the place of its hash table),
    the hash table by itself (C48), and both trees with all three together (C52, C55). An insertion that C48 shows not to
    return is seen in C52 and C55, not in C45, C47, C49, C50, C51;
  * `std::sort`, `std::lower_bound`, `memcpy`, `memset`: by their specification;
  * `mt19937`: any sequence of decisions (in C40: the engine itself);
  * failure of allocation, stack overflow by variable-length arrays;
  * load factors from 0.92 to 0.93, from 0.995 to 1 and outside 0.5 to 2;
  * threads; performance; `assert`s under `DEBUG`.

## Tests of the theorems against wrong programs

`seeded/LOG.jsonl` lists edits of the model, made in a copy, with the theorems that stopped compiling. A theorem whose
claim was false for the edited model and that still compiled was tightened.
