{"id": "C01", "title": "No false negatives for point queries under any insert history", "statement": "After a filter has been built by bulk loading and then any number of keys have been added with Insert (in any order, with repetitions, and whatever the random generator decides at each call), PointQuery answers true for every key that was loaded or inserted.", "quantifier": "every initial key set, every finite history of Insert calls on keys of one fixed length, every outcome of the random split decision at every call, every infix size the code supports", "why_tests_cant": "Whether a key is lost depends on the interplay of the whole insertion history, the random split decisions, the load of the region and the bit patterns of neighbouring boundary keys; tests sample a vanishing part of that space.", "anchors": ["include/diva.hpp:Insert", "include/diva.hpp:InsertSimple", "include/diva.hpp:InsertSplit", "include/diva.hpp:PointQuery", "include/diva.hpp:BulkLoadFixedLength"]}
{"id": "C02", "title": "No false negatives for range queries under any insert history", "statement": "After bulk loading and any history of Insert calls, RangeQuery(l, r) answers true whenever some loaded or inserted key k satisfies l <= k <= r.", "quantifier": "every history as in C01 and every pair l <= r", "why_tests_cant": "The ranges are quadratic in a 2^64 key space and the answer depends on three different search paths (boundary hit, both end runs, interior occupied run).", "anchors": ["include/diva.hpp:RangeQuery", "include/diva.hpp:RangeQueryInfixStore", "include/diva.hpp:Insert"]}
{"id": "C03", "title": "A point hit implies every enclosing range hit", "statement": "In any state reached through the API, if PointQuery(k) is true (even as a false positive) then RangeQuery(l, r) is true for all l <= k <= r.", "quantifier": "every reachable filter state, every k, every l <= k <= r", "why_tests_cant": "Needs agreement of two independent search algorithms for all states, including false positives, which tests do not enumerate.", "anchors": ["include/diva.hpp:PointQuery", "include/diva.hpp:RangeQuery"]}
{"id": "C04", "title": "Range answers are monotone in the range", "statement": "In any reachable state, RangeQuery(l, r) = true implies RangeQuery(l', r') = true whenever l' <= l <= r <= r'.", "quantifier": "every reachable state and every nested pair of ranges", "why_tests_cant": "Nested pairs over 2^64 keys times all states cannot be sampled meaningfully; off-by-one errors appear only at run boundaries.", "anchors": ["include/diva.hpp:RangeQuery", "include/diva.hpp:RangeQueryInfixStore"]}
{"id": "C05", "title": "A one-key range query is a point query", "statement": "In any reachable state RangeQuery(k, k) returns exactly what PointQuery(k) returns.", "quantifier": "every reachable state, every key", "why_tests_cant": "The two answers come from different code (the range path forces the lowest bit to one and uses another comparison); equality for all states and keys is a universal statement.", "anchors": ["include/diva.hpp:PointQuery", "include/diva.hpp:RangeQuery", "include/diva.hpp:PointQueryInfixStore", "include/diva.hpp:RangeQueryInfixStore"]}
{"id": "C06", "title": "Insert never turns a positive answer negative", "statement": "If PointQuery(k) is true in some reachable state then it is still true after Insert(x) for any x, whether or not k was ever inserted, including when the insert splits a region into two and re-encodes it.", "quantifier": "every reachable state, every pair of keys k and x of the fixed length, every random split decision", "why_tests_cant": "The re-encoding after a split depends on four key prefixes and their bit lengths; a lost item shows up only for particular alignments.", "anchors": ["include/diva.hpp:Insert", "include/diva.hpp:InsertSplit", "include/diva.hpp:UpdateInfixList", "include/diva.hpp:GetExpandedInfixListLength"]}
{"id": "C07", "title": "Point answers are exactly prefix matches", "statement": "A point query on a key that is not a boundary key is positive only if some stored key prefix in that key's region (of at most the region's implicit length plus the infix size minus one bits) is a prefix of the queried key, and negative otherwise; in particular after bulk load every positive answer is explained by a loaded key that agrees with the query on all bits the region retains.", "quantifier": "every key set, every queried key", "why_tests_cant": "A bound on false positives for all keys is a statement about all 2^64 queries for all key sets; tests only estimate an average rate.", "anchors": ["include/diva.hpp:PointQuery", "include/diva.hpp:PointQueryInfixStore", "include/diva.hpp:ExtractPartialKey"]}
{"id": "C08", "title": "Answers do not depend on insertion order", "statement": "Two histories that bulk load the same keys and insert the same keys in different orders (with no region split) give the same PointQuery and RangeQuery answers for every argument.", "quantifier": "every permutation of every insertion list, every query", "why_tests_cant": "Permutations grow factorially; the internal layouts differ for each of them.", "anchors": ["include/diva.hpp:InsertSimple", "include/diva.hpp:InsertRawIntoInfixStore"]}
{"id": "C09", "title": "Growing a region keeps its content", "statement": "When Insert triggers the automatic growth of a region, exactly the previously stored items plus the new one are present afterwards, each with the same multiplicity and in the same order.", "quantifier": "every region content, every growth step, every new item", "why_tests_cant": "Growth happens at data-dependent sizes and moves every slot through a bit-packed layout; all contents cannot be tested.", "anchors": ["include/diva.hpp:ResizeInfixStore", "include/diva.hpp:GetInfixList", "include/diva.hpp:LoadListToInfixStore", "include/diva.hpp:InsertRawIntoInfixStore"]}
{"id": "C10", "title": "A region never overflows", "statement": "At the moment a new item is placed, its region has at least one free slot, so an insert never overwrites a stored item or writes past the slot array, as long as the region holds fewer items than its 20-bit counter and 8-bit size grade can express.", "quantifier": "every reachable region and every insert", "why_tests_cant": "The growth thresholds are table driven; exhaustion would need adversarial fill patterns at each of the size grades.", "anchors": ["include/diva.hpp:InsertRawIntoInfixStore", "include/diva.hpp:SetupScaleFactors", "include/diva.hpp:AllocateInfixStoreWithList"]}
{"id": "C11", "title": "Bulk loading accepts any number of keys", "statement": "Building a filter from any sorted sequence of n >= 1 distinct fixed-length keys terminates, and afterwards PointQuery is true for each of them.", "quantifier": "every n >= 1 and every sorted sequence of distinct keys", "why_tests_cant": "The chunking has residue classes modulo 1024; a test suite that uses round key counts never sees the failing one.", "anchors": ["include/diva.hpp:BulkLoadFixedLength", "include/diva.hpp:BulkLoad"]}
{"id": "C12", "title": "Streaming bulk load loses no key", "statement": "After BulkLoadStreaming has been called with any sorted sequence of distinct keys and BulkLoadStreamingFinish has been called, PointQuery is true for each of them.", "quantifier": "every n >= 1 and every sorted sequence of distinct keys", "why_tests_cant": "The failing cases are residue classes of the key count and particular first keys.", "anchors": ["include/diva.hpp:BulkLoadStreaming", "include/diva.hpp:BulkLoadStreamingFinish"]}
{"id": "C13", "title": "Insert and Delete are defined for every 64-bit key", "statement": "On a filter built from 8-byte keys, Insert(k) and Delete of an inserted k are memory safe for every 64-bit k, including 0 and the maximum value.", "quantifier": "every 64-bit key in every reachable state", "why_tests_cant": "Only the two extreme keys in 2^64 expose the problem; random tests do not draw them.", "anchors": ["include/diva.hpp:InsertSimple", "include/diva.hpp:Delete", "include/diva.hpp:DeleteMerge", "include/wormhole/wh_int.c:wh_int_iter_peek_ref"]}
{"id": "C14", "title": "Insert always terminates", "statement": "Insert returns for every key in every reachable state.", "quantifier": "every reachable state, every key, every random split decision", "why_tests_cant": "Termination for all inputs is not testable; the non-terminating case needs a split right after a near-boundary key.", "anchors": ["include/diva.hpp:GetSharedIgnoreImplicitLengths", "include/diva.hpp:InsertSplit"]}
{"id": "C15", "title": "Deleting one key keeps all other keys", "statement": "If k was inserted and is deleted once, PointQuery stays true for every other key that is still present.", "quantifier": "every reachable state, every present key, every other present key", "why_tests_cant": "Depends on the exact fill pattern of the tail of a region; the failing pattern needs a full tail and a particular run start.", "anchors": ["include/diva.hpp:Delete", "include/diva.hpp:DeleteRawFromInfixStore"]}
{"id": "C16", "title": "Deleting removes exactly one matching item from a region", "statement": "Delete of a present key that is stored as an item of a region removes exactly one stored item, the removed item is a prefix of the deleted key, and all other stored items keep their multiplicity.", "quantifier": "every region content, every present key", "why_tests_cant": "Multiset accounting over all region contents and slot layouts is a universal statement.", "anchors": ["include/diva.hpp:DeleteRawFromInfixStore"]}
{"id": "C17", "title": "Serialise then deserialise preserves every answer", "statement": "A filter constructed from the bytes written by Serialize gives the same answer as the original for every PointQuery and RangeQuery.", "quantifier": "every reachable filter built with the default load factor, every query", "why_tests_cant": "Round-trip equality must hold for every byte pattern of every region and all keys.", "anchors": ["include/diva.hpp:Serialize", "include/diva.hpp:SerializeMetadata", "include/diva.hpp:SerializeInfixStore", "include/diva.hpp:DeserializeMetadata", "include/diva.hpp:DeserializeInfixStore"]}
{"id": "C18", "title": "Size() is the number of bytes Serialize writes", "statement": "Serialize writes exactly Size() bytes, so a caller can allocate the output buffer with Size().", "quantifier": "every reachable filter, both the integer-optimised and the generic variant", "why_tests_cant": "The two functions only disagree when a truncated boundary key exists, which needs a particular random split.", "anchors": ["include/diva.hpp:Size", "include/diva.hpp:Serialize"]}
{"id": "C19", "title": "Shrinking the infix size keeps all keys", "statement": "After ShrinkInfixSize(s') with 1 <= s' <= current size, PointQuery is still true for every key for which it was true before.", "quantifier": "every reachable state, every admissible new size", "why_tests_cant": "The result depends on each region's size grade and on the alignment of the bitmap end; tests use a region of the one grade for which the code works.", "anchors": ["include/diva.hpp:ShrinkInfixSize", "include/diva.hpp:ShrinkInfixStoreInfixSize"]}
{"id": "C20", "title": "Implicit range always fits the scaling table", "statement": "For every two neighbouring boundary keys that differ after zero padding, the number of distinct implicit prefixes between them is at least 512 and at most 1024, so the lookup in the scaling table of 513 entries is in bounds and the occupied bitmap of 1024 bits is never exceeded.", "quantifier": "every pair of byte strings of any length", "why_tests_cant": "Pairs of arbitrary strings; the extreme values occur for rare bit patterns only.", "anchors": ["include/diva.hpp:GetSharedIgnoreImplicitLengths", "include/diva.hpp:InsertSimple", "include/diva.hpp:GetMappedPos"]}
{"id": "C21", "title": "Partial-key extraction preserves order and prefix", "statement": "For boundary keys p < n and keys a, b between them, the value extracted from a key minus that of the lower boundary is a non-negative number below 2^(infix) times the region's implicit count, it is monotone (a <= b implies val(a) <= val(b)), and two keys with equal value agree on every bit the region retains.", "quantifier": "every pair of boundary keys, every pair of keys between them, every infix size up to 46", "why_tests_cant": "Involves unaligned bit windows over arbitrary strings and the dropped 'ignore' bits.", "anchors": ["include/diva.hpp:ExtractPartialKey", "include/diva.hpp:GetSharedIgnoreImplicitLengths", "include/diva.hpp:InfiniteByteString"]}
{"id": "C22", "title": "Integer fast path equals the generic path", "statement": "For 8-byte keys the integer-optimised RangeQuery returns the same answer as the generic string RangeQuery on the same filter contents.", "quantifier": "every state with 8-byte keys and boundary keys of at most 8 bytes, every l <= r", "why_tests_cant": "Two separate bit-extraction formulas with data-dependent shift directions must agree for all 2^128 query pairs.", "anchors": ["include/diva.hpp:RangeQuery", "include/diva.hpp:ExtractPartialKey"]}
{"id": "C23", "title": "Integer key order is preserved by the byte encoding", "statement": "The integer API encodes keys so that the byte-wise lexicographic order of encodings equals the numeric order, and the comparison used by the integer tree (value of the zero-padded key, then length) is the lexicographic order of byte strings of at most 8 bytes.", "quantifier": "every pair of 64-bit keys; every pair of byte strings of length at most 8", "why_tests_cant": "All pairs of 64-bit integers.", "anchors": ["include/diva.hpp:Insert", "include/diva.hpp:RangeQuery", "include/util.hpp:to_big_endian_order", "include/wormhole/wh_int.c"]}
{"id": "C24", "title": "Boundary keys are always reported", "statement": "A key that is stored in the ordered tree is reported by PointQuery and by every RangeQuery whose range contains it.", "quantifier": "every tree content, every boundary key, every range containing it", "why_tests_cant": "Universal over all tree contents and ranges.", "anchors": ["include/diva.hpp:PointQuery", "include/diva.hpp:RangeQuery"]}
{"id": "C25", "title": "Answers do not depend on memory outside a region's block", "statement": "The answers of PointQuery and RangeQuery and the content after an insert are the same whatever bytes happen to lie behind the heap block of a region, although the code reads up to seven bytes past it.", "quantifier": "every reachable region, every content of the neighbouring memory", "why_tests_cant": "Heap neighbours are nondeterministic; tests see one allocator layout.", "anchors": ["include/diva.hpp:GetSlot", "include/diva.hpp:FindEmptySlotAfter", "include/diva.hpp:SelectRunends"]}
{"id": "C26", "title": "Slot accesses stay inside the allocated block", "statement": "Every slot read or write touches only bytes of the block allocated for the region.", "quantifier": "every infix size, every size grade, every slot index below the slot count", "why_tests_cant": "The overrun depends on the product of grade and infix size and on the allocator; without a sanitizer it is silent.", "anchors": ["include/diva.hpp:GetSlot", "include/diva.hpp:SetSlot", "include/diva.hpp:GetPtrWordCount"]}
{"id": "C27", "title": "Variable-length string keys are never lost", "statement": "With keys of different lengths, after bulk loading and any Insert history PointQuery is true for every loaded or inserted key.", "quantifier": "every set of byte strings of any lengths, every random split decision", "why_tests_cant": "Needs a short key that is a prefix of a truncated boundary, a coincidence tests on random strings do not hit.", "anchors": ["include/diva.hpp:InsertSplit", "include/diva.hpp:InsertSimple", "include/diva.hpp:BulkLoad"]}
{"id": "C28", "title": "Bit select, rank and scans are exact", "statement": "bit_select(x, i) is the position of the i-th set bit (64 if there are not that many), the portable and the BMI2 implementation agree, bit_rank counts set bits below a position, and lowbit_pos/highbit_pos are the lowest and highest set bit.", "quantifier": "every 64-bit word and every index", "why_tests_cant": "2^64 words times 64 indices; the portable version uses a broadword trick with a 2048-entry table.", "anchors": ["include/util.hpp:bit_select", "include/util.hpp:_select64", "include/util.hpp:bit_rank", "include/util.hpp:lowbit_pos", "include/util.hpp:highbit_pos"]}
{"id": "C29", "title": "Bitmap shifts move exactly the requested bits", "statement": "shift_bitmap_right and shift_bitmap_left move the bits of [l, r] by shamt positions, clear the vacated bits and change nothing else.", "quantifier": "every bitmap, every l <= r, every shift amount", "why_tests_cant": "Word-boundary cases of two offsets and a length; all combinations over all bitmaps.", "anchors": ["include/util.hpp:shift_bitmap_right", "include/util.hpp:shift_bitmap_left"]}
{"id": "C30", "title": "Status word fields are independent", "statement": "Setting the element count, size grade, invalid-bit count or partial flag of a region changes that field only, for all values that fit the field.", "quantifier": "every 32-bit status word and every field value in range", "why_tests_cant": "2^32 states times all field values; and it quantifies over every order of updates.", "anchors": ["include/diva.hpp:InfixStore"]}
{"id": "C31", "title": "Stored list round trip", "statement": "Loading any sorted list of items that fits into a region and reading the region back yields the same list.", "quantifier": "every sorted list of non-zero items, every size grade large enough, every implicit range", "why_tests_cant": "The two-pass placement (forward, then clamped backwards at the end of the slot array) has behaviours that depend on the whole list.", "anchors": ["include/diva.hpp:LoadListToInfixStore", "include/diva.hpp:GetInfixList"]}
{"id": "C32", "title": "Item counter is exact", "statement": "After any sequence of operations on a region its element counter equals the number of stored items, as long as it stays below 2^20.", "quantifier": "every region history of loads, inserts and growth steps", "why_tests_cant": "Induction over histories.", "anchors": ["include/diva.hpp:UpdateElemCount", "include/diva.hpp:SetElemCount", "include/diva.hpp:InsertRawIntoInfixStore", "include/diva.hpp:LoadListToInfixStore"]}
{"id": "C33", "title": "A negative range answer is exact evidence of absence", "statement": "RangeQuery(l, r) = false implies that no boundary key lies in [l, r] and no stored prefix of the region covers any key in [l, r]; RangeQuery(l, r) = true inside one region implies that some stored prefix covers a key value in the extracted range.", "quantifier": "every reachable region and every l <= r", "why_tests_cant": "Completeness and soundness over all ranges.", "anchors": ["include/diva.hpp:RangeQuery", "include/diva.hpp:RangeQueryInfixStore"]}
{"id": "C34", "title": "Inserting a present key again does not change any answer", "statement": "Inserting a key that is already stored, through a non-splitting insert, leaves every PointQuery and RangeQuery answer unchanged.", "quantifier": "every reachable state, every stored key, every query", "why_tests_cant": "Universal over queries and states.", "anchors": ["include/diva.hpp:InsertSimple", "include/diva.hpp:PointQuery", "include/diva.hpp:RangeQuery"]}
{"id": "C35", "title": "Inserts affect one region only", "statement": "A non-splitting Insert(x) changes no answer of PointQuery(k) for a key k that lies between two other neighbouring boundary keys than x.", "quantifier": "every reachable state, every x and k in different regions", "why_tests_cant": "Universal over states and keys; frame properties are not observable from samples.", "anchors": ["include/diva.hpp:InsertSimple", "include/diva.hpp:InsertRawIntoInfixStore"]}
{"id": "C36", "title": "Inserts after deletions lose no key", "statement": "After any sequence of inserts and of deletions of present keys, Insert(x) leaves PointQuery(k) true for every key k that is still present.", "quantifier": "every state reachable by inserts and deletes of present keys, every x, every present k", "why_tests_cant": "Depends on the slot pattern a deletion leaves behind; the failing pattern needs a free slot in front of an item that is away from its home slot.", "anchors": ["include/diva.hpp:Delete", "include/diva.hpp:DeleteRawFromInfixStore", "include/diva.hpp:InsertRawIntoInfixStore"]}
{"id": "C37", "title": "Range queries see every present key after deletions", "statement": "After any sequence of inserts and of deletions of present keys, RangeQuery(l, r) is true for every range that contains a present key.", "quantifier": "every state reachable by inserts and deletes of present keys, every range with a present key", "why_tests_cant": "Merging of two regions must keep the joined list sorted; the failing lists need a short item that covers the removed boundary.", "anchors": ["include/diva.hpp:DeleteMerge", "include/diva.hpp:UpdateInfixListDelete", "include/diva.hpp:RangeQuery"]}
{"id": "C38", "title": "Every block is freed exactly once", "statement": "Insert, Delete, ShrinkInfixSize, the queries and the destructor only use blocks that are allocated, delete[] only pointers that came from new[] and each at most once; after the destructor no block of the filter is left.", "quantifier": "every filter, constructed by any bulk load or restored from a buffer, every sequence of operations followed by the destructor", "why_tests_cant": "InfixStore is copied with its raw pointer, so ownership depends on the order of tree updates and delete[] in every path of every operation; tests only see the paths they take, and undefined deletes may go unnoticed.", "anchors": ["include/diva.hpp:~Diva", "include/diva.hpp:InsertSplit", "include/diva.hpp:DeleteMerge", "include/diva.hpp:ResizeInfixStore", "include/diva.hpp:DeserializeInfixStore", "include/diva.hpp:AddTreeKey"]}
{"id": "C39", "title": "Every load factor gives a working filter", "statement": "For every load factor between 0.5 and 2 that is passed to the constructor, the tables are computed without undefined behaviour, an insert into a region always finds a free slot, inserted keys are found, and a serialised filter can be restored.", "quantifier": "every float load factor, every infix size, every history", "why_tests_cant": "All tests use 0.95; the tables are a recurrence in floating point whose rounding errors must be bounded for every float, and the failures need over a thousand keys in one region or a sanitizer on the constructor.", "anchors": ["include/diva.hpp:SetupScaleFactors", "include/diva.hpp:Diva", "include/diva.hpp:DeserializeMetadata", "include/diva.hpp:InsertRawIntoInfixStore"]}
{"id": "C40", "title": "A restored filter goes on like the original", "statement": "Saving a filter with Serialize and going on with the filter restored from the buffer makes no difference: every later sequence of Insert, Delete, queries and Serialize has the same results and writes the same bytes.", "quantifier": "every reachable filter, every later sequence of operations, both template variants, every seed", "why_tests_cant": "Tests query a restored filter but do not go on modifying it next to the original; a difference in hidden state (free bits of a block, status flags, generator position) only shows after later operations, for the generator at one insert in 1024.", "anchors": ["include/diva.hpp:Serialize", "include/diva.hpp:DeserializeMetadata", "include/diva.hpp:DeserializeInfixStore", "include/diva.hpp:Insert"]}
{"id": "C41", "title": "Serialised bytes do not depend on insertion order", "statement": "Inserting the same keys (with repetitions) in another order, as long as no insert splits a region, gives a filter with exactly the same bytes: Serialize writes the same buffer, and all later operations behave the same.", "quantifier": "every reachable filter, every list of keys and every permutation of it", "why_tests_cant": "Tests compare answers for one order; byte equality for all orders needs that slots, run ends, counters and growth are a function of the set of stored items, across resizes in the middle of the sequence.", "anchors": ["include/diva.hpp:InsertRawIntoInfixStore", "include/diva.hpp:ResizeInfixStore", "include/diva.hpp:InsertSimple", "include/diva.hpp:Serialize"]}
{"id": "C42", "title": "Delete undoes Insert", "statement": "Inserting a key and deleting it right afterwards leaves every answer of the filter as it was before: no key or range becomes positive or negative, even if the key was stored already or shares its stored prefix with other keys.", "quantifier": "every reachable filter, every key, every query", "why_tests_cant": "Tests delete all copies of known keys; which of several matching prefixes a delete takes out, and whether a boundary is removed instead, depends on the state of the region, and the effect may show only at keys that were never inserted.", "anchors": ["include/diva.hpp:Insert", "include/diva.hpp:Delete", "include/diva.hpp:DeleteRawFromInfixStore", "include/diva.hpp:GetLongestMatchingInfixSize"]}
{"id": "C43", "title": "Positive answers have a cause", "statement": "Inserts and splits never make the filter less exact: after any number of inserts, every key that became positive is an inserted key or agrees with an inserted key of its region on all bits the region kept before; an insert that splits a region makes nothing positive but the inserted key and the ranges that contain it.", "quantifier": "every reachable filter, every sequence of inserts with any outcome of the random generator, every key and range", "why_tests_cant": "Tests measure an average false positive rate; whether the re-encoded prefixes of a split cover keys that no stored prefix covered before is a statement about all keys between two boundaries and all split points.", "anchors": ["include/diva.hpp:InsertSplit", "include/diva.hpp:UpdateInfixList", "include/diva.hpp:InsertSimple", "include/diva.hpp:PointQuery"]}
{"id": "C44", "title": "A range is positive exactly if one of its keys is", "statement": "RangeQuery(l, r) returns true exactly if there is a key k with l <= k <= r for which PointQuery(k) returns true.", "quantifier": "every reachable state, every range", "why_tests_cant": "The range query decides by one scan over stored prefixes, without looking at keys; equality with the disjunction of all point answers ranges over all keys between l and r.", "anchors": ["include/diva.hpp:RangeQuery", "include/diva.hpp:RangeQueryInfixStore", "include/diva.hpp:PointQuery"]}
{"id": "C45", "title": "The integer tree is an ordered map", "statement": "The filter for integers keeps its boundaries in a tree whose leaves hold up to 32 keys in any order and are sorted, split and merged on the way. Whatever the history, every boundary is found in exactly one place, and every insert, deletion and query has the outcome it would have on a plain ordered list of the boundaries; in particular queries, which sort leaves, change no answer.", "quantifier": "every history of a bulk load, inserts with any outcome of the random generator, deletions and queries on keys of at most 8 bytes", "why_tests_cant": "Which leaf is out of order, full or about to be merged depends on the whole history; the faults appear only when a deletion meets a leaf boundary in a certain way, and then in a later call.", "anchors": ["include/wormhole/wh_int.c:wormleaf_int_sync_sorted", "include/wormhole/wh_int.c:wormhole_split_leaf", "include/wormhole/wh_int.c:wormleaf_merge", "include/wormhole/wh_int.c:wormhole_int_del", "include/diva.hpp:DeleteMerge"]}
{"id": "C46", "title": "False positive rate", "statement": "Among all ranges of a given number of keys that lie between two neighbouring boundary keys, the fraction of false positives (positive answer, no present key in the range) is at most the number of keys in the region divided by 510 * 2^(s-1), s being the infix size; a loaded region has at most 1023 keys, so the fraction stays below 4.02 / 2^s. The bound does not depend on the length of the range or on the keys. The same holds for all ranges of that length together.", "quantifier": "every loaded key set of equal-length keys, every history of inserts, every range length, every pair of neighbouring boundaries", "why_tests_cant": "A measured rate depends on the chosen keys and queries; a bound for every key set, in particular for clustered ones, and for every range length needs a count over all of them.", "anchors": ["include/diva.hpp:RangeQuery", "include/diva.hpp:PointQuery", "include/diva.hpp:GetSharedIgnoreImplicitLengths", "include/diva.hpp:BulkLoad"]}
{"id": "C47", "title": "The index leads to the right leaf", "statement": "The tree finds the leaf of a key through an index of all prefixes of the leaf anchors, which is edited in place when leaves split or merge. Whatever leaves have been split and merged, in any order, and whatever hash collisions occur, the search ends at the leaf with the greatest anchor not above the key, and the index holds exactly the prefixes of the current anchors. So the filter answers as if every leaf were compared.", "quantifier": "every sequence of splits and merges with any anchors of at most 65520 bytes, every searched key of any length, every pattern of false tag matches; for the filter every history as in C45", "why_tests_cant": "A wrong pointer in one of the index nodes shows only for keys that end their search at this node, possibly many splits and merges later; with few leaves most nodes are never consulted.", "anchors": ["include/wormhole/wh_int.c:wormhole_meta_lcp", "include/wormhole/wh_int.c:wormhole_meta_down", "include/wormhole/wh_int.c:wormhole_split_meta", "include/wormhole/wh_int.c:wormhole_meta_merge", "include/wormhole/wh.c:wormhole_jump_leaf"]}
{"id": "C48", "title": "The hash table of the index keeps every node and insertion into it returns", "statement": "The nodes of the index stand in a hash table with two possible buckets of eight slots for each; an insertion moves other nodes between their buckets, and doubles the table if no place is found. Whatever is inserted and deleted, and however nodes were moved, a lookup finds exactly the nodes present, the quick test by tags never misses one, and the memory written is inside a bucket. Inserting a node always comes to an end.", "quantifier": "every hash function, every sequence of insertions and deletions of prefixes, every number of moves and doublings; for the failures concrete prefixes with the checksum CRC32C that the code uses", "why_tests_cant": "With random keys full buckets are rare and long chains of moves rarer; the failing cases need about twenty nodes that share two of 4096 buckets, which no random test meets, but which anyone who chooses the keys can construct.", "anchors": ["include/wormhole/wh_int.c:wormhmap_cuckoo", "include/wormhole/wh_int.c:wormhmap_set", "include/wormhole/wh_int.c:wormhmap_expand", "include/wormhole/wh_int.c:wormhmap_squeeze", "include/wormhole/wh_int.c:wormhmap_del", "include/wormhole/wh_int.c:wormhmap_get", "include/wormhole/wh_int.c:wormhmap_peek"]}
{"id": "C49", "title": "The string tree is an ordered map", "statement": "The filter for strings keeps its boundaries in a tree whose leaves are hash tables of 32 slots, ordered by a checksum, with a second array that lists the slots in the order of their keys as far as they have been sorted. Whatever is put, deleted, overwritten and searched, in any order, every boundary is found in exactly one slot, no call writes outside a leaf or waits forever, the iterator moves from each boundary to the next one above or below, and every load, insert, deletion, query, shrinking, serialising and restoring of the filter has the outcome it would have on a plain ordered list of the boundaries.", "quantifier": "every sequence of calls on the tree and every history of calls of the filter, beginning with any of the three loads or with a restore from any bytes, inserts with any outcome of the random generator, on strings of any lengths up to 65535 bytes", "why_tests_cant": "Which slots are shifted depends on the checksums of all keys of a leaf, and the shift of the second array is done by signed arithmetic on 32 bytes at once including leftovers; a wrong byte shows only when a later search meets the slot.", "anchors": ["include/wormhole/wh.c:wormleaf_insert_hs", "include/wormhole/wh.c:wormleaf_shift_inc", "include/wormhole/wh.c:wormleaf_pull_ih", "include/wormhole/wh.c:wormleaf_match_hs", "include/wormhole/wh.c:wormleaf_sync_sorted", "include/wormhole/wh.c:wormhole_split_leaf", "include/wormhole/wh.c:wormhole_iter_seek", "include/diva.hpp:InsertSplit", "include/diva.hpp:DeleteMerge"]}
{"id": "C50", "title": "The string tree finds every boundary through its index", "statement": "The filter for strings reaches the leaf of a boundary through an index of the prefixes of all leaf anchors. Whatever a program puts, deletes, overwrites, seeks and steps through, even if it decides its next call by what the tree returned, it gets what it would get if all anchors were compared. The index always holds exactly the prefixes of the current anchors, and a boundary that is stored is in the leaf to which the index leads. So every load, insert, deletion, query, shrinking, serialising and restoring has the outcome it has on an ordered list, and a query never answers no for a stored key.", "quantifier": "every program that calls the tree with keys of at most 65520 bytes, every history of calls of the filter with such keys, every pattern of false tag matches", "why_tests_cant": "Anchors of strings share prefixes of every length, also an anchor with the prefix of another followed by zero bytes; which index nodes are changed depends on both neighbours of the leaf, and a stale pointer shows only for keys that end their search there.", "anchors": ["include/wormhole/wh.c:wormhole_jump_leaf", "include/wormhole/wh.c:wormhole_split_meta", "include/wormhole/wh.c:wormhole_meta_merge", "include/wormhole/wh.c:wormhole_put", "include/wormhole/wh.c:wormhole_del", "include/wormhole/wh.c:wormhole_iter_seek", "include/diva.hpp:InsertSplit", "include/diva.hpp:DeleteMerge"]}
{"id": "C51", "title": "The integer filter goes through its whole life as on an ordered list", "statement": "A filter for integers that is loaded in either way or restored from bytes, and then gets any inserts, deletions, queries, shrinkings, size requests and serialisations in any order, gives the answers, sizes and bytes that it would give if its boundaries were kept in a plain ordered list. What it has written can be restored into a filter with the same regions, and no streamed key is lost on the way.", "quantifier": "every history of calls of the filter, beginning with the fixed-length load, the streaming load or a restore from any bytes with distinct keys of at most 8 bytes; keys of at most 8 bytes, inserts with any outcome of the random generator", "why_tests_cant": "The slots of a leaf are only sorted when an iterator enters it, so what a put sees depends on the calls before it; a key that is appended a second time is invisible to queries and shows only in the size and the bytes of filters loaded with a certain number of keys ending in the largest integer.", "anchors": ["include/wormhole/wh_int.c:wormhole_int_put", "include/wormhole/wh_int.c:wormleaf_int_search_eq", "include/wormhole/wh_int.c:wormhole_int_iter_skip1", "include/diva.hpp:BulkLoadStreaming", "include/diva.hpp:BulkLoadStreamingFinish", "include/diva.hpp:Size", "include/diva.hpp:Serialize", "include/diva.hpp:ShrinkInfixSize", "include/diva.hpp:Diva"]}
{"id": "C52", "title": "The string tree on its hash table", "statement": "The index of the string tree keeps its nodes in a hash table with two possible buckets for each node, found by a checksum of the prefix. Whatever a program puts, deletes, overwrites, seeks and steps through, the tree with leaves, index and hash table gives it what it would get if all anchors were compared, and every call returns. A deletion or seek never fails, the table holds a node for exactly the prefixes of the current anchors, and the filter on top gives the answers it gives on an ordered list of its boundaries.", "quantifier": "every program that calls the tree with keys of at most 65520 bytes, every history of calls of the filter with such keys, every hash function", "why_tests_cant": "The table has 32768 places before it first grows, and only keys whose prefixes share a checksum meet; random keys do not have such prefixes, but there are four bytes that the checksum maps to its own start value.", "anchors": ["include/wormhole/wh.c:wormhmap_set", "include/wormhole/wh.c:wormhmap_cuckoo", "include/wormhole/wh.c:wormhmap_del", "include/wormhole/wh.c:wormmeta_split_touch", "include/wormhole/wh.c:wormmeta_merge", "include/wormhole/wh.c:wormhole_put", "include/diva.hpp:InsertSplit", "include/diva.hpp:BulkLoad"]}
{"id": "C53", "title": "No call waits for a lock or leaves one behind", "statement": "The string tree protects its leaves and its index with locks, and the filter releases the leaf of its iterator by hand before it changes the tree. Used by one thread, no call of the filter ever waits for a lock, none releases a lock that it does not hold, and after every call all locks are free again, so that the next call finds them free. The same holds for any program on the tree that releases its iterator before it puts or deletes; with an iterator still open, a put of a key of the same leaf never returns.", "quantifier": "every history of construction, inserts, deletes, queries, shrinking, sizing, serialising and restoring with keys of any length; every program on the tree that releases its iterators", "why_tests_cant": "A missing release shows only if a later call needs the lock of the same leaf, which depends on which of the leaves the keys ended up in, on splits and merges, and on the path through the function that leaves the lock behind.", "anchors": ["include/diva.hpp:InsertSimple", "include/diva.hpp:InsertSplit", "include/diva.hpp:Delete", "include/diva.hpp:DeleteMerge", "include/diva.hpp:PointQuery", "include/diva.hpp:RangeQuery", "include/wormhole/wh.c:wormhole_put", "include/wormhole/wh.c:wormhole_split_meta", "include/wormhole/wh.c:wormhole_del", "include/wormhole/wh.c:wormhole_meta_merge", "include/wormhole/wh.c:wormhole_iter_fix", "include/wormhole/wh.c:wormhole_iter_fix_rev"]}
{"id": "C54", "title": "No call of the integer filter waits for a lock or leaves one behind", "statement": "The integer tree has the same locks as the string tree, and the filter for integers releases its iterators by hand in code of its own. Used by one thread, no call of the filter ever waits for a lock, none releases a lock that it does not hold, and after every call all locks are free again. The same holds for any program on the tree that releases its iterator before it puts or deletes; with an iterator still open, a put of a key of the same leaf never returns.", "quantifier": "every history of construction, inserts, deletes, queries, shrinking, sizing, serialising and restoring, also those that leave the tree unsorted (C45); every program on the tree that releases its iterators", "why_tests_cant": "A missing release shows only if a later call needs the lock of the same leaf, which depends on which of the leaves the keys ended up in, on splits and merges, and on the path through the function that leaves the lock behind.", "anchors": ["include/diva.hpp:InsertSimple", "include/diva.hpp:InsertSplit", "include/diva.hpp:Delete", "include/diva.hpp:DeleteMerge", "include/diva.hpp:PointQuery", "include/diva.hpp:RangeQuery", "include/wormhole/wh_int.c:wormhole_int_put", "include/wormhole/wh_int.c:wormhole_split_meta", "include/wormhole/wh_int.c:wormhole_int_del", "include/wormhole/wh_int.c:wormhole_meta_merge", "include/wormhole/wh_int.c:wormhole_int_iter_fix", "include/wormhole/wh_int.c:wormhole_int_iter_fix_rev"]}
{"id": "C55", "title": "The integer filter on leaves, index and hash table answers as the ordered list", "statement": "The integer filter keeps its boundary keys in the leaves of a tree, the leaves in an index, and the nodes of the index in a hash table that grows. All three together behave as the ordered list: every history gives the same answers, leaves the same regions, and every call returns. After each history the table has exactly the prefixes of the anchors as nodes, and the search through it finds the leaf of every key.", "quantifier": "every history of construction, inserts, deletes, queries, shrinking, sizing, serialising and restoring; every hash function for what is returned, the one of the code for the violation", "why_tests_cant": "The table stops taking nodes only if seventeen prefixes of anchors have the same hash. Random integers practically never do that; a chosen set of 45 integers does, or a load of 41984 chosen ones, with anchors that must come out of the splits in exactly this way.", "anchors": ["include/wormhole/wh_int.c:wormhole_int_put", "include/wormhole/wh_int.c:wormhole_split_meta", "include/wormhole/wh_int.c:wormhole_int_del", "include/wormhole/wh_int.c:wormhole_meta_merge", "include/wormhole/wh_int.c:wormhole_jump_leaf", "include/wormhole/wh_int.c:wormhmap_set", "include/wormhole/wh_int.c:wormhmap_cuckoo", "include/wormhole/wh_int.c:wormhmap_expand", "include/diva.hpp:Insert", "include/diva.hpp:InsertSplit"]}
{"id": "C56", "title": "The tree frees each of its blocks exactly once", "statement": "The tree of the filter allocates a block for every pair and every leaf, and keys of its index that the nodes of two tables share and count. No call uses or frees a block that is not there. After every call the pairs and leaves on the heap are those of the tree, one block each; every node of the index has its key, and every key of the index counts its users, at least one. A node goes back to the slab of its size. The block of a pair stays where it is while other keys are put and deleted. When the filter is destroyed every block of the tree is freed once and none is left.", "quantifier": "every program on the string tree with keys of at most 65520 bytes, every history of a filter for strings; for the index keys every sequence of splits and merges of leaves, in either tree", "why_tests_cant": "A key of the index is freed with the last of its users, which are the prefixes of an anchor that other anchors did not already have, in two tables; the order of splits and merges decides which these are, and use of a freed key shows only if the memory was reused. A leak shows in no answer.", "anchors": ["include/wormhole/wh.c:wormmeta_keyref_release", "include/wormhole/wh.c:wormmeta_free", "include/wormhole/wh.c:wormhole_split_meta", "include/wormhole/wh.c:wormmeta_split", "include/wormhole/wh.c:wormhole_meta_merge", "include/wormhole/wh.c:wormmeta_merge", "include/wormhole/wh.c:wormhole_put", "include/wormhole/wh.c:wormhole_del", "include/wormhole/wh.c:wormhole_destroy", "include/wormhole/wh.c:wormhole_ref", "include/wormhole/wh.c:wormhole_unref", "include/diva.hpp:~Diva"]}
{"id": "C57", "title": "Bulk loading tolerates repeated keys", "statement": "A sorted sequence may contain the same key more than once. Every bulk load of such a sequence returns, the filter then reports every key of the sequence, and everything promised for later calls holds as after a load of distinct keys. A key that was loaded several times stays present until it was deleted as often.", "quantifier": "every sorted sequence of keys with any number of repetitions, for both constructors and the streaming load, and every later history of inserts and deletions", "why_tests_cant": "Whether the constructor returns depends on whether two neighbours among the sampled keys, at positions 0, 1024, 2048, ... and at the end, are equal. The tests load random 64-bit integers, which practically never repeat.", "anchors": ["include/diva.hpp:BulkLoadFixedLength", "include/diva.hpp:BulkLoad", "include/diva.hpp:BulkLoadStreaming", "include/diva.hpp:BulkLoadStreamingFinish", "include/diva.hpp:GetSharedIgnoreImplicitLengths", "include/diva.hpp:AddTreeKey"]}
