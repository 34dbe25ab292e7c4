{"claims": [
 {"property": "C01", "status": "partial", "theorems": ["Verif.Props.C01_partial", "Verif.Props.present_point", "Verif.Props.C01_false"], "note": "Holds for histories in which no split shifts items out of a word and no 20-bit counter overflows (InsertFits); C01_false is a history on which the code violates the property."},
 {"property": "C02", "status": "partial", "theorems": ["Verif.Props.C02_partial", "Verif.Props.present_range", "Verif.Props.C02_false"], "note": "As C01; generic and integer query path. present_point and present_range: also for strings of any lengths, after deletions that avoid the known faults, and after shrinks as in C19. C02_false: violation."},
 {"property": "C03", "status": "partial", "theorems": ["Verif.Props.C03_partial", "Verif.Props.C03_false"], "note": "All states reached by bulk loads and inserts inside the fixed widths, by deletions that avoid the known faults, and by ShrinkInfixSize of filters whose regions are empty or of grade 55. C03_false: after a faulty merge a hit lies in a negative range."},
 {"property": "C04", "status": "partial", "theorems": ["Verif.Props.C04_partial", "Verif.Props.C04_false"], "note": "States as in C03; C04_false: violation after a faulty merge."},
 {"property": "C05", "status": "proved", "theorems": ["Verif.Props.C05"], "note": "Every state of a filter with 1 <= infix_size <= 46, also a corrupt one; with int_optimized the boundary keys have at most 8 bytes."},
 {"property": "C06", "status": "partial", "theorems": ["Verif.Props.C06_partial", "Verif.Props.C06_false"], "note": "Inserts inside the fixed widths; C06_false: violation by a split that shifts an item out of its word."},
 {"property": "C07", "status": "proved", "theorems": ["Verif.Props.C07_prefixes", "Verif.Props.C07_bulk", "Verif.Props.C07_states"], "note": "Prefixes for every state reached by loads and inserts, exact set after bulk load; C07_states: also after deletions that avoid the known faults."},
 {"property": "C08", "status": "proved", "theorems": ["Verif.Props.C08_order", "Verif.Props.C08_defined"], "note": "As long as no 20-bit counter overflows."},
 {"property": "C09", "status": "proved", "theorems": ["Verif.Props.C09_insert", "Verif.Props.C09_grow"], "note": "Every history of one region."},
 {"property": "C10", "status": "proved", "theorems": ["Verif.Props.C10", "Verif.Props.regions_of_reach"], "note": "Every history of one region and every region of a reachable filter."},
 {"property": "C11", "status": "partial", "theorems": ["Verif.Props.C11_partial", "Verif.Props.C11_var_partial", "Verif.Props.C11_hang", "Verif.Props.C11_false"], "note": "True unless the number of keys is 1 modulo 1024; then the constructor never returns (C11_hang)."},
 {"property": "C12", "status": "partial", "theorems": ["Verif.Props.C12_partial", "Verif.Props.C12_false_single", "Verif.Props.C12_false_zero", "Verif.Props.C12_false"], "note": "True unless the number of keys is 1 modulo 1024 or more than 1024 keys start with the all-zero key; in these cases keys are lost."},
 {"property": "C13", "status": "partial", "theorems": ["Verif.Props.C13_simple_partial", "Verif.Props.C13_partial", "Verif.Props.C13_C14_short_partial", "Verif.Props.C13_false_max", "Verif.Props.C13_false_split", "Verif.Props.C13_false_delete_zero", "Verif.Props.C13_false_delete_max", "Verif.Props.C13_delete_partial", "Verif.Props.C13_delete_extreme", "Verif.Props.C13_false_delete_shift"], "note": "Inserts: true apart from the largest key and some splits. Deletes: violated for the smallest and largest key and for 25-bit infixes."},
 {"property": "C14", "status": "partial", "theorems": ["Verif.Props.C14_simple", "Verif.Props.C14_partial", "Verif.Props.C14_query", "Verif.Props.C14_false", "Verif.Props.C14_false_boundary"], "note": "Simple inserts and queries always return; a splitting insert may loop forever."},
 {"property": "C17", "status": "partial", "theorems": ["Verif.Props.C17_partial", "Verif.Props.C17_false"], "note": "States as in C03, if no key is longer than 20000 bytes; C17_false: a longer boundary key makes the reader overrun its key buffer."},
 {"property": "C18", "status": "partial", "theorems": ["Verif.Props.C18_partial", "Verif.Props.C18_false"], "note": "True for the generic variant and for integer filters whose boundaries all have 8 bytes; C18_false: a truncated boundary makes Serialize write more than Size()."},
 {"property": "C19", "status": "partial", "theorems": ["Verif.Props.C19_partial", "Verif.Props.C19_range_partial", "Verif.Props.C19_state", "Verif.Props.C19_keys_partial", "Verif.Props.C19_false"], "note": "True for boundary keys and for keys in regions that are empty or of size grade 55, after any number of loads, inserts and earlier shrinks; C19_false: in a region of another grade a loaded key is lost."},
 {"property": "C20", "status": "proved", "theorems": ["Verif.Props.C20_total", "Verif.Props.C20_equal"], "note": ""},
 {"property": "C21", "status": "proved", "theorems": ["Verif.Props.C21_value", "Verif.Props.C21_order"], "note": ""},
 {"property": "C22", "status": "proved", "theorems": ["Verif.Props.C22", "Verif.Props.C22_states"], "note": "Every state, also a corrupt one, whose boundary keys have at most 8 bytes."},
 {"property": "C23", "status": "proved", "theorems": ["Verif.Props.C23_encode", "Verif.Props.C23_compare", "Verif.Props.C23_search"], "note": "Includes the binary search in a leaf of the integer tree."},
 {"property": "C24", "status": "proved", "theorems": ["Verif.Props.C24_boundary", "Verif.Props.C24_states"], "note": "Every tree in order."},
 {"property": "C25", "status": "proved", "theorems": ["Verif.Props.C25", "Verif.Props.regions_of_reach"], "note": "Every history of one region and every region of a reachable filter."},
 {"property": "C26", "status": "partial", "theorems": ["Verif.Props.C26_partial", "Verif.Props.C26_overhang", "Verif.Props.C26_last", "Verif.Props.C26_false", "Verif.Props.C26_false_insert"], "note": "True for slots at least 64 bits before the end of the block; otherwise the 8-byte access overhangs by the stated amount. C26_false_insert: an insert into a reachable filter does it."},
 {"property": "C27", "status": "partial", "theorems": ["Verif.Props.C27_partial", "Verif.Props.C27_false"], "note": "True if no splitting insert gets a key of which an earlier key is a proper prefix (and inside the fixed widths); C27_false: violation."},
 {"property": "C28", "status": "proved", "theorems": ["Verif.Props.C28_select", "Verif.Props.C28_portable", "Verif.Props.C28_agree", "Verif.Props.C28_rank", "Verif.Props.C28_lowbit", "Verif.Props.C28_highbit"], "note": "both builds of select: pdep-based and the table-driven _select64, which agree on every word and index; rank; lowest and highest set bit"},
 {"property": "C29", "status": "proved", "theorems": ["Verif.Props.C29_shift_right", "Verif.Props.C29_shift_left"], "note": "left shift needs shamt <= l, as the code does"},
 {"property": "C30", "status": "proved", "theorems": ["Verif.Props.C30_fields", "Verif.Props.C30_update"], "note": "field values that fit the field"},
 {"property": "C31", "status": "proved", "theorems": ["Verif.Props.C31_load", "Verif.Props.C31_alloc"], "note": ""},
 {"property": "C32", "status": "proved", "theorems": ["Verif.Props.C32", "Verif.Props.regions_of_reach"], "note": ""},
 {"property": "C33", "status": "partial", "theorems": ["Verif.Props.C33_negative", "Verif.Props.C33_positive", "Verif.Props.C33_false"], "note": "States as in C03; C33_false: a negative range with a hit after a faulty merge."},
 {"property": "C34", "status": "partial", "theorems": ["Verif.Props.C34_partial", "Verif.Props.C34_false"], "note": "True for stored keys that are not boundary keys; C34_false: violation by a boundary key."},
 {"property": "C35", "status": "proved", "theorems": ["Verif.Props.C35_point", "Verif.Props.C35_range", "Verif.Props.C35_exact"], "note": "As long as the 20-bit counter does not overflow."},
 {"property": "C15", "status": "partial", "theorems": ["Verif.Props.C15_partial", "Verif.Props.C15_plain_partial", "Verif.Props.C15_false"], "note": "True for histories that avoid the faults listed in DeleteTame; C15_false: removing a partial boundary that is no prefix of the deleted key loses a key."},
 {"property": "C16", "status": "partial", "theorems": ["Verif.Props.C16_partial", "Verif.Props.C16_false"], "note": "True after tame histories if no boundary is removed; C16_false: the boundary may be removed although the key is an item."},
 {"property": "C36", "status": "partial", "theorems": ["Verif.Props.C36_partial", "Verif.Props.C36_false"], "note": "True for histories that avoid the faults listed in DeleteTame; C36_false: a region packed against its end breaks the order on the next insert."},
 {"property": "C37", "status": "partial", "theorems": ["Verif.Props.C37_partial", "Verif.Props.C37_plain_partial", "Verif.Props.C37_false"], "note": "True for histories that avoid the faults listed in DeleteTame; C37_false: a merge may leave the joined region unsorted."},
 {"property": "C38", "status": "partial", "theorems": ["Verif.Props.C38_partial", "Verif.Props.C38_freed_partial", "Verif.Props.C38_false", "Verif.Props.C38_leak"], "note": "No bad use or delete after any bulk load and any operations; nothing left behind unless a loaded key is an extreme one. C38_false: the destructor of a restored filter deletes pointers into the caller's buffer. C38_leak: a bulk load with the all-zero key loses a block."},
 {"property": "C39", "status": "partial", "theorems": ["Verif.Props.C39_partial", "Verif.Props.C39_tables", "Verif.Props.C39_false_small", "Verif.Props.C39_false_one", "Verif.Props.C39_false_restore"], "note": "True for every float from 0.93 to 0.995, restoring excepted. Violated from 0.5 to 0.92 (conversion out of range in the constructor), from 1 to 2 (no free slot for the 1025th item of a region), and for restoring with any load factor but 0.95."},
 {"property": "C40", "status": "partial", "theorems": ["Verif.Props.C40_partial", "Verif.Props.C40_false"], "note": "The filter comes back bit for bit from every state, deletes go on alike, and everything goes on alike if no key was inserted since construction. C40_false: the generator is seeded again, so later inserts may split differently and the answers differ."},
 {"property": "C41", "status": "proved", "theorems": ["Verif.Props.C41"], "note": "As long as the 20-bit counter does not overflow."},
 {"property": "C42", "status": "partial", "theorems": ["Verif.Props.C42_partial", "Verif.Props.C42_false"], "note": "True for inserts that do not split, of keys that are not boundary keys. C42_false: inserting and deleting a boundary key removes the boundary and keeps the item."},
 {"property": "C43", "status": "partial", "theorems": ["Verif.Props.C43_split_partial", "Verif.Props.C43_partial", "Verif.Props.C43_bulk_partial", "Verif.Props.C43_false"], "note": "True for inserts inside the fixed widths if keys given to a splitting insert are not shorter than the prefixes of their region. C43_false: in a narrow region a splitting insert of a present key flags the boundary as partial and makes other keys positive."},
 {"property": "C44", "status": "partial", "theorems": ["Verif.Props.C44_partial", "Verif.Props.C44_false"], "note": "States as in C03; C44_false: a positive key in a negative range after a faulty merge."},
 {"property": "C45", "status": "partial", "theorems": ["Verif.Props.C45_states_partial", "Verif.Props.C45_ops_partial", "Verif.Props.C45_reach", "Verif.Props.C45_slots_partial", "Verif.Props.C45_point_partial", "Verif.Props.C45_range_partial", "Verif.Props.C45_insert", "Verif.Props.C45_insert_partial", "Verif.Props.C45_delete_partial", "Verif.Props.C45_load", "Verif.Props.C45_answers_partial", "Verif.Props.C45_false", "Verif.Props.C45_false_stale"], "note": "Proved without deletions, and for deletions that do not merge two leaves at the end of the first one (mergeHazard). C45_false: after such a merge the next query sorts memory outside the leaf. C45_false_stale: the merged region is laid out for a wrong right neighbour and the next insert loses keys."},
 {"property": "C46", "status": "partial", "theorems": ["Verif.Props.C46_loaded", "Verif.Props.C46_region", "Verif.Props.C46_region_partial", "Verif.Props.C46_partial", "Verif.Props.C46_false"], "note": "Proved for loaded filters, and after inserts inside the fixed widths if keys given to a splitting insert are not shorter than the prefixes of their region. C46_false: after a splitting insert of a present key a narrow region has a false positive although the bound is below one key."},
 {"property": "C47", "status": "partial", "theorems": ["Verif.Props.C47_find", "Verif.Props.C47_nodes", "Verif.Props.C47_split", "Verif.Props.C47_merge", "Verif.Props.C47_runs_partial", "Verif.Props.C47_answers_partial"], "note": "Proved in full for the index over the leaves (any anchors that fit into its buffer, that is of at most 65520 bytes, hence both trees; the hash table is a map whose tags may answer anything for absent prefixes). For the filter on leaves and index: for the histories of C45, so without the deletions of C45_false."},
 {"property": "C48", "status": "partial", "theorems": ["Verif.Props.C48_get", "Verif.Props.C48_peek", "Verif.Props.C48_del", "Verif.Props.C48_set", "Verif.Props.C48_tags", "Verif.Props.C48_jump", "Verif.Props.C48_room", "Verif.Props.C48_returns_partial", "Verif.Props.C48_false", "Verif.Props.C48_false_room"], "note": "Proved for every hash function: nothing is lost, doubled or written outside a bucket. Insertion returns without deletions and before the table first grows, or it grows the table. C48_false: after one merge the recursion of an insertion never ends, for concrete prefixes and the checksum of the code. C48_false_room: seventeen prefixes with the same checksum never fit."},
 {"property": "C49", "status": "proved", "theorems": ["Verif.Props.C49_map", "Verif.Props.C49_seek", "Verif.Props.C49_steps", "Verif.Props.C49_same", "Verif.Props.C49_answers", "Verif.Props.C49_false"], "note": "For keys of at most 65535 bytes, as stated. C49_false: beyond that length wh_put may fail, which Diva ignores. The leaf of a key is looked up by its anchor; C50 shows that the index finds it."},
 {"property": "C50", "status": "proved", "theorems": ["Verif.Props.C50_client", "Verif.Props.C50_leaf", "Verif.Props.C50_map", "Verif.Props.C50_tree", "Verif.Props.C50_same", "Verif.Props.C50_answers", "Verif.Props.C50_false"], "note": "Any program over the tree API and any history of the filter, keys of at most 65520 bytes, as stated. C50_false: 33 keys with 65520 bytes in common, put and deleted again, make the index copy an anchor beyond the end of a 64 kB buffer."},
 {"property": "C51", "status": "partial", "theorems": ["Verif.Props.C51_same", "Verif.Props.C51_same_partial", "Verif.Props.C51_restore_partial", "Verif.Props.C51_stream_partial", "Verif.Props.C51_false_keys", "Verif.Props.C51_false_stream"], "note": "Proved without deletions for every load but the streaming loads of C51_false_stream, and with deletions that do not merge leaves as in C45_false. C51_false_stream: the last of 1026 streamed keys is in the tree twice, so Size and Serialize count it twice."},
 {"property": "C52", "status": "partial", "theorems": ["Verif.Props.C52_find", "Verif.Props.C52_nodes", "Verif.Props.C52_split", "Verif.Props.C52_merge", "Verif.Props.C52_client", "Verif.Props.C52_calls", "Verif.Props.C52_same", "Verif.Props.C52_answers", "Verif.Props.C52_returns_partial", "Verif.Props.C52_false_put", "Verif.Props.C52_false", "Verif.Props.C52_crowd", "Verif.Props.C52_false_load"], "note": "Proved for every hash function up to insertions into the table that do not return; these all return if at most eight prefixes share a bucket. C52_false: Diva<false> loaded with two keys never returns from one of 33 inserts of keys with 63 bytes in common. C52_crowd: no history returns in which more than sixteen strings of one hash are each a prefix of more than 32 boundaries. C52_false_load: so the constructor never returns from 33792 given strings of 23 bytes."},
 {"property": "C53", "status": "proved", "theorems": ["Verif.Props.C53_client", "Verif.Props.C53_free", "Verif.Props.C53_held", "Verif.Props.C53_waits", "Verif.Props.C53_tree", "Verif.Props.C53_filter", "Verif.Props.C53_filter_free"], "note": "String tree and Diva<false>, one thread; the integer tree: C54."},
 {"property": "C54", "status": "proved", "theorems": ["Verif.Props.C54_client", "Verif.Props.C54_free", "Verif.Props.C54_held", "Verif.Props.C54_waits", "Verif.Props.C54_filter", "Verif.Props.C54_filter_free"], "note": "Integer tree and Diva<true>, one thread."},
 {"property": "C55", "status": "partial", "theorems": ["Verif.Props.C55_client", "Verif.Props.C55_calls", "Verif.Props.C55_same_partial", "Verif.Props.C55_returns_partial", "Verif.Props.C55_answers_partial", "Verif.Props.C55_false", "Verif.Props.C55_false_load", "Verif.Props.C55_crowd"], "note": "Histories with the deletions missing in C45 and C51 are missing. C55_false: with the hash function of the code, two loaded and 43 inserted integers make an insertion that never returns; seventeen prefixes of the anchors have the same hash. C55_false_load: the same by loading 41984 integers, which involves no random numbers. C55_crowd: as C52_crowd."},
 {"property": "C56", "status": "partial", "theorems": ["Verif.Props.C56_index_split", "Verif.Props.C56_index_merge", "Verif.Props.C56_index_keys", "Verif.Props.C56_index_release", "Verif.Props.C56_index_small", "Verif.Props.C56_index_slab", "Verif.Props.C56_client", "Verif.Props.C56_blocks", "Verif.Props.C56_stay", "Verif.Props.C56_destroy_partial", "Verif.Props.C56_false", "Verif.Props.C56_unref", "Verif.Props.C56_filter", "Verif.Props.C56_filter_destroy_partial"], "note": "Everything but 'none is left': the destructor never calls wh_unref, so the block of wh_ref is left whenever a filter is destroyed (C56_false); with that call nothing would be left (C56_unref). Pairs and leaves for the string tree, index keys for both trees."},
 {"property": "C57", "status": "partial", "theorems": ["Verif.Props.C57_partial", "Verif.Props.C57_var_partial", "Verif.Props.C57_stream_partial", "Verif.Props.C57_count_partial", "Verif.Props.C57_tree_partial", "Verif.Props.C57_delete_partial", "Verif.Props.C57_stream_delete_partial", "Verif.Props.C57_present", "Verif.Props.C57_hang", "Verif.Props.C57_popular", "Verif.Props.C57_twice", "Verif.Props.C57_false"], "note": "Holds exactly if each of the keys at positions 0, 1024, 2048, ... and at the end differs from the next (streaming: also the conditions of C12). C57_hang: otherwise both constructors never return, for example with the keys 7, 7, or with any key that occurs 2048 times. C57_delete_partial, C57_stream_delete_partial: a deletion takes away one copy, except for keys that are boundaries and under the conditions of C15_partial."}
]}
