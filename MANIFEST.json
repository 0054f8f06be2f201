{
 "claims": [
  {
   "property": "C01",
   "status": "proved",
   "theorems": [
    "Verif.Tiny.C01_lawful",
    "Verif.Tiny.C01_tiny_dictionary"
   ],
   "note": ""
  },
  {
   "property": "C02",
   "status": "proved",
   "theorems": [
    "Verif.Tiny.C02_tiny_count"
   ],
   "note": ""
  },
  {
   "property": "C03",
   "status": "proved",
   "theorems": [
    "Verif.Hash.C03_hash_inplace_dictionary",
    "Verif.Hash.C03_open_new"
   ],
   "note": ""
  },
  {
   "property": "C04",
   "status": "proved",
   "theorems": [
    "Verif.Hash.C04_hash_appending_dictionary"
   ],
   "note": ""
  },
  {
   "property": "C05",
   "status": "proved",
   "theorems": [
    "Verif.Hash.C05_record_roundtrip",
    "Verif.Hash.C05_record_size"
   ],
   "note": ""
  },
  {
   "property": "C06",
   "status": "proved",
   "theorems": [
    "Verif.Hash.C06_free_regions"
   ],
   "note": ""
  },
  {
   "property": "C07",
   "status": "proved",
   "theorems": [
    "Verif.Hash.C07_hash_crash_atomic"
   ],
   "note": "HashDBM in both update modes, any processor, crash between any two file writes of one call after any history, zeros behind the file, default restore mode with and without shortcuts. Each write is atomic and writes reach the file in order. Crashes inside Open, Close and Rebuild are not part of the property and not modelled."
  },
  {
   "property": "C08",
   "status": "partial",
   "theorems": [
    "Verif.Hash.C08_copy_readable_partial",
    "Verif.Hash.C08_copy_appending_partial",
    "Verif.Hash.C08_copy_violated"
   ],
   "note": "Copies of an open HashDBM file: the copy can be opened and read with the same contents, and in appending mode it stays a dictionary. C08_copy_violated shows the full claim is false in in-place mode: the copy carries the free block pool saved at the last Synchronize and later updates of the copy can overwrite live records."
  },
  {
   "property": "C09",
   "status": "proved",
   "theorems": [
    "Verif.Hash.C09_hash_rebuild",
    "Verif.Hash.C09_hash_rebuild_concurrent",
    "Verif.Tiny.C09_tiny_rebuild"
   ],
   "note": "TinyDBM and HashDBM (both update modes). For HashDBM also with any calls of Process by other threads while Rebuild runs (C09_hash_rebuild_concurrent): these run one after the other, and the rebuilding thread reads each record at any moment, also between two writes of a call. Rebuild of StdDBM has no effect, that of CacheDBM is C11, that of SkipDBM C18 and C64."
  },
  {
   "property": "C10",
   "status": "proved",
   "theorems": [
    "Verif.Cache.C10_cache_each",
    "Verif.Cache.C10_cache_first",
    "Verif.Cache.C10_cache_iterator",
    "Verif.Cache.C10_cache_jump",
    "Verif.Cache.C10_cache_loop",
    "Verif.Hash.C10_hash_each",
    "Verif.Hash.C10_hash_first",
    "Verif.Hash.C10_hash_iterator",
    "Verif.Hash.C10_hash_iterator_updates",
    "Verif.Hash.C10_hash_jump",
    "Verif.Std.C10_std_each",
    "Verif.Std.C10_std_iterator",
    "Verif.Tiny.C10_tiny_iterator",
    "Verif.Tiny.C10_tiny_jump",
    "Verif.Tiny.C10_tiny_first",
    "Verif.Tiny.C10_tiny_each"
   ],
   "note": "ProcessEach, ProcessFirst and the iterators (loops without updates, traversals with any calls in between, Jump) of TinyDBM, HashDBM, CacheDBM and StdTreeDBM/StdHashDBM. The ordered classes are C13, C15, C17."
  },
  {
   "property": "C11",
   "status": "partial",
   "theorems": [
    "Verif.Cache.C11_capacity_violated",
    "Verif.Cache.C11_rebuild_violated",
    "Verif.Cache.C11_memory_violated",
    "Verif.Cache.C11_get_logged",
    "Verif.Cache.C11_process",
    "Verif.Cache.C11_get",
    "Verif.Cache.C11_count",
    "Verif.Cache.C11_partition",
    "Verif.Cache.C11_total",
    "Verif.Cache.C11_evicts_lru"
   ],
   "note": "Histories of single-record calls (any processor), Clear and Rebuild from an empty database; ProcessMulti, ProcessEach and ProcessFirst are sequences of such calls (C10_cache_each, C10_cache_first). The _violated theorems show what the code does not do: the total capacity is only bounded by capacity+32, Rebuild keeps the oldest records, the memory limit is not checked on updates. Locks are not modelled."
  },
  {
   "property": "C12",
   "status": "partial",
   "theorems": [
    "Verif.Cache.C12_memory_violated",
    "Verif.Cache.C12_stays",
    "Verif.Cache.C12_no_eviction"
   ],
   "note": "C12_stays needs a memory limit large enough for the share of the partition (Enough); C12_memory_violated shows that this is needed."
  },
  {
   "property": "C13",
   "status": "partial",
   "theorems": [
    "Verif.BTree.C13_history",
    "Verif.BTree.C13_scan_ascending",
    "Verif.BTree.C13_scan_descending",
    "Verif.BTree.C13_dictionary",
    "Verif.BTree.C13_previous_violated",
    "Verif.BTree.C13_previous_removed_violated",
    "Verif.BTree.C13_jump_next_violated",
    "Verif.BTree.C13_front_of_empty_violated"
   ],
   "note": "Any comparator that is a strict weak order, any history of database and iterator calls (Process, Append, ProcessMulti, ProcessFirst, ProcessEach, Count, Clear, First, Last, Jump, JumpLower, JumpUpper, Next, Previous, iterator Process), any split and merge. Partial because Previous is not exact when the key the iterator remembers is not there (C13_previous_violated, C13_previous_removed_violated), Next after a Jump to an absent key stays at the record Jump found (C13_jump_next_violated), and emptying a leaf takes the front of an empty vector (C13_front_of_empty_violated). Saving to a file is not modelled."
  },
  {
   "property": "C14",
   "status": "proved",
   "theorems": [
    "Verif.Std.C14_each_iterators",
    "Verif.Std.C14_iter_process",
    "Verif.Std.C14_iterators_valid",
    "Verif.Std.C14_reachable",
    "Verif.Std.C14_others_stay",
    "Verif.Std.C14_first_next",
    "Verif.Std.C14_tree_first",
    "Verif.Std.C14_tree_last",
    "Verif.Std.C14_tree_jump",
    "Verif.Std.C14_hash_jump",
    "Verif.Std.C14_tree_jump_upper",
    "Verif.Std.C14_tree_jump_lower",
    "Verif.Std.C14_tree_next",
    "Verif.Std.C14_tree_previous",
    "Verif.Std.C14_refused",
    "Verif.Std.C14_lawful",
    "Verif.Std.C14_history",
    "Verif.Std.C14_count",
    "Verif.Std.C14_process_removes",
    "Verif.Std.C14_first_removes",
    "Verif.Std.C14_iter_removes",
    "Verif.Std.C14_tree_following"
   ],
   "note": ""
  },
  {
   "property": "C15",
   "status": "partial",
   "theorems": [
    "Verif.BTree.C15_history",
    "Verif.BTree.C15_scan_ascending",
    "Verif.BTree.C15_scan_descending",
    "Verif.BTree.C15_dictionary",
    "Verif.BTree.C15_previous_violated",
    "Verif.BTree.C15_previous_removed_violated",
    "Verif.BTree.C15_jump_next_violated",
    "Verif.BTree.C15_front_of_empty_violated"
   ],
   "note": "As C13, for any page size and number of branches. In this model a node is a cell of memory; the page cache and the pages are in C16 and C63. Violations as in C13."
  },
  {
   "property": "C16",
   "status": "proved",
   "theorems": [
    "Verif.BTree.C16_leaf_page",
    "Verif.BTree.C16_inner_page",
    "Verif.BTree.C16_pages_distinct"
   ],
   "note": "Leaf pages smaller than 2 GiB and ids of six bytes; that every node a TreeDBM ever saves meets these conditions, or the history stops because a number does not fit, is part of the proof of C63."
  },
  {
   "property": "C17",
   "status": "partial",
   "theorems": [
    "Verif.Skip.C17_in_order_pending_violated",
    "Verif.Skip.C17_search_finds_the_stored_key",
    "Verif.Skip.C17_jump_is_lower_bound",
    "Verif.Skip.C17_get_by_index",
    "Verif.Skip.C17_scan_reads_everything"
   ],
   "note": "On a file with the records of any synchronization (Fits: offsets fit in the offset width, records below 2 GiB) search, jump, access by index and scan are exact, with any state of the record cache. Violated while records inserted in order are pending: C17_in_order_pending_violated."
  },
  {
   "property": "C18",
   "status": "partial",
   "theorems": [
    "Verif.Skip.C18_value_equal_to_the_mark_violated",
    "Verif.Skip.C18_in_order_removal_violated",
    "Verif.Skip.C18_history_partial",
    "Verif.Skip.C18_sort_memory_and_cache_change_nothing",
    "Verif.Skip.C18_reduce_to_first",
    "Verif.Skip.C18_reduce_to_last",
    "Verif.Skip.C18_reduce_to_second",
    "Verif.Skip.C18_reduce_concat",
    "Verif.Skip.C18_reduce_concat_with_separator",
    "Verif.Skip.C18_reduce_to_total",
    "Verif.Skip.C18_removed_key_is_absent",
    "Verif.Skip.C18_untouched_key_stays"
   ],
   "note": "Every history of calls of database and iterator is a history of the specification; each reducer is characterised. Missing: values equal to the internal mark of removal and removals in the in-order mode (both violated), files beyond the offset width, several threads."
  },
  {
   "property": "C19",
   "status": "proved",
   "theorems": [
    "Verif.Api.C19_compare_exchange"
   ],
   "note": ""
  },
  {
   "property": "C20",
   "status": "proved",
   "theorems": [
    "Verif.Api.C20_compare_exchange_multi"
   ],
   "note": ""
  },
  {
   "property": "C21",
   "status": "partial",
   "theorems": [
    "Verif.Api.C21_increment_present",
    "Verif.Api.C21_increment_absent",
    "Verif.Api.C21_increment_probe",
    "Verif.Api.C21_increment_overflow_violated",
    "Verif.Api.C21_increment_sum"
   ],
   "note": "Increment on a present record, probe and sums proved; C21_increment_overflow_violated: signed overflow of initial + increment is undefined behaviour."
  },
  {
   "property": "C22",
   "status": "proved",
   "theorems": [
    "Verif.Api.C22_rekey",
    "Verif.Api.C22_rekey_effect"
   ],
   "note": ""
  },
  {
   "property": "C23",
   "status": "partial",
   "theorems": [
    "Verif.Api.C23_push",
    "Verif.Api.C23_fifo_partial",
    "Verif.Api.C23_fifo_violated",
    "Verif.Std.C23_std_first",
    "Verif.Std.C23_std_fifo_partial"
   ],
   "note": "FIFO proved while clock readings increase strictly; C23_fifo_violated gives a history where a repeated clock reading breaks the order."
  },
  {
   "property": "C24",
   "status": "partial",
   "theorems": [
    "Verif.Ulog.C24_roundtrip",
    "Verif.Ulog.C24_truncated",
    "Verif.Ulog.C24_write_partial",
    "Verif.Ulog.C24_buffer_violated",
    "Verif.Ulog.C24_parse_violated"
   ],
   "note": "Round trip, truncation and the writing functions are proved. C24_buffer_violated: records of 256 MiB and more with large ids overflow the logger's buffer by a byte; C24_parse_violated: the parser accepts a negative key size."
  },
  {
   "property": "C25",
   "status": "partial",
   "theorems": [
    "Verif.BTree.C25_baby_log",
    "Verif.BTree.C25_tree_log",
    "Verif.Cache.C25_cache_violated",
    "Verif.Hash.C25_hash_log",
    "Verif.Ulog.C25_files_partial",
    "Verif.Ulog.C25_empty_violated",
    "Verif.Ulog.C25_apply_messages",
    "Verif.Ulog.C25_exclude_zero",
    "Verif.Std.C25_std_log",
    "Verif.Std.C25_std_log_traversal",
    "Verif.Std.C25_std_log_each",
    "Verif.Tiny.C25_tiny_log"
   ],
   "note": "Replaying what was logged gives the same dictionary, for TinyDBM, HashDBM, StdTreeDBM/StdHashDBM, BabyDBM and TreeDBM (lexical comparator), any history. CacheDBM evicts without logging (C25_cache_violated); a log whose key and value are both empty is lost (C25_empty_violated). SkipDBM logs nothing that can be replayed in this sense and is not covered."
  },
  {
   "property": "C26",
   "status": "partial",
   "theorems": [
    "Verif.Mq.C26_files",
    "Verif.Mq.C26_remove_old",
    "Verif.Mq.C26_remove_old_violated",
    "Verif.Mq.C26_torn_header",
    "Verif.Mq.C26_fifo",
    "Verif.Mq.C26_reopen",
    "Verif.Mq.C26_sorted",
    "Verif.Mq.C26_crash_partial",
    "Verif.Mq.C26_violated",
    "Verif.Mq.C26_torn"
   ],
   "note": "Order, files, reopening, removal of old files and death between two calls are proved. C26_violated and C26_remove_old_violated show what fails: see their docstrings. Missing: crashes in the middle of a write except a torn last record (C26_torn, C26_torn_header)."
  },
  {
   "property": "C27",
   "status": "partial",
   "theorems": [
    "Verif.Mq.C27_roundtrip",
    "Verif.Mq.C27_truncated",
    "Verif.Mq.C27_detects_partial",
    "Verif.Mq.C27_violated"
   ],
   "note": "Round trip, truncation and one changed byte outside the size field are proved. C27_violated: changes in the size field or by a multiple of 251 can go unseen."
  },
  {
   "property": "C28",
   "status": "partial",
   "theorems": [
    "Verif.BTree.C28_baby_save_load_partial",
    "Verif.Cache.C28_cache_save_load_partial",
    "Verif.Cache.C28_cache_memory_violated",
    "Verif.Flat.C28_record",
    "Verif.Flat.C28_reader_partial",
    "Verif.Flat.C28_reader_all",
    "Verif.Flat.C28_reader_violated",
    "Verif.Flat.C28_import_partial",
    "Verif.Flat.C28_export_import_partial",
    "Verif.Flat.C28_save_load_partial",
    "Verif.Flat.C28_violated",
    "Verif.Flat.C28_export_keys_partial",
    "Verif.Tiny.C28_tiny_save_load_partial",
    "Verif.Std.C28_std_save_load_partial"
   ],
   "note": "Export and import of any database with the common interface, and the saved files of TinyDBM, BabyDBM, CacheDBM and the Std classes, for every buffer size of the reader, if the value written last is not empty (C28_violated: an empty last value is lost). CacheDBM: if no partition is over its share of the memory, which an update can cause (C28_cache_memory_violated)."
  },
  {
   "property": "C29",
   "status": "proved",
   "theorems": [
    "Verif.Shard.C29_compare_exchange_multi",
    "Verif.Shard.C29_std",
    "Verif.Shard.C29_std_each",
    "Verif.Shard.C29_std_count",
    "Verif.Shard.C29_lawful",
    "Verif.Shard.C29_new",
    "Verif.Shard.C29_routed",
    "Verif.Shard.C29_count",
    "Verif.Shard.C29_clear",
    "Verif.Shard.C29_rebuild",
    "Verif.Shard.C29_each"
   ],
   "note": "For every class of shards that meets the common interface (Lawful), any number of shards; instances for StdTreeDBM and StdHashDBM. Locks are not modelled."
  },
  {
   "property": "C30",
   "status": "partial",
   "theorems": [
    "Verif.ShardIter.C30_call_partial",
    "Verif.ShardIter.C30_history_partial",
    "Verif.ShardIter.C30_make",
    "Verif.ShardIter.C30_first",
    "Verif.ShardIter.C30_last",
    "Verif.ShardIter.C30_jump",
    "Verif.ShardIter.C30_jump_upper",
    "Verif.ShardIter.C30_jump_lower",
    "Verif.ShardIter.C30_get",
    "Verif.ShardIter.C30_next",
    "Verif.ShardIter.C30_previous",
    "Verif.ShardIter.C30_traverse",
    "Verif.ShardIter.C30_traverse_back",
    "Verif.ShardIter.C30_traverse_jump",
    "Verif.ShardIter.C30_remove_partial",
    "Verif.ShardIter.C30_process_remove_partial",
    "Verif.ShardIter.C30_process_noop",
    "Verif.ShardIter.C30_set",
    "Verif.ShardIter.C30_none",
    "Verif.ShardIter.C30_remove_backward_violated",
    "Verif.ShardIter.C30_process_set_violated"
   ],
   "note": "Iteration over any number of shards whose iterators stand where ordered iterators stand; First, Last, Jump*, Next, Previous, Set, Get, Process reading: full. Remove is proved in the ascending direction; C30_remove_backward_violated shows undefined behaviour in the descending one, C30_process_set_violated that Process leaves a stale value in the iterator. Updates from elsewhere between calls of the iterator are not covered."
  },
  {
   "property": "C31",
   "status": "partial",
   "theorems": [
    "Verif.Spin.Plain.C31_spin_mutex",
    "Verif.Spin.Plain.C31_spin_mutex_free",
    "Verif.Spin.Shared.C31_exclusion_partial",
    "Verif.Spin.Shared.C31_free_partial",
    "Verif.Spin.Shared.C31_share_partial",
    "Verif.Spin.Shared.C31_upgrade_partial",
    "Verif.Spin.Shared.C31_downgrade",
    "Verif.Spin.Shared.C31_exclusion_violated",
    "Verif.Spin.Wp.C31_wp_exclusion_partial",
    "Verif.Spin.Wp.C31_wp_free_partial",
    "Verif.Spin.Wp.C31_wp_asking_partial",
    "Verif.Spin.Wp.C31_wp_share_partial",
    "Verif.Spin.Wp.C31_wp_upgrade_partial",
    "Verif.Spin.Wp.C31_wp_upgrade_yields_partial",
    "Verif.Spin.Wp.C31_wp_release"
   ],
   "note": "Proved for every number of threads and every schedule of atomic steps (sequential consistency assumed). For SpinSharedMutex the proofs need that at most 2^31 failed shared attempts fall into one exclusive ownership (Quiet); without it exclusion is refuted by a concrete schedule (C31_exclusion_violated). For SpinWPSharedMutex the bound is on the number of threads."
  },
  {
   "property": "C32",
   "status": "proved",
   "theorems": [
    "Verif.HashMutex.C32_exclusion",
    "Verif.HashMutex.C32_current",
    "Verif.HashMutex.C32_rehash",
    "Verif.HashMutex.C32_no_deadlock",
    "Verif.HashMutex.C32_finishes",
    "Verif.HashMutex.C32_completes",
    "Verif.HashMutex.C32_granted"
   ],
   "note": ""
  },
  {
   "property": "C33",
   "status": "proved",
   "theorems": [
    "Verif.Codec.C33_fixnum_roundtrip",
    "Verif.Codec.C33_bigendian_roundtrip",
    "Verif.Codec.C33_bigendian_order"
   ],
   "note": ""
  },
  {
   "property": "C34",
   "status": "proved",
   "theorems": [
    "Verif.Codec.C34_varnum_roundtrip",
    "Verif.Codec.C34_varnum_size",
    "Verif.Codec.C34_varnum_truncated",
    "Verif.Codec.C34_varnum_local",
    "Verif.Codec.C34_varnum_prefix_free",
    "Verif.Codec.C34_delta_roundtrip",
    "Verif.Codec.C34_delta_short"
   ],
   "note": ""
  },
  {
   "property": "C35",
   "status": "partial",
   "theorems": [
    "Verif.Codec.C35_pair_roundtrip",
    "Verif.Codec.C35_vector_roundtrip_partial",
    "Verif.Codec.C35_vector_violated",
    "Verif.Codec.C35_map_roundtrip_partial",
    "Verif.Codec.C35_map_first_wins",
    "Verif.Codec.C35_basic_vector_roundtrip",
    "Verif.Codec.C35_delta_vector_roundtrip",
    "Verif.Codec.C35_delta_vector_plain",
    "Verif.Codec.C35_delta_vector_defined"
   ],
   "note": "Round trips proved for all inputs below 2 GiB; C35_vector_violated proves that the code fails at 2 GiB and above (32-bit size)."
  },
  {
   "property": "C36",
   "status": "proved",
   "theorems": [
    "Verif.Codec.C36_base64_roundtrip",
    "Verif.Codec.C36_base64_group",
    "Verif.Codec.C36_base64_length",
    "Verif.Codec.C36_base64_ignores_other",
    "Verif.Codec.C36_url_roundtrip",
    "Verif.Codec.C36_url_decode",
    "Verif.Codec.C36_url_safe",
    "Verif.Codec.C36_url_unreserved",
    "Verif.Codec.C36_escape_roundtrip",
    "Verif.Codec.C36_escape_printable"
   ],
   "note": ""
  },
  {
   "property": "C37",
   "status": "proved",
   "theorems": [
    "Verif.Codec.C37_utf8_roundtrip",
    "Verif.Codec.C37_utf8_standard",
    "Verif.Codec.C37_utf8_text"
   ],
   "note": ""
  },
  {
   "property": "C38",
   "status": "partial",
   "theorems": [
    "Verif.Search.C38_whole",
    "Verif.Search.C38_batch",
    "Verif.Search.C38_batch_bm_partial",
    "Verif.Search.C38_batch_rk_partial",
    "Verif.Search.C38_batch_rk_violated",
    "Verif.Search.C38_kmp",
    "Verif.Search.C38_whole_kmp",
    "Verif.Search.C38_double_loop",
    "Verif.Search.C38_memchr",
    "Verif.Search.C38_bm_partial",
    "Verif.Search.C38_whole_bm_partial",
    "Verif.Search.C38_bm_violated",
    "Verif.Search.C38_rk",
    "Verif.Search.C38_whole_rk",
    "Verif.Search.C38_z_exact",
    "Verif.Search.C38_z_partial",
    "Verif.Search.C38_z_violated"
   ],
   "note": "Knuth-Morris-Pratt, Rabin-Karp, memchr and double loop: full. Boyer-Moore without bytes 0xFF and Z without NUL; otherwise C38_bm_violated and C38_z_violated. All occurrences (StrSearchWhole and Batch): KMP and plain full, BM without 0xFF, RK full for one pattern; StrSearchBatchRK ignores the maximum for empty patterns (C38_batch_rk_violated)."
  },
  {
   "property": "C39",
   "status": "partial",
   "theorems": [
    "Verif.Split.C39_split_char",
    "Verif.Split.C39_split_str",
    "Verif.Split.C39_split_empty",
    "Verif.Split.C39_split_any",
    "Verif.Split.C39_split_skip",
    "Verif.Split.C39_split_join_partial",
    "Verif.Split.C39_violated"
   ],
   "note": "StrSplit and its variants: full characterisation. Joining gives the string back unless it begins with the delimiter (C39_violated)."
  },
  {
   "property": "C40",
   "status": "partial",
   "theorems": [
    "Verif.EditDistance.C40_edit_distance",
    "Verif.EditDistance.C40_overflow_violated"
   ],
   "note": "The function equals the recursive edit distance for all inputs whose table size fits in 32 bits; C40_overflow_violated beyond."
  },
  {
   "property": "C41",
   "status": "partial",
   "theorems": [
    "Verif.Cmp.C41_lexical",
    "Verif.Cmp.C41_lexical_case_partial",
    "Verif.Cmp.C41_lexical_case_violated",
    "Verif.Cmp.C41_decimal_partial",
    "Verif.Cmp.C41_decimal_numbers",
    "Verif.Cmp.C41_decimal_overflow_violated",
    "Verif.Cmp.C41_hexadecimal",
    "Verif.Cmp.C41_hexadecimal_numbers_partial",
    "Verif.Cmp.C41_hexadecimal_violated",
    "Verif.Cmp.C41_signed_big_endian",
    "Verif.Cmp.C41_signed_big_endian_numbers",
    "Verif.Cmp.C41_float_big_endian",
    "Verif.Cmp.C41_real_partial",
    "Verif.Cmp.C41_real_violated",
    "Verif.Cmp.C41_pair",
    "Verif.Cmp.C41_pair_serialized",
    "Verif.Cmp.C41_case_equal_partial",
    "Verif.Cmp.C41_hexadecimal_value",
    "Verif.Cmp.C41_pair_violated"
   ],
   "note": "All comparators: order laws and meaning. Violated: keys of 2 GiB for the case comparator, the greatest int64 for the decimal one, 2^63 and more for the hexadecimal one, NaN for the real one, keys that are no pairs for the pair ones."
  },
  {
   "property": "C42",
   "status": "partial",
   "theorems": [
    "Verif.Linked.C42_linked_hash_map",
    "Verif.Linked.C42_unique_keys",
    "Verif.Linked.C42_subscript_violated",
    "Verif.Linked.C42_lru_cache",
    "Verif.Linked.C42_double_lru_cache_partial",
    "Verif.Linked.C42_double_lru_no_hot_violated",
    "Verif.Linked.C42_double_lru_give_back_violated"
   ],
   "note": "LinkedHashMap and LRUCache: full. DoubleLRUCache with a hot capacity and no giving back to the hot part; the rest is violated, as is operator[] of LinkedHashMap on a present key."
  },
  {
   "property": "C43",
   "status": "partial",
   "theorems": [
    "Verif.Heap.C43_heap_by_cost",
    "Verif.Heap.C43_order_independent",
    "Verif.Heap.C43_zero_violated"
   ],
   "note": "Every capacity but 0 (C43_zero_violated) and every order of the costs."
  },
  {
   "property": "C44",
   "status": "proved",
   "theorems": [
    "Verif.PageCache.C44_transparent",
    "Verif.PageCache.C44_succeeds",
    "Verif.PageCache.C44_flush",
    "Verif.PageCache.C44_flush_all",
    "Verif.PageCache.C44_region",
    "Verif.PageCache.C44_destroy",
    "Verif.PageCache.C44_capacity"
   ],
   "note": ""
  },
  {
   "property": "C45",
   "status": "proved",
   "theorems": [
    "Verif.Path.C45_same_place",
    "Verif.Path.C45_normal_form",
    "Verif.Path.C45_idempotent",
    "Verif.Path.C45_canonical",
    "Verif.Path.C45_empty",
    "Verif.Path.C45_join",
    "Verif.Path.C45_join_empty_base",
    "Verif.Path.C45_dir_base",
    "Verif.Path.C45_extension"
   ],
   "note": ""
  },
  {
   "property": "C46",
   "status": "partial",
   "theorems": [
    "Verif.AtomicFile.C46_atomic",
    "Verif.AtomicFile.C46_atomic_default",
    "Verif.AtomicFile.C46_status",
    "Verif.AtomicFile.C46_succeeds",
    "Verif.AtomicFile.C46_read_back",
    "Verif.AtomicFile.C46_same_path_violated",
    "Verif.AtomicFile.C46_power_loss_violated"
   ],
   "note": "Proved for every crash between system calls and every failing system call; violated when the temporary path given is the target itself, and for power loss (no fsync before rename)."
  },
  {
   "property": "C47",
   "status": "partial",
   "theorems": [
    "Verif.Checksum.C47_checksum",
    "Verif.Checksum.C47_checksum_continuous",
    "Verif.Checksum.C47_adler",
    "Verif.Checksum.C47_adler_continuous",
    "Verif.Checksum.C47_adler32_detects",
    "Verif.Checksum.C47_checksum_detects_partial",
    "Verif.Checksum.C47_checksum_violated",
    "Verif.Crc.C47_crc32",
    "Verif.Crc.C47_crc16",
    "Verif.Crc.C47_crc8",
    "Verif.Crc.C47_crc4",
    "Verif.Crc.C47_crc_continuous",
    "Verif.Crc.C47_crc_detects",
    "Verif.Crc.C47_crc4_violated",
    "Verif.Hashing.C47_record_crc_detects",
    "Verif.Hashing.C47_record_checksum_partial",
    "Verif.Hashing.C47_record_checksum_violated"
   ],
   "note": "CRC-4/8/16/32 equal polynomial division for all data, seeds and alignments; continuous forms compose; CRC-8/16/32 and Adler-32 detect any single changed byte. The mod-61 record checksum and mod-251 checksum and CRC-4 do not detect every byte change (shown by _violated theorems). The zlib and big-endian variants are not modelled."
  },
  {
   "property": "C48",
   "status": "proved",
   "theorems": [
    "Verif.Compress.C48_dummy_round_trip",
    "Verif.Compress.C48_dummy_detects",
    "Verif.Compress.C48_dummy_short",
    "Verif.Compress.C48_rc4_round_trip",
    "Verif.Compress.C48_rc4_short",
    "Verif.Compress.C48_aes_round_trip",
    "Verif.Compress.C48_aes_refuses"
   ],
   "note": ""
  },
  {
   "property": "C49",
   "status": "partial",
   "theorems": [
    "Verif.Calendar.C49_day_of_week",
    "Verif.Calendar.C49_year_zero_violated"
   ],
   "note": "All dates from the year 1 on; C49_year_zero_violated before."
  },
  {
   "property": "C50",
   "status": "proved",
   "theorems": [
    "Verif.Common.C50_is_prime",
    "Verif.Common.C50_bucket_size",
    "Verif.Common.C50_bucket_size_pos"
   ],
   "note": ""
  },
  {
   "property": "C51",
   "status": "partial",
   "theorems": [
    "Verif.TaskQueue.C51_once",
    "Verif.TaskQueue.C51_in_order",
    "Verif.TaskQueue.C51_stop",
    "Verif.TaskQueue.C51_stop_timeout",
    "Verif.TaskQueue.C51_stop_returns_violated",
    "Verif.TaskQueue.C51_progress",
    "Verif.TaskQueue.C51_size"
   ],
   "note": "Exactly-once execution, order with one worker, no forgotten task, and Stop-waits-for-all are proved for every schedule. That Stop returns is refuted: it clears the running flag and notifies without the mutex, so a worker may miss the notification (C51_stop_returns_violated). Tasks left when the time is up stay undone (C51_stop_timeout). AsyncDBM's task classes are not modelled one by one."
  },
  {
   "property": "C52",
   "status": "partial",
   "theorems": [
    "Verif.Index.C52_mem_history",
    "Verif.Index.C52_file_history",
    "Verif.Index.C52_mem_set",
    "Verif.Index.C52_file_set",
    "Verif.Index.C52_std_history_partial",
    "Verif.Index.C52_str_history",
    "Verif.Index.C52_std_set_partial",
    "Verif.Index.C52_str_set",
    "Verif.Index.C52_std_default_value_violated",
    "Verif.Index.C52_case_violated"
   ],
   "note": "FileIndex, PolyIndex, MemIndex and StdIndexStr with the default comparator: full histories with iterators, and Check/GetValues/Count as a set. StdIndex: for orders in which no value is before the default one (otherwise C52_std_default_value_violated). Comparators that identify different keys: C52_case_violated. FileIndex over an open TreeDBM; one thread."
  },
  {
   "property": "C53",
   "status": "proved",
   "theorems": [
    "Verif.Lines.C53_tsv_import",
    "Verif.Lines.C53_tsv_roundtrip",
    "Verif.Lines.C53_tsv_plain",
    "Verif.Lines.C53_tsv_plain_line",
    "Verif.Lines.C53_key_lines",
    "Verif.Lines.C53_import_text"
   ],
   "note": ""
  },
  {
   "property": "C54",
   "status": "partial",
   "theorems": [
    "Verif.BTree.C54_tree_read_only",
    "Verif.BTree.C54_baby_read_only_partial",
    "Verif.BTree.C54_baby_first_violated",
    "Verif.Hash.C54_hash_each_read_only",
    "Verif.Hash.C54_hash_read_only",
    "Verif.Tiny.C54_tiny_calls_read_only",
    "Verif.Cache.C54_cache_read_only",
    "Verif.Std.C54_std_read_only",
    "Verif.Skip.C54_skip_read_only",
    "Verif.Tiny.C54_tiny_read_only"
   ],
   "note": "Proved for TinyDBM, CacheDBM, the Std classes, HashDBM, SkipDBM, TreeDBM and, except ProcessFirst, BabyDBM, whose ProcessFirst writes (C54_baby_first_violated). The property as stated is false of BabyDBM, so it stays partial."
  },
  {
   "property": "C55",
   "status": "proved",
   "theorems": [
    "Verif.Api.C55_or_first_failure",
    "Verif.Api.C55_or_success_iff"
   ],
   "note": ""
  },
  {
   "property": "C56",
   "status": "partial",
   "theorems": [
    "Verif.Dbm.Search.C56_modes",
    "Verif.Dbm.Search.C56_edit_modes",
    "Verif.Dbm.Search.C56_order_modes_partial",
    "Verif.Dbm.Search.C56_begin_violated",
    "Verif.Dbm.Search.C56_order_violated",
    "Verif.Dbm.Search.C56_tiny_reads",
    "Verif.Dbm.Search.C56_std_reads",
    "Verif.Dbm.Search.C56_cache_reads",
    "Verif.Dbm.Search.C56_std_cursor",
    "Verif.Dbm.Search.C56_search",
    "Verif.Dbm.Search.C56_begin_ordered",
    "Verif.Dbm.Search.C56_upper_partial",
    "Verif.Dbm.Search.C56_lower_partial",
    "Verif.Dbm.Search.C56_edit",
    "Verif.Text.C56_contains",
    "Verif.Text.C56_begins_with",
    "Verif.Text.C56_ends_with",
    "Verif.Text.C56_case_search",
    "Verif.Text.C56_word_search",
    "Verif.Text.C56_case_word_search",
    "Verif.Text.C56_empty_pattern",
    "Verif.Text.C56_batch",
    "Verif.Text.C56_batch_lower"
   ],
   "note": "All modes of SearchDBMModal but regex are modelled over any database whose traversal presents its records (shown of TinyDBM, StdHashDBM, StdTreeDBM, CacheDBM) and any ordered iterator (shown of StdTreeDBM). Ordered begin needs the lexical comparator (C56_begin_violated), upper and lower ignore the rule that capacity 0 means no limit (C56_order_violated). Regular expressions are not modelled."
  },
  {
   "property": "C57",
   "status": "partial",
   "theorems": [
    "Verif.BTree.C57_leaf_page_violated",
    "Verif.BTree.C57_inner_page_violated",
    "Verif.BTree.C57_leaf_page_partial",
    "Verif.BTree.C57_inner_page_partial",
    "Verif.Codec.C57_malformed_violated",
    "Verif.Codec.C57_huge_size_violated",
    "Verif.Codec.C57_pair_malformed",
    "Verif.Codec.C57_vector_inside_partial",
    "Verif.Skip.C57_skip_negative_size_violated",
    "Verif.Skip.C57_skip_backward_link_violated"
   ],
   "note": "Violated in the code: C57_malformed_violated gives inputs that hang or read outside; C57_leaf_page_violated and C57_inner_page_violated do so for pages of a TreeDBM. What does hold is C57_vector_inside_partial, C57_leaf_page_partial and C57_inner_page_partial."
  },
  {
   "property": "C58",
   "status": "partial",
   "theorems": [
    "Verif.Api.C58_get",
    "Verif.Api.C58_get_simple",
    "Verif.Api.C58_set",
    "Verif.Api.C58_remove",
    "Verif.Api.C58_append",
    "Verif.Api.C58_get_multi",
    "Verif.Api.C58_set_multi",
    "Verif.Api.C58_remove_multi",
    "Verif.Api.C58_append_multi",
    "Verif.Skip.C58_skip_set_with_old_value_violated",
    "Verif.Skip.C58_skip_set_keeps_both_values_violated"
   ],
   "note": "Proved for the default methods on every lawful class. SkipDBM replaces Set and Remove by its own; C58_skip_set_with_old_value_violated and C58_skip_set_keeps_both_values_violated show that its Set does not behave as on a dictionary."
  },
  {
   "property": "C59",
   "status": "proved",
   "theorems": [
    "Verif.Lines.C59_read_lines"
   ],
   "note": ""
  },
  {
   "property": "C60",
   "status": "partial",
   "theorems": [
    "Verif.Positional.C60_history",
    "Verif.Positional.C60_close",
    "Verif.Positional.C60_readonly_partial",
    "Verif.Positional.C60_readonly_violated"
   ],
   "note": "All histories of reads, writes, appends and truncations of the writable file; read-only with the page cache fails for unaligned ends (C60_readonly_violated)."
  },
  {
   "property": "C61",
   "status": "partial",
   "theorems": [
    "Verif.Aes.C61_standard",
    "Verif.Aes.C61_decrypt",
    "Verif.Compress.C61_rc4",
    "Verif.Compress.C61_aes_key_partial",
    "Verif.Compress.C61_aes_key32",
    "Verif.Compress.C61_aes_format",
    "Verif.Compress.C61_aes_key_violated"
   ],
   "note": "AES tables, key schedules, rounds and both directions proved equal to / inverse of the standard for 128- and 256-bit keys; a key of exactly 32 bytes is used as its first 16 bytes (C61_aes_key_violated). 192-bit keys are never used by the compressor."
  },
  {
   "property": "C62",
   "status": "proved",
   "theorems": [
    "Verif.BTree.C62_sizes"
   ],
   "note": "Histories that do not use Last or JumpLower after an Open (see C63) and in which no number overflows."
  },
  {
   "property": "C63",
   "status": "partial",
   "theorems": [
    "Verif.BTree.C63_metadata_partial",
    "Verif.BTree.C63_metadata_violated",
    "Verif.BTree.C63_history_partial",
    "Verif.BTree.C63_cache",
    "Verif.BTree.C63_synchronized_partial",
    "Verif.BTree.C63_last_violated",
    "Verif.BTree.C63_jump_lower_violated",
    "Verif.BTree.C63_max_page_size_violated",
    "Verif.BTree.C63_max_page_size_changed_violated"
   ],
   "note": "Violated in the code: ParseMetadata reads last_id from the field of first_id, so after Open with more than one leaf Last and JumpLower start in the first leaf (C63_last_violated, C63_jump_lower_violated); a max_page_size of 2^24 or more is not refused but stored in three bytes (C63_max_page_size_violated). All other calls are covered in any interleaving with evictions, saves, Synchronize and Close with Open (C63_history_partial), all calls while the database stays open (C63_cache), and opening what Synchronize wrote (C63_synchronized_partial). The underlying HashDBM is a dictionary here (C03, C04)."
  },
  {
   "property": "C64",
   "status": "partial",
   "theorems": [
    "Verif.Skip.C64_history_with_deaths_partial",
    "Verif.Skip.C64_moments_from_before_to_after",
    "Verif.Skip.C64_clear_torn_metadata_violated",
    "Verif.Skip.C64_cleared_and_closed_reported_as_restored_violated",
    "Verif.Skip.C64_clear_undone_violated",
    "Verif.Skip.C64_clear_partial_records_violated"
   ],
   "note": "Every history of calls and deaths (with deaths in Open as well). Missing: a torn header in Clear and what a memory-mapped file keeps after Clear, both violated in the code; a crash of the system, which may lose completed writes; records must fit in the default offset width since restoration uses it."
  },
  {
   "property": "C65",
   "status": "partial",
   "theorems": [
    "Verif.Hash.C65_hash_restored_violated",
    "Verif.Hash.C65_hash_count_violated",
    "Verif.Hash.C65_hash_restored_partial",
    "Verif.Hash.C65_hash_set_mode_violated",
    "Verif.Hash.C65_hash_sync_crash_violated"
   ],
   "note": "Proved in the in-place mode and without the shortcuts, for crashes in calls on records. Refuted: the effective data size and (after a removal of a removed key by a processor) the count in the appending mode with shortcuts; after SetUpdateModeAppending; for a crash inside Synchronize."
  },
  {
   "property": "C66",
   "status": "partial",
   "theorems": [
    "Verif.Hash.C66_hash_restore_sync_violated",
    "Verif.Hash.C66_hash_restore_sync_partial"
   ],
   "note": "Proved in the appending mode. Refuted in the in-place mode."
  },
  {
   "property": "C67",
   "status": "partial",
   "theorems": [
    "Verif.Hash.C67_hash_each_rebuild_partial",
    "Verif.Hash.Examples.C67_hash_each_race_violated"
   ],
   "note": "Proved when ProcessEach reads the update mode after the switch by Rebuild, or when no update comes between the switch and its lock of the records. Refuted otherwise: the mode is read before the records are locked."
  },
  {
   "property": "C68",
   "status": "proved",
   "theorems": [
    "Verif.Edit.C68_replace",
    "Verif.Edit.C68_replace_same",
    "Verif.Edit.C68_replace_characters",
    "Verif.Edit.C68_strip_space",
    "Verif.Edit.C68_strip_line",
    "Verif.Edit.C68_squeeze",
    "Verif.Edit.C68_trim"
   ],
   "note": "All byte strings; each result is characterised uniquely."
  },
  {
   "property": "C69",
   "status": "proved",
   "theorems": [
    "Verif.Async.C69_serial",
    "Verif.Async.C69_real_time",
    "Verif.Async.C69_one_worker",
    "Verif.Async.C69_destroy",
    "Verif.Async.C69_tiny_dictionary"
   ],
   "note": "A call of the database below is one atomic step (thread safety of the classes is assumed). That the destructor may hang is C51_stop_returns_violated."
  },
  {
   "property": "C70",
   "status": "partial",
   "theorems": [
    "Verif.WaitCounter.C70_result",
    "Verif.WaitCounter.C70_wakes_partial",
    "Verif.WaitCounter.C70_wakes_violated",
    "Verif.WaitCounter.C70_add_violated",
    "Verif.WaitCounter.C70_time_limit",
    "Verif.WaitCounter.C70_no_limit"
   ],
   "note": "Results and time limits proved. Waking proved when no Done notifies between the look of a waiting thread at the counter and its sleep and Add is not negative; refuted otherwise (lost wakeup)."
  },
  {
   "property": "C71",
   "status": "partial",
   "theorems": [
    "Verif.Broker.C71_true_partial",
    "Verif.Broker.C71_true_violated",
    "Verif.Broker.C71_send_partial",
    "Verif.Broker.C71_send_violated",
    "Verif.Broker.C71_send_one_violated",
    "Verif.Broker.C71_send_key_violated",
    "Verif.Broker.C71_before_violated",
    "Verif.Broker.C71_no_deadlock"
   ],
   "note": "Proved without deadlines (meaning of true), for Send to all when no thread begins to wait before its notification, and freedom from deadlock. Refuted: deadlines, threads that begin to wait during a Send, Send to one, other keys, and the documented use of Waiter."
  },
  {
   "property": "C72",
   "status": "partial",
   "theorems": [
    "Verif.TwoPhase.C72_tiny_no_deadlock",
    "Verif.Tiny.Conc.C72_tiny_linearizable",
    "Verif.Tiny.Conc.C72_tiny_no_leak",
    "Verif.Tiny.Conc.C72_each_alone",
    "Verif.Tiny.Conc.C72_each_violated"
   ],
   "note": "Proved for Process and ProcessMulti, with the record locks as reader/writer locks (C31, C32 are about the locks) and memory accesses in one order. The number of buckets is fixed: Rebuild, Clear and the writable traversals hold the lock of the whole database. Refuted for read-only ProcessEach, which takes no record lock (C72_each_violated); C72_each_alone says what holds when nothing disturbs it."
  },
  {
   "property": "C73",
   "status": "proved",
   "theorems": [
    "Verif.TwoPhase.C73_hash_no_deadlock",
    "Verif.Hash.Conc.C73_hash_linearizable"
   ],
   "note": "Process and ProcessMulti, both update modes, with the record locks as reader/writer locks of slots (C31, C32 are about the locks) and accesses in one order. One write of the file, one access of the pool, of a counter or of the log is a step; an append (reserving the region and writing it) is one step. The number of buckets is fixed: Rebuild, Clear and writable traversals hold other locks (C09, C67)."
  },
  {
   "property": "C74",
   "status": "partial",
   "theorems": [
    "Verif.Mmap.C74_mmap_no_deadlock",
    "Verif.Mmap.C74_mmap_synchronize_needs_quiet",
    "Verif.Mmap.C74_mmap_truncate_violated",
    "Verif.Mmap.C74_mmap_is_a_file",
    "Verif.Mmap.C74_mmap_memory_safe",
    "Verif.Mmap.C74_mmap_appends_disjoint",
    "Verif.Mmap.C74_mmap_death",
    "Verif.Mmap.C74_mmap_truncate_zero_partial"
   ],
   "note": "Proved for every schedule of Read, Write, Append and Expand and for the other operations between them; memory is sequentially consistent, bytes are copied one by one, mutex_ is a reader/writer lock (C31), system calls succeed. Refuted for the null codes of Truncate (C74_mmap_truncate_violated): bytes beyond the new end come back; C74_mmap_truncate_zero_partial says when they do not. C74_mmap_synchronize_needs_quiet shows why Synchronize must not run beside calls, as documented."
  },
  {
   "property": "C75",
   "status": "partial",
   "theorems": [
    "Verif.Hash.C75_hash_damage_partial",
    "Verif.Hash.C75_hash_damage_body",
    "Verif.Hash.C75_hash_damage_few_behind",
    "Verif.Hash.C75_hash_damage_large",
    "Verif.Hash.C75_hash_damage_violated"
   ],
   "note": "Proved for one damaged record which is followed by nothing, by four records, or by two records and then no zeros, and which is smaller than the reach of the search (8008 bytes by default); also when only the body is broken in the appending mode. Refuted otherwise: C75_hash_damage_few_behind, C75_hash_damage_large say for all histories what is lost, C75_hash_damage_violated is a witness. Several damaged records and damaged buckets or headers are missing."
  },
  {
   "property": "C76",
   "status": "partial",
   "theorems": [
    "Verif.BTree.Conc.Examples.C76_tree_lost_update_violated",
    "Verif.BTree.Conc.C76_baby_no_deadlock",
    "Verif.BTree.Conc.C76_tree_no_deadlock_partial",
    "Verif.BTree.Conc.C76_baby_linearizable",
    "Verif.BTree.Conc.C76_tree_linearizable_partial"
   ],
   "note": "Proved for BabyDBM, and for TreeDBM when no thread drops a leaf from the cache while another has read its page and not yet put it there. Refuted for TreeDBM otherwise: C76_tree_lost_update_violated is a schedule in which the update of a call that returned is lost. Leaf locks are reader/writer locks. The cache of inner nodes and BabyDBM::Append are not among the steps; the comparator tells all keys apart."
  },
  {
   "property": "C77",
   "status": "partial",
   "theorems": [
    "Verif.Hash.C77_hash_rebuild_crash_partial",
    "Verif.Hash.C77_hash_rebuild_crash_violated"
   ],
   "note": "Proved for the appending mode (counts and later calls: without the shortcuts of the restoration), and in the in-place mode for the new file and before the first call. Refuted in the in-place mode, the default: C77_hash_rebuild_crash_violated. One call of another thread is under way at a time; the renaming is taken to be atomic and each write to be whole."
  },
  {
   "property": "C78",
   "status": "proved",
   "theorems": [
    "Verif.Cache.C78_cache_linearizable",
    "Verif.Cache.C78_cache_rule",
    "Verif.Cache.C78_cache_no_deadlock"
   ],
   "note": "Process and ProcessMulti on a database after any history. The slot locks are ideal exclusive locks (C31 is about the locks); one processor call is one step, since a slot is only touched under its lock. Clear and Rebuild take the lock of the whole database; Count, GetEffectiveDataSize, ProcessEach, ProcessFirst and iterators during other calls are not part of it. Lines of the update log for different keys may be interleaved in another way than the calls."
  },
  {
   "property": "C79",
   "status": "partial",
   "theorems": [
    "Verif.Shard.Conc.C79_multi_linearizable_partial",
    "Verif.Shard.Conc.C79_multi_no_deadlock",
    "Verif.Shard.ConcExamples.C79_rekey_violated",
    "Verif.Shard.ConcExamples.C79_compare_exchange_violated",
    "Verif.Shard.Nested.C79_compare_exchange_linearizable",
    "Verif.Shard.Nested.C79_compare_exchange_completes"
   ],
   "note": "Proved for every schedule of ProcessMulti calls (and Process for keys of the first shard) over shards that are any lawful database, and for every schedule of CompareExchangeMulti calls on any shards beside Process calls for any keys, with record locks as HashDBM and TinyDBM have them; both kinds never wait in a circle and can all be completed. Refuted with witnesses: Rekey is not isolated from Get for keys of another shard (C79_rekey_violated), and CompareExchangeMulti is not isolated from ProcessMulti (C79_compare_exchange_violated). The update logs of the shards are left out."
  },
  {
   "property": "C80",
   "status": "proved",
   "theorems": [
    "Verif.MmapAtomic.C80_atomic_linearizable",
    "Verif.MmapAtomic.C80_atomic_memory_safe",
    "Verif.MmapAtomic.C80_atomic_death",
    "Verif.MmapAtomic.C80_atomic_completes",
    "Verif.MmapAtomic.C80_mapping_moves"
   ],
   "note": "For every schedule of calls on a writable file. mutex_ is a reader/writer lock (C31), memory is sequentially consistent, bytes are copied one by one, system calls succeed. Path operations, Open beside other calls and read-only files are not modelled."
  },
  {
   "property": "C81",
   "status": "partial",
   "theorems": [
    "Verif.StdFile.C81_std_file_partial",
    "Verif.StdFile.C81_rename_refused_loses_file",
    "Verif.StdFile.C81_rename_violated",
    "Verif.StdFile.C81_expand_violated",
    "Verif.StdFile.C81_truncate_violated"
   ],
   "note": "Proved for every sequence of calls without a refused Rename and without Expand by nothing; zeros in gaps need that TruncateFakely is not used. Refuted with witnesses: a refused Rename puts the object on the file at the new path (C81_rename_violated), Expand(0) does not tell the old size (C81_expand_violated), Truncate after TruncateFakely brings old bytes back (C81_truncate_violated). Streams and system calls other than rename succeed."
  },
  {
   "property": "C82",
   "status": "partial",
   "theorems": [
    "Verif.Poly.C82_open_partial",
    "Verif.Poly.C82_open_one",
    "Verif.Poly.C82_open_twice",
    "Verif.Poly.C82_close_partial",
    "Verif.Poly.C82_open_close",
    "Verif.Poly.C82_comparator_violated",
    "Verif.Poly.C82_unknown_comparator_violated",
    "Verif.Poly.C82_default_file_violated",
    "Verif.Poly.C82_ulog_violated",
    "Verif.Poly.C82_process_multi_violated"
   ],
   "note": "Success, and what is opened, are characterised for all paths and parameters, except for comparators that do not exist (TreeDBM) or that ignore case under their long names. Refuted with witnesses: the documented LexicalCaseKeyComparator is silently ignored by TreeDBM and refused by BabyDBM (C82_comparator_violated), TreeDBM takes any comparator name (C82_unknown_comparator_violated), the default file is MemoryMapParallelFile (C82_default_file_violated), an unsupported ulog_ parameter is refused after the database was opened and spoils the next Close (C82_ulog_violated), ProcessMulti without a database is undefined (C82_process_multi_violated). The meaning of the other values of parameters is not modelled."
  },
  {
   "property": "C83",
   "status": "partial",
   "theorems": [
    "Verif.Poly.C83_modes",
    "Verif.Poly.C83_sync_partial",
    "Verif.Poly.C83_sync_no_merge",
    "Verif.Poly.C83_sync_refused_violated",
    "Verif.Poly.C83_reducer_violated",
    "Verif.Poly.C83_rebuild_partial",
    "Verif.Poly.C83_rebuild_violated",
    "Verif.Poly.C83_refused_partial",
    "Verif.Poly.C83_restore",
    "Verif.Poly.C83_file_partial",
    "Verif.Poly.C83_file_class_violated",
    "Verif.Poly.C83_tree_modes",
    "Verif.Poly.C83_skip_modes"
   ],
   "note": "Modes, access options, merging, reducers, rebuilding, restoring and opening are characterised for all parameters, but for the cases that are refuted with witnesses: a call of SynchronizeAdvanced that is refused because of its reducer or another parameter has already merged the databases (C83_sync_refused_violated), the short name Remove is refused unless in lower case (C83_reducer_violated), BabyDBM and StdHashDBM refuse in RebuildAdvanced what they take in OpenAdvanced (C83_rebuild_violated), PolyFile dereferences a null pointer for every class of files that does not exist (C83_file_class_violated). Unknown modes are silently the default mode (C83_modes). Numbers and booleans among the parameters are left to functions."
  },
  {
   "property": "C84",
   "status": "partial",
   "theorems": [
    "Verif.PosAtomic.C84_linearizable_partial",
    "Verif.PosAtomic.C84_room_partial",
    "Verif.PosAtomic.C84_death_partial",
    "Verif.PosAtomic.C84_allocation",
    "Verif.PosAtomic.C84_completes_partial",
    "Verif.PosAtomic.C84_fit_violated",
    "Verif.PosAtomic.C84_truncate_violated"
   ],
   "note": "Proved for the default access strategy (blocks of one byte, no cache of pages, no direct access), no head buffer, and all calls if the factor of the allocation is positive; if it is zero, for all calls but Expand and Write of no bytes. With the factor zero, which the documentation advises to fit the file to its data, it is false for Expand: Read of bytes that Expand has added fails (C84_fit_violated). C84_allocation covers both. Bytes cut off by Truncate come back when the file is made longer (C84_truncate_violated)."
  }
 ]
}