{
 "claims": [
  {
   "property": "C01",
   "status": "proved",
   "theorems": [
    "Radix.C01_tree_is_map"
   ],
   "note": ""
  },
  {
   "property": "C02",
   "status": "proved",
   "theorems": [
    "Radix.C02_insert"
   ],
   "note": ""
  },
  {
   "property": "C03",
   "status": "proved",
   "theorems": [
    "Radix.C03_remove"
   ],
   "note": ""
  },
  {
   "property": "C04",
   "status": "proved",
   "theorems": [
    "Radix.C04_contains_key"
   ],
   "note": ""
  },
  {
   "property": "C05",
   "status": "proved",
   "theorems": [
    "Radix.C05_iter"
   ],
   "note": ""
  },
  {
   "property": "C06",
   "status": "proved",
   "theorems": [
    "Radix.C06_values"
   ],
   "note": ""
  },
  {
   "property": "C07",
   "status": "proved",
   "theorems": [
    "Radix.C07_from_iter"
   ],
   "note": ""
  },
  {
   "property": "C08",
   "status": "partial",
   "theorems": [
    "Radix.C08_has_prefix_partial",
    "Radix.C08_has_prefix_exact",
    "Radix.C08_has_prefix_complete",
    "Radix.C08_has_prefix_false",
    "Radix.C08_has_prefix_false_degenerate"
   ],
   "note": "Proved for proper trees with an entry; exact characterization for all proper trees; the full claim is false on the empty tree with the empty prefix and on degenerate filter_prefix results (witnesses proved)."
  },
  {
   "property": "C09",
   "status": "partial",
   "theorems": [
    "Radix.C09_scan_prefix_partial",
    "Radix.C09_scan_prefix_values",
    "Radix.C09_scan_prefix_keys",
    "Radix.C09_scan_prefix_false"
   ],
   "note": "Proved when the prefix is empty or ends inside an edge; values always right; keys otherwise have an end piece of the prefix duplicated (bug, proved exactly)."
  },
  {
   "property": "C10",
   "status": "proved",
   "theorems": [
    "Radix.C10_filter_prefix"
   ],
   "note": ""
  },
  {
   "property": "C11",
   "status": "proved",
   "theorems": [
    "Radix.C11_remove_prefix"
   ],
   "note": ""
  },
  {
   "property": "C12",
   "status": "proved",
   "theorems": [
    "Radix.C12_outer_combine"
   ],
   "note": ""
  },
  {
   "property": "C13",
   "status": "proved",
   "theorems": [
    "Radix.C13_inner_combine"
   ],
   "note": ""
  },
  {
   "property": "C14",
   "status": "proved",
   "theorems": [
    "Radix.C14_left_combine"
   ],
   "note": ""
  },
  {
   "property": "C15",
   "status": "proved",
   "theorems": [
    "Radix.C15_outer_combine_with"
   ],
   "note": ""
  },
  {
   "property": "C16",
   "status": "proved",
   "theorems": [
    "Radix.C16_inner_combine_with"
   ],
   "note": ""
  },
  {
   "property": "C17",
   "status": "proved",
   "theorems": [
    "Radix.C17_left_combine_with"
   ],
   "note": ""
  },
  {
   "property": "C18",
   "status": "proved",
   "theorems": [
    "Radix.C18_inner_combine_pred"
   ],
   "note": ""
  },
  {
   "property": "C19",
   "status": "partial",
   "theorems": [
    "Radix.C19_left_combine_pred_partial",
    "Radix.C19_sub_map_partial",
    "Radix.C19_left_combine_pred_false"
   ],
   "note": "Proved for left trees not made by filter_prefix(\"\", s) on a tree without entries; false otherwise (witness)."
  },
  {
   "property": "C20",
   "status": "partial",
   "theorems": [
    "Radix.C20_retain_prefix_with_partial",
    "Radix.C20_retain_prefix_with_sound",
    "Radix.C20_retain_prefix_with_exact",
    "Radix.C20_exact_agrees",
    "Radix.C20_retain_prefix_with_false"
   ],
   "note": "The full claim is false (witness: bug). Proved for all f: exactly what is kept (C20_retain_prefix_with_exact): a selected key counts only if the keys of the target part at every rejected key on the way to it. When no selected key extends a rejected one, this is the claim."
  },
  {
   "property": "C21",
   "status": "proved",
   "theorems": [
    "Radix.C21_remove_prefix_with"
   ],
   "note": ""
  },
  {
   "property": "C22",
   "status": "partial",
   "theorems": [
    "Radix.C22_first_last_partial",
    "Radix.C22_first_last_false"
   ],
   "note": "Proved for trees not made by a degenerate filter_prefix call; false otherwise (witness)."
  },
  {
   "property": "C23",
   "status": "proved",
   "theorems": [
    "Radix.C23_group_by"
   ],
   "note": ""
  },
  {
   "property": "C24",
   "status": "partial",
   "theorems": [
    "Radix.C24_eq_partial",
    "Radix.C24_eq_sound",
    "Radix.C24_eq_false_in_place",
    "Radix.C24_eq_false_empty_value"
   ],
   "note": "== is not content equality in either direction (witnesses); proved for results of copying operations without empty values; soundness without empty values for all trees."
  },
  {
   "property": "C25",
   "status": "partial",
   "theorems": [
    "Radix.C25_is_empty_is_leaf_partial",
    "Radix.C25_is_leaf_false",
    "Radix.C25_is_empty_false"
   ],
   "note": "is_empty proved for proper trees; is_leaf implies at most one entry; converse false after in-place changes (witness)."
  },
  {
   "property": "C26",
   "status": "partial",
   "theorems": [
    "Radix.C26_compact_shape_partial",
    "Radix.C26_order",
    "Radix.C26_compact_shape_false"
   ],
   "note": "Proved for proper trees; order part for all reachable trees; false for degenerate filter_prefix results (witness)."
  },
  {
   "property": "C27",
   "status": "proved",
   "theorems": [
    "Radix.C27_reachable_unique",
    "Radix.C27_shape_unique"
   ],
   "note": "C27_shape_unique is for any two trees in compact shape; the reachable form needs proper trees."
  },
  {
   "property": "C28",
   "status": "proved",
   "theorems": [
    "Radix.C28_attach_detach",
    "Radix.C28_attach_no_panic"
   ],
   "note": ""
  },
  {
   "property": "C29",
   "status": "proved",
   "theorems": [
    "Radix.C29_snapshot",
    "Radix.C29_reattach_succeeds"
   ],
   "note": ""
  },
  {
   "property": "C30",
   "status": "proved",
   "theorems": [
    "Radix.C30_read_one",
    "Radix.C30_read_one_inv",
    "Radix.C30_serialize",
    "Radix.C30_concatenation",
    "Radix.C30_record_size"
   ],
   "note": ""
  },
  {
   "property": "C31",
   "status": "proved",
   "theorems": [
    "Radix.C31_small_buffer",
    "Radix.C31_none",
    "Radix.C31_borrowed"
   ],
   "note": ""
  },
  {
   "property": "C32",
   "status": "partial",
   "theorems": [
    "Radix.C32_malformed_partial",
    "Radix.C32_malformed_false"
   ],
   "note": "Exact characterization of the blobs that make try_load panic (those whose first record has a children field with a data header); the full claim is false: blob 00 80 01 00 (witness)."
  },
  {
   "property": "C33",
   "status": "proved",
   "theorems": [
    "Radix.C33_get",
    "Radix.C33_contains_key",
    "Radix.C33_has_prefix",
    "Radix.C33_first_last",
    "Radix.C33_filter_prefix"
   ],
   "note": "For every attached tree reachable by attach, load, reattach, insert, filter_prefix with non-degenerate result, and, where no stored prefix has 128 bytes or more, remove and remove_prefix, in release builds; the removals outside this are covered by the negative results of C34."
  },
  {
   "property": "C34",
   "status": "partial",
   "theorems": [
    "Radix.C34_insert",
    "Radix.C34_remove_partial",
    "Radix.C34_remove_prefix_partial",
    "Radix.C34_remove_debug_partial",
    "Radix.C34_remove_long_false",
    "Radix.C34_remove_debug_false"
   ],
   "note": "try_insert proved in full. try_remove and try_remove_prefix proved where no stored prefix has 128 bytes or more, in release builds; with debug assertions the result is right unless the call panics. The full claim is false: entries are lost in release builds with long stored prefixes, and debug builds panic (witnesses proved; bug)."
  },
  {
   "property": "C35",
   "status": "proved",
   "theorems": [
    "Radix.C35_iter",
    "Radix.C35_values",
    "Radix.C35_scan_prefix",
    "Radix.C35_group_by"
   ],
   "note": ""
  },
  {
   "property": "C36",
   "status": "partial",
   "theorems": [
    "Radix.C36_no_invention_partial",
    "Radix.C36_error_partial",
    "Radix.C36_success_partial",
    "Radix.C36_false"
   ],
   "note": "The call returns an error if f fails on a common key, and succeeds if f never fails. The claim that the target is left unchanged is false: the value at the failing key is lost (witness proved; bug). Whatever the outcome, the target is a map whose entries were in the target, in the other tree (outer), or are results of f at this key (C36_no_invention_partial)."
  },
  {
   "property": "C37",
   "status": "proved",
   "theorems": [
    "Radix.C37_mem_store",
    "Radix.C37_overflow"
   ],
   "note": ""
  },
  {
   "property": "C38",
   "status": "partial",
   "theorems": [
    "Radix.Paged.C38_read_back_partial",
    "Radix.Paged.C38_fresh_ids_partial",
    "Radix.Paged.C38_write_partial",
    "Radix.Paged.C38_false"
   ],
   "note": "Proved for all histories, page sizes >= 8, I/O errors and crashes, for blobs below 2^32 bytes; false for larger blobs (C38_false: the length is stored in 32 bits)."
  },
  {
   "property": "C39",
   "status": "partial",
   "theorems": [
    "Radix.Paged.C39_false",
    "Radix.Paged.C39_recovery_partial",
    "Radix.Paged.C39_open_no_panic_partial"
   ],
   "note": "Proved for all histories with crashes and I/O errors at any byte of any file operation, for blobs below 2^32 bytes and files below 2^62 bytes. For 2^32 bytes it is false (C39_false)."
  },
  {
   "property": "C40",
   "status": "partial",
   "theorems": [
    "Radix.Paged.C40_last_write_partial",
    "Radix.Paged.C40_not_before_partial",
    "Radix.Paged.C40_false"
   ],
   "note": "Proved when no write was interrupted after the last successful one; false in the window between the two commits of a write that begins a new page (C40_false)."
  },
  {
   "property": "C41",
   "status": "partial",
   "theorems": [
    "Radix.Paged.C41_write_too_large",
    "Radix.Paged.C41_write_too_large_reachable",
    "Radix.Paged.C41_read_partial",
    "Radix.Paged.C41_read_false"
   ],
   "note": "Refused writes proved in full; reads of 8 byte ids never panic in release builds, and in debug builds but for id 0 and the last 4096 ids; ids of other lengths panic (C41_read_false)."
  },
  {
   "property": "C42",
   "status": "proved",
   "theorems": [
    "Radix.C42_blob_slice",
    "Radix.C42_slice_ref",
    "Radix.C42_slice_ref_outside"
   ],
   "note": ""
  },
  {
   "property": "C43",
   "status": "proved",
   "theorems": [
    "Radix.C43_insert",
    "Radix.C43_remove",
    "Radix.C43_remove_prefix",
    "Radix.C43_outer_combine_with",
    "Radix.C43_inner_combine_with",
    "Radix.C43_left_combine_with",
    "Radix.C43_retain_prefix_with",
    "Radix.C43_remove_prefix_with",
    "Radix.C43_outer_combine",
    "Radix.C43_inner_combine",
    "Radix.C43_left_combine",
    "Radix.C43_inner_combine_pred",
    "Radix.C43_left_combine_pred",
    "Radix.C43_get",
    "Radix.C43_first_last",
    "Radix.C43_detached",
    "Radix.C43_iter",
    "Radix.C43_scan_prefix",
    "Radix.C43_group_by",
    "Radix.C43_history"
   ],
   "note": "Per operation: the exact outcome on the Detached store, without panic and error; C43_history covers every tree the infallible API can produce."
  },
  {
   "property": "C44",
   "status": "partial",
   "theorems": [
    "Radix.Browser.C44_history_partial",
    "Radix.Browser.C44_last_written_partial",
    "Radix.Browser.C44_succeeds_partial",
    "Radix.Browser.C44_false",
    "Radix.Browser.C44_when_partial"
   ],
   "note": "Every read that returns Ok gives the last byte written at each offset, for all histories, failures and crashes; the full claim (all such reads succeed) is false because the length is wrong after overwrites (C44_false; bug). Exactly which reads succeed after any changes that returned Ok: C44_when_partial, in terms of pieces with levels."
  },
  {
   "property": "C45",
   "status": "partial",
   "theorems": [
    "Radix.Browser.C45_apart_partial",
    "Radix.Browser.C45_bound_partial",
    "Radix.Browser.C45_false",
    "Radix.Browser.C45_all_exact_partial",
    "Radix.Browser.C45_exact_partial",
    "Radix.Browser.C45_stuck",
    "Radix.Browser.C45_cover_partial"
   ],
   "note": "False after an overwrite (C45_false; bug), and from then on writes to other places never change the length (C45_stuck). Proved for writes of which no two overlap, as an upper bound for all histories, exactly for all writes that returned Ok (C45_exact_partial, in terms of pieces with levels; C45_all_exact_partial also with truncations and blobs that are put), and for a write that begins before the length and reaches the furthest end (C45_cover_partial)."
  },
  {
   "property": "C46",
   "status": "partial",
   "theorems": [
    "Radix.Browser.C46_atomic_partial",
    "Radix.Browser.C46_false",
    "Radix.Browser.C46_get_false"
   ],
   "note": "All reads that return Ok see the bytes before or after the complete write; the length can shrink in a crash, so that reads of bytes that were there fail (C46_false; bug). With store reads on such a file, the two ways of reading can disagree after a crash (C46_get_false)."
  },
  {
   "property": "C47",
   "status": "partial",
   "theorems": [
    "Radix.Browser.C47_truncate_partial",
    "Radix.Browser.C47_false",
    "Radix.Browser.C47_length_partial",
    "Radix.Browser.C47_reads_partial",
    "Radix.Browser.C47_reset_partial",
    "Radix.Browser.C47_to_zero_partial",
    "Radix.Browser.C47_reset_reads_partial"
   ],
   "note": "Bytes below the limit are unchanged and none above remain in reads that return Ok; the length can end up below the limit although bytes were there (C47_false; bug). For writes of which no two overlap the length afterwards is exactly the end of what is left (C47_length_partial), and if the limit is in or at the end of a write, all bytes below it can be read and are unchanged (C47_reads_partial). Truncating to 0 leaves the length 0 after any history (C47_to_zero_partial), and from then on lengths and ids of blobs are those of a new file, also if the length was wrong before (C47_reset_partial). Reads after that give only what was written since (C47_reset_reads_partial)."
  },
  {
   "property": "C48",
   "status": "partial",
   "theorems": [
    "Radix.Browser.C48_exact_partial",
    "Radix.Browser.C48_succeeds_partial",
    "Radix.Browser.C48_false",
    "Radix.Browser.C48_overlap"
   ],
   "note": "Exact whenever it returns Ok, and it does for offsets below 4 GiB; false in general: offsets from 2^63 on are refused (C48_false)."
  },
  {
   "property": "C49",
   "status": "partial",
   "theorems": [
    "Radix.Browser.C49_round_trip_partial",
    "Radix.Browser.C49_query_round_trip",
    "Radix.Browser.C49_false"
   ],
   "note": "Proved for names of letters, digits and -_. ; the query part in full; false for names with a question mark (C49_false; bug)."
  },
  {
   "property": "C50",
   "status": "partial",
   "theorems": [
    "Radix.Browser.Paging.C50_get_after_put_partial",
    "Radix.Browser.Paging.C50_false"
   ],
   "note": "Proved for blobs shorter than the page size minus 8, for all sessions, also with browser failures and on any file contents; a blob of exactly the page size minus 8 is accepted but lost (C50_false; bug)."
  },
  {
   "property": "C51",
   "status": "partial",
   "theorems": [
    "Radix.Browser.Paging.C51_too_large_partial",
    "Radix.Browser.Paging.C51_never_accepted_partial",
    "Radix.Browser.Paging.C51_false"
   ],
   "note": "Proved for blobs that with their length field exceed a page; blobs longer than the page size minus 8 are never accepted; those up to the page size minus 4 panic (C51_false; bug)."
  },
  {
   "property": "C52",
   "status": "proved",
   "theorems": [
    "Radix.Heap.C52_runs",
    "Radix.Heap.C52_like_maps",
    "Radix.Heap.C52_frame",
    "Radix.Heap.C52_clone",
    "Radix.Heap.C52_counts"
   ],
   "note": "In memory with reference counts: every session of API calls on detached trees runs without using freed memory, sees what separate maps would show, and clones are unaffected by anything done to other slots. One program; threads are C68 and C69. User functions choose among the values they are given. Reference counts are exact except for empty arrays of children."
  },
  {
   "property": "C53",
   "status": "proved",
   "theorems": [
    "Radix.Heap.C53_keys_stay"
   ],
   "note": "For the keys and values that any iterator in any session yielded, whatever happens afterwards to other slots."
  },
  {
   "property": "C54",
   "status": "proved",
   "theorems": [
    "Radix.C54_find_child"
   ],
   "note": ""
  },
  {
   "property": "C55",
   "status": "partial",
   "theorems": [
    "Radix.C55_group_by_len",
    "Radix.C55_group_by_nonempty_partial",
    "Radix.C55_group_by_nonempty_false"
   ],
   "note": "Partition proved for all reachable trees. That no group is empty is proved for non-empty proper trees only; missing: the empty tree (C55_group_by_nonempty_false), which yields one empty group when n = 0, and results of degenerate filter_prefix calls."
  },
  {
   "property": "C56",
   "status": "partial",
   "theorems": [
    "Radix.C56_outer_combine_partial",
    "Radix.C56_inner_combine_partial",
    "Radix.C56_left_combine_partial",
    "Radix.C56_inner_combine_pred_partial",
    "Radix.C56_left_combine_pred_partial",
    "Radix.C56_outer_combine_false",
    "Radix.C56_inner_combine_false"
   ],
   "note": "Whenever the call does not panic its result is right, and it fails only if a read fails. The claim that it never panics is false: unimplemented branches (todo!) are reached (witnesses proved for all five operations)."
  },
  {
   "property": "C57",
   "status": "proved",
   "theorems": [
    "Radix.Paged.C57_saved_tree_survives",
    "Radix.Paged.C57_tree_operations"
   ],
   "note": ""
  },
  {
   "property": "C58",
   "status": "proved",
   "theorems": [
    "Radix.Browser.C58_get_after_put",
    "Radix.Browser.C58_only_appended"
   ],
   "note": ""
  },
  {
   "property": "C59",
   "status": "proved",
   "theorems": [
    "Radix.Browser.C59_saved_tree_survives",
    "Radix.Browser.C59_tree_operations"
   ],
   "note": ""
  },
  {
   "property": "C60",
   "status": "partial",
   "theorems": [
    "Radix.Browser.Paging.C60_one_sync_partial",
    "Radix.Browser.Paging.C60_same_page_partial",
    "Radix.Browser.Paging.C60_lost",
    "Radix.Browser.Paging.C60_next_session_lost",
    "Radix.Browser.Paging.C60_false"
   ],
   "note": "Proved for one session on a new file with one sync at its end, and with any number of syncs as long as no page is finished after the first of them (C60_same_page_partial). In every session in which the synced page is finished afterwards and one more sync follows, exactly the blobs up to that page can be read after opening again and all later ones are lost (C60_lost; bug); so are those of every second session that finishes the page on which the first one ended (C60_next_session_lost); C60_false shows that they are overwritten."
  },
  {
   "property": "C61",
   "status": "proved",
   "theorems": [
    "Radix.Heap.C61_iter_snapshot"
   ],
   "note": "For iter() on trees made by calls other than filter_prefix(\"\", s)."
  },
  {
   "property": "C62",
   "status": "partial",
   "theorems": [
    "Radix.Heap.C62_false",
    "Radix.Heap.C62_partial",
    "Radix.Heap.C62_threads_partial"
   ],
   "note": "At every moment everything in memory other than empty arrays of children can be reached from what the program holds (C62_partial). The full claim is false: remove of the last child of a node leaks the empty array of children (C62_false; bug). The same holds for threads whenever no call is in progress (C62_threads_partial)."
  },
  {
   "property": "C63",
   "status": "partial",
   "theorems": [
    "Radix.Browser.C63_alone_partial",
    "Radix.Browser.C63_contents_partial",
    "Radix.Browser.C63_false"
   ],
   "note": "For file names made of letters, digits, '-', '_' and '.'; for all histories, interleavings and crash points. False for other names: deleting the file \"a?b\" deletes the file \"a\" (C63_false). One WebCacheFs at a time."
  },
  {
   "property": "C64",
   "status": "partial",
   "theorems": [
    "Radix.Browser.C64_gone_partial",
    "Radix.Browser.C64_not_exists_partial",
    "Radix.Browser.C64_answer_partial",
    "Radix.Browser.C64_answer_open_partial",
    "Radix.Browser.C64_false"
   ],
   "note": "For file names as in C63 (C63_false otherwise). That other files keep their contents is C63_alone_partial, whose histories can delete other files. That the result says whether there was something to delete is proved for files that are not open, and for open files with a length above 0; for an opened file of length 0 it is false (C64_false)."
  },
  {
   "property": "C65",
   "status": "partial",
   "theorems": [
    "Radix.Browser.C65_absent_partial",
    "Radix.Browser.C65_present_partial",
    "Radix.Browser.C65_never_opened_partial",
    "Radix.Browser.C65_false"
   ],
   "note": "Proved: Ok(false) means that the file is as if it never existed; a file with a length above 0 exists, also in later sessions; a file that was never opened does not. The full claim is false: an opened file without bytes is forgotten when the page is loaded again (C65_false)."
  },
  {
   "property": "C66",
   "status": "partial",
   "theorems": [
    "Radix.Browser.C66_next_session_partial",
    "Radix.Browser.C66_not_open_partial",
    "Radix.Browser.C66_false"
   ],
   "note": "Proved from the next session on, and at once if the directory was not open. The full claim is false: an open directory stays usable after delete_dir, shows the old bytes, and what is written to it is lost when the page is loaded again (C66_false; bug)."
  },
  {
   "property": "C67",
   "status": "partial",
   "theorems": [
    "Radix.Browser.C67_bytes_partial",
    "Radix.Browser.C67_no_panic_partial",
    "Radix.Browser.C67_succeeds_partial",
    "Radix.Browser.C67_false"
   ],
   "note": "Reads that return Ok give the right bytes up to the length of the file, never panic, and succeed if the browser does not fail and all writes end below 2 GiB. False in full because of the length (C45): overwriting the first bytes of a file can shorten what is read (C67_false; bug)."
  },
  {
   "property": "C68",
   "status": "proved",
   "theorems": [
    "Radix.Heap.C68_like_maps",
    "Radix.Heap.C68_returns",
    "Radix.Heap.C68_alone"
   ],
   "note": "Steps of threads are atomic and happen in one order (sequential consistency); trees are shared by clones that are handed over and by references (&RadixTree); the rules of Rust for references are part of what a schedule can do. Calls other than filter_prefix(\"\", s); C68_alone and C69 also with these."
  },
  {
   "property": "C69",
   "status": "proved",
   "theorems": [
    "Radix.Heap.C69_no_race"
   ],
   "note": "For the steps of the model: reading a cell, allocating, incrementing and decrementing counts, taking out the contents of a cell that is not shared. The memory orderings of Arc are taken to be right."
  },
  {
   "property": "C70",
   "status": "partial",
   "theorems": [
    "Radix.C70_entries_partial",
    "Radix.C70_insert_partial",
    "Radix.C70_false"
   ],
   "note": "Proved for trees all of whose stored prefixes have fewer than 128 bytes at any time (Lawful store with short prefixes); for long prefixes it is false: an entry appears whose key holds bytes of a store id (C70_false; finding F7). The vector that an abandoned InPlaceVecBuilder leaves is assumed to be a sublist of the elements that were in it (Keeps)."
  },
  {
   "property": "C71",
   "status": "partial",
   "theorems": [
    "Radix.C71_outer_detached",
    "Radix.C71_outer_attached_partial",
    "Radix.C71_outer_detach_partial",
    "Radix.C71_inner_detached",
    "Radix.C71_inner_attached_partial",
    "Radix.C71_left_detached_partial",
    "Radix.C71_left_attached_partial",
    "Radix.C71_remove_prefix_detached_partial",
    "Radix.C71_remove_prefix_attached_partial",
    "Radix.C71_retain_prefix_detached_partial",
    "Radix.C71_retain_prefix_attached_partial",
    "Radix.C71_false",
    "Radix.C71_debug_false"
   ],
   "note": "Outer and inner combination with an other tree in memory: proved in full. With an other tree in a store: partial, as unimplemented branches and a debug assertion are reached (C71_false, C71_debug_false; finding F8). Left combination and prefix removal and retention: what is missing is said at each theorem."
  },
  {
   "property": "C72",
   "status": "proved",
   "theorems": [
    "Radix.C72_get",
    "Radix.C72_contains_key",
    "Radix.C72_filter_prefix",
    "Radix.C72_insert",
    "Radix.C72_remove",
    "Radix.C72_remove_prefix"
   ],
   "note": "After calls with any outcome for keys of less than 128 bytes; with longer keys after calls that succeeded. The count is of the blobs that the outcome depends on (ReadsAtMost): every other blob may be anything."
  },
  {
   "property": "C73",
   "status": "proved",
   "theorems": [
    "Radix.C73_writes",
    "Radix.C73_counter_faithful"
   ],
   "note": "All in-place calls with any outcome, keys and values of any length (C73_writes), under the assumption Keeps about inplace-vec-builder. Functions of the user do not make up ids (NoNewIds, implied by Computes). The other tree of a combination is one made by calls that succeeded (Att); of a tree left by a failed call no bound of its size by its keys is claimed. C73_counter_faithful: the counter changes nothing."
  },
  {
   "property": "C74",
   "status": "partial",
   "theorems": [
    "Radix.C74_reattach_partial",
    "Radix.C74_attach_partial",
    "Radix.Paged.C74_paged_partial",
    "Radix.Paged.C74_paged_attach_partial",
    "Radix.Paged.C74_false",
    "Radix.Browser.C74_browser_partial",
    "Radix.Browser.C74_browser_attach_partial"
   ],
   "note": "Proved for paged files with pages of at least 68104 bytes and for browser files with blobs up to 68096 bytes or more, and for any store with ids of bounded length; false for small pages (C74_false: ten entries, pages of 1024 bytes)."
  },
  {
   "property": "C75",
   "status": "partial",
   "theorems": [
    "Radix.C75_same_contents_partial",
    "Radix.C75_save_again",
    "Radix.C75_false"
   ],
   "note": "Saving again is proved in full. Equal contents give equal blobs for every tree that is not a degenerate result of filter_prefix (C75_false: a tree without entries that is stored with other bytes than the empty tree)."
  },
  {
   "property": "C76",
   "status": "proved",
   "theorems": [
    "Radix.Paged.C76_paged"
   ],
   "note": "For one store at a time on the file (opening it again closes the store). That the Arc of the page keeps the map alive, and that a shared map shows the bytes of the file, is assumed."
  },
  {
   "property": "C77",
   "status": "proved",
   "theorems": [
    "Radix.C77_reads",
    "Radix.C77_no_error",
    "Radix.C77_snapshot",
    "Radix.C77_save_succeeds",
    "Radix.C77_two_clients"
   ],
   "note": "Single calls of read and write of the store are atomic (each store has a mutex or a queue). Two reads of the same blob between two writes of the client see the same writes of others."
  },
  {
   "property": "C78",
   "status": "proved",
   "theorems": [
    "Radix.C78_lookup",
    "Radix.C78_whole",
    "Radix.C78_in_memory",
    "Radix.C78_insert",
    "Radix.C78_remove",
    "Radix.C78_outer_detached",
    "Radix.C78_outer_attached",
    "Radix.C78_outer_detach",
    "Radix.C78_inner_left",
    "Radix.C78_prefix_with",
    "Radix.C78_combine",
    "Radix.C78_combine_pred",
    "Radix.C78_tight"
   ],
   "note": "One level of the model is one call of the code that calls itself; calls of helpers, stores and functions of the user are not counted. For serialize and drop the levels of nodes in memory are counted, as the two functions recurse over just these. outer_combine_with into a detached tree from an attached one: the bound holds for the combination and for the detaching on top of it separately, so the sum is at most twice the bound."
  },
  {
   "property": "C79",
   "status": "proved",
   "theorems": [
    "Radix.Heap.Att.C79_like_values",
    "Radix.Heap.Att.C79_frame",
    "Radix.Heap.Att.C79_clone",
    "Radix.Heap.Att.C79_iter",
    "Radix.Heap.Att.C79_memory"
   ],
   "note": "Release builds. The specification is the same session on plain values (`prun`), where every slot has a tree of its own. Calls that panic and unwinding are left out. The function of `try_group_by` sees the path, and comes with each step of the iterator. User functions choose among the values they are given, or fail; those of combinations that make new trees can also make a value of their own. What an abandoned InPlaceVecBuilder leaves in the vector is any subsequence (`mask`); the rest is dropped."
  },
  {
   "property": "C80",
   "status": "proved",
   "theorems": [
    "Radix.Kept.C80_like_maps",
    "Radix.Kept.C80_restart"
   ],
   "note": "Calls that panic are left out (`Fine`), as in C79. The specification is a relation: an error is allowed only with its reason, and the item of a failed in-place call becomes unknown (what can be said about it is C36 and C70). A save may fail only if the store refuses one of the next 6 n + 4 writes, n being the number of entries, and this even of blobs whose size is bounded by the largest key or value and by 256 * (258 + N), N being the length of ids; whatever its outcome, the store only gets further writes. Functions of the user have to depend on the contents of the values only; otherwise the result is unknown. Of group_by: the groups are consecutive pieces of the entries, not empty unless the tree is, each below a path at which the function said no, or one entry at a path at which it said yes."
  },
  {
   "property": "C81",
   "status": "partial",
   "theorems": [
    "Radix.Kept.C81_depth",
    "Radix.Kept.C81_next_call_partial",
    "Radix.Kept.C81_runs_partial",
    "Radix.Kept.C81_false"
   ],
   "note": "False in full (C81_false): combining a tree in place with one in the store reaches an unimplemented branch and panics, for two small trees about which everything is known. What is proved: whatever happened before, every call on known things returns. A call that combines trees and reads an attached one has to meet conditions on the keys of the two maps (those of C90 and C91, for example that the keys of the other tree are among those of the attached one), and a function that makes values must not return the value of an attached tree as it is if that is the id of a blob; a tree that is only changed in place may be attached without condition. Functions of the user depend on the contents of the values only, that of group_by does not fail, and the store does not panic in the writes of attached and reattach."
  },
  {
   "property": "C82",
   "status": "proved",
   "theorems": [
    "Radix.C82_attach",
    "Radix.C82_first_save",
    "Radix.C82_save_any",
    "Radix.C82_load",
    "Radix.C82_read",
    "Radix.Kept.C82_programs",
    "Radix.C82_always",
    "Radix.C82_save",
    "Radix.C82_unambiguous"
   ],
   "note": "Proved: what is saved follows the documented format for every history (C82_save_any), with the exact rules for writers (short values inline, record size bytes) if everything in the store was written by this library (C82_always: whatever the outcomes of calls, also for stores with blobs that follow only the rules for readers; C82_save: with the map). What follows the format is loaded and read. Assumed for C82_save: no id is the id of two different blobs; functions of the user do not make up ids of short blobs."
  },
  {
   "property": "C83",
   "status": "proved",
   "theorems": [
    "Radix.Kept.C83_lives",
    "Radix.Paged.C83_paged",
    "Radix.Paged.C83_paged_quiet",
    "Radix.Paged.C83_paged_writes",
    "Radix.Browser.C83_browser",
    "Radix.Browser.C83_browser_quiet",
    "Radix.Browser.C83_browser_writes"
   ],
   "note": "Calls that panic are left out as in C79 and C80 (`Fine`); C81 says which do not, and writes to these stores never panic (C83_paged_writes, C83_browser_writes). A life that ends in the middle of a call is the life without that call, whose writes are then part of what happens between two lives. `TooBig` is a bound, not exact: with pages below 68104 bytes nothing is claimed about success of saves. Files of the browser: smaller than 2 GiB at the end, not overwritten or truncated. Assumptions about the operating system and the browser as in C38, C39, C44."
  },
  {
   "property": "C84",
   "status": "partial",
   "theorems": [
    "Radix.Browser.C84_contents_partial",
    "Radix.Browser.C84_size_partial",
    "Radix.Browser.C84_no_panic_partial",
    "Radix.Browser.C84_served_partial",
    "Radix.Browser.C84_last_written_partial",
    "Radix.Browser.C84_false",
    "Radix.Browser.C84_panic_false"
   ],
   "note": "Answers of all calls fit contents that change as asked (C84_contents_partial), reads stop at the size that is told (C84_size_partial), nothing panics if start + n < 2^64 (C84_no_panic_partial; else it does, C84_panic_false), and if the browser does not fail all calls succeed below 2 GiB (C84_served_partial) and read what was last written (C84_last_written_partial). False in full because of the size (C45): writing the first page of a database again hides the later pages (C84_false; bug). File names are plain, as in C63; the directory is not deleted (C66)."
  },
  {
   "property": "C85",
   "status": "partial",
   "theorems": [
    "Radix.Heap.Att.C85_like_values_partial",
    "Radix.Heap.Att.C85_frame_partial",
    "Radix.Heap.Att.C85_memory_partial",
    "Radix.C85_iter_partial",
    "Radix.C85_values_partial",
    "Radix.Heap.Att.C85_group_false"
   ],
   "note": "A panic of the store or of a passed function is modelled as a failure; unwinding drops the locals that `?` drops, and only the three `Iterator::next` treat errors otherwise, so only these have steps of their own. Memory (C85_memory_partial), like plain values (C85_like_values_partial), untouched slots (C85_frame_partial), iterators over entries and values (C85_iter_partial, C85_values_partial). An interrupted step leaves out exactly those of the rest whose keys begin with some prefix. Missing: panics of the code itself. False for groups: after a caught panic of the function later groups have wrong keys (C85_group_false; bug)."
  },
  {
   "property": "C86",
   "status": "proved",
   "theorems": [
    "Radix.Heap.Att.C86_like_values",
    "Radix.Heap.Att.C86_alone",
    "Radix.Heap.Att.C86_returns",
    "Radix.Heap.Att.C86_no_race",
    "Radix.Heap.Att.C86_memory"
   ],
   "note": "Threads with a store. Schedules are lists of events; the state of the store during a call is any state, given by the schedule. TRuns: the schedule runs to its end or to a call that has no result even on plain values (a panic of the code itself, or more than n steps). C86_like_values: as if nothing were shared; C86_alone, C86_returns, C86_no_race, C86_memory. Simplified: one state of the store for a whole call; references are not lent; sequentially consistent steps."
  },
  {
   "property": "C87",
   "status": "partial",
   "theorems": [
    "Radix.Kept.C87_like_maps",
    "Radix.Kept.C87_one_store",
    "Radix.Kept.C87_next_call_partial"
   ],
   "note": "C87_like_maps: any lawful store, if at the start of each call it has everything that it had at earlier returns. C87_one_store: all threads write to one store in one order, each call sees the writes of others while it runs. C87_next_call_partial: known calls do not panic; missing: calls that combine trees and read an attached one whose keys do not fit as in C90 and C91 (they can panic, C81_false). Steps of iterators with caught panics are included."
  },
  {
   "property": "C88",
   "status": "proved",
   "theorems": [
    "Radix.Blobs.C88_mem",
    "Radix.Blobs.C88_paged",
    "Radix.Blobs.C88_browser",
    "Radix.Blobs.C88_mem_stays",
    "Radix.Blobs.C88_paged_stays",
    "Radix.Blobs.C88_browser_stays",
    "Radix.Blobs.C88_paged_bytes"
   ],
   "note": "Programs are lists of operations on a store and on blobs; `run` is none for a use of freed memory or a write to shared memory. C88_mem, C88_paged, C88_browser: as if blobs were values, nothing lost, nothing left in the end. C88_*_stays: the same without the specification. C88_paged_bytes: views of the file. After a panic of PagingFile the program ends, as in C50; addresses are never used again."
  },
  {
   "property": "C89",
   "status": "proved",
   "theorems": [
    "Radix.C89_iter",
    "Radix.C89_values",
    "Radix.C89_scan_prefix",
    "Radix.C89_first_last",
    "Radix.C89_has_prefix"
   ],
   "note": "The count is of the blobs that the outcome depends on, as in C72. Values that are blobs of their own are not loaded by these calls. Not in the statement: try_group_by."
  },
  {
   "property": "C90",
   "status": "proved",
   "theorems": [
    "Radix.C90_inner_combine",
    "Radix.C90_inner_combine_pred",
    "Radix.C90_left_combine_pred",
    "Radix.C90_subset",
    "Radix.C90_left_combine",
    "Radix.C90_outer_combine",
    "Radix.C90_outer_prefix_free",
    "Radix.C90_same_keys"
   ],
   "note": "The user's function is total, as in C56; functions that fail or panic are in C91 for the calls in place. try_outer_combine and try_left_combine take over nodes and values of the trees, and taking over a borrowed node with children, or a value that is a blob, panics in the code: hence their additional conditions."
  },
  {
   "property": "C91",
   "status": "proved",
   "theorems": [
    "Radix.C91_inner_combine_with",
    "Radix.C91_left_combine_with",
    "Radix.C91_remove_prefix_with",
    "Radix.C91_retain_prefix_with",
    "Radix.C91_outer_combine_with",
    "Radix.C91_outer_combine_with_detached"
   ],
   "note": "Keys of the target have fewer than 128 bytes, as in C71. With debug assertions try_left_combine_with, try_remove_prefix_with and try_retain_prefix_with can panic under any condition on the keys (C71_debug_false); the theorems say so with dbg = true as a possible cause."
  },
  {
   "property": "C92",
   "status": "proved",
   "theorems": [
    "Radix.Browser.C92_bytes",
    "Radix.Browser.C92_written",
    "Radix.Browser.C92_tidy",
    "Radix.Browser.C92_succeeds",
    "Radix.Browser.C92_length_stays",
    "Radix.Browser.C92_gap_lost",
    "Radix.Browser.C92_stale"
   ],
   "note": "open is called by a unit test only; the theorems run its plan with execute_plan as write and truncate do. C92_length_stays, C92_gap_lost and C92_stale show what is not repaired or is lost: the length, bytes behind a gap, and older bytes behind a gap after an interrupted clean-up. The set of ranges comes from a crate that is not in /repo."
  },
  {
   "property": "C93",
   "status": "partial",
   "theorems": [
    "Radix.Browser.C93_sorts_out_partial",
    "Radix.Browser.C93_no_gap_partial",
    "Radix.Browser.C93_appends_partial",
    "Radix.Browser.C93_false"
   ],
   "note": "False as it stands (C93_false): a file that was overwritten twice loses everything. Proved: it sorts out, what is kept has no gaps, and in files that are only appended to nothing is discarded. The only call of retain_relevant is commented out."
  },
  {
   "property": "C94",
   "status": "partial",
   "theorems": [
    "Radix.Browser.C94_place_partial",
    "Radix.Browser.C94_same_place",
    "Radix.Browser.C94_between_partial",
    "Radix.Browser.C94_read_back_partial",
    "Radix.Browser.C94_lost",
    "Radix.Browser.C94_new_read_partial",
    "Radix.Browser.C94_old_read_partial",
    "Radix.Browser.C94_false"
   ],
   "note": "False whenever the truncation goes through a blob (C94_same_place, C94_false; bug): what is left of that blob goes to a higher level, its end remains the length, and the next two blobs that are put get the same place, so that reading the first gives the second (C94_lost). Proved, for any history of changes that returned Ok, that a blob is read back as long as no later call touches its place (C94_read_back_partial), and the whole claim for a truncation between two blobs (C94_between_partial, C94_new_read_partial, C94_old_read_partial); for any history of changes that returned Ok the place is given exactly by C94_place_partial, in terms of pieces with levels."
  }
 ]
}