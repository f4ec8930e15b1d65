# Axioms of the property theorems

Generated by `tools/axioms.py` (`#print axioms` for every theorem of MANIFEST.json, 356 in all).

## Classical.choice, Quot.sound, propext

* `Radix.C01_tree_is_map`
* `Radix.C02_insert`
* `Radix.C03_remove`
* `Radix.C05_iter`
* `Radix.C07_from_iter`
* `Radix.C08_has_prefix_partial`
* `Radix.C08_has_prefix_exact`
* `Radix.C08_has_prefix_complete`
* `Radix.C08_has_prefix_false`
* `Radix.C08_has_prefix_false_degenerate`
* `Radix.C09_scan_prefix_partial`
* `Radix.C09_scan_prefix_values`
* `Radix.C09_scan_prefix_keys`
* `Radix.C09_scan_prefix_false`
* `Radix.C10_filter_prefix`
* `Radix.C11_remove_prefix`
* `Radix.C12_outer_combine`
* `Radix.C13_inner_combine`
* `Radix.C14_left_combine`
* `Radix.C15_outer_combine_with`
* `Radix.C16_inner_combine_with`
* `Radix.C17_left_combine_with`
* `Radix.C18_inner_combine_pred`
* `Radix.C19_left_combine_pred_partial`
* `Radix.C19_sub_map_partial`
* `Radix.C19_left_combine_pred_false`
* `Radix.C20_retain_prefix_with_partial`
* `Radix.C20_retain_prefix_with_sound`
* `Radix.C20_retain_prefix_with_exact`
* `Radix.C20_exact_agrees`
* `Radix.C20_retain_prefix_with_false`
* `Radix.C21_remove_prefix_with`
* `Radix.C22_first_last_partial`
* `Radix.C22_first_last_false`
* `Radix.C24_eq_partial`
* `Radix.C24_eq_sound`
* `Radix.C24_eq_false_in_place`
* `Radix.C24_eq_false_empty_value`
* `Radix.C25_is_empty_is_leaf_partial`
* `Radix.C25_is_leaf_false`
* `Radix.C25_is_empty_false`
* `Radix.C26_compact_shape_partial`
* `Radix.C26_order`
* `Radix.C26_compact_shape_false`
* `Radix.C27_reachable_unique`
* `Radix.C27_shape_unique`
* `Radix.C28_attach_detach`
* `Radix.C28_attach_no_panic`
* `Radix.C29_snapshot`
* `Radix.C29_reattach_succeeds`
* `Radix.C30_read_one`
* `Radix.C30_serialize`
* `Radix.C30_concatenation`
* `Radix.C30_record_size`
* `Radix.C31_small_buffer`
* `Radix.C31_none`
* `Radix.C32_malformed_partial`
* `Radix.C33_get`
* `Radix.C33_contains_key`
* `Radix.C33_has_prefix`
* `Radix.C33_first_last`
* `Radix.C33_filter_prefix`
* `Radix.C34_insert`
* `Radix.C34_remove_partial`
* `Radix.C34_remove_prefix_partial`
* `Radix.C34_remove_debug_partial`
* `Radix.C34_remove_long_false`
* `Radix.C34_remove_debug_false`
* `Radix.C35_iter`
* `Radix.C35_values`
* `Radix.C35_scan_prefix`
* `Radix.C35_group_by`
* `Radix.C36_no_invention_partial`
* `Radix.C36_error_partial`
* `Radix.C36_success_partial`
* `Radix.C37_mem_store`
* `Radix.Paged.C38_read_back_partial`
* `Radix.Paged.C38_fresh_ids_partial`
* `Radix.Paged.C38_write_partial`
* `Radix.Paged.C38_false`
* `Radix.Paged.C39_false`
* `Radix.Paged.C39_recovery_partial`
* `Radix.Paged.C39_open_no_panic_partial`
* `Radix.Paged.C40_last_write_partial`
* `Radix.Paged.C40_not_before_partial`
* `Radix.Paged.C41_write_too_large_reachable`
* `Radix.Paged.C41_read_partial`
* `Radix.C43_insert`
* `Radix.C43_remove`
* `Radix.C43_remove_prefix`
* `Radix.C43_outer_combine_with`
* `Radix.C43_inner_combine_with`
* `Radix.C43_left_combine_with`
* `Radix.C43_retain_prefix_with`
* `Radix.C43_remove_prefix_with`
* `Radix.C43_outer_combine`
* `Radix.C43_inner_combine`
* `Radix.C43_left_combine`
* `Radix.C43_inner_combine_pred`
* `Radix.C43_left_combine_pred`
* `Radix.C43_get`
* `Radix.C43_first_last`
* `Radix.C43_detached`
* `Radix.C43_iter`
* `Radix.C43_scan_prefix`
* `Radix.C43_group_by`
* `Radix.C43_history`
* `Radix.Browser.C44_history_partial`
* `Radix.Browser.C44_last_written_partial`
* `Radix.Browser.C44_succeeds_partial`
* `Radix.Browser.C44_false`
* `Radix.Browser.C44_when_partial`
* `Radix.Browser.C45_apart_partial`
* `Radix.Browser.C45_bound_partial`
* `Radix.Browser.C45_false`
* `Radix.Browser.C45_all_exact_partial`
* `Radix.Browser.C45_exact_partial`
* `Radix.Browser.C45_stuck`
* `Radix.Browser.C45_cover_partial`
* `Radix.Browser.C46_atomic_partial`
* `Radix.Browser.C46_false`
* `Radix.Browser.C46_get_false`
* `Radix.Browser.C47_truncate_partial`
* `Radix.Browser.C47_false`
* `Radix.Browser.C47_length_partial`
* `Radix.Browser.C47_reads_partial`
* `Radix.Browser.C47_reset_partial`
* `Radix.Browser.C47_to_zero_partial`
* `Radix.Browser.C47_reset_reads_partial`
* `Radix.Browser.C48_exact_partial`
* `Radix.Browser.C48_succeeds_partial`
* `Radix.Browser.C48_overlap`
* `Radix.Browser.C49_round_trip_partial`
* `Radix.Browser.C49_query_round_trip`
* `Radix.Browser.C49_false`
* `Radix.Browser.Paging.C50_get_after_put_partial`
* `Radix.Browser.Paging.C50_false`
* `Radix.Browser.Paging.C51_too_large_partial`
* `Radix.Browser.Paging.C51_never_accepted_partial`
* `Radix.Browser.Paging.C51_false`
* `Radix.Heap.C52_runs`
* `Radix.Heap.C52_like_maps`
* `Radix.Heap.C52_frame`
* `Radix.Heap.C52_clone`
* `Radix.Heap.C52_counts`
* `Radix.Heap.C53_keys_stay`
* `Radix.C54_find_child`
* `Radix.C55_group_by_len`
* `Radix.C55_group_by_nonempty_partial`
* `Radix.C55_group_by_nonempty_false`
* `Radix.C56_outer_combine_partial`
* `Radix.C56_inner_combine_partial`
* `Radix.C56_left_combine_partial`
* `Radix.C56_inner_combine_pred_partial`
* `Radix.C56_left_combine_pred_partial`
* `Radix.C56_outer_combine_false`
* `Radix.C56_inner_combine_false`
* `Radix.Paged.C57_saved_tree_survives`
* `Radix.Paged.C57_tree_operations`
* `Radix.Browser.C58_get_after_put`
* `Radix.Browser.C58_only_appended`
* `Radix.Browser.C59_saved_tree_survives`
* `Radix.Browser.C59_tree_operations`
* `Radix.Browser.Paging.C60_one_sync_partial`
* `Radix.Browser.Paging.C60_same_page_partial`
* `Radix.Browser.Paging.C60_lost`
* `Radix.Browser.Paging.C60_next_session_lost`
* `Radix.Browser.Paging.C60_false`
* `Radix.Heap.C61_iter_snapshot`
* `Radix.Heap.C62_false`
* `Radix.Heap.C62_partial`
* `Radix.Heap.C62_threads_partial`
* `Radix.Browser.C63_alone_partial`
* `Radix.Browser.C63_contents_partial`
* `Radix.Browser.C63_false`
* `Radix.Browser.C64_gone_partial`
* `Radix.Browser.C64_not_exists_partial`
* `Radix.Browser.C64_answer_partial`
* `Radix.Browser.C64_answer_open_partial`
* `Radix.Browser.C64_false`
* `Radix.Browser.C65_absent_partial`
* `Radix.Browser.C65_present_partial`
* `Radix.Browser.C65_never_opened_partial`
* `Radix.Browser.C65_false`
* `Radix.Browser.C66_next_session_partial`
* `Radix.Browser.C66_not_open_partial`
* `Radix.Browser.C66_false`
* `Radix.Browser.C67_bytes_partial`
* `Radix.Browser.C67_no_panic_partial`
* `Radix.Browser.C67_succeeds_partial`
* `Radix.Browser.C67_false`
* `Radix.Heap.C68_like_maps`
* `Radix.Heap.C68_returns`
* `Radix.Heap.C68_alone`
* `Radix.Heap.C69_no_race`
* `Radix.C70_entries_partial`
* `Radix.C70_insert_partial`
* `Radix.C70_false`
* `Radix.C71_outer_detached`
* `Radix.C71_outer_attached_partial`
* `Radix.C71_outer_detach_partial`
* `Radix.C71_inner_detached`
* `Radix.C71_inner_attached_partial`
* `Radix.C71_left_detached_partial`
* `Radix.C71_left_attached_partial`
* `Radix.C71_remove_prefix_detached_partial`
* `Radix.C71_remove_prefix_attached_partial`
* `Radix.C71_retain_prefix_detached_partial`
* `Radix.C71_retain_prefix_attached_partial`
* `Radix.C71_false`
* `Radix.C71_debug_false`
* `Radix.C72_get`
* `Radix.C72_contains_key`
* `Radix.C72_filter_prefix`
* `Radix.C72_insert`
* `Radix.C72_remove`
* `Radix.C72_remove_prefix`
* `Radix.C73_writes`
* `Radix.C74_reattach_partial`
* `Radix.C74_attach_partial`
* `Radix.Paged.C74_paged_partial`
* `Radix.Paged.C74_paged_attach_partial`
* `Radix.Paged.C74_false`
* `Radix.Browser.C74_browser_partial`
* `Radix.Browser.C74_browser_attach_partial`
* `Radix.C75_same_contents_partial`
* `Radix.C75_false`
* `Radix.Paged.C76_paged`
* `Radix.C77_reads`
* `Radix.C77_snapshot`
* `Radix.C77_save_succeeds`
* `Radix.C77_two_clients`
* `Radix.C78_lookup`
* `Radix.C78_whole`
* `Radix.C78_in_memory`
* `Radix.C78_insert`
* `Radix.C78_remove`
* `Radix.C78_outer_detached`
* `Radix.C78_outer_attached`
* `Radix.C78_outer_detach`
* `Radix.C78_inner_left`
* `Radix.C78_prefix_with`
* `Radix.C78_combine`
* `Radix.C78_combine_pred`
* `Radix.C78_tight`
* `Radix.Heap.Att.C79_like_values`
* `Radix.Heap.Att.C79_frame`
* `Radix.Heap.Att.C79_clone`
* `Radix.Heap.Att.C79_iter`
* `Radix.Heap.Att.C79_memory`
* `Radix.Kept.C80_like_maps`
* `Radix.Kept.C80_restart`
* `Radix.Kept.C81_depth`
* `Radix.Kept.C81_next_call_partial`
* `Radix.Kept.C81_runs_partial`
* `Radix.C82_attach`
* `Radix.C82_first_save`
* `Radix.C82_save_any`
* `Radix.C82_load`
* `Radix.C82_read`
* `Radix.Kept.C82_programs`
* `Radix.C82_always`
* `Radix.C82_save`
* `Radix.C82_unambiguous`
* `Radix.Kept.C83_lives`
* `Radix.Paged.C83_paged`
* `Radix.Paged.C83_paged_quiet`
* `Radix.Paged.C83_paged_writes`
* `Radix.Browser.C83_browser`
* `Radix.Browser.C83_browser_quiet`
* `Radix.Browser.C83_browser_writes`
* `Radix.Browser.C84_contents_partial`
* `Radix.Browser.C84_size_partial`
* `Radix.Browser.C84_no_panic_partial`
* `Radix.Browser.C84_served_partial`
* `Radix.Browser.C84_last_written_partial`
* `Radix.Browser.C84_false`
* `Radix.Browser.C84_panic_false`
* `Radix.Heap.Att.C85_like_values_partial`
* `Radix.Heap.Att.C85_frame_partial`
* `Radix.Heap.Att.C85_memory_partial`
* `Radix.C85_iter_partial`
* `Radix.C85_values_partial`
* `Radix.Heap.Att.C85_group_false`
* `Radix.Heap.Att.C86_like_values`
* `Radix.Heap.Att.C86_alone`
* `Radix.Heap.Att.C86_returns`
* `Radix.Heap.Att.C86_no_race`
* `Radix.Heap.Att.C86_memory`
* `Radix.Kept.C87_like_maps`
* `Radix.Kept.C87_one_store`
* `Radix.Kept.C87_next_call_partial`
* `Radix.Blobs.C88_mem`
* `Radix.Blobs.C88_paged`
* `Radix.Blobs.C88_browser`
* `Radix.Blobs.C88_mem_stays`
* `Radix.Blobs.C88_paged_stays`
* `Radix.Blobs.C88_browser_stays`
* `Radix.Blobs.C88_paged_bytes`
* `Radix.C89_iter`
* `Radix.C89_values`
* `Radix.C89_scan_prefix`
* `Radix.C89_first_last`
* `Radix.C89_has_prefix`
* `Radix.C90_inner_combine`
* `Radix.C90_inner_combine_pred`
* `Radix.C90_left_combine_pred`
* `Radix.C90_subset`
* `Radix.C90_left_combine`
* `Radix.C90_outer_combine`
* `Radix.C90_outer_prefix_free`
* `Radix.C90_same_keys`
* `Radix.C91_inner_combine_with`
* `Radix.C91_left_combine_with`
* `Radix.C91_remove_prefix_with`
* `Radix.C91_retain_prefix_with`
* `Radix.C91_outer_combine_with`
* `Radix.C91_outer_combine_with_detached`
* `Radix.Browser.C92_bytes`
* `Radix.Browser.C92_written`
* `Radix.Browser.C92_tidy`
* `Radix.Browser.C92_succeeds`
* `Radix.Browser.C92_length_stays`
* `Radix.Browser.C92_gap_lost`
* `Radix.Browser.C92_stale`
* `Radix.Browser.C93_no_gap_partial`
* `Radix.Browser.C93_appends_partial`
* `Radix.Browser.C93_false`
* `Radix.Browser.C94_place_partial`
* `Radix.Browser.C94_same_place`
* `Radix.Browser.C94_between_partial`
* `Radix.Browser.C94_read_back_partial`
* `Radix.Browser.C94_lost`
* `Radix.Browser.C94_new_read_partial`
* `Radix.Browser.C94_old_read_partial`
* `Radix.Browser.C94_false`

## Quot.sound

* `Radix.Browser.C93_sorts_out_partial`

## Quot.sound, propext

* `Radix.C04_contains_key`
* `Radix.C06_values`
* `Radix.C23_group_by`
* `Radix.C30_read_one_inv`
* `Radix.C31_borrowed`
* `Radix.C32_malformed_false`
* `Radix.C36_false`
* `Radix.Paged.C41_write_too_large`
* `Radix.C42_blob_slice`
* `Radix.C42_slice_ref`
* `Radix.C42_slice_ref_outside`
* `Radix.C73_counter_faithful`
* `Radix.C75_save_again`
* `Radix.C77_no_error`
* `Radix.Kept.C81_false`

## none

* `Radix.C37_overflow`
* `Radix.Browser.C48_false`

## propext

* `Radix.Paged.C40_false`
* `Radix.Paged.C41_read_false`
