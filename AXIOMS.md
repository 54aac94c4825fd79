# Axioms of the theorems in MANIFEST.json

Generated by tools/axioms.py.

## none

- GA.Bin.C38_second_chunk_overlaps
- GA.C83_complex_product
- GA.C91_suffix_shared
- GA.MA.C29_push_block
- GA.MA.C50_heap_no_partition_not_largest
- GA.MA.C50_stack_check_heap_overpromises

## propext

- GA.C05_grid_too_large
- GA.C09_grid_too_large
- GA.C09_more_processes_than_blocks
- GA.C09_no_bounds_check
- GA.C11_tiled_wrong_element
- GA.C12_scatter64_wrong
- GA.C14_3d_wrong_position
- GA.C14_empty_tile
- GA.C14_group_wrong_process
- GA.C34_empty_blocks
- GA.C34_empty_tiles
- GA.C35_copy_empty_block
- GA.C35_empty_block_error
- GA.C39_empty_tile
- GA.C39_idle_process
- GA.C39_layouts
- GA.C40_large_subscripts
- GA.C43_too_many_blocks
- GA.C44_duplicate_process
- GA.C44_list_too_short
- GA.C45_oversize_crash
- GA.C46_pgroup_brdcst_truncates
- GA.C48_tiled_wrong_pointer
- GA.C48_tiled_wrong_pointer3
- GA.C58_median3
- GA.C59_refused
- GA.C63_count_empty
- GA.C63_count_short
- GA.C63_grid_number3
- GA.C63_nnodes_regular
- GA.C65_region_blocks
- GA.C65_topology_wrong
- GA.C67_empty_block_refused
- GA.C67_size8_wrong
- GA.C71_more_processes
- GA.C71_one_block
- GA.C72_complex
- GA.C72_get_diag_empty
- GA.C72_get_diag_repeated
- GA.C72_result_length
- GA.C73_dims
- GA.C74_from_sparse_dims
- GA.C74_from_sparse_wide
- GA.C74_ghost
- GA.C74_repeated
- GA.C75_sprsdns_dims
- GA.C81_delete
- GA.C81_probe
- GA.C81_reopen
- GA.C85_lost_update
- GA.C89_create_race
- GA.C90_distr_empty_block
- GA.C90_distr_zero_accepted
- GA.C90_merge_ghosts
- GA.C90_merge_mixed_nodes
- GA.C91_conflict
- GA.C91_destroy_closed
- GA.C91_failure_not_reported
- GA.C91_never_blocks
- GA.C92_thin_not_refused
- GA.C93_c_wrong_bytes
- GA.C93_put_unchecked
- GA.C94_buffer_changed
- GA.C94_data_late
- GA.C94_handle_twice
- GA.C95_ma_not_last
- GA.C95_no_memory
- GA.C95_refused
- GA.C96_too_many
- GA.C97_three_levels
- GA.C99_empty_piece
- GA.Handles.C23_unallocated_not_freed
- GA.MA.C29_piece_after_numalign
- GA.Sparse.C36_empty_block_error

## propext, Classical.choice, Quot.sound

- GA.Bin.C38_contents_partial
- GA.Bin.C38_first_call_partial
- GA.Bin.C38_history_partial
- GA.Bin.C38_ranges_partial
- GA.Bin.C38_second_call_overlaps
- GA.C01_unique_owner
- GA.C02_guess_irrelevant
- GA.C03_default_distribution
- GA.C04_process_grid
- GA.C05_numbering
- GA.C05_partition
- GA.C05_processes_partial
- GA.C06_storage
- GA.C07_frame
- GA.C07_rejects
- GA.C07_shared_memory
- GA.C08_iterator
- GA.C08_locate_region
- GA.C09_in_bounds_partial
- GA.C09_shared_memory_partial
- GA.C100_damaged
- GA.C100_get
- GA.C100_look
- GA.C100_pieces
- GA.C100_short
- GA.C100_taken
- GA.C101_all
- GA.C101_drains
- GA.C101_once
- GA.C101_order
- GA.C101_others
- GA.C101_stops_iff
- GA.C102_count
- GA.C102_double
- GA.C102_get
- GA.C102_release
- GA.C10_acc_order_independent
- GA.C11_large_increment
- GA.C11_read_inc
- GA.C11_read_inc_blocks_partial
- GA.C11_read_inc_error
- GA.C12_bad_subscript
- GA.C12_gather_partial
- GA.C12_roundtrip_partial
- GA.C12_scatter_acc_partial
- GA.C12_scatter_partial
- GA.C13_hsort
- GA.C13_sort_gath
- GA.C13_sort_permutation
- GA.C13_sort_scat
- GA.C13_sort_scat_int_partial
- GA.C13_sort_scat_int_truncates
- GA.C14_acc_partial
- GA.C14_get_partial
- GA.C14_put_partial
- GA.C14_served
- GA.C15_pack
- GA.C15_pack_unpack
- GA.C15_piece_put
- GA.C16_iterator
- GA.C16_rejects
- GA.C16_roundtrip
- GA.C28_table
- GA.C31_disjoint
- GA.C31_registry
- GA.C32_acc
- GA.C32_far_below_fails
- GA.C32_get
- GA.C32_put
- GA.C32_served_partial
- GA.C32_wide_fails
- GA.C33_corner_flag_ignored
- GA.C33_faces
- GA.C33_setup
- GA.C33_update
- GA.C34_block_partial
- GA.C34_default_strict
- GA.C34_duplicate
- GA.C34_regular_partial
- GA.C35_add_ghost_widths
- GA.C35_add_partial
- GA.C35_copy_partial
- GA.C35_dot_partial
- GA.C35_fill
- GA.C35_scale_partial
- GA.C35_zero_partial
- GA.C39_served
- GA.C39_stale_index
- GA.C39_subscript_partial
- GA.C39_value_partial
- GA.C40_padded_buffer
- GA.C40_same_results_partial
- GA.C41_brdcst
- GA.C42_backward_delivery
- GA.C42_forward_delivery
- GA.C42_packed_put
- GA.C43_accepted_partial
- GA.C43_accepts_iff
- GA.C44_accepts
- GA.C44_default_fits
- GA.C44_range_nodup
- GA.C44_restricted
- GA.C45_served_partial
- GA.C46_pgroup_brdcst_partial
- GA.C48_access_block_partial
- GA.C48_local_iterator_partial
- GA.C48_range
- GA.C49_balanced
- GA.C51_add_ghost_widths
- GA.C51_add_patch_partial
- GA.C51_add_refused
- GA.C51_dot_ghost_widths
- GA.C51_dot_patch_partial
- GA.C51_dot_refused
- GA.C51_fill_patch_partial
- GA.C51_in_bounds_partial
- GA.C51_scale_patch_partial
- GA.C52_bounded
- GA.C52_completes
- GA.C52_no_deadlock
- GA.C53_copy_patch_partial
- GA.C53_refused
- GA.C53_same_place
- GA.C53_smaller_group_noop
- GA.C54_refused
- GA.C54_symmetrize_ghosts
- GA.C54_symmetrize_partial
- GA.C54_transpose_partial
- GA.C55_add_diagonal_partial
- GA.C55_get_diag_partial
- GA.C55_scale_cols_partial
- GA.C55_scale_rows_partial
- GA.C55_set_diagonal_partial
- GA.C55_shift_diagonal_partial
- GA.C55_zero_diagonal_partial
- GA.C55_zero_diagonal_wrong
- GA.C56_abs_cpl
- GA.C56_abs_partial
- GA.C56_add_constant_partial
- GA.C56_recip_cpl
- GA.C56_recip_partial
- GA.C56_recip_real
- GA.C56_unary_partial
- GA.C57_div_cpl
- GA.C57_div_real
- GA.C57_divide_cpl_partial
- GA.C57_divide_int_partial
- GA.C57_divide_real_partial
- GA.C57_elem_all_partial
- GA.C57_elem_partial
- GA.C57_max_cpl
- GA.C57_max_min_partial
- GA.C57_min_cpl
- GA.C57_multiply_cpl_partial
- GA.C57_multiply_cpl_wrong
- GA.C57_multiply_partial
- GA.C57_refused
- GA.C58_median_partial
- GA.C58_median_patch_outside
- GA.C58_median_patch_partial
- GA.C58_median_refused
- GA.C58_refused
- GA.C59_norm1_blocks
- GA.C59_norm1_partial
- GA.C59_norm_infinity_blocks
- GA.C59_norm_infinity_partial
- GA.C60_empty_inner_wrong
- GA.C60_group_wrong
- GA.C60_matmul
- GA.C60_matmul_refused
- GA.C60_matmul_returns_partial
- GA.C60_regular_endless
- GA.C61_matmul_patch
- GA.C62_matmul_blocks_partial
- GA.C62_operand_shifted
- GA.C62_overflow
- GA.C62_patch_ignored
- GA.C62_refused
- GA.C63_count_partial
- GA.C63_count_zero
- GA.C63_cyclic
- GA.C63_cyclic_missing
- GA.C63_cyclic_partial
- GA.C63_grid_number
- GA.C63_grid_partial
- GA.C63_grid_unclipped
- GA.C63_tiled_irreg
- GA.C64_access_served
- GA.C64_blocks_partial
- GA.C64_read_inc
- GA.C64_rejects
- GA.C64_shared_memory
- GA.C65_create
- GA.C65_irreg
- GA.C65_locate
- GA.C65_region
- GA.C65_region_cyclic
- GA.C65_region_illegal
- GA.C65_topology_reversed
- GA.C66_dgemm
- GA.C66_dgemm_refused
- GA.C66_matmul_patch
- GA.C66_matmul_patch_order_partial
- GA.C66_matmul_patch_order_wrong
- GA.C66_scale_cols_partial
- GA.C66_scale_rows_partial
- GA.C67_check_ignores_ld
- GA.C67_get
- GA.C67_get_given
- GA.C67_get_size_partial
- GA.C67_history
- GA.C67_memzero
- GA.C67_put
- GA.C67_put_checked_partial
- GA.C67_refused
- GA.C68_access
- GA.C68_gather_given_partial
- GA.C68_gather_partial
- GA.C68_scatter_partial
- GA.C69_accepted
- GA.C69_extent
- GA.C69_history_partial
- GA.C69_io_indep
- GA.C69_io_uniform
- GA.C69_not_nonuniform
- GA.C69_not_reopen_files
- GA.C69_not_seven_dims
- GA.C69_progress
- GA.C69_reopen
- GA.C70_blocks
- GA.C70_created
- GA.C70_fits
- GA.C71_add
- GA.C71_assemble_partial
- GA.C71_columns_partial
- GA.C71_fewer_elements
- GA.C71_rows_partial
- GA.C72_empty_process
- GA.C72_get_diag_partial
- GA.C72_history_partial
- GA.C72_matvec_partial
- GA.C72_progress_partial
- GA.C72_right_wide
- GA.C73_no_product
- GA.C73_product_partial
- GA.C73_unique
- GA.C74_elem
- GA.C74_from_dense_partial
- GA.C74_from_sparse_fortran
- GA.C74_from_sparse_partial
- GA.C74_from_sparse_tall
- GA.C74_get_column_partial
- GA.C74_round_trip_partial
- GA.C75_agree
- GA.C75_dnssprs_partial
- GA.C75_sprsdns_narrow
- GA.C75_sprsdns_partial
- GA.C75_sprsdns_wide
- GA.C76_not_compiled
- GA.C76_singular
- GA.C76_singular_reported_partial
- GA.C76_solve_partial
- GA.C76_trans
- GA.C76_trans_partial
- GA.C76_zero_column
- GA.C77_aligned
- GA.C77_disjoint
- GA.C77_free
- GA.C77_limit
- GA.C77_malloc
- GA.C77_reuse
- GA.C77_stats
- GA.C78_delete_partial
- GA.C78_length_partial
- GA.C78_length_reopened
- GA.C78_read
- GA.C78_read_succeeds
- GA.C78_write_succeeds
- GA.C79_c_interface
- GA.C79_counter
- GA.C79_progress
- GA.C79_reset_waits
- GA.C79_subset
- GA.C79_unique
- GA.C80_bound_info_partial
- GA.C80_bound_info_patch
- GA.C80_negative_missed
- GA.C80_patch
- GA.C80_step_max_int_partial
- GA.C80_step_max_partial
- GA.C80_step_max_same
- GA.C81_defined
- GA.C81_files_partial
- GA.C81_keep
- GA.C81_memory_partial
- GA.C82_copy_corner
- GA.C82_copy_exact
- GA.C82_copy_partial
- GA.C82_dot_corner
- GA.C82_dot_partial
- GA.C82_transpose_partial
- GA.C82_transpose_shape
- GA.C83_complex_sum
- GA.C83_history
- GA.C83_names_mpi
- GA.C83_names_partial
- GA.C83_single
- GA.C84_pieces_fit
- GA.C84_smp_bcast_partial
- GA.C85_accumulate_partial
- GA.C85_missed
- GA.C85_ranges
- GA.C85_same_length
- GA.C86_smp_reduce
- GA.C87_all_end
- GA.C87_bounded
- GA.C87_starvation
- GA.C88_answer
- GA.C88_barrier
- GA.C88_end
- GA.C88_fence
- GA.C88_memory
- GA.C88_no_deadlock
- GA.C88_order
- GA.C88_read_own
- GA.C88_wait
- GA.C89_destroy
- GA.C89_end
- GA.C89_fifo
- GA.C89_mutual_exclusion
- GA.C89_no_deadlock
- GA.C89_no_fault
- GA.C89_visible
- GA.C90_copy_from
- GA.C90_copy_to_partial
- GA.C90_distr_last_refused
- GA.C90_distr_partial
- GA.C90_merge_partial
- GA.C90_one_sided
- GA.C90_served
- GA.C91_async
- GA.C91_in_order
- GA.C91_issue_keeps
- GA.C91_wait_returns
- GA.C92_c_dimension_wrong
- GA.C92_c_mask_never
- GA.C92_dir_zero_width
- GA.C92_ghost_block
- GA.C92_ghost_block_local
- GA.C92_nbget_dir
- GA.C92_nbget_dir_served
- GA.C92_update_dir_partial
- GA.C92_update_nb
- GA.C92_update_nb_issues
- GA.C93_c_ld_off_by_one
- GA.C93_c_one_dimension_partial
- GA.C93_empty_field
- GA.C93_field_unchecked
- GA.C93_get_field
- GA.C93_history
- GA.C93_put_field
- GA.C93_round_trip
- GA.C93_served
- GA.C93_whole_element
- GA.C94_check_two_dimensions_partial
- GA.C94_history
- GA.C94_notify_after_data_partial
- GA.C94_slots
- GA.C94_three_dimensions_refused
- GA.C94_user_buffer
- GA.C94_wait
- GA.C95_disjoint
- GA.C95_history
- GA.C95_ma_history
- GA.C95_register_between
- GA.C96_label_all
- GA.C96_label_range
- GA.C96_maps
- GA.C96_missing_block
- GA.C96_sketch_partial
- GA.C97_history_partial
- GA.C97_memory
- GA.C97_offsets_partial
- GA.C97_overrun
- GA.C97_prefix_partial
- GA.C97_progress
- GA.C97_vector_again
- GA.C98_explicit
- GA.C98_last_fifteen
- GA.C98_other_procs
- GA.C98_overflow
- GA.C98_progress
- GA.C98_wait_all
- GA.C98_wait_proc
- GA.C98_waited
- GA.C99_piece
- GA.C99_pieces
- GA.C99_whole
- GA.Comex.C11_caller
- GA.Comex.C11_contiguous
- GA.Comex.C11_distinct
- GA.Comex.C11_fetch_value
- GA.Comex.C11_final_value
- GA.Comex.C11_once
- GA.Comex.C11_result
- GA.Comex.C11_value
- GA.Comex.C17_barrier
- GA.Comex.C17_effects_in_order
- GA.Comex.C17_fence
- GA.Comex.C17_fence_all
- GA.Comex.C17_memory
- GA.Comex.C17_no_deadlock
- GA.Comex.C17_no_protocol_error
- GA.Comex.C17_terminates
- GA.Comex.C18_blocking_get
- GA.Comex.C18_get_reads_memory
- GA.Comex.C18_own_effects_first
- GA.Comex.C18_read_own_write
- GA.Comex.C18_result
- GA.Comex.C18_wait
- GA.Groups.C25_communicator_order
- GA.Groups.C25_groups
- GA.Groups.C26_own_part
- GA.Groups.C26_parts
- GA.Handles.C23_handles
- GA.Handles.C23_reuse
- GA.Handles.C24_accounting_partial
- GA.Handles.C24_limit_live_fails
- GA.Handles.C24_replace_twice_fails
- GA.Handles.C47_all_or_none
- GA.MA.C29_all_returned_partial
- GA.MA.C29_freed_gone_partial
- GA.MA.C29_merged_partial
- GA.MA.C29_no_leak_partial
- GA.MA.C29_requested_alignment_partial
- GA.MA.C29_safe_fixed_alignment_partial
- GA.MA.C29_safe_no_piece_partial
- GA.MA.C29_safe_partial
- GA.MA.C29_top_partial
- GA.MA.C30_inquire_avail
- GA.MA.C30_inquire_avail_heap_max
- GA.MA.C50_heap_check_stack
- GA.MA.C50_heap_no_partition
- GA.MA.C50_stack_check_heap_partial
- GA.Mutex.C19_ack_for_waiter
- GA.Mutex.C19_mutual_exclusion
- GA.Mutex.C19_no_lost_request
- GA.Mutex.C20_second_lock_never_granted
- GA.Nb.C21_complete_stays
- GA.Nb.C21_issues
- GA.Nb.C21_no_error
- GA.Nb.C21_test
- GA.Nb.C21_test_progress
- GA.Nb.C21_wait
- GA.Req.C22_accounting
- GA.Req.C22_issue
- GA.Req.C22_issue_then_wait
- GA.Req.C22_log_grows
- GA.Req.C22_no_error
- GA.Req.C22_test
- GA.Req.C22_wait
- GA.Req.C22_wait_all
- GA.Sparse.C35_patch_enum_partial
- GA.Sparse.C36_distribution_independent_partial
- GA.Sparse.C36_scan_add_exclusive_partial
- GA.Sparse.C36_scan_add_inclusive_partial
- GA.Sparse.C36_scan_copy_partial
- GA.Sparse.C37_pack_partial
- GA.Sparse.C37_roundtrip_partial
- GA.Sparse.C37_unpack_partial
- GA.Sparse.tiles_ofArray
- GA.Types.C27_types

## propext, Quot.sound

- GA.C101_alive
- GA.C101_dies
- GA.C101_full
- GA.C101_overtakes
- GA.C101_overtakes_large
- GA.C101_promoted
- GA.C12_c64_vector
- GA.C12_c_subscripts
- GA.C33_narrow_never_finishes
- GA.C34_group_ignored
- GA.C35_add_same_array
- GA.C35_copy_refused
- GA.C42_backward_pieces
- GA.C42_forward_pieces
- GA.C43_first_entry_unchecked
- GA.C43_zero_blocks
- GA.C44_listed_allocates
- GA.C53_transpose_2d
- GA.C55_refused
- GA.C56_recip_int
- GA.C57_div_int
- GA.C65_ghost_dir_wrong
- GA.C65_nblock
- GA.C68_empty_element
- GA.C68_gather_size
- GA.C68_sum
- GA.C68_sum_wide_wrong
- GA.C70_requested
- GA.C72_right_narrow
- GA.C73_assoc
- GA.C74_empty_patch
- GA.C75_dnssprs_not_square
- GA.C76_dims
- GA.C77_shm_first
- GA.C77_shm_twice
- GA.C78_delete_last
- GA.C78_hole
- GA.C78_length_read
- GA.C78_truncate
- GA.C78_truncate_partial
- GA.C78_write_limit
- GA.C79_sequential
- GA.C80_int
- GA.C80_negative_partial
- GA.C81_aread
- GA.C81_awrite
- GA.C81_bounds
- GA.C84_deadlock
- GA.C86_bounded
- GA.C86_pieces_fit
- GA.C87_create
- GA.C87_exclusive
- GA.C87_low_ranks
- GA.C87_no_deadlock
- GA.C87_no_lost_wakeup
- GA.C88_needs_barrier
- GA.C89_needs_fence
- GA.C89_needs_order
- GA.C91_handles_partial
- GA.C91_lookup_overrun
- GA.C91_wait
- GA.C94_unknown_handle
- GA.C96_label_overflow
- GA.C96_maps_differ
- GA.C97_refused
- GA.Groups.C25_duplicate_wrong
- GA.Groups.C25_subgroup_rank_unchecked
- GA.MA.C29_alloc_block
- GA.MA.C29_heap_block_stable
- GA.MA.C29_piece_keeps_client
- GA.MA.C29_stack_block_stable
- GA.Mutex.C19_first_come_first_served
- GA.Mutex.C20_lock_exists_partial
- GA.Mutex.C20_not_distinct
- GA.Mutex.C20_one_lock_for_all
- GA.accUpdates_ngaAcc
