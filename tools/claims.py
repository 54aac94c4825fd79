c("C01", "proved", ["C01_unique_owner"], "REGULAR layout incl. irregular maps; groups/restriction in C44")
c("C02", "proved", ["C02_guess_irrelevant"])
c("C06", "proved", ["C06_storage"], "REGULAR layout incl. ghost widths; block-cyclic storage is part of C09")
c("C07", "proved", ["C07_shared_memory", "C07_rejects", "C07_frame"], "REGULAR layout; histories of put/acc followed by get, arbitrary per-call environments")
c("C08", "proved", ["C08_locate_region", "C08_iterator"], "REGULAR layout")
c("C10", "proved", ["C10_acc_order_independent", "accUpdates_ngaAcc"], "element-level interleavings, commutative exact arithmetic")
c("C45", "partial", ["C45_served_partial", "C45_oversize_crash"], "the full statement is false of the code: C45_oversize_crash is a legal 7-D request that divides by zero; the partial theorem covers all patches whose faces fit one message")
c("C15", "proved", ["C15_pack", "C15_pack_unpack", "C15_piece_put"], "C15_piece_put links packed messages to the transfers of the put model of C07")
c("C16", "proved", ["C16_iterator", "C16_rejects", "C16_roundtrip"])
c("C41", "proved", ["C41_brdcst"], "number of steps computed exactly instead of in double precision")
c("C42", "proved", ["C42_forward_pieces", "C42_backward_pieces", "C42_forward_delivery", "C42_backward_delivery", "C42_packed_put"])
c("C46", "partial", ["C46_pgroup_brdcst_partial", "C46_pgroup_brdcst_truncates"], "false of the code from 2 GiB on: (int)len truncates silently; the partial theorem covers shorter buffers")
c("C13","partial",["C13_sort_scat","C13_hsort","C13_sort_permutation","C13_sort_gath","C13_sort_scat_int_partial","C13_sort_scat_int_truncates"],"proved for every variant except int values; there keys and subscripts pass through an int temporary, and the claim is false from 2^31 on (witness C13_sort_scat_int_truncates)")
c("C28","proved",["C28_table"],"refinement of the handle table to a finite map over all histories")
c("C32","partial",["C32_get","C32_put","C32_acc","C32_served_partial","C32_far_below_fails","C32_wide_fails"],"every periodic request that returns is right; requests accepted by the width check but far below the array or wider than it can fail (two negative theorems)")
c("C31","proved",["C31_registry","C31_disjoint"],"assertions enabled (no NDEBUG); addresses are unbounded integers")
c("C23","proved",["Handles.C23_handles","Handles.C23_reuse","Handles.C23_unallocated_not_freed"],"refinement over all histories; allocation only for created handles, destroy only of numbers in range. Handles without memory (never allocated, or deallocated) are not destroyed: shown by C23_unallocated_not_freed")
c("C24","partial",["Handles.C24_accounting_partial","Handles.C24_replace_twice_fails","Handles.C24_limit_live_fails"],"proved for histories that impose the limit when no array is live and replace it at most once; false of the code otherwise (two negative theorems)")
c("C47","proved",["Handles.C47_all_or_none"],"same collective calls on all processes, per-process sizes and limits")
c("C19","proved",["Mutex.C19_mutual_exclusion","Mutex.C19_first_come_first_served","Mutex.C19_no_lost_request","Mutex.C19_ack_for_waiter"],"asynchronous model of processes, channels and servers; unlock only by a process that has the mutex")
c("C20","partial",["Mutex.C20_lock_exists_partial","Mutex.C20_one_lock_for_all","Mutex.C20_not_distinct","Mutex.C20_second_lock_never_granted"],"false of the code: all mutex numbers share one lock (num_mutexes is used instead of mutex); proved: the lock exists, aliasing, and that a process locking two mutexes waits for ever")
c("C27","proved",["Types.C27_types"],"refinement over all histories of register, deregister and query; deregistering a number beyond the table reads out of bounds (no upper check) and is excluded")
c("C25","partial",["Groups.C25_groups","Groups.C25_communicator_order","Groups.C25_subgroup_rank_unchecked","Groups.C25_duplicate_wrong"],"refinement over all histories of create, destroy, set_default, split, split_irreg and queries, including the pairwise construction of the communicator. False of the code: ranks beyond the default group are not rejected (memory is overwritten), and the copy made by GA_Pgroup_duplicate translates ranks wrongly; both shown. Group 0 is not asked for process numbers")
c("C26","proved",["Groups.C25_groups","Groups.C26_parts","Groups.C26_own_part"],"C25_groups covers GA_Pgroup_split and GA_Pgroup_split_irreg in all histories; C26_parts says what the parts are")
c("C05","partial",["C05_partition","C05_numbering","C05_processes_partial","C05_grid_too_large"],"partition and numbering proved for all arrays made by the creation calls; the walk over the blocks of each process is proved unless the process grid is larger than the number of blocks in a dimension, where the code fails (negative theorem)")
c("C09","partial",["C09_shared_memory_partial","C09_in_bounds_partial","C09_more_processes_than_blocks","C09_grid_too_large","C09_no_bounds_check"],"all four block-cyclic layouts, all histories; arrays with fewer blocks than processes (or a grid larger than the blocks) are excluded because the code writes to wrong memory there (negative theorems)")
c("C48","partial",["C48_access_block_partial","C48_range","C48_local_iterator_partial","C48_tiled_wrong_pointer","C48_tiled_wrong_pointer3"],"tiled arrays only on process grids of extent 2: the pointers are wrong on other grids (negative theorems)")
c("C03","proved",["C03_default_distribution"],"all dimensions, chunk hints and process counts; the floating point comparison of the decomposition is a free parameter")
c("C04","proved",["C04_process_grid"])
c("C49","proved",["C49_balanced"])
c("C43","partial",["C43_accepted_partial","C43_accepts_iff","C43_first_entry_unchecked","C43_zero_blocks","C43_too_many_blocks"],"acceptance implies a well-formed map only if the first entry of each dimension is 1, no block count is zero and there are enough processes: the code does not check these (negative theorems)")
c("C44","partial",["C44_restricted","C44_listed_allocates","C44_default_fits","C44_accepts","C44_range_nodup","C44_duplicate_process","C44_list_too_short"],"for lists of distinct processes that are as long as the number of blocks; the code accepts other lists and then fails (negative theorems)")
c("C34","partial",["C34_regular_partial","C34_block_partial","C34_duplicate","C34_default_strict","C34_empty_blocks","C34_empty_tiles","C34_group_ignored"],"equality implies the same owners for maps without empty blocks on the same group, which includes all default distributions; false otherwise (negative theorems)")
c("C17","proved",["Comex.C17_no_protocol_error","Comex.C17_memory","Comex.C17_effects_in_order","Comex.C17_fence","Comex.C17_fence_all","Comex.C17_barrier","Comex.C17_terminates","Comex.C17_no_deadlock"],"all interleavings of any number of processes and servers, contiguous transfers, both the message and the shared-memory path; also that every fence, wait and atomic operation returns")
c("C18","proved",["Comex.C18_own_effects_first","Comex.C18_get_reads_memory","Comex.C18_result","Comex.C18_wait","Comex.C18_read_own_write","Comex.C18_blocking_get"],"same model as C17; for a non-blocking get the value may also be changed by later calls of the same process, as the statement says")
c("C11","partial",["Comex.C11_fetch_value","Comex.C11_value","Comex.C11_result","Comex.C11_caller","Comex.C11_once","Comex.C11_contiguous","Comex.C11_distinct","Comex.C11_final_value","C11_read_inc","C11_read_inc_error","C11_read_inc_blocks_partial","C11_large_increment","C11_tiled_wrong_element"],"fetch-and-add in the communication layer for all schedules; the address computation of NGA_Read_inc for regular and block-cyclic arrays. Partial because the code truncates the increment to int (C11_large_increment) and uses the wrong address on some tiled arrays (C11_tiled_wrong_element)")
c("C22","proved",["Req.C22_no_error","Req.C22_accounting","Req.C22_issue","Req.C22_wait","Req.C22_test","Req.C22_wait_all","Req.C22_log_grows","Req.C22_issue_then_wait"],"for any number of slots, any history of issue/wait/test/wait-all calls and any answers of MPI: no assertion fails and no freed message is used; each message is processed exactly once; tests keep the incomplete ones in order and return 0 exactly when nothing is left; slots are recycled only after completion")
c("C21","proved",["Nb.C21_no_error","Nb.C21_issues","Nb.C21_wait","Nb.C21_test","Nb.C21_complete_stays","Nb.C21_test_progress"],"nbutil.c on top of the request slots of C22, for pools of any size up to 256, any history of operations, waits and tests (also with stale handles) and any answers of MPI")
c("C29","partial",["MA.C29_safe_partial","MA.C29_safe_fixed_alignment_partial","MA.C29_safe_no_piece_partial","MA.C29_alloc_block","MA.C29_push_block","MA.C29_heap_block_stable","MA.C29_stack_block_stable","MA.C29_freed_gone_partial","MA.C29_piece_keeps_client","MA.C29_no_leak_partial","MA.C29_merged_partial","MA.C29_top_partial","MA.C29_all_returned_partial","MA.C29_requested_alignment_partial","MA.C29_piece_after_numalign"],"Holds for all histories except those which give back a piece of a block after MA_set_numalign changed the alignment since the block was allocated; for those the property is false (C29_piece_after_numalign). Datatype sizes are powers of two.")
c("C30","proved",["MA.C30_inquire_avail","MA.C30_inquire_avail_heap_max"],"")
c("C50","partial",["MA.C50_heap_check_stack","MA.C50_heap_no_partition","MA.C50_stack_check_heap_partial","MA.C50_stack_check_heap_overpromises","MA.C50_heap_no_partition_not_largest"],"The heap inquiries are safe. The stack inquiry over-promises when the heap has overgrown the partition, and MA_inquire_heap_no_partition is not the largest piece: both are proved with concrete histories.")
c("C36","partial",["Sparse.C36_scan_copy_partial","Sparse.C36_scan_add_inclusive_partial","Sparse.C36_scan_add_exclusive_partial","Sparse.C36_distribution_independent_partial","Sparse.tiles_ofArray","Sparse.C36_empty_block_error"],"Proved for every distribution without empty blocks, every schedule, mask, range and content (exact arithmetic). Distributions with an empty block, which NGA_Create_irreg accepts, make the calls stop with an error (C36_empty_block_error). Block-cyclic layouts and processor groups are not modelled.")
c("C37","partial",["Sparse.C37_pack_partial","Sparse.C37_unpack_partial","Sparse.C37_roundtrip_partial","Sparse.tiles_ofArray","Sparse.C36_empty_block_error"],"As C36: every distribution without empty blocks.")
c("C38","partial",["Bin.C38_ranges_partial","Bin.C38_contents_partial","Bin.C38_history_partial","Bin.C38_first_call_partial","Bin.C38_second_call_overlaps","Bin.C38_second_chunk_overlaps"],"Proved for an odd number of processes and every history of calls, and for the first call with at most 2000 bins for every number of processes. The code violates the property otherwise: a stale work array gives overlapping or out-of-range ranges (proved with concrete calls).")
c("C35","partial",["C35_fill","C35_zero_partial","C35_scale_partial","C35_empty_block_error","Sparse.C35_patch_enum_partial","C35_copy_partial","C35_copy_refused","C35_copy_empty_block","C35_add_partial","C35_dot_partial","C35_add_same_array","C35_add_ghost_widths","C51_dot_ghost_widths"],"Fill, zero, scale, copy, add, dot and patch_enum for all distributions and interleavings; zero and scale end in an error when a block is empty in a dimension other than the first, copy when a tiled irregular array has an empty block (proved). add and dot: all combinations of distributions without empty blocks on one group; wrong for different ghost widths, undefined when both operands are the result (proved).")
c("C51","partial",["C51_fill_patch_partial","C51_scale_patch_partial","C51_in_bounds_partial","C51_add_patch_partial","C51_dot_patch_partial","C51_add_refused","C51_dot_refused","C51_add_ghost_widths","C51_dot_ghost_widths"],"fill_patch, zero_patch, scale_patch, add_patch, dot_patch; copy_patch is C53. add_patch and dot_patch access wrong cells when REGULAR arrays with different ghost widths are used at the same bounds (proved).")
c("C12","partial",["C12_gather_partial","C12_scatter_partial","C12_roundtrip_partial","C12_scatter_acc_partial","C12_bad_subscript","C12_c_subscripts","C12_c64_vector","C12_scatter64_wrong"],"gai_gatscat_new with its linked lists, any list of subscripts, regular and block-cyclic arrays. Partial: the 64-bit C entry points address the wrong elements of matrices (C12_scatter64_wrong), and tiled arrays with wrong block pointers (C48) are excluded by PtrOK")
c("C14","partial",["C14_served","C14_put_partial","C14_get_partial","C14_acc_partial","C14_3d_wrong_position","C14_group_wrong_process","C14_empty_tile"],"All patches and skips on one- and two-dimensional arrays (and patches thin in the higher dimensions), world group, no empty blocks; the code is wrong outside each of these three conditions, shown by the three negative theorems.")
c("C40","partial",["C40_same_results_partial","C40_padded_buffer","C40_large_subscripts"],"Any sequence of legal gets into buffers without gaps, regular and block-cyclic arrays, element count an int. The code violates the property for padded buffers and for subscripts beyond the range of int (both proved).")
c("C39","partial",["C39_value_partial","C39_subscript_partial","C39_served","C39_stale_index","C39_idle_process","C39_layouts","C39_empty_tile"],"value proved for any number of blocks per process when every process owns an element; subscript for at most two blocks per process. Negations: stale index with three blocks (wrong subscript, wrong complex value), process without elements contributes an uninitialised value, ghost cells and ScaLAPACK layout rejected, empty tile divides by zero")
c("C33","proved",["C33_update","C33_faces","C33_setup","C33_narrow_never_finishes","C33_corner_flag_ignored"],"GA_Update_ghosts on regular arrays over the world group, any dims, grid, widths, content, schedule and buffering; blocks at least as wide as the ghost width, as in the quantifier. Findings: the width check at allocation is off by one, and the corner flag set before allocation is overwritten.")
c("C52","proved",["C52_no_deadlock","C52_bounded","C52_completes"],"Same model as C33; sends may be buffered or wait for the receiver.")
c("C53","partial",["C53_copy_patch_partial","C53_same_place","C53_transpose_2d","C53_refused","C53_smaller_group_noop"],"All shapes and distributions; with a change of shape or transposition only when the destination group is not smaller than that of the source: otherwise the call moves nothing (proved).")
c("C54","partial",["C54_transpose_partial","C54_symmetrize_partial","C54_refused","C54_symmetrize_ghosts"],"Transpose for all regular and block-cyclic layouts without empty tiles in memory. Symmetrize without ghost cells and empty blocks; with ghost cells the code is wrong (proved).")
c("C55","partial",["C55_get_diag_partial","C55_add_diagonal_partial","C55_set_diagonal_partial","C55_shift_diagonal_partial","C55_zero_diagonal_partial","C55_zero_diagonal_wrong","C55_scale_rows_partial","C55_scale_cols_partial","C55_refused"],"All sound layouts, world group. GA_Zero_diagonal only if every block that meets the diagonal begins on it: otherwise it clears other elements (proved).")
c("C56","partial",["C56_unary_partial","C56_add_constant_partial","C56_abs_partial","C56_recip_partial","C56_recip_int","C56_recip_real","C56_recip_cpl","C56_abs_cpl"],"All layouts with sound pointers on the world group, any content and schedule. Missing: processor groups, overflow and rounding.")
c("C57","partial",["C57_elem_partial","C57_elem_all_partial","C57_multiply_partial","C57_max_min_partial","C57_divide_real_partial","C57_divide_int_partial","C57_divide_cpl_partial","C57_multiply_cpl_partial","C57_multiply_cpl_wrong","C57_refused","C57_div_int","C57_div_real","C57_div_cpl","C57_max_cpl","C57_min_cpl"],"All layouts, aliasings and schedules for integer and real types and complex quotient. Complex product only when no operand is the result and the first operand is distributed like the result: otherwise the imaginary part is wrong (proved in general). Missing: processor groups, overflow and rounding.")
c("C58","partial",["C58_median_patch_partial","C58_median_partial","C58_median3","C58_median_refused","C58_refused","C58_median_patch_outside"],"Negations: operands whose blocks all differ from those of the result are refused; a patch of block-cyclic arrays overwrites elements outside the patch. Missing: processor groups.")
c("C59","partial",["C59_norm1_partial","C59_norm_infinity_partial","C59_refused","C59_norm1_blocks","C59_norm_infinity_blocks"],"All arrays with at most one block per process. With more blocks only the last block of a process counts (negations proved).")
c("C60","partial",["C60_matmul","C60_matmul_returns_partial","C60_matmul_refused","C60_regular_endless","C60_group_wrong","C60_empty_inner_wrong"],"Result right for all algorithms, buffer sizes, patches, transposes and schedules when the call returns; returns unless a process has 1024 or more chunks of rows in the regular algorithm, where it never returns (proved). Missing: processor groups (negation), empty inner extent with beta 0 (negation), rounding, mirrored arrays, result equal to an operand.")
c("C61","partial",["C61_matmul_patch"],"Two dimensional arrays, both directions (result and refusal). Missing: more than two dimensions, processor groups, rounding.")
c("C62","partial",["C62_matmul_blocks_partial","C62_refused","C62_overflow","C62_patch_ignored","C62_operand_shifted"],"Whole result array, operand patches that begin at row or column 1, blocks not narrower than long. Negations for the rest: the patch is ignored, operands are read at the subscripts of the result, narrow blocks overflow a buffer, transposes are refused.")
c("C63","partial",["C63_tiled_irreg","C63_cyclic","C63_cyclic_partial","C63_cyclic_missing","C63_grid_partial","C63_grid_unclipped","C63_grid_number","C63_grid_number3","C63_nnodes_regular","C63_count_partial","C63_count_zero","C63_count_empty","C63_count_short"],"Full for irregular tiles and for the count of REGULAR arrays. Simple block-cyclic arrays: exact result; right unless a block surrounds the patch in a dimension. Process grids: right for patches of whole blocks of one dimensional arrays and two dimensional arrays with equal numbers of blocks; negations for the rest.")
c("C64","partial",["C64_shared_memory","C64_access_served","C64_rejects","C64_blocks_partial","C64_read_inc"],"Full for REGULAR arrays. Missing for block-cyclic arrays: fewer blocks than processes (as in C09), NGA_Access and NGA_Read_inc.")
c("C65","partial",["C65_locate","C65_create","C65_irreg","C65_region","C65_region_illegal","C65_region_cyclic", "C65_region_blocks","C65_nblock","C65_topology_reversed","C65_topology_wrong","C65_ghost_dir_wrong"],"Creation, distribution, owner, regions of REGULAR arrays and block counts proved. Negations: process coordinates and grid are returned in reversed order, illegal patches and block-cyclic arrays lead to undefined behaviour in NGA_Locate_region, ghost directions are shifted.")
c("C66","partial",["C66_matmul_patch","C66_dgemm","C66_dgemm_refused","C66_matmul_patch_order_partial","C66_matmul_patch_order_wrong","C66_scale_rows_partial","C66_scale_cols_partial"],"GA_Dgemm and NGA_Matmul_patch proved in the row view (limits as in C60, C61). GA_Matmul_patch multiplies in column order (negation).")
c("C67","partial",["C67_history","C67_get","C67_get_given","C67_put","C67_put_checked_partial","C67_get_size_partial","C67_memzero","C67_refused","C67_empty_block_refused","C67_check_ignores_ld","C67_size8_wrong"],"Full for arrays in which every process has elements. Negations: processes without elements are refused, a patch that spans an empty block aborts, the comparison of sizes ignores the leading dimension, 8-byte sizes are added wrongly.")
c("C68","partial",["C68_gather_partial","C68_gather_given_partial","C68_scatter_partial","C68_gather_size","C68_access","C68_sum","C68_empty_element","C68_sum_wide_wrong"],"Gather and scatter proved for elements with at least one byte. Negations: an element without bytes leads to a free of unset pointers; the sum of 4-byte sizes is wrong when Integer has 8 bytes.")
c("C69","partial",["C69_history_partial","C69_reopen","C69_accepted","C69_progress","C69_extent","C69_io_uniform","C69_io_indep","C69_not_seven_dims","C69_not_nonuniform","C69_not_reopen_files"],"Full for one request at a time on arrays with up to six dimensions and an I/O process for every rank. Negations: seven dimensions, nodes of different size, several files opened with fewer processes.")
c("C70","proved",["C70_blocks","C70_requested","C70_fits","C70_created"],"The two floating point computations are parameters with one inequality each.")
c("C71","partial",["C71_add","C71_rows_partial","C71_columns_partial","C71_assemble_partial","C71_fewer_elements","C71_one_block","C71_more_processes"],"Full for numbers of processes not larger than the dimensions. Negations: more processes than rows or columns, fewer elements than processes, elements in too few blocks.")
c("C72","partial",["C72_history_partial","C72_progress_partial","C72_right_wide","C72_right_narrow","C72_matvec_partial","C72_empty_process","C72_result_length","C72_complex","C72_get_diag_partial","C72_get_diag_empty","C72_get_diag_repeated"],"Full for real elements, processes that all have elements and square diagonals. Negations: right multiplication compares with the number of rows, products with empty processes, complex products, result length, diagonal blocks without elements.")
c("C73","partial",["C73_product_partial","C73_unique","C73_assoc","C73_no_product","C73_dims"],"Full for arrays on at most as many processes as rows and columns of which every process has a product; otherwise the call aborts, which is proved as a negation.")
c("C74","partial",["C74_elem","C74_from_dense_partial","C74_empty_patch","C74_ghost","C74_from_sparse_partial","C74_round_trip_partial","C74_from_sparse_fortran","C74_from_sparse_dims","C74_from_sparse_tall","C74_from_sparse_wide","C74_get_column_partial","C74_repeated"],"Full for dense arrays without ghost cells on all processes, and for square sparse arrays with at most one entry per position through C. Negations: ghost cells, empty patches, the Fortran interface, sparse arrays that are not square, repeated entries.")
c("C75","partial",["C75_sprsdns_partial","C75_sprsdns_wide","C75_sprsdns_narrow","C75_sprsdns_dims","C75_dnssprs_partial","C75_dnssprs_not_square","C75_agree"],"Full through C when the second operand is square. Negations: a second operand with more columns than rows loses columns, with fewer columns aborts (dense), any other shape aborts (sparse).")
c("C76","partial",["C76_solve_partial","C76_singular","C76_singular_reported_partial","C76_dims","C76_trans_partial","C76_not_compiled","C76_zero_column","C76_trans"],"Full over an ordered field for builds in which the loops of the vector operations are compiled, except for the transposed equations and the report of a first column of zeros. Negations: the distribution compiles neither loop; a first column of zeros; transposed equations. Rounding is not modelled.")
c("C77","proved",["C77_disjoint","C77_aligned","C77_malloc","C77_free","C77_stats","C77_reuse","C77_limit","C77_shm_twice","C77_shm_first"],"For the allocator of local memory and any history, given that the system never gives memory twice. Negations: the limit is compared only before memory is obtained; the variant for shared memory (of which only the search is modelled) gives out the same block twice.")
c("C78","partial",["C78_read","C78_read_succeeds","C78_write_succeeds","C78_write_limit","C78_length_partial","C78_delete_partial","C78_truncate_partial","C78_length_reopened","C78_length_read","C78_hole","C78_truncate","C78_delete_last"],"Reading and writing: proved for any history, any answers of the system and any size of extents. Length, truncation and deletion: proved for one session, one extent and at most 127 extents; negations beyond that.")
c("C79","partial",["C79_counter","C79_unique","C79_reset_waits","C79_progress","C79_sequential","C79_subset","C79_c_interface"],"For any number of processes and any schedule if all processes reset together. Negations: resets by a part of the processes never return; the C interface with four byte Fortran integers returns an uninitialised upper half.")
c("C80","partial",["C80_step_max_partial","C80_step_max_int_partial","C80_step_max_same","C80_negative_partial","C80_bound_info_partial","C80_int","C80_patch","C80_bound_info_patch","C80_negative_missed"],"Proved for whole arrays: GA_Step_max over any ordered field, GA_Step_bound_info over fields and integers, any distribution. Negations: integers, patches, negative elements in block-cyclic arrays. Rounding is not modelled.")
c("C81","partial",["C81_files_partial","C81_defined","C81_keep","C81_memory_partial","C81_reopen","C81_delete","C81_aread","C81_awrite","C81_bounds","C81_probe"],"Proved for every program that does not reopen a memory file while a smaller descriptor is unused, does not delete a memory file beyond the counter of open files and uses asynchronous calls for files on disk only. Negations for each of these, for reads across the end of a memory file, and for EAF_Probe and EAF_Wait.")
c("C82","partial",["C82_copy_exact", "C82_copy_partial", "C82_transpose_partial", "C82_dot_partial", "C82_copy_corner", "C82_dot_corner", "C82_transpose_shape"],"Proved for patches whose first row and column are the first ones of every block they meet, any partition into blocks and any order of processes; transposes also need a square patch. Negations for all other cases; C82_copy_exact says what is copied instead.")
c("C83","partial",["C83_history", "C83_names_partial", "C83_single", "C83_names_mpi", "C83_complex_sum", "C83_complex_product"],"C83_history: every history of broadcasts and global operations in the world and in overlapping groups, every schedule and buffering: no deadlock, and the memories are those of the operations. Missing: the path through shared memory within a node, floating point rounding, overflow. C83_single and C83_complex_product prove where the code disagrees with the names of the operations.")
c("C84","partial",["C84_smp_bcast_partial", "C84_pieces_fit", "C84_deadlock"],"Every number of processes, all calls of any lengths and senders, every schedule of single accesses to shared memory; missing: calls whose first two senders differ, for which C84_deadlock gives a schedule that ends in a deadlock. Weak memory models and the missing barrier after the initialisation of the flags are not modelled.")
c("C85","partial",["C85_accumulate_partial", "C85_same_length", "C85_ranges", "C85_missed", "C85_lost_update"],"Any number of processes, all programs of accumulates, every schedule of single accesses to lock, table and memory; missing: programs in which a range goes beyond a range of another process on both sides (in cache lines), for which C85_lost_update gives a schedule that loses an update. Weak memory models are not modelled, values are integers.")
c("C86","proved",["C86_smp_reduce", "C86_bounded", "C86_pieces_fit"],"Every number of processes of a node, all histories of reductions with commutative and associative operations, every schedule of single accesses to flags and buffers. Memory is sequentially consistent, reading an element of a child and writing the result is one step.")
c("C87","proved",["C87_exclusive", "C87_no_lost_wakeup", "C87_all_end", "C87_no_deadlock", "C87_low_ranks", "C87_starvation", "C87_bounded", "C87_create"],"Every number of processes and mutexes, all correct programs, every schedule of single window accesses and messages. All calls return if mutexes are locked in order and every process runs again and again. Processes 0 and 1 are overtaken at most once and twice; every other process can be overtaken any number of times (proved). An exclusive access epoch is one step; messages are buffered.")
c("C88","proved",["C88_order", "C88_memory", "C88_answer", "C88_read_own", "C88_wait", "C88_fence", "C88_barrier", "C88_no_deadlock", "C88_end", "C88_needs_barrier"],"Every number of processes, all programs of puts, accumulates, gets, read-modify-writes, waits, fences and barriers of the world group, memory of any type, every schedule of single sends and receipts. The end needs that all processes end with a barrier and call it equally often. Sends are buffered; addresses, lengths and subgroups are not in the model.")
c("C89","proved",["C89_mutual_exclusion", "C89_no_fault", "C89_fifo", "C89_visible", "C89_destroy", "C89_no_deadlock", "C89_end", "C89_needs_fence", "C89_create_race", "C89_needs_order"],"Every number of processes and mutexes, all programs that create mutexes, synchronise, lock and unlock them properly, update memory, and destroy them; every schedule of single sends, receipts and passes over the list of requests. No deadlock and termination need a common order of mutexes (C89_needs_order). C89_needs_fence and C89_create_race show what the calls do not give. Sends are buffered and the barrier is one message for each pair of processes.")
c("C90","partial",["C90_one_sided", "C90_served", "C90_merge_partial", "C90_distr_partial", "C90_distr_last_refused", "C90_copy_to_partial", "C90_copy_from", "C90_merge_mixed_nodes", "C90_merge_ghosts", "C90_distr_empty_block", "C90_distr_zero_accepted"],"One-sided calls, the merge into a distributed array and the copy from a mirrored array: every cluster, with ghost cells or without. The merge and the copy to a mirrored array: nodes with equal numbers of processes, no ghost cells. The code breaks the full statement: C90_merge_mixed_nodes, C90_merge_ghosts, C90_distr_last_refused, C90_distr_empty_block, C90_distr_zero_accepted.")
c("C91","partial",["C91_in_order", "C91_never_blocks", "C91_lookup_overrun", "C91_async", "C91_wait", "C91_issue_keeps", "C91_wait_returns", "C91_failure_not_reported", "C91_conflict", "C91_handles_partial", "C91_suffix_shared", "C91_destroy_closed"],"Order of requests, waits and ids: every run of any number of processes, every order of byte transfers, for the program as it is built and for one that marks its table of requests free. Handles: histories without sf_create_suffix. The code breaks the full statement: C91_lookup_overrun, C91_failure_not_reported, C91_suffix_shared, C91_destroy_closed.")
c("C92","partial",["C92_update_nb", "C92_update_nb_issues", "C92_update_dir_partial", "C92_dir_zero_width", "C92_nbget_dir", "C92_nbget_dir_served", "C92_ghost_block", "C92_ghost_block_local", "C92_c_mask_never", "C92_c_dimension_wrong", "C92_thin_not_refused"],"All ghost cells, one direction in Fortran order and patches with ghost cells: every order and interleaving of the element copies of all processes. The code breaks the full statement: C92_dir_zero_width, C92_c_mask_never, C92_c_dimension_wrong, C92_thin_not_refused. REGULAR arrays on the world group; synchronisation inside the calls is not modelled.")
c("C93","partial",["C93_put_field", "C93_get_field", "C93_whole_element", "C93_served", "C93_history", "C93_round_trip", "C93_c_one_dimension_partial", "C93_c_ld_off_by_one", "C93_c_wrong_bytes", "C93_field_unchecked", "C93_put_unchecked", "C93_empty_field"],"Fortran order: puts, gets and histories, for every distribution, field and leading dimension. The code breaks the full statement: the C interface adds one to the leading dimensions (C93_c_ld_off_by_one, C93_c_wrong_bytes), fields are not checked (C93_field_unchecked, C93_put_unchecked), empty fields divide by zero (C93_empty_field). REGULAR arrays.")
c("C94","partial",["C94_history", "C94_wait", "C94_notify_after_data_partial", "C94_data_late", "C94_user_buffer", "C94_buffer_changed", "C94_check_two_dimensions_partial", "C94_three_dimensions_refused", "C94_unknown_handle", "C94_handle_twice", "C94_slots"],"Histories, waits and slots: all orders of delivery that keep the order of transfers to one process. The code breaks the full statement: notifications overtake data of other owners (C94_data_late), the buffer is changed (C94_user_buffer, C94_buffer_changed), correct requests on three dimensions are refused (C94_three_dimensions_refused), waits for unknown handles return at once (C94_unknown_handle). REGULAR arrays, one calling process.")
c("C95","proved",["C95_history", "C95_ma_history", "C95_disjoint", "C95_refused", "C95_no_memory", "C95_ma_not_last", "C95_register_between"],"All histories of allocations, writes and releases, with the registered functions and with MA (last one first, as MA demands). C95_ma_not_last and C95_register_between show what lies outside the statement: other orders with MA, and registering while a buffer is in use. Addresses are unbounded integers.")
c("C96","partial",["C96_sketch_partial", "C96_missing_block", "C96_too_many", "C96_label_range", "C96_label_all", "C96_label_overflow", "C96_maps", "C96_maps_differ"],"The sketch is right for matrices where every process has its elements in the first blocks of columns. C96_missing_block, C96_label_overflow and C96_maps_differ are the negations: for every other matrix, for the largest random number and for indices of four bytes on four or more processes the code fails. Labels and weights are inputs.")
c("C97","partial",["C97_history_partial", "C97_prefix_partial", "C97_memory", "C97_progress", "C97_refused", "C97_overrun", "C97_vector_again", "C97_offsets_partial", "C97_three_levels"],"Histories of contiguous and strided calls and waits under any number of handles are exact for strided calls with at most 512 segments (or a multiple of 256) and at most two stride levels. C97_overrun, C97_vector_again and C97_three_levels are the negations: for the other strided calls and for a second vector of the same size the code transfers other segments than asked for.")
c("C98","partial",["C98_waited", "C98_wait_all", "C98_wait_proc", "C98_explicit", "C98_other_procs", "C98_last_fifteen", "C98_progress", "C98_overflow"],"All statements hold for every history; C98_overflow is the negation of unrestricted progress: the signed counter of requests is reset only by a wait for all. Waiting for one handle is taken to complete its request (the device layer is not modelled), tags do not wrap around.")
c("C99","proved",["C99_pieces", "C99_whole", "C99_piece", "C99_empty_piece"],"For every strided region and every way of cutting the message into pieces that are not empty. How the arrival of pieces is noticed: C100.")
c("C100","partial",["C100_look", "C100_taken", "C100_pieces", "C100_get", "C100_damaged", "C100_short"],"Proved for lengths in whole words and descriptors below 1024 bytes. The full statement is false of the code for other lengths: C100_damaged (a damaged last stamp makes the first look report everything) and C100_short (the stamp goes into the request header). Assumed of the network: bytes arrive in order, the last word at once, the acknowledgement after all of them.")
c("C101","partial",["C101_order", "C101_all", "C101_others", "C101_once", "C101_promoted", "C101_alive", "C101_stops_iff", "C101_drains", "C101_full", "C101_overtakes", "C101_overtakes_large", "C101_dies"],"Order is proved for all requests but accumulates (C101_order, C101_others), exactly-once for all, freedom from failure and from deadlock (C101_drains) for clients without gets that need a buffer, and exactly when the server stops (C101_stops_iff). The full statement is false of the code: accumulates overtake puts (C101_overtakes, C101_overtakes_large) and a put received behind a get stops the server (C101_dies). Default ordering rule; descriptors fit into the immediate buffer.")
c("C102","proved",["C102_get", "C102_release", "C102_count", "C102_double"],"For every history in which only held buffers are given back. C102_double shows what wrong use leads to. Memory allocation does not fail; calls do not overlap (they hold a lock).")
