{
 "claims": [
  {
   "property": "C01",
   "status": "proved",
   "theorems": [
    "GA.C01_unique_owner"
   ],
   "note": "REGULAR layout incl. irregular maps; groups/restriction in C44"
  },
  {
   "property": "C02",
   "status": "proved",
   "theorems": [
    "GA.C02_guess_irrelevant"
   ],
   "note": ""
  },
  {
   "property": "C03",
   "status": "proved",
   "theorems": [
    "GA.C03_default_distribution"
   ],
   "note": "all dimensions, chunk hints and process counts; the floating point comparison of the decomposition is a free parameter"
  },
  {
   "property": "C04",
   "status": "proved",
   "theorems": [
    "GA.C04_process_grid"
   ],
   "note": ""
  },
  {
   "property": "C05",
   "status": "partial",
   "theorems": [
    "GA.C05_partition",
    "GA.C05_numbering",
    "GA.C05_processes_partial",
    "GA.C05_grid_too_large"
   ],
   "note": "partition and numbering proved for all arrays made by the creation calls; the walk over the blocks of each process is proved unless the process grid is larger than the number of blocks in a dimension, where the code fails (negative theorem)"
  },
  {
   "property": "C06",
   "status": "proved",
   "theorems": [
    "GA.C06_storage"
   ],
   "note": "REGULAR layout incl. ghost widths; block-cyclic storage is part of C09"
  },
  {
   "property": "C07",
   "status": "proved",
   "theorems": [
    "GA.C07_shared_memory",
    "GA.C07_rejects",
    "GA.C07_frame"
   ],
   "note": "REGULAR layout; histories of put/acc followed by get, arbitrary per-call environments"
  },
  {
   "property": "C08",
   "status": "proved",
   "theorems": [
    "GA.C08_locate_region",
    "GA.C08_iterator"
   ],
   "note": "REGULAR layout"
  },
  {
   "property": "C09",
   "status": "partial",
   "theorems": [
    "GA.C09_shared_memory_partial",
    "GA.C09_in_bounds_partial",
    "GA.C09_more_processes_than_blocks",
    "GA.C09_grid_too_large",
    "GA.C09_no_bounds_check"
   ],
   "note": "all four block-cyclic layouts, all histories; arrays with fewer blocks than processes (or a grid larger than the blocks) are excluded because the code writes to wrong memory there (negative theorems)"
  },
  {
   "property": "C10",
   "status": "proved",
   "theorems": [
    "GA.C10_acc_order_independent",
    "GA.accUpdates_ngaAcc"
   ],
   "note": "element-level interleavings, commutative exact arithmetic"
  },
  {
   "property": "C100",
   "status": "partial",
   "theorems": [
    "GA.C100_look",
    "GA.C100_taken",
    "GA.C100_pieces",
    "GA.C100_get",
    "GA.C100_damaged",
    "GA.C100_short"
   ],
   "note": "Proved for lengths in whole words and descriptors below 1024 bytes. The full statement is false of the code for other lengths: C100_damaged (a damaged last stamp makes the first look report everything) and C100_short (the stamp goes into the request header). Assumed of the network: bytes arrive in order, the last word at once, the acknowledgement after all of them."
  },
  {
   "property": "C101",
   "status": "partial",
   "theorems": [
    "GA.C101_order",
    "GA.C101_all",
    "GA.C101_others",
    "GA.C101_once",
    "GA.C101_promoted",
    "GA.C101_alive",
    "GA.C101_stops_iff",
    "GA.C101_drains",
    "GA.C101_full",
    "GA.C101_overtakes",
    "GA.C101_overtakes_large",
    "GA.C101_dies"
   ],
   "note": "Order is proved for all requests but accumulates (C101_order, C101_others), exactly-once for all, freedom from failure and from deadlock (C101_drains) for clients without gets that need a buffer, and exactly when the server stops (C101_stops_iff). The full statement is false of the code: accumulates overtake puts (C101_overtakes, C101_overtakes_large) and a put received behind a get stops the server (C101_dies). Default ordering rule; descriptors fit into the immediate buffer."
  },
  {
   "property": "C102",
   "status": "proved",
   "theorems": [
    "GA.C102_get",
    "GA.C102_release",
    "GA.C102_count",
    "GA.C102_double"
   ],
   "note": "For every history in which only held buffers are given back. C102_double shows what wrong use leads to. Memory allocation does not fail; calls do not overlap (they hold a lock)."
  },
  {
   "property": "C11",
   "status": "partial",
   "theorems": [
    "GA.Comex.C11_fetch_value",
    "GA.Comex.C11_value",
    "GA.Comex.C11_result",
    "GA.Comex.C11_caller",
    "GA.Comex.C11_once",
    "GA.Comex.C11_contiguous",
    "GA.Comex.C11_distinct",
    "GA.Comex.C11_final_value",
    "GA.C11_read_inc",
    "GA.C11_read_inc_error",
    "GA.C11_read_inc_blocks_partial",
    "GA.C11_large_increment",
    "GA.C11_tiled_wrong_element"
   ],
   "note": "fetch-and-add in the communication layer for all schedules; the address computation of NGA_Read_inc for regular and block-cyclic arrays. Partial because the code truncates the increment to int (C11_large_increment) and uses the wrong address on some tiled arrays (C11_tiled_wrong_element)"
  },
  {
   "property": "C12",
   "status": "partial",
   "theorems": [
    "GA.C12_gather_partial",
    "GA.C12_scatter_partial",
    "GA.C12_roundtrip_partial",
    "GA.C12_scatter_acc_partial",
    "GA.C12_bad_subscript",
    "GA.C12_c_subscripts",
    "GA.C12_c64_vector",
    "GA.C12_scatter64_wrong"
   ],
   "note": "gai_gatscat_new with its linked lists, any list of subscripts, regular and block-cyclic arrays. Partial: the 64-bit C entry points address the wrong elements of matrices (C12_scatter64_wrong), and tiled arrays with wrong block pointers (C48) are excluded by PtrOK"
  },
  {
   "property": "C13",
   "status": "partial",
   "theorems": [
    "GA.C13_sort_scat",
    "GA.C13_hsort",
    "GA.C13_sort_permutation",
    "GA.C13_sort_gath",
    "GA.C13_sort_scat_int_partial",
    "GA.C13_sort_scat_int_truncates"
   ],
   "note": "proved for every variant except int values; there keys and subscripts pass through an int temporary, and the claim is false from 2^31 on (witness C13_sort_scat_int_truncates)"
  },
  {
   "property": "C14",
   "status": "partial",
   "theorems": [
    "GA.C14_served",
    "GA.C14_put_partial",
    "GA.C14_get_partial",
    "GA.C14_acc_partial",
    "GA.C14_3d_wrong_position",
    "GA.C14_group_wrong_process",
    "GA.C14_empty_tile"
   ],
   "note": "All patches and skips on one- and two-dimensional arrays (and patches thin in the higher dimensions), world group, no empty blocks; the code is wrong outside each of these three conditions, shown by the three negative theorems."
  },
  {
   "property": "C15",
   "status": "proved",
   "theorems": [
    "GA.C15_pack",
    "GA.C15_pack_unpack",
    "GA.C15_piece_put"
   ],
   "note": "C15_piece_put links packed messages to the transfers of the put model of C07"
  },
  {
   "property": "C16",
   "status": "proved",
   "theorems": [
    "GA.C16_iterator",
    "GA.C16_rejects",
    "GA.C16_roundtrip"
   ],
   "note": ""
  },
  {
   "property": "C17",
   "status": "proved",
   "theorems": [
    "GA.Comex.C17_no_protocol_error",
    "GA.Comex.C17_memory",
    "GA.Comex.C17_effects_in_order",
    "GA.Comex.C17_fence",
    "GA.Comex.C17_fence_all",
    "GA.Comex.C17_barrier",
    "GA.Comex.C17_terminates",
    "GA.Comex.C17_no_deadlock"
   ],
   "note": "all interleavings of any number of processes and servers, contiguous transfers, both the message and the shared-memory path; also that every fence, wait and atomic operation returns"
  },
  {
   "property": "C18",
   "status": "proved",
   "theorems": [
    "GA.Comex.C18_own_effects_first",
    "GA.Comex.C18_get_reads_memory",
    "GA.Comex.C18_result",
    "GA.Comex.C18_wait",
    "GA.Comex.C18_read_own_write",
    "GA.Comex.C18_blocking_get"
   ],
   "note": "same model as C17; for a non-blocking get the value may also be changed by later calls of the same process, as the statement says"
  },
  {
   "property": "C19",
   "status": "proved",
   "theorems": [
    "GA.Mutex.C19_mutual_exclusion",
    "GA.Mutex.C19_first_come_first_served",
    "GA.Mutex.C19_no_lost_request",
    "GA.Mutex.C19_ack_for_waiter"
   ],
   "note": "asynchronous model of processes, channels and servers; unlock only by a process that has the mutex"
  },
  {
   "property": "C20",
   "status": "partial",
   "theorems": [
    "GA.Mutex.C20_lock_exists_partial",
    "GA.Mutex.C20_one_lock_for_all",
    "GA.Mutex.C20_not_distinct",
    "GA.Mutex.C20_second_lock_never_granted"
   ],
   "note": "false of the code: all mutex numbers share one lock (num_mutexes is used instead of mutex); proved: the lock exists, aliasing, and that a process locking two mutexes waits for ever"
  },
  {
   "property": "C21",
   "status": "proved",
   "theorems": [
    "GA.Nb.C21_no_error",
    "GA.Nb.C21_issues",
    "GA.Nb.C21_wait",
    "GA.Nb.C21_test",
    "GA.Nb.C21_complete_stays",
    "GA.Nb.C21_test_progress"
   ],
   "note": "nbutil.c on top of the request slots of C22, for pools of any size up to 256, any history of operations, waits and tests (also with stale handles) and any answers of MPI"
  },
  {
   "property": "C22",
   "status": "proved",
   "theorems": [
    "GA.Req.C22_no_error",
    "GA.Req.C22_accounting",
    "GA.Req.C22_issue",
    "GA.Req.C22_wait",
    "GA.Req.C22_test",
    "GA.Req.C22_wait_all",
    "GA.Req.C22_log_grows",
    "GA.Req.C22_issue_then_wait"
   ],
   "note": "for any number of slots, any history of issue/wait/test/wait-all calls and any answers of MPI: no assertion fails and no freed message is used; each message is processed exactly once; tests keep the incomplete ones in order and return 0 exactly when nothing is left; slots are recycled only after completion"
  },
  {
   "property": "C23",
   "status": "proved",
   "theorems": [
    "GA.Handles.C23_handles",
    "GA.Handles.C23_reuse",
    "GA.Handles.C23_unallocated_not_freed"
   ],
   "note": "refinement over all histories; allocation only for created handles, destroy only of numbers in range. Handles without memory (never allocated, or deallocated) are not destroyed: shown by C23_unallocated_not_freed"
  },
  {
   "property": "C24",
   "status": "partial",
   "theorems": [
    "GA.Handles.C24_accounting_partial",
    "GA.Handles.C24_replace_twice_fails",
    "GA.Handles.C24_limit_live_fails"
   ],
   "note": "proved for histories that impose the limit when no array is live and replace it at most once; false of the code otherwise (two negative theorems)"
  },
  {
   "property": "C25",
   "status": "partial",
   "theorems": [
    "GA.Groups.C25_groups",
    "GA.Groups.C25_communicator_order",
    "GA.Groups.C25_subgroup_rank_unchecked",
    "GA.Groups.C25_duplicate_wrong"
   ],
   "note": "refinement over all histories of create, destroy, set_default, split, split_irreg and queries, including the pairwise construction of the communicator. False of the code: ranks beyond the default group are not rejected (memory is overwritten), and the copy made by GA_Pgroup_duplicate translates ranks wrongly; both shown. Group 0 is not asked for process numbers"
  },
  {
   "property": "C26",
   "status": "proved",
   "theorems": [
    "GA.Groups.C25_groups",
    "GA.Groups.C26_parts",
    "GA.Groups.C26_own_part"
   ],
   "note": "C25_groups covers GA_Pgroup_split and GA_Pgroup_split_irreg in all histories; C26_parts says what the parts are"
  },
  {
   "property": "C27",
   "status": "proved",
   "theorems": [
    "GA.Types.C27_types"
   ],
   "note": "refinement over all histories of register, deregister and query; deregistering a number beyond the table reads out of bounds (no upper check) and is excluded"
  },
  {
   "property": "C28",
   "status": "proved",
   "theorems": [
    "GA.C28_table"
   ],
   "note": "refinement of the handle table to a finite map over all histories"
  },
  {
   "property": "C29",
   "status": "partial",
   "theorems": [
    "GA.MA.C29_safe_partial",
    "GA.MA.C29_safe_fixed_alignment_partial",
    "GA.MA.C29_safe_no_piece_partial",
    "GA.MA.C29_alloc_block",
    "GA.MA.C29_push_block",
    "GA.MA.C29_heap_block_stable",
    "GA.MA.C29_stack_block_stable",
    "GA.MA.C29_freed_gone_partial",
    "GA.MA.C29_piece_keeps_client",
    "GA.MA.C29_no_leak_partial",
    "GA.MA.C29_merged_partial",
    "GA.MA.C29_top_partial",
    "GA.MA.C29_all_returned_partial",
    "GA.MA.C29_requested_alignment_partial",
    "GA.MA.C29_piece_after_numalign"
   ],
   "note": "Holds for all histories except those which give back a piece of a block after MA_set_numalign changed the alignment since the block was allocated; for those the property is false (C29_piece_after_numalign). Datatype sizes are powers of two."
  },
  {
   "property": "C30",
   "status": "proved",
   "theorems": [
    "GA.MA.C30_inquire_avail",
    "GA.MA.C30_inquire_avail_heap_max"
   ],
   "note": ""
  },
  {
   "property": "C31",
   "status": "proved",
   "theorems": [
    "GA.C31_registry",
    "GA.C31_disjoint"
   ],
   "note": "assertions enabled (no NDEBUG); addresses are unbounded integers"
  },
  {
   "property": "C32",
   "status": "partial",
   "theorems": [
    "GA.C32_get",
    "GA.C32_put",
    "GA.C32_acc",
    "GA.C32_served_partial",
    "GA.C32_far_below_fails",
    "GA.C32_wide_fails"
   ],
   "note": "every periodic request that returns is right; requests accepted by the width check but far below the array or wider than it can fail (two negative theorems)"
  },
  {
   "property": "C33",
   "status": "proved",
   "theorems": [
    "GA.C33_update",
    "GA.C33_faces",
    "GA.C33_setup",
    "GA.C33_narrow_never_finishes",
    "GA.C33_corner_flag_ignored"
   ],
   "note": "GA_Update_ghosts on regular arrays over the world group, any dims, grid, widths, content, schedule and buffering; blocks at least as wide as the ghost width, as in the quantifier. Findings: the width check at allocation is off by one, and the corner flag set before allocation is overwritten."
  },
  {
   "property": "C34",
   "status": "partial",
   "theorems": [
    "GA.C34_regular_partial",
    "GA.C34_block_partial",
    "GA.C34_duplicate",
    "GA.C34_default_strict",
    "GA.C34_empty_blocks",
    "GA.C34_empty_tiles",
    "GA.C34_group_ignored"
   ],
   "note": "equality implies the same owners for maps without empty blocks on the same group, which includes all default distributions; false otherwise (negative theorems)"
  },
  {
   "property": "C35",
   "status": "partial",
   "theorems": [
    "GA.C35_fill",
    "GA.C35_zero_partial",
    "GA.C35_scale_partial",
    "GA.C35_empty_block_error",
    "GA.Sparse.C35_patch_enum_partial",
    "GA.C35_copy_partial",
    "GA.C35_copy_refused",
    "GA.C35_copy_empty_block",
    "GA.C35_add_partial",
    "GA.C35_dot_partial",
    "GA.C35_add_same_array",
    "GA.C35_add_ghost_widths",
    "GA.C51_dot_ghost_widths"
   ],
   "note": "Fill, zero, scale, copy, add, dot and patch_enum for all distributions and interleavings; zero and scale end in an error when a block is empty in a dimension other than the first, copy when a tiled irregular array has an empty block (proved). add and dot: all combinations of distributions without empty blocks on one group; wrong for different ghost widths, undefined when both operands are the result (proved)."
  },
  {
   "property": "C36",
   "status": "partial",
   "theorems": [
    "GA.Sparse.C36_scan_copy_partial",
    "GA.Sparse.C36_scan_add_inclusive_partial",
    "GA.Sparse.C36_scan_add_exclusive_partial",
    "GA.Sparse.C36_distribution_independent_partial",
    "GA.Sparse.tiles_ofArray",
    "GA.Sparse.C36_empty_block_error"
   ],
   "note": "Proved for every distribution without empty blocks, every schedule, mask, range and content (exact arithmetic). Distributions with an empty block, which NGA_Create_irreg accepts, make the calls stop with an error (C36_empty_block_error). Block-cyclic layouts and processor groups are not modelled."
  },
  {
   "property": "C37",
   "status": "partial",
   "theorems": [
    "GA.Sparse.C37_pack_partial",
    "GA.Sparse.C37_unpack_partial",
    "GA.Sparse.C37_roundtrip_partial",
    "GA.Sparse.tiles_ofArray",
    "GA.Sparse.C36_empty_block_error"
   ],
   "note": "As C36: every distribution without empty blocks."
  },
  {
   "property": "C38",
   "status": "partial",
   "theorems": [
    "GA.Bin.C38_ranges_partial",
    "GA.Bin.C38_contents_partial",
    "GA.Bin.C38_history_partial",
    "GA.Bin.C38_first_call_partial",
    "GA.Bin.C38_second_call_overlaps",
    "GA.Bin.C38_second_chunk_overlaps"
   ],
   "note": "Proved for an odd number of processes and every history of calls, and for the first call with at most 2000 bins for every number of processes. The code violates the property otherwise: a stale work array gives overlapping or out-of-range ranges (proved with concrete calls)."
  },
  {
   "property": "C39",
   "status": "partial",
   "theorems": [
    "GA.C39_value_partial",
    "GA.C39_subscript_partial",
    "GA.C39_served",
    "GA.C39_stale_index",
    "GA.C39_idle_process",
    "GA.C39_layouts",
    "GA.C39_empty_tile"
   ],
   "note": "value proved for any number of blocks per process when every process owns an element; subscript for at most two blocks per process. Negations: stale index with three blocks (wrong subscript, wrong complex value), process without elements contributes an uninitialised value, ghost cells and ScaLAPACK layout rejected, empty tile divides by zero"
  },
  {
   "property": "C40",
   "status": "partial",
   "theorems": [
    "GA.C40_same_results_partial",
    "GA.C40_padded_buffer",
    "GA.C40_large_subscripts"
   ],
   "note": "Any sequence of legal gets into buffers without gaps, regular and block-cyclic arrays, element count an int. The code violates the property for padded buffers and for subscripts beyond the range of int (both proved)."
  },
  {
   "property": "C41",
   "status": "proved",
   "theorems": [
    "GA.C41_brdcst"
   ],
   "note": "number of steps computed exactly instead of in double precision"
  },
  {
   "property": "C42",
   "status": "proved",
   "theorems": [
    "GA.C42_forward_pieces",
    "GA.C42_backward_pieces",
    "GA.C42_forward_delivery",
    "GA.C42_backward_delivery",
    "GA.C42_packed_put"
   ],
   "note": ""
  },
  {
   "property": "C43",
   "status": "partial",
   "theorems": [
    "GA.C43_accepted_partial",
    "GA.C43_accepts_iff",
    "GA.C43_first_entry_unchecked",
    "GA.C43_zero_blocks",
    "GA.C43_too_many_blocks"
   ],
   "note": "acceptance implies a well-formed map only if the first entry of each dimension is 1, no block count is zero and there are enough processes: the code does not check these (negative theorems)"
  },
  {
   "property": "C44",
   "status": "partial",
   "theorems": [
    "GA.C44_restricted",
    "GA.C44_listed_allocates",
    "GA.C44_default_fits",
    "GA.C44_accepts",
    "GA.C44_range_nodup",
    "GA.C44_duplicate_process",
    "GA.C44_list_too_short"
   ],
   "note": "for lists of distinct processes that are as long as the number of blocks; the code accepts other lists and then fails (negative theorems)"
  },
  {
   "property": "C45",
   "status": "partial",
   "theorems": [
    "GA.C45_served_partial",
    "GA.C45_oversize_crash"
   ],
   "note": "the full statement is false of the code: C45_oversize_crash is a legal 7-D request that divides by zero; the partial theorem covers all patches whose faces fit one message"
  },
  {
   "property": "C46",
   "status": "partial",
   "theorems": [
    "GA.C46_pgroup_brdcst_partial",
    "GA.C46_pgroup_brdcst_truncates"
   ],
   "note": "false of the code from 2 GiB on: (int)len truncates silently; the partial theorem covers shorter buffers"
  },
  {
   "property": "C47",
   "status": "proved",
   "theorems": [
    "GA.Handles.C47_all_or_none"
   ],
   "note": "same collective calls on all processes, per-process sizes and limits"
  },
  {
   "property": "C48",
   "status": "partial",
   "theorems": [
    "GA.C48_access_block_partial",
    "GA.C48_range",
    "GA.C48_local_iterator_partial",
    "GA.C48_tiled_wrong_pointer",
    "GA.C48_tiled_wrong_pointer3"
   ],
   "note": "tiled arrays only on process grids of extent 2: the pointers are wrong on other grids (negative theorems)"
  },
  {
   "property": "C49",
   "status": "proved",
   "theorems": [
    "GA.C49_balanced"
   ],
   "note": ""
  },
  {
   "property": "C50",
   "status": "partial",
   "theorems": [
    "GA.MA.C50_heap_check_stack",
    "GA.MA.C50_heap_no_partition",
    "GA.MA.C50_stack_check_heap_partial",
    "GA.MA.C50_stack_check_heap_overpromises",
    "GA.MA.C50_heap_no_partition_not_largest"
   ],
   "note": "The heap inquiries are safe. The stack inquiry over-promises when the heap has overgrown the partition, and MA_inquire_heap_no_partition is not the largest piece: both are proved with concrete histories."
  },
  {
   "property": "C51",
   "status": "partial",
   "theorems": [
    "GA.C51_fill_patch_partial",
    "GA.C51_scale_patch_partial",
    "GA.C51_in_bounds_partial",
    "GA.C51_add_patch_partial",
    "GA.C51_dot_patch_partial",
    "GA.C51_add_refused",
    "GA.C51_dot_refused",
    "GA.C51_add_ghost_widths",
    "GA.C51_dot_ghost_widths"
   ],
   "note": "fill_patch, zero_patch, scale_patch, add_patch, dot_patch; copy_patch is C53. add_patch and dot_patch access wrong cells when REGULAR arrays with different ghost widths are used at the same bounds (proved)."
  },
  {
   "property": "C52",
   "status": "proved",
   "theorems": [
    "GA.C52_no_deadlock",
    "GA.C52_bounded",
    "GA.C52_completes"
   ],
   "note": "Same model as C33; sends may be buffered or wait for the receiver."
  },
  {
   "property": "C53",
   "status": "partial",
   "theorems": [
    "GA.C53_copy_patch_partial",
    "GA.C53_same_place",
    "GA.C53_transpose_2d",
    "GA.C53_refused",
    "GA.C53_smaller_group_noop"
   ],
   "note": "All shapes and distributions; with a change of shape or transposition only when the destination group is not smaller than that of the source: otherwise the call moves nothing (proved)."
  },
  {
   "property": "C54",
   "status": "partial",
   "theorems": [
    "GA.C54_transpose_partial",
    "GA.C54_symmetrize_partial",
    "GA.C54_refused",
    "GA.C54_symmetrize_ghosts"
   ],
   "note": "Transpose for all regular and block-cyclic layouts without empty tiles in memory. Symmetrize without ghost cells and empty blocks; with ghost cells the code is wrong (proved)."
  },
  {
   "property": "C55",
   "status": "partial",
   "theorems": [
    "GA.C55_get_diag_partial",
    "GA.C55_add_diagonal_partial",
    "GA.C55_set_diagonal_partial",
    "GA.C55_shift_diagonal_partial",
    "GA.C55_zero_diagonal_partial",
    "GA.C55_zero_diagonal_wrong",
    "GA.C55_scale_rows_partial",
    "GA.C55_scale_cols_partial",
    "GA.C55_refused"
   ],
   "note": "All sound layouts, world group. GA_Zero_diagonal only if every block that meets the diagonal begins on it: otherwise it clears other elements (proved)."
  },
  {
   "property": "C56",
   "status": "partial",
   "theorems": [
    "GA.C56_unary_partial",
    "GA.C56_add_constant_partial",
    "GA.C56_abs_partial",
    "GA.C56_recip_partial",
    "GA.C56_recip_int",
    "GA.C56_recip_real",
    "GA.C56_recip_cpl",
    "GA.C56_abs_cpl"
   ],
   "note": "All layouts with sound pointers on the world group, any content and schedule. Missing: processor groups, overflow and rounding."
  },
  {
   "property": "C57",
   "status": "partial",
   "theorems": [
    "GA.C57_elem_partial",
    "GA.C57_elem_all_partial",
    "GA.C57_multiply_partial",
    "GA.C57_max_min_partial",
    "GA.C57_divide_real_partial",
    "GA.C57_divide_int_partial",
    "GA.C57_divide_cpl_partial",
    "GA.C57_multiply_cpl_partial",
    "GA.C57_multiply_cpl_wrong",
    "GA.C57_refused",
    "GA.C57_div_int",
    "GA.C57_div_real",
    "GA.C57_div_cpl",
    "GA.C57_max_cpl",
    "GA.C57_min_cpl"
   ],
   "note": "All layouts, aliasings and schedules for integer and real types and complex quotient. Complex product only when no operand is the result and the first operand is distributed like the result: otherwise the imaginary part is wrong (proved in general). Missing: processor groups, overflow and rounding."
  },
  {
   "property": "C58",
   "status": "partial",
   "theorems": [
    "GA.C58_median_patch_partial",
    "GA.C58_median_partial",
    "GA.C58_median3",
    "GA.C58_median_refused",
    "GA.C58_refused",
    "GA.C58_median_patch_outside"
   ],
   "note": "Negations: operands whose blocks all differ from those of the result are refused; a patch of block-cyclic arrays overwrites elements outside the patch. Missing: processor groups."
  },
  {
   "property": "C59",
   "status": "partial",
   "theorems": [
    "GA.C59_norm1_partial",
    "GA.C59_norm_infinity_partial",
    "GA.C59_refused",
    "GA.C59_norm1_blocks",
    "GA.C59_norm_infinity_blocks"
   ],
   "note": "All arrays with at most one block per process. With more blocks only the last block of a process counts (negations proved)."
  },
  {
   "property": "C60",
   "status": "partial",
   "theorems": [
    "GA.C60_matmul",
    "GA.C60_matmul_returns_partial",
    "GA.C60_matmul_refused",
    "GA.C60_regular_endless",
    "GA.C60_group_wrong",
    "GA.C60_empty_inner_wrong"
   ],
   "note": "Result right for all algorithms, buffer sizes, patches, transposes and schedules when the call returns; returns unless a process has 1024 or more chunks of rows in the regular algorithm, where it never returns (proved). Missing: processor groups (negation), empty inner extent with beta 0 (negation), rounding, mirrored arrays, result equal to an operand."
  },
  {
   "property": "C61",
   "status": "partial",
   "theorems": [
    "GA.C61_matmul_patch"
   ],
   "note": "Two dimensional arrays, both directions (result and refusal). Missing: more than two dimensions, processor groups, rounding."
  },
  {
   "property": "C62",
   "status": "partial",
   "theorems": [
    "GA.C62_matmul_blocks_partial",
    "GA.C62_refused",
    "GA.C62_overflow",
    "GA.C62_patch_ignored",
    "GA.C62_operand_shifted"
   ],
   "note": "Whole result array, operand patches that begin at row or column 1, blocks not narrower than long. Negations for the rest: the patch is ignored, operands are read at the subscripts of the result, narrow blocks overflow a buffer, transposes are refused."
  },
  {
   "property": "C63",
   "status": "partial",
   "theorems": [
    "GA.C63_tiled_irreg",
    "GA.C63_cyclic",
    "GA.C63_cyclic_partial",
    "GA.C63_cyclic_missing",
    "GA.C63_grid_partial",
    "GA.C63_grid_unclipped",
    "GA.C63_grid_number",
    "GA.C63_grid_number3",
    "GA.C63_nnodes_regular",
    "GA.C63_count_partial",
    "GA.C63_count_zero",
    "GA.C63_count_empty",
    "GA.C63_count_short"
   ],
   "note": "Full for irregular tiles and for the count of REGULAR arrays. Simple block-cyclic arrays: exact result; right unless a block surrounds the patch in a dimension. Process grids: right for patches of whole blocks of one dimensional arrays and two dimensional arrays with equal numbers of blocks; negations for the rest."
  },
  {
   "property": "C64",
   "status": "partial",
   "theorems": [
    "GA.C64_shared_memory",
    "GA.C64_access_served",
    "GA.C64_rejects",
    "GA.C64_blocks_partial",
    "GA.C64_read_inc"
   ],
   "note": "Full for REGULAR arrays. Missing for block-cyclic arrays: fewer blocks than processes (as in C09), NGA_Access and NGA_Read_inc."
  },
  {
   "property": "C65",
   "status": "partial",
   "theorems": [
    "GA.C65_locate",
    "GA.C65_create",
    "GA.C65_irreg",
    "GA.C65_region",
    "GA.C65_region_illegal",
    "GA.C65_region_cyclic",
    "GA.C65_region_blocks",
    "GA.C65_nblock",
    "GA.C65_topology_reversed",
    "GA.C65_topology_wrong",
    "GA.C65_ghost_dir_wrong"
   ],
   "note": "Creation, distribution, owner, regions of REGULAR arrays and block counts proved. Negations: process coordinates and grid are returned in reversed order, illegal patches and block-cyclic arrays lead to undefined behaviour in NGA_Locate_region, ghost directions are shifted."
  },
  {
   "property": "C66",
   "status": "partial",
   "theorems": [
    "GA.C66_matmul_patch",
    "GA.C66_dgemm",
    "GA.C66_dgemm_refused",
    "GA.C66_matmul_patch_order_partial",
    "GA.C66_matmul_patch_order_wrong",
    "GA.C66_scale_rows_partial",
    "GA.C66_scale_cols_partial"
   ],
   "note": "GA_Dgemm and NGA_Matmul_patch proved in the row view (limits as in C60, C61). GA_Matmul_patch multiplies in column order (negation)."
  },
  {
   "property": "C67",
   "status": "partial",
   "theorems": [
    "GA.C67_history",
    "GA.C67_get",
    "GA.C67_get_given",
    "GA.C67_put",
    "GA.C67_put_checked_partial",
    "GA.C67_get_size_partial",
    "GA.C67_memzero",
    "GA.C67_refused",
    "GA.C67_empty_block_refused",
    "GA.C67_check_ignores_ld",
    "GA.C67_size8_wrong"
   ],
   "note": "Full for arrays in which every process has elements. Negations: processes without elements are refused, a patch that spans an empty block aborts, the comparison of sizes ignores the leading dimension, 8-byte sizes are added wrongly."
  },
  {
   "property": "C68",
   "status": "partial",
   "theorems": [
    "GA.C68_gather_partial",
    "GA.C68_gather_given_partial",
    "GA.C68_scatter_partial",
    "GA.C68_gather_size",
    "GA.C68_access",
    "GA.C68_sum",
    "GA.C68_empty_element",
    "GA.C68_sum_wide_wrong"
   ],
   "note": "Gather and scatter proved for elements with at least one byte. Negations: an element without bytes leads to a free of unset pointers; the sum of 4-byte sizes is wrong when Integer has 8 bytes."
  },
  {
   "property": "C69",
   "status": "partial",
   "theorems": [
    "GA.C69_history_partial",
    "GA.C69_reopen",
    "GA.C69_accepted",
    "GA.C69_progress",
    "GA.C69_extent",
    "GA.C69_io_uniform",
    "GA.C69_io_indep",
    "GA.C69_not_seven_dims",
    "GA.C69_not_nonuniform",
    "GA.C69_not_reopen_files"
   ],
   "note": "Full for one request at a time on arrays with up to six dimensions and an I/O process for every rank. Negations: seven dimensions, nodes of different size, several files opened with fewer processes."
  },
  {
   "property": "C70",
   "status": "proved",
   "theorems": [
    "GA.C70_blocks",
    "GA.C70_requested",
    "GA.C70_fits",
    "GA.C70_created"
   ],
   "note": "The two floating point computations are parameters with one inequality each."
  },
  {
   "property": "C71",
   "status": "partial",
   "theorems": [
    "GA.C71_add",
    "GA.C71_rows_partial",
    "GA.C71_columns_partial",
    "GA.C71_assemble_partial",
    "GA.C71_fewer_elements",
    "GA.C71_one_block",
    "GA.C71_more_processes"
   ],
   "note": "Full for numbers of processes not larger than the dimensions. Negations: more processes than rows or columns, fewer elements than processes, elements in too few blocks."
  },
  {
   "property": "C72",
   "status": "partial",
   "theorems": [
    "GA.C72_history_partial",
    "GA.C72_progress_partial",
    "GA.C72_right_wide",
    "GA.C72_right_narrow",
    "GA.C72_matvec_partial",
    "GA.C72_empty_process",
    "GA.C72_result_length",
    "GA.C72_complex",
    "GA.C72_get_diag_partial",
    "GA.C72_get_diag_empty",
    "GA.C72_get_diag_repeated"
   ],
   "note": "Full for real elements, processes that all have elements and square diagonals. Negations: right multiplication compares with the number of rows, products with empty processes, complex products, result length, diagonal blocks without elements."
  },
  {
   "property": "C73",
   "status": "partial",
   "theorems": [
    "GA.C73_product_partial",
    "GA.C73_unique",
    "GA.C73_assoc",
    "GA.C73_no_product",
    "GA.C73_dims"
   ],
   "note": "Full for arrays on at most as many processes as rows and columns of which every process has a product; otherwise the call aborts, which is proved as a negation."
  },
  {
   "property": "C74",
   "status": "partial",
   "theorems": [
    "GA.C74_elem",
    "GA.C74_from_dense_partial",
    "GA.C74_empty_patch",
    "GA.C74_ghost",
    "GA.C74_from_sparse_partial",
    "GA.C74_round_trip_partial",
    "GA.C74_from_sparse_fortran",
    "GA.C74_from_sparse_dims",
    "GA.C74_from_sparse_tall",
    "GA.C74_from_sparse_wide",
    "GA.C74_get_column_partial",
    "GA.C74_repeated"
   ],
   "note": "Full for dense arrays without ghost cells on all processes, and for square sparse arrays with at most one entry per position through C. Negations: ghost cells, empty patches, the Fortran interface, sparse arrays that are not square, repeated entries."
  },
  {
   "property": "C75",
   "status": "partial",
   "theorems": [
    "GA.C75_sprsdns_partial",
    "GA.C75_sprsdns_wide",
    "GA.C75_sprsdns_narrow",
    "GA.C75_sprsdns_dims",
    "GA.C75_dnssprs_partial",
    "GA.C75_dnssprs_not_square",
    "GA.C75_agree"
   ],
   "note": "Full through C when the second operand is square. Negations: a second operand with more columns than rows loses columns, with fewer columns aborts (dense), any other shape aborts (sparse)."
  },
  {
   "property": "C76",
   "status": "partial",
   "theorems": [
    "GA.C76_solve_partial",
    "GA.C76_singular",
    "GA.C76_singular_reported_partial",
    "GA.C76_dims",
    "GA.C76_trans_partial",
    "GA.C76_not_compiled",
    "GA.C76_zero_column",
    "GA.C76_trans"
   ],
   "note": "Full over an ordered field for builds in which the loops of the vector operations are compiled, except for the transposed equations and the report of a first column of zeros. Negations: the distribution compiles neither loop; a first column of zeros; transposed equations. Rounding is not modelled."
  },
  {
   "property": "C77",
   "status": "proved",
   "theorems": [
    "GA.C77_disjoint",
    "GA.C77_aligned",
    "GA.C77_malloc",
    "GA.C77_free",
    "GA.C77_stats",
    "GA.C77_reuse",
    "GA.C77_limit",
    "GA.C77_shm_twice",
    "GA.C77_shm_first"
   ],
   "note": "For the allocator of local memory and any history, given that the system never gives memory twice. Negations: the limit is compared only before memory is obtained; the variant for shared memory (of which only the search is modelled) gives out the same block twice."
  },
  {
   "property": "C78",
   "status": "partial",
   "theorems": [
    "GA.C78_read",
    "GA.C78_read_succeeds",
    "GA.C78_write_succeeds",
    "GA.C78_write_limit",
    "GA.C78_length_partial",
    "GA.C78_delete_partial",
    "GA.C78_truncate_partial",
    "GA.C78_length_reopened",
    "GA.C78_length_read",
    "GA.C78_hole",
    "GA.C78_truncate",
    "GA.C78_delete_last"
   ],
   "note": "Reading and writing: proved for any history, any answers of the system and any size of extents. Length, truncation and deletion: proved for one session, one extent and at most 127 extents; negations beyond that."
  },
  {
   "property": "C79",
   "status": "partial",
   "theorems": [
    "GA.C79_counter",
    "GA.C79_unique",
    "GA.C79_reset_waits",
    "GA.C79_progress",
    "GA.C79_sequential",
    "GA.C79_subset",
    "GA.C79_c_interface"
   ],
   "note": "For any number of processes and any schedule if all processes reset together. Negations: resets by a part of the processes never return; the C interface with four byte Fortran integers returns an uninitialised upper half."
  },
  {
   "property": "C80",
   "status": "partial",
   "theorems": [
    "GA.C80_step_max_partial",
    "GA.C80_step_max_int_partial",
    "GA.C80_step_max_same",
    "GA.C80_negative_partial",
    "GA.C80_bound_info_partial",
    "GA.C80_int",
    "GA.C80_patch",
    "GA.C80_bound_info_patch",
    "GA.C80_negative_missed"
   ],
   "note": "Proved for whole arrays: GA_Step_max over any ordered field, GA_Step_bound_info over fields and integers, any distribution. Negations: integers, patches, negative elements in block-cyclic arrays. Rounding is not modelled."
  },
  {
   "property": "C81",
   "status": "partial",
   "theorems": [
    "GA.C81_files_partial",
    "GA.C81_defined",
    "GA.C81_keep",
    "GA.C81_memory_partial",
    "GA.C81_reopen",
    "GA.C81_delete",
    "GA.C81_aread",
    "GA.C81_awrite",
    "GA.C81_bounds",
    "GA.C81_probe"
   ],
   "note": "Proved for every program that does not reopen a memory file while a smaller descriptor is unused, does not delete a memory file beyond the counter of open files and uses asynchronous calls for files on disk only. Negations for each of these, for reads across the end of a memory file, and for EAF_Probe and EAF_Wait."
  },
  {
   "property": "C82",
   "status": "partial",
   "theorems": [
    "GA.C82_copy_exact",
    "GA.C82_copy_partial",
    "GA.C82_transpose_partial",
    "GA.C82_dot_partial",
    "GA.C82_copy_corner",
    "GA.C82_dot_corner",
    "GA.C82_transpose_shape"
   ],
   "note": "Proved for patches whose first row and column are the first ones of every block they meet, any partition into blocks and any order of processes; transposes also need a square patch. Negations for all other cases; C82_copy_exact says what is copied instead."
  },
  {
   "property": "C83",
   "status": "partial",
   "theorems": [
    "GA.C83_history",
    "GA.C83_names_partial",
    "GA.C83_single",
    "GA.C83_names_mpi",
    "GA.C83_complex_sum",
    "GA.C83_complex_product"
   ],
   "note": "C83_history: every history of broadcasts and global operations in the world and in overlapping groups, every schedule and buffering: no deadlock, and the memories are those of the operations. Missing: the path through shared memory within a node, floating point rounding, overflow. C83_single and C83_complex_product prove where the code disagrees with the names of the operations."
  },
  {
   "property": "C84",
   "status": "partial",
   "theorems": [
    "GA.C84_smp_bcast_partial",
    "GA.C84_pieces_fit",
    "GA.C84_deadlock"
   ],
   "note": "Every number of processes, all calls of any lengths and senders, every schedule of single accesses to shared memory; missing: calls whose first two senders differ, for which C84_deadlock gives a schedule that ends in a deadlock. Weak memory models and the missing barrier after the initialisation of the flags are not modelled."
  },
  {
   "property": "C85",
   "status": "partial",
   "theorems": [
    "GA.C85_accumulate_partial",
    "GA.C85_same_length",
    "GA.C85_ranges",
    "GA.C85_missed",
    "GA.C85_lost_update"
   ],
   "note": "Any number of processes, all programs of accumulates, every schedule of single accesses to lock, table and memory; missing: programs in which a range goes beyond a range of another process on both sides (in cache lines), for which C85_lost_update gives a schedule that loses an update. Weak memory models are not modelled, values are integers."
  },
  {
   "property": "C86",
   "status": "proved",
   "theorems": [
    "GA.C86_smp_reduce",
    "GA.C86_bounded",
    "GA.C86_pieces_fit"
   ],
   "note": "Every number of processes of a node, all histories of reductions with commutative and associative operations, every schedule of single accesses to flags and buffers. Memory is sequentially consistent, reading an element of a child and writing the result is one step."
  },
  {
   "property": "C87",
   "status": "proved",
   "theorems": [
    "GA.C87_exclusive",
    "GA.C87_no_lost_wakeup",
    "GA.C87_all_end",
    "GA.C87_no_deadlock",
    "GA.C87_low_ranks",
    "GA.C87_starvation",
    "GA.C87_bounded",
    "GA.C87_create"
   ],
   "note": "Every number of processes and mutexes, all correct programs, every schedule of single window accesses and messages. All calls return if mutexes are locked in order and every process runs again and again. Processes 0 and 1 are overtaken at most once and twice; every other process can be overtaken any number of times (proved). An exclusive access epoch is one step; messages are buffered."
  },
  {
   "property": "C88",
   "status": "proved",
   "theorems": [
    "GA.C88_order",
    "GA.C88_memory",
    "GA.C88_answer",
    "GA.C88_read_own",
    "GA.C88_wait",
    "GA.C88_fence",
    "GA.C88_barrier",
    "GA.C88_no_deadlock",
    "GA.C88_end",
    "GA.C88_needs_barrier"
   ],
   "note": "Every number of processes, all programs of puts, accumulates, gets, read-modify-writes, waits, fences and barriers of the world group, memory of any type, every schedule of single sends and receipts. The end needs that all processes end with a barrier and call it equally often. Sends are buffered; addresses, lengths and subgroups are not in the model."
  },
  {
   "property": "C89",
   "status": "proved",
   "theorems": [
    "GA.C89_mutual_exclusion",
    "GA.C89_no_fault",
    "GA.C89_fifo",
    "GA.C89_visible",
    "GA.C89_destroy",
    "GA.C89_no_deadlock",
    "GA.C89_end",
    "GA.C89_needs_fence",
    "GA.C89_create_race",
    "GA.C89_needs_order"
   ],
   "note": "Every number of processes and mutexes, all programs that create mutexes, synchronise, lock and unlock them properly, update memory, and destroy them; every schedule of single sends, receipts and passes over the list of requests. No deadlock and termination need a common order of mutexes (C89_needs_order). C89_needs_fence and C89_create_race show what the calls do not give. Sends are buffered and the barrier is one message for each pair of processes."
  },
  {
   "property": "C90",
   "status": "partial",
   "theorems": [
    "GA.C90_one_sided",
    "GA.C90_served",
    "GA.C90_merge_partial",
    "GA.C90_distr_partial",
    "GA.C90_distr_last_refused",
    "GA.C90_copy_to_partial",
    "GA.C90_copy_from",
    "GA.C90_merge_mixed_nodes",
    "GA.C90_merge_ghosts",
    "GA.C90_distr_empty_block",
    "GA.C90_distr_zero_accepted"
   ],
   "note": "One-sided calls, the merge into a distributed array and the copy from a mirrored array: every cluster, with ghost cells or without. The merge and the copy to a mirrored array: nodes with equal numbers of processes, no ghost cells. The code breaks the full statement: C90_merge_mixed_nodes, C90_merge_ghosts, C90_distr_last_refused, C90_distr_empty_block, C90_distr_zero_accepted."
  },
  {
   "property": "C91",
   "status": "partial",
   "theorems": [
    "GA.C91_in_order",
    "GA.C91_never_blocks",
    "GA.C91_lookup_overrun",
    "GA.C91_async",
    "GA.C91_wait",
    "GA.C91_issue_keeps",
    "GA.C91_wait_returns",
    "GA.C91_failure_not_reported",
    "GA.C91_conflict",
    "GA.C91_handles_partial",
    "GA.C91_suffix_shared",
    "GA.C91_destroy_closed"
   ],
   "note": "Order of requests, waits and ids: every run of any number of processes, every order of byte transfers, for the program as it is built and for one that marks its table of requests free. Handles: histories without sf_create_suffix. The code breaks the full statement: C91_lookup_overrun, C91_failure_not_reported, C91_suffix_shared, C91_destroy_closed."
  },
  {
   "property": "C92",
   "status": "partial",
   "theorems": [
    "GA.C92_update_nb",
    "GA.C92_update_nb_issues",
    "GA.C92_update_dir_partial",
    "GA.C92_dir_zero_width",
    "GA.C92_nbget_dir",
    "GA.C92_nbget_dir_served",
    "GA.C92_ghost_block",
    "GA.C92_ghost_block_local",
    "GA.C92_c_mask_never",
    "GA.C92_c_dimension_wrong",
    "GA.C92_thin_not_refused"
   ],
   "note": "All ghost cells, one direction in Fortran order and patches with ghost cells: every order and interleaving of the element copies of all processes. The code breaks the full statement: C92_dir_zero_width, C92_c_mask_never, C92_c_dimension_wrong, C92_thin_not_refused. REGULAR arrays on the world group; synchronisation inside the calls is not modelled."
  },
  {
   "property": "C93",
   "status": "partial",
   "theorems": [
    "GA.C93_put_field",
    "GA.C93_get_field",
    "GA.C93_whole_element",
    "GA.C93_served",
    "GA.C93_history",
    "GA.C93_round_trip",
    "GA.C93_c_one_dimension_partial",
    "GA.C93_c_ld_off_by_one",
    "GA.C93_c_wrong_bytes",
    "GA.C93_field_unchecked",
    "GA.C93_put_unchecked",
    "GA.C93_empty_field"
   ],
   "note": "Fortran order: puts, gets and histories, for every distribution, field and leading dimension. The code breaks the full statement: the C interface adds one to the leading dimensions (C93_c_ld_off_by_one, C93_c_wrong_bytes), fields are not checked (C93_field_unchecked, C93_put_unchecked), empty fields divide by zero (C93_empty_field). REGULAR arrays."
  },
  {
   "property": "C94",
   "status": "partial",
   "theorems": [
    "GA.C94_history",
    "GA.C94_wait",
    "GA.C94_notify_after_data_partial",
    "GA.C94_data_late",
    "GA.C94_user_buffer",
    "GA.C94_buffer_changed",
    "GA.C94_check_two_dimensions_partial",
    "GA.C94_three_dimensions_refused",
    "GA.C94_unknown_handle",
    "GA.C94_handle_twice",
    "GA.C94_slots"
   ],
   "note": "Histories, waits and slots: all orders of delivery that keep the order of transfers to one process. The code breaks the full statement: notifications overtake data of other owners (C94_data_late), the buffer is changed (C94_user_buffer, C94_buffer_changed), correct requests on three dimensions are refused (C94_three_dimensions_refused), waits for unknown handles return at once (C94_unknown_handle). REGULAR arrays, one calling process."
  },
  {
   "property": "C95",
   "status": "proved",
   "theorems": [
    "GA.C95_history",
    "GA.C95_ma_history",
    "GA.C95_disjoint",
    "GA.C95_refused",
    "GA.C95_no_memory",
    "GA.C95_ma_not_last",
    "GA.C95_register_between"
   ],
   "note": "All histories of allocations, writes and releases, with the registered functions and with MA (last one first, as MA demands). C95_ma_not_last and C95_register_between show what lies outside the statement: other orders with MA, and registering while a buffer is in use. Addresses are unbounded integers."
  },
  {
   "property": "C96",
   "status": "partial",
   "theorems": [
    "GA.C96_sketch_partial",
    "GA.C96_missing_block",
    "GA.C96_too_many",
    "GA.C96_label_range",
    "GA.C96_label_all",
    "GA.C96_label_overflow",
    "GA.C96_maps",
    "GA.C96_maps_differ"
   ],
   "note": "The sketch is right for matrices where every process has its elements in the first blocks of columns. C96_missing_block, C96_label_overflow and C96_maps_differ are the negations: for every other matrix, for the largest random number and for indices of four bytes on four or more processes the code fails. Labels and weights are inputs."
  },
  {
   "property": "C97",
   "status": "partial",
   "theorems": [
    "GA.C97_history_partial",
    "GA.C97_prefix_partial",
    "GA.C97_memory",
    "GA.C97_progress",
    "GA.C97_refused",
    "GA.C97_overrun",
    "GA.C97_vector_again",
    "GA.C97_offsets_partial",
    "GA.C97_three_levels"
   ],
   "note": "Histories of contiguous and strided calls and waits under any number of handles are exact for strided calls with at most 512 segments (or a multiple of 256) and at most two stride levels. C97_overrun, C97_vector_again and C97_three_levels are the negations: for the other strided calls and for a second vector of the same size the code transfers other segments than asked for."
  },
  {
   "property": "C98",
   "status": "partial",
   "theorems": [
    "GA.C98_waited",
    "GA.C98_wait_all",
    "GA.C98_wait_proc",
    "GA.C98_explicit",
    "GA.C98_other_procs",
    "GA.C98_last_fifteen",
    "GA.C98_progress",
    "GA.C98_overflow"
   ],
   "note": "All statements hold for every history; C98_overflow is the negation of unrestricted progress: the signed counter of requests is reset only by a wait for all. Waiting for one handle is taken to complete its request (the device layer is not modelled), tags do not wrap around."
  },
  {
   "property": "C99",
   "status": "proved",
   "theorems": [
    "GA.C99_pieces",
    "GA.C99_whole",
    "GA.C99_piece",
    "GA.C99_empty_piece"
   ],
   "note": "For every strided region and every way of cutting the message into pieces that are not empty. How the arrival of pieces is noticed: C100."
  }
 ]
}