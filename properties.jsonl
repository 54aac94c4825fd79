{"id": "C01", "title": "Every element has exactly one owner (regular distribution)", "statement": "For an array with a regular (or user supplied irregular) block distribution, every in-range subscript belongs to the block reported by NGA_Distribution of exactly one process, and NGA_Locate of that subscript returns that process; out-of-range subscripts are rejected.", "quantifier": "all dimension counts, dimension lengths, block maps that satisfy the well-formedness rules, and all subscripts (including out-of-range ones)", "why_tests_cant": "The set of maps, shapes and subscripts is infinite; tests only visit a few shapes and process counts.", "anchors": ["global/src/base.h: ga_ownsM_no_handle, ga_ownsM", "global/src/base.c: pnga_locate, findblock, pnga_distribution"]}
{"id": "C02", "title": "Owner lookup does not depend on the floating point guess", "statement": "NGA_Locate's block search returns the block whose interval contains the subscript whatever starting candidate the floating point scale factor suggests.", "quantifier": "all block maps, all subscripts, all initial candidates (i.e. all rounding behaviours)", "why_tests_cant": "Rounding of scale*elem depends on sizes and hardware; only a proof over every candidate covers it.", "anchors": ["global/src/base.c: findblock (726-751), pnga_locate"]}
{"id": "C03", "title": "Default decomposition covers the array", "statement": "The block map that GA_Create computes from dims, chunk hints and the process grid starts at 1, is strictly increasing, stays inside the dimension and uses at most the number of processes of the grid in each dimension, so that together with C01 every element of a freshly created array has exactly one owner.", "quantifier": "all dims >= 1, all chunk hints, all process-grid extents", "why_tests_cant": "Integer rounding cases (uneven division, chunk larger than dim, more processes than elements) are unbounded in number.", "anchors": ["global/src/base.c: pnga_allocate (2560-2625)", "global/src/decomp.c: ddb_h2"]}
{"id": "C04", "title": "Process grid uses exactly the available processes", "statement": "The process grid chosen by the default decomposition has a product of extents equal to the number of processes, whatever the array shape, so every grid coordinate maps to an existing process and vice versa.", "quantifier": "all process counts >= 1, all dims, all block hints", "why_tests_cant": "Depends on the prime factorisation of the process count; cannot be enumerated.", "anchors": ["global/src/decomp.c: ddb_h2 (611-709)"]}
{"id": "C05", "title": "Block-cyclic ownership is a partition", "statement": "In the three block-cyclic layouts (simple block-cyclic, ScaLAPACK, tiled) and the tiled irregular layout each in-range subscript lies in exactly one block, the block index and the per-dimension block coordinates convert back and forth without loss, and each block belongs to exactly one process.", "quantifier": "all dims, block sizes, process grids and subscripts", "why_tests_cant": "Infinite parameter space with edge blocks of different size.", "anchors": ["global/src/base.h: gam_find_block_indices, gam_find_block_from_indices, gam_find_proc_from_sl_indices, ga_ownsM", "global/src/base.c: pnga_locate, pnga_set_block_cyclic*, pnga_set_tiled*"]}
{"id": "C06", "title": "Distinct elements never share storage", "statement": "The memory offset computed for an element inside the segment of its owner is different for different elements owned by that process and always lies inside the segment that was allocated, including when ghost cells are present.", "quantifier": "all shapes, ghost widths, block layouts and element pairs", "why_tests_cant": "Aliasing of two particular elements for a particular shape is easily missed by tests.", "anchors": ["global/src/base.h: gam_Loc_ptr, gam_CountElems", "global/src/iterator.c: gam_Location", "global/src/base.c: pnga_allocate, gai_get_shmem"]}
{"id": "C07", "title": "One-sided put/get/accumulate act on the array like on one shared memory", "statement": "For any sequence of NGA_Put, NGA_Get and NGA_Acc on arbitrary in-range patches with arbitrary leading dimensions that complete without error, the distributed array behaves exactly like one plain array: put stores the buffer element for each patch subscript and touches nothing else, get returns the current value for each patch subscript and leaves the rest of the buffer alone, acc adds alpha times the buffer element to each patch element exactly once. Out-of-range patches are rejected without effect (failures of in-range patches that exceed the message limit are C45).", "quantifier": "all arrays with a regular distribution, all patches, leading dimensions, buffers, alpha and operation histories", "why_tests_cant": "Patches may straddle any number of processes; the number of patches and histories is unbounded.", "anchors": ["global/src/onesided.c: ngai_put_common, ngai_get_common, ngai_acc_common, gam_ComputePatchIndex", "global/src/iterator.c: gai_iterator_next"]}
{"id": "C08", "title": "Patch decomposition visits every element exactly once", "statement": "The list of process pieces that NGA_Locate_region reports for a patch (and that put/get/acc iterate over) covers every element of the patch exactly once, every piece lies inside the patch and inside the block of the reported process, and the order in which the pieces are visited does not matter.", "quantifier": "all regular distributions and patches, all visiting orders", "why_tests_cant": "Unbounded number of patches relative to block boundaries.", "anchors": ["global/src/base.c: pnga_locate_region, pnga_locate_nnodes", "global/src/iterator.c: gai_iterator_init, gai_iterator_next, gaPermuteProcList"]}
{"id": "C09", "title": "Put/get/acc on block-cyclic arrays", "statement": "C07 also holds for arrays created with GA_Set_block_cyclic, GA_Set_block_cyclic_proc_grid and GA_Set_tiled_proc_grid.", "quantifier": "all dims, block sizes, process grids, patches and histories", "why_tests_cant": "Same as C07, with additional edge blocks and local block packing.", "anchors": ["global/src/iterator.c: gai_iterator_next (466-730)", "global/src/onesided.c: pnga_access_block_ptr, pnga_access_block_grid_ptr"]}
{"id": "C10", "title": "Accumulate is order independent", "statement": "When several processes accumulate concurrently, the final array content does not depend on the order in which the individual contributions are applied: it is the initial content plus the sum of all contributions.", "quantifier": "all sets of accumulate calls and all interleavings of their element updates (exact arithmetic)", "why_tests_cant": "The number of interleavings is exponential and not controllable from a test.", "anchors": ["global/src/onesided.c: ngai_acc_common", "comex/src-mpi-pr/comex.c: _acc_handler"]}
{"id": "C100", "title": "Pieces of an answer are taken only after they have arrived", "statement": "While the answer to a strided get arrives, the caller takes only bytes that have arrived, whatever the data are (they may equal the marks used to detect arrival) and whenever it looks. Every piece it takes is not empty, no assertion fails, it stops exactly with the whole answer, and it stops at the latest when it sees the acknowledgement; the strided region then holds the answer.", "quantifier": "all data, all old contents of the buffer, all lengths and all sequences of moments at which the caller looks", "why_tests_cant": "It depends on how far the answer has come at each look and on data that look like the marks.", "anchors": ["armci/src/devices/openib/openib.c: armci_ReadFromDirectSegment", "armci/src/devices/openib/openib.c: armci_send_req_msg", "armci/src/common/ds-shared.c: armci_rcv_strided_data"]}
{"id": "C101", "title": "The data server carries out the requests of a client in order", "statement": "Requests that a client sends to a data server are carried out in the order in which they were sent, each exactly once, whatever the order in which the transfers of large data end, however many buffers other clients hold, and whenever the server looks for requests that wait. The server does not stop, and a request that waits is taken once the earlier ones are done and a buffer is free.", "quantifier": "all sequences of requests, completions of transfers and attempts to promote", "why_tests_cant": "The order of completions and the use of buffers by other clients differ from run to run.", "anchors": ["armci/src/devices/openib/pendbufs.c: armci_pendbuf_service_req", "armci/src/devices/openib/pendbufs.c: _armci_serv_pendbuf_can_progress", "armci/src/devices/openib/pendbufs.c: _armci_serv_pendbuf_progress"]}
{"id": "C102", "title": "Registered buffers have one user at a time", "statement": "After every history of requests and releases in which only held buffers are released, a request for a registered network buffer succeeds and returns a buffer nobody holds, a release succeeds, every buffer is free or held, and memory grows only when all buffers are held.", "quantifier": "all initial and secondary pool sizes and all histories of requests and releases", "why_tests_cant": "The free list depends on the whole history of releases.", "anchors": ["armci/src/devices/openib/cbuf.c: get_cbuf", "armci/src/devices/openib/cbuf.c: release_cbuf", "armci/src/devices/openib/cbuf.c: allocate_cbuf_region"]}
{"id": "C11", "title": "NGA_Read_inc hands out distinct, gap-free tickets", "statement": "For any interleaving of NGA_Read_inc calls on one element, each call returns the element's value after exactly the calls ordered before it; with increment 1 the returned values are pairwise distinct and form a contiguous range, and the final value is the initial value plus the sum of the increments.", "quantifier": "all numbers of callers, increments and interleavings", "why_tests_cant": "Schedules cannot be enumerated.", "anchors": ["global/src/onesided.c: pnga_read_inc", "comex/src-mpi-pr/comex.c: comex_rmw, _fetch_and_add_handler"]}
{"id": "C12", "title": "Scatter and gather address elements by subscript", "statement": "NGA_Scatter stores v[k] at subscript k for every k when the subscripts are distinct, NGA_Gather returns the element at each subscript, scatter followed by gather with the same distinct subscripts returns the stored values, scatter-accumulate adds the sum of all contributions to a subscript that occurs several times, and no other element changes; the internal bucketing by owner never drops or duplicates an item.", "quantifier": "all subscript lists (any length, any order, repeated for gather and scatter_acc), all distributions", "why_tests_cant": "Unbounded list lengths and owner patterns.", "anchors": ["global/src/onesided.c: gai_gatscat, gai_gatscat_new, pnga_scatter, pnga_gather, pnga_scatter_acc"]}
{"id": "C13", "title": "The index sort keeps index/value tuples together", "statement": "The heap sort used by gather/scatter/bin sorting returns the keys in non-decreasing order and applies the same permutation to the value and subscript arrays, so each key keeps its own value.", "quantifier": "all array lengths and contents", "why_tests_cant": "Sorting correctness quantifies over all permutations.", "anchors": ["global/src/hsort.scat.c: INDEX_SORT, ga_sort_scat, ga_sort_gath, ga_sort_permutation, gai_hsort"]}
{"id": "C14", "title": "Strided put/get (skip) address the right elements", "statement": "NGA_Strided_put/get/acc with per-dimension skips transfer exactly the elements lo, lo+skip, lo+2*skip, ... of the patch and use consecutive buffer positions.", "quantifier": "all patches, skips, leading dimensions, distributions", "why_tests_cant": "Infinite combinations of skip, patch and block boundary.", "anchors": ["global/src/onesided.c: gai_correct_strided_patch, gai_ComputeCountWithSkip, gai_SetStrideWithSkip, gai_ComputePatchIndexWithSkip, pnga_strided_put/get/acc"]}
{"id": "C15", "title": "Strided messages survive packing", "statement": "Packing a multi-dimensional strided region into a contiguous message and unpacking it at the destination reproduces every element at its position, touches nothing outside the destination region, and the message length is the product of the counts.", "quantifier": "all numbers of stride levels, counts and strides (non overlapping), all contents", "why_tests_cant": "Infinite parameter space.", "anchors": ["comex/src-mpi-pr/comex.c: _packed_size, pack, unpack"]}
{"id": "C16", "title": "The ARMCI stride iterator enumerates each segment once", "statement": "The stride iterator visits exactly product(count[1..]) segments, each contiguous segment of the strided region exactly once and in index order, and write/read through it are inverse of each other.", "quantifier": "all stride levels, counts and strides accepted by the iterator", "why_tests_cant": "Infinite parameter space.", "anchors": ["comex/src-armci/iterator.c: armci_stride_info_*, armci_write_strided, armci_read_strided"]}
{"id": "C17", "title": "Fence makes earlier puts visible", "statement": "When ARMCI_Fence / GA_Fence / GA_Sync returns on a process, every put, accumulate and unlock that process issued before to the fenced target has been applied to the target memory, for every interleaving of messages of all processes at the progress server.", "quantifier": "all histories of operations of all processes and all message schedules (FIFO per sender)", "why_tests_cant": "Schedule nondeterminism.", "anchors": ["comex/src-mpi-pr/comex.c: comex_fence_all, comex_fence_proc, _fence_master, _fence_handler, _progress_server, nb_put"]}
{"id": "C18", "title": "A process reads its own writes", "statement": "A process that puts to a remote location and then gets that location (same process, blocking or ordered through the same target) obtains the value it put last unless another process wrote in between, regardless of whether put or get use the shared-memory or the message path.", "quantifier": "all histories and schedules", "why_tests_cant": "Requires reasoning over all interleavings of the message path and the direct path.", "anchors": ["comex/src-mpi-pr/comex.c: nb_put, nb_get, _get_handler, _put_handler, fence_array"]}
{"id": "C19", "title": "Mutual exclusion of remote mutexes", "statement": "At any time at most one process holds a given mutex; lock requests are granted in arrival order, each request is granted exactly once, and an unlock with waiters hands the mutex to the first waiter.", "quantifier": "all sequences of lock/unlock requests arriving at the server from any number of processes", "why_tests_cant": "Schedules cannot be enumerated.", "anchors": ["comex/src-mpi-pr/comex.c: _lock_handler, _unlock_handler, comex_lock, comex_unlock"]}
{"id": "C20", "title": "GA_Lock maps each mutex number to its own lock", "statement": "GA_Create_mutexes(n) followed by GA_Lock(i) and GA_Lock(j) with i != j acquire different locks, and every 0 <= i < n maps to an existing lock.", "quantifier": "all n, process counts and mutex indices", "why_tests_cant": "Quantifies over all n, P and pairs of indices.", "anchors": ["global/src/base.c: pnga_create_mutexes, pnga_lock, pnga_unlock"]}
{"id": "C21", "title": "Non-blocking handles: wait completes everything issued under the handle", "statement": "After NGA_NbWait(h) returns, every transfer issued under h is complete, even if the library had to recycle its limited pool of internal handles in between; NGA_NbTest reporting completion implies the same.", "quantifier": "all histories of non-blocking operations, waits and tests with any number of outstanding handles", "why_tests_cant": "Pool exhaustion and recycling histories are unbounded.", "anchors": ["global/src/nbutil.c: get_armci_nbhandle, ga_init_nbhandle, nga_wait_internal, nga_test_internal"]}
{"id": "C22", "title": "Communication-layer requests complete exactly once", "statement": "Testing or waiting on a communication request processes each pending message exactly once, keeps the not yet completed ones in order, reports completion only if nothing is pending, and a request slot is never handed out while messages of an earlier request are pending on it.", "quantifier": "all sequences of issue/test/wait, all completion orders reported by MPI", "why_tests_cant": "Depends on MPI completion order.", "anchors": ["comex/src-mpi-pr/comex.c: nb_wait_for_handle, nb_wait_for_all, nb_test_for_all, nb_test_for_send1, nb_send_common"]}
{"id": "C23", "title": "Array handles are unique and reusable", "statement": "GA_Create never returns the handle of a live array, all calls on a destroyed handle are detected, destroying an array frees its handle for reuse, and at most the maximum number of arrays is live.", "quantifier": "all histories of create/allocate/duplicate/destroy", "why_tests_cant": "Histories are unbounded.", "anchors": ["global/src/base.c: pnga_create_handle, pnga_allocate, pnga_duplicate, pnga_destroy, pnga_deallocate, ga_check_handleM"]}
{"id": "C24", "title": "Memory limit accounting", "statement": "With a memory limit M, at any point the memory available reported by GA_Memory_avail equals M minus the bytes of live arrays; an array creation that would exceed the limit fails and leaves the accounting unchanged; destroying returns exactly the bytes.", "quantifier": "all histories of set_memory_limit, create, destroy", "why_tests_cant": "Histories are unbounded.", "anchors": ["global/src/base.c: pnga_memory_avail, pnga_set_memory_limit, pnga_inquire_memory, pnga_allocate, pnga_destroy"]}
{"id": "C25", "title": "Process groups: rank translation is a bijection", "statement": "GA_Pgroup_create with a valid list creates a group in which group ranks 0..n-1 and member processes correspond one to one in both directions, independent of the order of the list; invalid lists (duplicates, out of range) are rejected.", "quantifier": "all process counts and lists", "why_tests_cant": "Infinite lists; subset/permutation space.", "anchors": ["global/src/base.c: pnga_pgroup_create, pnga_pgroup_nodeid, pnga_pgroup_absolute_id"]}
{"id": "C26", "title": "GA_Pgroup_split partitions the group", "statement": "Splitting a group of n processes in k groups puts every process in exactly one resulting group, groups consist of consecutive ranks and differ in size only as the rounding requires; irregular split groups exactly the processes with equal colour.", "quantifier": "all n, k and colourings", "why_tests_cant": "Infinite parameter space.", "anchors": ["global/src/base.c: pnga_pgroup_split, pnga_pgroup_split_irreg"]}
{"id": "C27", "title": "User type registration", "statement": "NGA_Register_type returns identifiers that are never already in use, are outside the predefined range, remember the element size until deregistered, and fails exactly when the table is full; deregistering frees the identifier.", "quantifier": "all histories of register/deregister", "why_tests_cant": "Histories are unbounded.", "anchors": ["global/src/base.c: pnga_register_type, pnga_deregister_type"]}
{"id": "C28", "title": "MA handle table", "statement": "MA memory handles returned by allocation are never currently in use, lookups return the block stored under the handle until it is freed, stale and out-of-range handles are rejected, and the table grows without disturbing existing handles.", "quantifier": "all histories of allocate/deallocate", "why_tests_cant": "Histories and table growth are unbounded.", "anchors": ["ma/table.c: ma_table_allocate, ma_table_deallocate, ma_table_lookup, ma_table_verify, ma_table_lookup_assoc"]}
{"id": "C29", "title": "MA allocator never overlaps blocks", "statement": "For every history of MA_allocate_heap, MA_free_heap, MA_free_heap_piece, MA_push_stack, MA_pop_stack and MA_chop_stack the client areas (with guard words and descriptors) of live blocks are pairwise disjoint, lie inside the segment, have the alignment of their datatype, and heap and stack never cross; free blocks that touch are merged, so that neighbouring areas given back one by one are available as a whole, and the heap region ends with a live block.", "quantifier": "all histories, datatypes, sizes and alignments", "why_tests_cant": "Histories of an allocator are unbounded.", "anchors": ["ma/ma.c: balloc_after, balloc_before, block_split, block_free_heap, list_coalesce, list_insert_ordered, MA_allocate_heap, MA_free_heap, MA_free_heap_piece, MA_push_stack, MA_pop_stack, MA_chop_stack"]}
{"id": "C30", "title": "MA availability inquiry is exact", "statement": "If MA_inquire_avail(datatype) returns n > 0 then an allocation of n elements of that datatype succeeds immediately afterwards on the heap as well as on the stack, and on the stack n+1 elements would fail.", "quantifier": "all reachable allocator states and datatypes", "why_tests_cant": "All states.", "anchors": ["ma/ma.c: ma_nelem, MA_inquire_avail, MA_inquire_stack_no_partition, MA_inquire_stack_check_heap, MA_inquire_heap_check_stack"]}
{"id": "C31", "title": "Registered memory lookup is unambiguous", "statement": "The table of registered remote segments never contains two overlapping segments of one process, a lookup of any address range that lies in a registered segment returns that segment, a lookup of a range in no segment fails, and deregistration removes exactly that segment.", "quantifier": "all histories of register/deregister and all lookups", "why_tests_cant": "Histories are unbounded.", "anchors": ["comex/src-mpi-pr/reg_cache.c: seg_cmp, reg_cache_find, reg_cache_find_intersection, reg_cache_insert, reg_cache_delete"]}
{"id": "C32", "title": "Periodic access wraps around the array", "statement": "NGA_Periodic_get/put/acc on a patch that extends outside the array accesses, for each requested subscript x, the element ((x-1) mod dim)+1 and the buffer position of x.", "quantifier": "all dims, all patches of at most the accepted width at any distance from the array, all leading dimensions", "why_tests_cant": "Unbounded offsets.", "anchors": ["global/src/global.periodic.c: ngai_peri_get_range_, pnga_periodic"]}
{"id": "C33", "title": "Ghost cells hold the neighbour's values after an update", "statement": "After GA_Update_ghosts every ghost cell of every process holds the value of the global element it mirrors, with periodic wrap-around at the array edges, including corner ghost cells; owned elements are not changed.", "quantifier": "all dims, distributions whose blocks are at least as wide as the ghost width, ghost widths, contents", "why_tests_cant": "Infinite shapes, widths and neighbour patterns.", "anchors": ["global/src/ghosts.c: pnga_update1_ghosts, pnga_update44_ghosts"]}
{"id": "C34", "title": "Compare_distr recognises equal distributions", "statement": "GA_Compare_distr reports equality only for arrays in which each process owns the same block, so element-wise algorithms that rely on it may use local loops; duplicates of an array always compare equal.", "quantifier": "all pairs of arrays", "why_tests_cant": "Infinite pairs.", "anchors": ["global/src/base.c: pnga_compare_distr, pnga_duplicate"]}
{"id": "C35", "title": "Element-wise operations do not depend on the distribution", "statement": "GA_Zero, GA_Fill, GA_Scale, GA_Add, GA_Copy, NGA_Patch_enum and GA_Dot give the result of the corresponding sequential loop over all elements, whatever the distribution and number of processes (exact arithmetic).", "quantifier": "all distributions, contents and process counts", "why_tests_cant": "Infinite distributions.", "anchors": ["global/src/global.nalg.c: pnga_zero, pnga_scale, pnga_add, pnga_dot, pnga_copy", "global/src/base.c: pnga_fill", "global/src/sparse.c: pnga_patch_enum"]}
{"id": "C36", "title": "Segmented scans", "statement": "GA_Scan_copy sets each destination element in lo..hi to the source element at the last mask position at or before it; GA_Scan_add computes the segmented prefix sums, inclusive or exclusive, independent of the distribution.", "quantifier": "all masks, ranges, contents, distributions (exact arithmetic)", "why_tests_cant": "Segments may span any number of processes.", "anchors": ["global/src/sparse.c: pnga_scan_copy, pnga_scan_add"]}
{"id": "C37", "title": "Pack and unpack are inverse", "statement": "GA_Pack stores the masked elements of lo..hi consecutively in order, returns their number, and GA_Unpack with the same mask restores them at their places, independent of the distribution.", "quantifier": "all masks, ranges, contents, distributions", "why_tests_cant": "Infinite.", "anchors": ["global/src/sparse.c: sga_pack_unpack, sga_pack, sga_unpack"]}
{"id": "C38", "title": "Binning assigns disjoint ranges", "statement": "GA_Bin_index gives the contributions of all processes to a bin disjoint ranges that exactly fill the bin, for every number of processes and every call.", "quantifier": "all process counts, contributions and sequences of calls", "why_tests_cant": "Tree shapes and call histories are unbounded.", "anchors": ["global/src/sparse.c: sgai_bin_offset, pnga_bin_index", "comex/src-armci/message.c: armci_msg_bintree"]}
{"id": "C39", "title": "Select_elem returns the extreme element and its subscript", "statement": "NGA_Select_elem returns the minimum (maximum) of all elements and the subscript of an element having this value.", "quantifier": "all arrays, distributions (regular and block-cyclic), contents", "why_tests_cant": "Infinite contents.", "anchors": ["global/src/select.c: snga_select_elem, snga_compare_elem, pnga_select_elem"]}
{"id": "C40", "title": "Read-only caching does not change results", "statement": "For an array with the read_cache property NGA_Get returns the same buffer content as without the property.", "quantifier": "all sequences of gets while the property is set", "why_tests_cant": "Cache hit patterns are unbounded.", "anchors": ["global/src/onesided.c: pnga_get (1151-1294)"]}
{"id": "C41", "title": "Broadcast and reduction transfer every byte", "statement": "GA_Brdcst of any length (also above 2 GiB) sends every byte exactly once in consecutive pieces, and translates the root rank for groups.", "quantifier": "all lengths", "why_tests_cant": "Lengths above 2 GiB cannot be tested routinely.", "anchors": ["global/src/collect.c: pnga_msg_brdcst"]}
{"id": "C42", "title": "Large transfers are split without loss", "statement": "A transfer larger than the maximum message size is cut into consecutive pieces of at most that size that cover the buffer exactly once, in the same order at sender and receiver; the backward variant used for packed data delivers the same bytes.", "quantifier": "all lengths and maximum message sizes > 0", "why_tests_cant": "Infinite sizes.", "anchors": ["comex/src-mpi-pr/comex.c: nb_put, _put_handler, _put_packed_handler, nb_get"]}
{"id": "C43", "title": "Irregular distributions are validated", "statement": "GA_Set_irreg_distr accepts a map only if the resulting blocks own every element exactly once.", "quantifier": "all maps and dims", "why_tests_cant": "Infinite maps.", "anchors": ["global/src/base.c: pnga_set_irreg_distr"]}
{"id": "C44", "title": "Restricted arrays and group arrays translate process numbers consistently", "statement": "For arrays restricted to a list of processes or created on a process group, ownership queries translate between internal block numbers and process numbers without loss, so that C01 holds with the user-visible process numbers.", "quantifier": "all restriction lists without duplicates", "why_tests_cant": "Infinite lists.", "anchors": ["global/src/base.c: pnga_set_restricted, pnga_set_restricted_range, pnga_locate, pnga_distribution"]}
{"id": "C45", "title": "Requests larger than the message limit are served", "statement": "NGA_Put, NGA_Get and NGA_Acc on any in-range patch complete, also when the data of one process exceeds the 2 GiB message limit and the request has to be split.", "quantifier": "all arrays, distributions, patches, element sizes and environments", "why_tests_cant": "needs patches of many GiB with every combination of edge lengths; the splitting loop only misbehaves for particular shapes", "anchors": ["global/src/iterator.c:gai_iterator_next", "global/src/onesided.c:ngai_put_common", "global/src/onesided.c:ngai_get_common"]}
{"id": "C46", "title": "Group broadcast transfers every byte", "statement": "GA_Pgroup_brdcst of any length delivers every byte of the root's buffer to every member of the group and changes nothing else.", "quantifier": "all groups, roots and lengths", "why_tests_cant": "needs buffers above 2 GiB; the defect is silent", "anchors": ["global/src/collect.c: pnga_pgroup_brdcst"]}
{"id": "C47", "title": "Collective creation is all or nothing", "statement": "When all processes make the same collective calls, every create, allocate, duplicate, destroy and deallocate gives the same result and the same handle on every process, although the bytes an array takes and the memory limit differ from process to process.", "quantifier": "all numbers of processes, per-process sizes and limits, and histories of collective calls", "why_tests_cant": "The failing process can be any one, at any point of the history.", "anchors": ["global/src/base.c: pnga_create_handle, pnga_allocate, pnga_duplicate, pnga_destroy"]}
{"id": "C48", "title": "Direct access to blocks agrees with put and get", "statement": "The pointer and leading dimensions returned by NGA_Access_block, NGA_Access_block_grid and the local iterator address exactly the elements of that block: each element read through the pointer has the value NGA_Get returns for it, and the pointer belongs to the process that holds the block.", "quantifier": "all block-cyclic, ScaLAPACK, tiled and irregular tiled arrays, all blocks, patches and memory contents", "why_tests_cant": "Offsets depend on edge blocks and on the position in the process grid, and are computed by different code than put/get.", "anchors": ["global/src/onesided.c: pnga_access_block_ptr, pnga_access_block_grid_ptr", "global/src/iterator.c: pnga_local_iterator_init, pnga_local_iterator_next"]}
{"id": "C49", "title": "Default distribution is balanced and respects chunk hints", "statement": "With the default distribution and no chunk hints the extents of the blocks of any two processes holding data differ by at most one in every dimension. With a chunk hint c > 1 in a dimension, every block that does not end at the end of the dimension has at least min(c, dimension) elements there.", "quantifier": "all dimensions, chunk hints and numbers of processes", "why_tests_cant": "The block sizes come from a factorisation heuristic with floating point comparisons over unboundedly many shapes and process counts.", "anchors": ["global/src/base.c: pnga_allocate (2591-2620)", "global/src/decomp.c: ddb_h2"]}
{"id": "C50", "title": "MA heap and stack inquiries never over-promise", "statement": "If MA_inquire_heap_check_stack or MA_inquire_heap_no_partition returns n > 0, a heap allocation of n elements of that datatype succeeds immediately afterwards; if MA_inquire_stack_check_heap returns n > 0, a stack allocation of n elements succeeds, also when heap or stack have overgrown the partition; and the answer of MA_inquire_heap_no_partition is the largest piece of memory available.", "quantifier": "all reachable allocator states, partitions, alignments and datatypes", "why_tests_cant": "All allocator states and segment layouts.", "anchors": ["ma/ma.c: ma_max_heap_frag_nelem, ma_nelem, MA_inquire_heap_check_stack, MA_inquire_heap_no_partition, MA_inquire_stack_check_heap"]}
{"id": "C51", "title": "Patch operations touch exactly the patch", "statement": "Fill_patch, zero_patch and scale_patch change exactly the elements inside the given patch (each once, to the value, zero, or the scaled old value) and leave every other element of the array, every ghost cell and every other cell of memory unchanged; copy_patch, add_patch and dot_patch read and write exactly the elements of the given patches.", "quantifier": "all arrays, distributions, patches, values and interleavings of the processes", "why_tests_cant": "All shapes of patches relative to all distributions, and all schedules.", "anchors": ["global/src/global.npatch.c: pnga_fill_patch, pnga_scale_patch, pnga_zero_patch, pnga_add_patch, pnga_dot_patch, pnga_copy_patch, pnga_patch_intersect", "global/src/iterator.c: pnga_local_iterator_next"]}
{"id": "C52", "title": "A ghost cell update always completes", "statement": "On an array whose blocks are at least as wide as its ghost cells, GA_Update_ghosts returns on every process: whatever the order in which the processes run, as long as one of them has not returned some process can go on, even if the message layer buffers no message, and the number of steps is bounded.", "quantifier": "all dims, process grids (odd and even extents, extent one), ghost widths, contents, schedules and buffering behaviours of the message layer", "why_tests_cant": "A deadlock shows only for particular grid extents, schedules and message sizes beyond the eager limit.", "anchors": ["global/src/ghosts.c: pnga_update4_ghosts, pnga_set_update4_info", "global/src/base.c: pnga_proc_topology"]}
{"id": "C53", "title": "A patch copy moves every element to its place", "statement": "NGA_Copy_patch puts the n-th element of the source patch (column order, or row order with the transposition flag) at the n-th place (column order) of the destination patch, for every pair of patches with the same number of elements, and changes nothing else in any array; in two dimensions transposing means swapping the subscripts. The result does not depend on the distributions, the process groups or the schedule.", "quantifier": "all arrays, ranks, distributions, patches of equal size, both values of the flag, also two disjoint patches of one array, and all interleavings of the processes", "why_tests_cant": "The code splits the patch along two unrelated distributions and takes different branches for equal shape, change of shape, block-cyclic layouts and group sizes.", "anchors": ["global/src/global.npatch.c: pnga_copy_patch, snga_dest_indices, pnga_comp_patch, snga_test_shape", "global/src/global.nalg.c: pnga_copy"]}
{"id": "C54", "title": "Transpose and symmetrize", "statement": "After GA_Transpose(a, b), B[j][i] = A[i][j] for every element of A and nothing else has changed; after GA_Symmetrize(a), A[..][i][j] is half the sum of the old A[..][i][j] and A[..][j][i] for every element, and nothing else has changed. The result does not depend on the distributions or the schedule.", "quantifier": "all arrays (regular with or without ghost cells, block-cyclic), all distributions of A and B, all contents and all interleavings of the processes", "why_tests_cant": "Every process writes parts of blocks owned by others, and the local pieces depend on two unrelated distributions.", "anchors": ["global/src/global.nalg.c: pnga_transpose, snga_local_transpose", "global/src/ga_symmetr.c: pnga_symmetrize, gai_add"]}
{"id": "C55", "title": "Diagonal, row and column operations touch exactly their elements", "statement": "GA_Get_diag copies the diagonal of a matrix into a vector; GA_Add_diagonal, GA_Set_diagonal, GA_Shift_diagonal and GA_Zero_diagonal change exactly the elements A[i][i] (by adding, storing, shifting, clearing); GA_Scale_rows and GA_Scale_cols multiply every element by the factor of its row or column. Nothing else changes.", "quantifier": "all matrices, square or not, all distributions of the matrix and of the vector, all contents and all interleavings of the processes", "why_tests_cant": "The diagonal cuts each block at a different place: the code has to find the segment in every block of every distribution.", "anchors": ["global/src/matrix.c: pnga_get_diag, pnga_add_diagonal, pnga_set_diagonal, pnga_shift_diagonal, pnga_zero_diagonal, pnga_scale_rows, pnga_scale_cols"]}
{"id": "C56", "title": "Unary elementwise operations", "statement": "GA_Add_constant, GA_Abs_value, GA_Recip and their patch versions replace every element of the patch by its sum with the constant, its absolute value or its reciprocal, and change nothing outside the patch. GA_Recip stops with an error exactly if an element of the patch is zero. Complex absolute values and reciprocals are computed with scaling and must still equal the mathematical result.", "quantifier": "all arrays (regular with or without ghost cells, block-cyclic, tiled), all patches, all contents, all orders of the processes", "why_tests_cant": "The local loop runs over the intersection of the patch with each block of each distribution; the formulas branch on signs and on which part is larger.", "anchors": ["global/src/elem_alg.c: gai_oper_elem, do_abs, do_recip, do_add_const, pnga_abs_value_patch, pnga_recip_patch, pnga_add_constant_patch"]}
{"id": "C57", "title": "Binary elementwise operations", "statement": "GA_Elem_multiply, GA_Elem_divide, GA_Elem_maximum, GA_Elem_minimum and their patch versions store in the i-th element of the result patch the product, quotient, maximum or minimum of the i-th elements of the operand patches, also if the result is one of the operands, for all distributions of the three arrays; nothing else changes. Division stops with an error exactly if a divisor in the patch is zero. Calls with patches outside their arrays or with different element counts are refused.", "quantifier": "all arrays, all distributions of the three arrays, all patches with the same number of elements, all contents, integer, real and complex types, all aliasings and interleavings", "why_tests_cant": "If distributions differ the operands are copied to temporaries first; the result depends on aliasing and on three unrelated distributions.", "anchors": ["global/src/elem_alg.c: ngai_elem2_patch_, do_multiply, do_divide, do_maximum, do_minimum, pnga_elem_multiply_patch, pnga_elem_divide_patch, pnga_elem_maximum_patch, pnga_elem_minimum_patch"]}
{"id": "C58", "title": "Median of three arrays", "statement": "GA_Median and GA_Median_patch store in every element of the result patch the median of the three corresponding elements of the operands (for complex types by absolute value), whatever the distributions; nothing outside the patch changes.", "quantifier": "all arrays and distributions, all patches with the same number of elements, all contents, all interleavings", "why_tests_cant": "Four distributions take part, operands are copied to temporaries depending on them, and the six orders of three values with ties must all be right.", "anchors": ["global/src/matrix.c: pnga_median, pnga_median_patch, sgai_median_patch_values, median macros"]}
{"id": "C59", "title": "Norms", "statement": "GA_Norm1 returns the sum of the absolute values of all elements of a vector or matrix and GA_Norm_infinity the largest absolute value, independent of the distribution; arrays with more than two dimensions are refused.", "quantifier": "all one and two dimensional arrays, all distributions, all contents", "why_tests_cant": "Every element must be counted exactly once for every distribution, including processes with no or several blocks.", "anchors": ["global/src/matrix.c: pnga_norm1, pnga_norm_infinity, sgai_norm1_block, sgai_norm_infinity_block"]}
{"id": "C60", "title": "Matrix multiplication", "statement": "GA_Dgemm and GA_Matmul_patch store alpha*op(A)*op(B)+beta*C in every element of the result patch, for every choice of transposes, patches, coefficients, process count and block sizes, whichever of the internal algorithms is chosen; elements outside the patch do not change, legal calls return and patches that do not fit are refused.", "quantifier": "all two dimensional arrays and regular distributions of the result, all patches, coefficients and transposes, all buffer sizes, all interleavings of the processes", "why_tests_cant": "The product is cut into tasks that depend on memory limits, process count and distribution, is accumulated by several processes at the same time, and overlaps communication of one task with computation of the last.", "anchors": ["global/src/matmul.c: pnga_matmul, gai_matmul_shmem, gai_matmul_regular, gai_matmul_irreg, gai_get_task_list, gai_get_chunk_size, GAI_DGEMM"]}
{"id": "C61", "title": "Multiplication of sections of N-dimensional arrays", "statement": "NGA_Matmul_patch stores alpha*op(A)*op(B)+beta*C in the result patch and changes nothing else, and refuses exactly the calls whose patches do not fit the arrays or each other.", "quantifier": "all array sizes, patches, transposes, coefficients, process counts, buffer sizes and interleavings", "why_tests_cant": "Tasks are dealt to processes by a counter and cut at sizes that depend on the inner extent and the number of processes.", "anchors": ["global/src/matmul.c: pnga_matmul_patch, gai_matmul_patch, gai_setup_2d_patch"]}
{"id": "C62", "title": "Multiplication into a block-cyclic or tiled array", "statement": "GA_Dgemm and GA_Matmul_patch store alpha*op(A)*op(B)+beta*C in the result patch, and change nothing else, also if the result is a block-cyclic or tiled array.", "quantifier": "all block-cyclic and tiled result arrays, all operands, patches and coefficients, all interleavings", "why_tests_cant": "The work is cut along the blocks of the result, each process starting at a different point of the inner dimension, with buffers sized after one block.", "anchors": ["global/src/matmul.c: pnga_matmul_basic"]}
{"id": "C63", "title": "Blocks of a patch of a block-cyclic or tiled array", "statement": "NGA_Locate_region succeeds exactly for legal patches; the pieces it reports cover every element of the patch exactly once and nothing else, and each piece lies in the block whose number is reported with it. NGA_Locate_nnodes and NGA_Locate_num_blocks give the number of these pieces.", "quantifier": "all block-cyclic, ScaLAPACK, tiled and irregularly tiled arrays of any number of dimensions, all patches", "why_tests_cant": "The three loops treat block boundaries, numbering and overlap in different ways; which blocks meet a patch depends on all sizes.", "anchors": ["global/src/base.c: pnga_locate_region, pnga_locate_nnodes, pnga_locate_num_blocks"]}
{"id": "C64", "title": "One-sided operations of the C interface", "statement": "For C callers (subscripts from 0, last dimension fastest), every history of NGA_Put, NGA_Acc, NGA_Get and NGA_Read_inc behaves as on one plain row-major array: elements of a patch correspond to their row-major places in the caller's buffer with the given leading dimensions. NGA_Access returns a pointer and leading dimensions through which the same elements are found. Illegal patches are rejected.", "quantifier": "all arrays of any number of dimensions, all distributions, patches, leading dimensions, values and histories of calls", "why_tests_cant": "The interface reverses and shifts every subscript list; an error shows only for particular ranks, extents and leading dimensions.", "anchors": ["global/src/capi.c: NGA_Put, NGA_Get, NGA_Acc, NGA_Read_inc, NGA_Access, COPYINDEX_C2F, COPYC2F", "global/src/onesided.c: pnga_access_ptr"]}
{"id": "C65", "title": "Creation and distribution queries of the C interface", "statement": "For C callers, NGA_Create and NGA_Create_irreg make an array whose blocks partition the subscripts; with NGA_Create_irreg process blocks are those that dims, block and map describe in C order. NGA_Distribution, NGA_Locate, NGA_Locate_region, GA_Nblock, NGA_Proc_topology, NGA_Get_proc_grid describe this distribution in C order, and directions of ghost cell queries are C directions.", "quantifier": "all dimensions, chunk hints, block counts, maps, processes, subscripts and patches", "why_tests_cant": "Index lists, maps and grids must be reversed consistently for every rank; symmetric examples hide an error.", "anchors": ["global/src/capi.c: NGA_Create, NGA_Create_irreg, copy_map, NGA_Distribution, NGA_Locate, NGA_Locate_region, GA_Nblock, NGA_Proc_topology, NGA_Get_proc_grid, NGA_NbGet_ghost_dir"]}
{"id": "C66", "title": "Matrix operations of the C interface", "statement": "For C callers, who see matrices by rows with subscripts from 0, GA_Dgemm, GA_Matmul_patch and NGA_Matmul_patch store alpha*op(A)*op(B)+beta*C in the result patch and nothing else, and GA_Scale_rows and GA_Scale_cols scale rows and columns.", "quantifier": "all matrices, distributions, patches, transposes, coefficients, process counts and interleavings", "why_tests_cant": "The interface turns C := A B into C^T := B^T A^T; flags, operands and extents must be exchanged together for every combination.", "anchors": ["global/src/capi.c: GA_Dgemm, GA_Dgemm_c, GA_Matmul_patch, NGA_Matmul_patch, GA_Scale_rows, GA_Scale_cols"]}
{"id": "C67", "title": "Global pointer arrays hold byte strings", "statement": "A global pointer array behaves like an array whose elements are byte strings of any length. After any history of creation, local assignment, in-place change, free, GP_Put and GP_Memzero, GP_Get of a patch returns for every element its length and exactly the bytes last stored, packed into the buffer without overlap; GP_Put replaces the bytes of the elements of the patch and of no others; GP_Get_size returns the number of bytes.", "quantifier": "all distributions, histories, patches, leading dimensions, element lengths, calling processes", "why_tests_cant": "Three independent linearisations (sizes, pointers, piece of a process) must agree for every patch, leading dimension and split over processes, after any history.", "anchors": ["gparrays/src/gponesided.c: pgp_get, pgp_put, pgp_get_size", "gparrays/src/gpbase.c: pgp_allocate, pgp_assign_local_element, pgp_free_local_element, pgp_memzero"]}
{"id": "C68", "title": "Gather and scatter on global pointer arrays", "statement": "GP_Gather returns, for every element of a list of subscripts, its length and its bytes; GP_Scatter replaces the bytes of the listed elements and of no others; GP_Gather_size returns the number of bytes; GP_Access_element gives the owner the address and length of an element and refuses other processes.", "quantifier": "all lists of subscripts (with repetitions for gather), histories, element lengths, process counts", "why_tests_cant": "Elements are sorted into linked lists per process; every element of every list must be visited exactly once for any order and any distribution.", "anchors": ["gparrays/src/gponesided.c: pgp_gather, pgp_scatter, pgp_gather_size, pgp_access_element"]}
{"id": "C69", "title": "Disk resident arrays are arrays", "statement": "A section written to a disk resident array with NDRA_Write_section, straight or transposed, is what any later NDRA_Read_section of these elements returns, until they are written again; nothing else on disk or in the global array changes; every request whose sections lie in the arrays and have equal extents succeeds, others are refused; every array has an I/O process for every rank; a program that opens the array again finds the content.", "quantifier": "all shapes and block sizes, all sections, straight and transposed, all numbers of processes, nodes, files and I/O processes, all interleavings, all histories of writes and reads", "why_tests_cant": "Sections are split into an aligned part and up to twelve cover sections, these into blocks, and the blocks are spread over processes and files with position formulas that depend on all extents; no sample of shapes covers the boundary cases.", "anchors": ["pario/dra/disk.arrays.c: ndra_write_section_, ndra_read_section_, ndai_decomp_section, ndai_next_chunk, ndai_file_location, ndai_transfer_unlgn, ndai_transfer_algn, nga_move, dai_myturn, dai_io_nodeid, dai_io_procs, dai_set_config", "pario/dra/patch.util.c: dai_section_intersect"]}
{"id": "C70", "title": "Blocks of disk resident arrays fit into the I/O buffer", "statement": "Whatever typical request NDRA_Create is given, the blocks of the array are not empty, not larger than the array and not larger than the I/O buffer; a fitting request that divides the array is used as it is; every disk transfer of every request fits into the buffer.", "quantifier": "all dimensions, element sizes, typical requests (also negative or too large), sections, processes", "why_tests_cant": "Block sizes come from a chain of roundings and reductions; a single product over the buffer size overwrites memory.", "anchors": ["pario/dra/disk.arrays.c: ndai_chunking, block_sortM, ndrai_create_config", "pario/dra/buffers.h: BUF_SIZE"]}
{"id": "C71", "title": "Sparse arrays are assembled from all added elements", "statement": "Every process may add any number of elements to a sparse array; after NGA_Sprs_array_assemble every process sees, in every column block of its rows, exactly the elements that any process has added there, in compressed row format, and null pointers for blocks without elements. The row and column ranges reported by the distribution functions partition the matrix.", "quantifier": "all matrices, added elements per process, numbers of processes and orders of the reservations and puts of all processes", "why_tests_cant": "The elements travel through linked lists, shared offsets reserved in any order and concurrent puts; a single collision shows only for particular matrices and interleavings.", "anchors": ["global/src/sparse.array.c: pnga_sprs_array_create, pnga_sprs_array_add_element, pnga_sprs_array_assemble, pnga_sprs_array_row_distribution, pnga_sprs_array_column_distribution, pnga_sprs_array_access_col_block", "global/src/base.c: pnga_set_irreg_distr"]}
{"id": "C72", "title": "Operations on sparse arrays compute what they say", "statement": "After any sequence of multiplications with diagonal matrices from the left and right, diagonal shifts and scalings, every process sees the matrix these operations make of the assembled one; the matrix vector product is the mathematical product, independent of the order of accumulation and of the content of newly allocated memory; the diagonal is the diagonal of the matrix.", "quantifier": "all matrices, histories, vectors, numbers of processes, contents of new memory and accumulation orders", "why_tests_cant": "Uninitialised memory is often zero, test matrices have elements everywhere and are square; the failing cases are sparse, rectangular or complex.", "anchors": ["global/src/sparse.array.c: pnga_sprs_array_diag_left_multiply, pnga_sprs_array_diag_right_multiply, pnga_sprs_array_shift_diag, pnga_sprs_array_scale, pnga_sprs_array_matvec_multiply, pnga_sprs_array_get_diag"]}
{"id": "C73", "title": "Products of sparse arrays are matrix products", "statement": "The product of two sparse arrays, each assembled and changed by any sequence of operations including products, is the mathematical product: an entry exactly once in every position where elements meet, with the sum of the products, visible to all processes; it does not depend on the content of newly allocated memory or on the distribution, and the internal buffers are never overrun.", "quantifier": "all matrices, histories of both operands, numbers of processes and contents of new memory", "why_tests_cant": "The result is collected in a hash table whose size is estimated from the operands; an overrun or a lost chain needs particular patterns of elements, and histories are unbounded.", "anchors": ["global/src/sparse.array.c: pnga_sprs_array_matmat_multiply, pnga_sprs_array_get_block, SPRS_REAL_MATMAT_MULTIPLY_M"]}
{"id": "C74", "title": "Conversions between sparse and dense arrays keep the matrix", "statement": "A sparse array created from a dense array has its nonzero elements and the whole diagonal, each once, whatever the distribution of the dense array and the order in which processes assemble; a dense array created from a sparse array has the same dimensions and elements; a dense array converted to sparse and back is unchanged; the column of a sparse array is returned as a vector with the elements of that column.", "quantifier": "all dense contents and distributions, interleavings, histories of the sparse array, columns and numbers of processes", "why_tests_cant": "The result depends on patch shapes, leading dimensions, the interleaving of the assembly and the whole history of the sparse array, all unbounded.", "anchors": ["global/src/sparse.array.c: pnga_sprs_array_create_from_dense, pnga_sprs_array_create_from_sparse, pnga_sprs_array_get_column, SPRS_REAL_FILTER_M"]}
{"id": "C75", "title": "Products of a sparse and a dense array are matrix products", "statement": "Multiplying a sparse array, with any history, by a dense array from the left or the right gives a dense array with the elements of the matrix product, for all dimensions for which the product is defined; both give the same result as operands are converted; dimensions that do not fit are rejected.", "quantifier": "all matrices, dimensions, histories of the sparse operand and numbers of processes", "why_tests_cant": "Each element of the result is the sum of contributions of many blocks fetched with computed limits; a wrong limit shows only for particular shapes, and histories are unbounded.", "anchors": ["global/src/sparse.array.c: pnga_sprs_array_sprsdns_multiply, pnga_sprs_array_dnssprs_multiply, SPRS_REAL_SPRSDNS_MULTIPLY_M, SPRS_REAL_DNSSPRS_MULTIPLY_M"]}
{"id": "C76", "title": "The solver for linear equations returns the solution", "statement": "For every matrix that is not singular and every array of right hand sides the sequential solver replaces each right hand side by the only solution of the equations, or of the transposed equations if asked for; a singular matrix is reported as an error and so are dimensions that do not match.", "quantifier": "all dimensions, matrices, right hand sides and initial contents of the work arrays", "why_tests_cant": "Row interchanges depend on the values; a loop that misses one step or a step that is never reported shows only for particular matrices, and dimensions are unbounded.", "anchors": ["global/src/ga_solve_seq.c: pnga_lu_solve_seq, LP_dgefa, LP_dgesl, LP_daxpy, LP_ddot, LP_dscal, LP_idamax"]}
{"id": "C77", "title": "The allocator of local memory gives out memory that nobody else has", "statement": "After any history of allocations and releases the live allocations and their headers are pairwise disjoint, lie in memory obtained from the system and have its alignment; every allocation ends, and fails only if the limit is reached or the system refuses; every live pointer can be released and any other pointer is reported; released memory is joined with its neighbours, so that any long enough run of free memory is used before more is obtained; the statistics are the amounts obtained, in use and most in use.", "quantifier": "all histories of allocations and releases, all sizes, all answers of the system that are not memory it gave before", "why_tests_cant": "Whether blocks overlap depends on the order of addresses, on exact fits and on which neighbours are free: the number of histories is unbounded.", "anchors": ["armci/src/memory/kr_malloc.c: kr_malloc, kr_free, morecore, kr_malloc_shmem, kr_free_shmem", "armci/src/memory/memory.c: ARMCI_Malloc_local, ARMCI_Free_local"]}
{"id": "C78", "title": "A file returns the bytes last written to it, wherever it is cut into extents", "statement": "A read of a file that succeeds returns exactly the requested number of bytes, and every byte has the value last written to its offset, across extents, across closing and opening again, and however the system interrupts or shortens its calls. A read of bytes that were written, and a write within the limits, succeed unless the system reports an error; a write beyond the limits is reported. The length is the end of the last byte written, truncation keeps exactly the bytes below the new length, and deletion removes the whole file.", "quantifier": "all histories of opens, reads and writes, all offsets, lengths and sizes of extents, all answers of the system", "why_tests_cant": "Extents begin at sizes no test can write, and the cut of a request depends on the offset, the extent and where the system interrupts it.", "anchors": ["pario/elio/elio.c: elio_open, elio_write, elio_read, elio_length, elio_truncate, elio_delete, elio_get_next_extent", "pario/eaf/eaf.c: EAF_Write, EAF_Read, EAF_Length, EAF_Truncate, EAF_Delete"]}
{"id": "C79", "title": "The shared counter NXTVAL hands out every value once", "statement": "Between two resets the values of the shared counter handed out to all processes are 0, 1, 2, ... in the order of the calls, each exactly once. A reset returns only after all processes have called it, and returns once they have. The value is the same in C and Fortran.", "quantifier": "all numbers of processes, all interleavings of draws and resets", "why_tests_cant": "A duplicate value appears only in particular interleavings of a draw with the reset.", "anchors": ["tcgmsg/tcgmsg-mpi/nxtval-armci.c: NXTVAL_, install_nxtval", "tcgmsg/capi.c: tcg_nxtval", "tcgmsg/fapi.c: _NXTVAL_"]}
{"id": "C80", "title": "GA_Step_max and GA_Step_bound_info return the largest steps", "statement": "For a nonnegative array a and a direction b, GA_Step_max returns the largest step (up to the infinity of the type) for which a + step * b has no negative element, and reports a negative element of a. For x between bounds xl and xu and a direction v, GA_Step_bound_info returns the largest step that keeps all elements within their bounds and the smallest and largest of the steps of the elements. The patch versions depend only on the patch.", "quantifier": "all array contents, all element types, all patches, all distributions", "why_tests_cant": "The result depends on the signs and zeros of every element and on how elements are grouped into blocks.", "anchors": ["global/src/elem_alg.c: pnga_step_max, pnga_step_max_patch, pnga_step_bound_info, pnga_step_bound_info_patch, has_negative_elem, do_step_divide, do_stepb_divide, do_step_mask, do_stepmax"]}
{"id": "C81", "title": "Exclusive access files return the bytes last written, under their names", "statement": "A file opened with EAF_Open, in memory or on disk, returns for every read within its length the bytes that were last written to it by this process, through any number of closes and opens under its name, until EAF_Delete of its name removes it. Asynchronous reads and writes have, once waited for, the effect of the synchronous ones, and EAF_Probe tells whether they are complete. No call touches memory outside of a file.", "quantifier": "all sequences of opens, closes, reads, writes, asynchronous reads and writes, deletions and length queries, all names, sizes, offsets and bytes", "why_tests_cant": "Whether a name finds its file depends on which descriptors are in use and on the whole history of opens, closes and deletions.", "anchors": ["pario/eaf/eaf.c: EAF_Open, EAF_Close, EAF_Write, EAF_Awrite, EAF_Read, EAF_Aread, EAF_Wait, EAF_Probe, EAF_Delete, EAF_Length", "pario/elio/elio.c: elio_awrite, elio_aread, elio_wait, elio_probe"]}
{"id": "C82", "title": "ga_copy_patch_dp copies a patch, ga_ddot_patch_dp multiplies two patches", "statement": "If all processes call ga_copy_patch_dp with the same arguments, the destination patch holds the elements of the source patch, or of its transpose, and no other element changes. If all processes call ga_ddot_patch_dp, the sum of their results is the dot product of the patches.", "quantifier": "all matrices, distributions, numbers and orders of processes, patches", "why_tests_cant": "The result depends on where the patch lies relative to the blocks of every process; tests with whole matrices do not show it.", "anchors": ["global/src/DP.c: pnga_copy_patch_dp, pnga_ddot_patch_dp, patch_intersect, own_patch"]}
{"id": "C83", "title": "Broadcasts and global operations end and give every process the same, right values", "statement": "If all processes of the world or of a group call GA_Brdcst, GA_Pgroup_brdcst, GA_Dgop, GA_Igop, GA_Pgroup_dgop, ... in the same order, all calls end however the processes are scheduled and whatever the transport buffers; after a broadcast all have the data of the root, after a global operation all have the elementwise combination of the contributions, and nothing else has changed.", "quantifier": "all histories of calls, groups that may overlap, roots, lengths, numbers and sizes of nodes, schedules, capacities of the transport", "why_tests_cant": "A deadlock or a mixed up message shows only under particular schedules, tree shapes and buffering limits of the transport.", "anchors": ["armci/src/collectives/message.c: armci_msg_bintree, armci_msg_bcast, armci_msg_reduce, armci_msg_gop_scope, armci_msg_group_gop_scope", "global/src/collect.c: pnga_brdcst, pnga_gop, pnga_pgroup_gop"]}
{"id": "C84", "title": "The broadcast through shared memory ends and gives everybody the bytes of the sender", "statement": "If the processes of a node call armci_msg_bcast one call after the other, with any lengths and senders, then however they are scheduled, access by access, no call hangs, and after the calls every process has the bytes of the senders, also when long messages go through the two buffers in pieces and senders change between calls.", "quantifier": "all numbers of processes, histories of calls, lengths, senders, schedules of single memory accesses", "why_tests_cant": "Lost flags and overwritten buffers show only under particular interleavings of the accesses of three or more processes.", "anchors": ["armci/src/collectives/message.c: armci_smp_bcast, armci_msg_bcast, armci_msg_gop_init"]}
{"id": "C85", "title": "Concurrent accumulates into the same memory lose no update", "statement": "If processes accumulate into the memory of one process at the same time, contiguous, strided or at lists of pointers, then however they are scheduled, when all calls have ended every element holds its old value plus everything that all calls add to it, no two processes change a common element at the same time, and no call waits for ever.", "quantifier": "all numbers of processes, sequences of accumulates with their addresses and sizes, initial memories, schedules of single accesses to the lock, the table of locked areas and the memory", "why_tests_cant": "A lost update needs two overlapping areas of particular shapes and an interleaving within a few instructions.", "anchors": ["armci/src/locks/memlock.c: armci_lockmem, armci_unlockmem", "armci/src/xfer/strided.c: armci_acc_1D, armci_acc_2D", "armci/src/xfer/vector.c: armci_lockmem_scatter, armci_scatter_acc"]}
{"id": "C86", "title": "The reduction through shared memory ends and combines the numbers of all processes", "statement": "If the processes of a node call a global operation through shared memory, one call after the other, with any lengths, types and commutative and associative operations, then however they are scheduled, access by access, no call hangs, and after the calls the first process has in every element the numbers of all processes combined, also when long arrays go through the buffers in pieces and the children arrive in any order; the arrays of the others are unchanged.", "quantifier": "all numbers of processes, histories of calls, lengths, operations, contents, schedules of single memory accesses", "why_tests_cant": "A buffer that is overwritten before its parent has read it shows only under particular interleavings, and only for some shapes of the tree and numbers of pieces.", "anchors": ["armci/src/collectives/message.c: armci_smp_reduce, armci_msg_gop2, armci_msg_bintree"]}
{"id": "C87", "title": "Mutexes over MPI windows exclude each other and are handed on", "statement": "On the MPI-3 port, if processes lock only mutexes that exist and that they do not have, and unlock only what they have, then under every schedule at most one process has a mutex at a time, a process that waits is never forgotten, and if each process locks mutexes in order every call returns. Processes 0 and 1 are overtaken at most once and twice while they wait; other processes may be overtaken without bound.", "quantifier": "all numbers of processes and mutexes, programs, schedules of single accesses and messages, infinite fair schedules", "why_tests_cant": "Lost wake-ups and double grants depend on the interleaving of window accesses and messages; starvation shows only in infinitely long runs.", "anchors": ["comex/src-mpi3/comex.c: comex_create_mutexes, comex_destroy_mutexes, comex_lock, comex_unlock"]}
{"id": "C88", "title": "One-sided calls over two-sided messages are ordered, atomic and complete", "statement": "On the port over two-sided MPI, under every schedule, the calls of a process for the memory of another take effect there one after the other in the order they were made, each once; a get or read-modify-write returns what it finds at that moment, including all earlier updates of its own process; when a fence returns, the updates before it have taken effect; when one process returns from a barrier, all calls of all processes before that barrier have taken effect; and if all processes end with a barrier every call returns.", "quantifier": "all numbers of processes, programs, memories, finite schedules of sends and receipts; infinite fair schedules for termination", "why_tests_cant": "Processes serve each other only inside their own calls; whether a fence or a barrier lets an update through, or two processes wait for each other, depends on the interleaving of messages.", "anchors": ["comex/src-mpi/comex.c: _put_nbi, _acc_nbi, _get_nbi, comex_rmw, comex_fence_proc, comex_fence_all, comex_barrier, comex_make_progress", "comex/src-mpi/comex_impl.h: header_t"]}
{"id": "C89", "title": "Mutexes over two-sided messages exclude, are fair and publish updates", "statement": "On the port over two-sided MPI, for programs that create mutexes, synchronise, use them properly and destroy them, under every schedule: no two processes hold a mutex at once; requests for a mutex are granted in the order in which they arrive; an update of the memory of the process the mutex is at, made before the release, has taken effect when the next process holds the mutex; no assertion fails; destroying waits for no one after its barrier; and if mutexes are taken in a common order every call returns.", "quantifier": "all numbers of processes and mutexes, proper programs, finite schedules of sends, receipts and passes; infinite fair schedules for termination", "why_tests_cant": "Whether two grants overlap, a request overtakes another, or a release overtakes the update before it depends on the interleaving of messages, of which tests see few.", "anchors": ["comex/src-mpi/comex.c: comex_create_mutexes, comex_destroy_mutexes, comex_lock, comex_unlock, _lq_push, _lq_progress, _lock_request_handler, _lock_response_handler, _unlock_request_handler"]}
{"id": "C90", "title": "Mirrored arrays: node-local copies, merges and copies", "statement": "A mirrored array behaves on each node like an array of its own: a put, get or accumulate of a process acts on the copy of its node and on no other. Merging makes every copy the element-wise sum of all copies. Merging a patch into a distributed array stores there, for every element of the patch, the sum over the nodes of the corresponding elements, and changes nothing else. Copying a distributed array to a mirrored one gives every copy its content, and copying back gives the distributed array the content of the copies.", "quantifier": "all clusters (numbers of nodes and of processes on each), array shapes, distributions, patches, contents, interleavings of the processes", "why_tests_cant": "Tests use clusters with equal nodes and a few shapes; which elements are summed depends on the layout on every node, and the order of the accumulates on the schedule.", "anchors": ["global/src/base.c: pnga_merge_mirrored, pnga_merge_distr_patch, ga_initialize", "global/src/global.nalg.c: pnga_copy", "global/src/onesided.c: pnga_access_ptr, pnga_put, pnga_get, pnga_acc"]}
{"id": "C91", "title": "Shared files: requests in order, waits, handles", "statement": "A read from a shared file returns the bytes that the writes before it stored, whichever processes wrote them: requests that are waited for before a conflicting request starts take effect in the order of the program, whatever the system does with the requests in progress. A wait returns only when its request has been carried out and reports failures; ids tell the requests in progress apart; a full table of requests makes a request blocking but loses nothing. Every shared file in use has a handle and a file on disk of its own, and can be destroyed.", "quantifier": "all numbers of processes, programs of writes, reads, stores and waits, interleavings, orders in which the system transfers the bytes, sizes of the request table, extent sizes, and histories of create, open, close and destroy", "why_tests_cant": "The order in which the system transfers bytes of requests in progress is not under the control of a test, and tests run with requests that finish at once; the failing cases need I/O errors.", "anchors": ["pario/sf/shared.files.c: sfi_get_handle, sfi_create, sfi_create_suffix, sf_destroy_, sf_rwtor_, sf_open_, sf_close_, sf_write_, sf_read_, sf_wait_, sf_waitall_", "pario/elio/elio.c: AIO_LOOKUP, elio_awrite, elio_aread, elio_wait, elio_init"]}
{"id": "C92", "title": "Ghost cells fetched with one-sided gets are current, in any order of transfers", "statement": "After the non-blocking update of ghost cells and its wait, every ghost cell of the calling process, corners included, holds the element its subscript stands for in the periodically continued array, whatever the other processes' updates are doing at the same time; the update of one direction does so for the cells of that direction and changes no other cell; no update changes an element of the array. Reading a patch that includes ghost cells returns the patch of the periodically continued array. The calls mean the same dimension and direction in the C interface, and blocks too thin for the ghost cells are refused.", "quantifier": "all numbers of dimensions, irregular distributions, ghost widths, directions, contents, and all orders and interleavings of the element transfers of all processes", "why_tests_cant": "A test sees the transfers of one run in one order, on arrays whose ghost widths are all equal and whose blocks are wide.", "anchors": ["global/src/ghosts.c: pnga_update_ghosts_nb, pnga_update_ghost_dir, pnga_nbget_ghost_dir, pnga_get_ghost_block, gai_check_ghost_distr", "global/src/capi.c: NGA_Update_ghost_dir, NGA_NbGet_ghost_dir, COPYINDEX_C2F"]}
{"id": "C93", "title": "Puts and gets of a field touch exactly that field of the elements of the patch", "statement": "A put of a field of `field_size` bytes at offset `field_off` writes exactly those bytes of every element of the patch from the buffer, in which the fields are packed with the caller's leading dimensions, and changes no other byte; a get of the field returns them in the same layout. After any history of such puts by any processes every byte is what the last put covering it wrote, so fields put by different callers do not disturb each other. A negative size means the whole element. The C interface does the same with reversed order of dimensions, and a field that is not inside the element, or is empty, is refused.", "quantifier": "all numbers of dimensions, irregular distributions, ghost widths, element sizes, fields, patches, leading dimensions, buffers, and all histories of puts", "why_tests_cant": "A test uses one structure and one field layout; a stride that is rescaled wrongly shows only for particular leading dimensions and block boundaries.", "anchors": ["global/src/onesided.c: ngai_puts, ngai_nbputs, ngai_gets, ngai_nbgets, pnga_put_field, pnga_get_field", "global/src/capi.c: NGA_Put_field, NGA_Get_field, COPYINDEX_C2F"]}
{"id": "C94", "title": "A put with notification: who sees the notification finds the data, and the wait completes both", "statement": "When the notification element of a put with notification has its new value, every element of the patch has its new value too. When the wait for the request returns, patch and notification are in place, whatever other requests are outstanding, and requests take effect in the order in which they were made. The caller's buffer is not changed. The notification may be an element of the patch, in arrays of any number of dimensions. As many requests as the table has slots can be outstanding, and every wait gives its slot back.", "quantifier": "all arrays, patches, notifications, histories of requests and waits, and all orders of delivery that keep the order of transfers to one process", "why_tests_cant": "Whether the notification overtakes the data depends on the delivery of messages, which a test does not control.", "anchors": ["global/src/onesided.c: pnga_nbput_notify, pnga_nbwait_notify, putn_verify_element_in_buf, putn_find_empty_slot"]}
{"id": "C95", "title": "A registered stack memory gets back exactly what it gave", "statement": "After GA_Register_stack_memory(ext_alloc, ext_free), every temporary buffer GA uses is aligned to 16 bytes, lies inside the memory ext_alloc returned for it and is disjoint from the others; when it is given back ext_free is called with exactly the address ext_alloc returned, whatever was written into the buffers and whatever the order. Without registration the same holds with MA handles, for buffers given back last one first. Element sizes that do not divide 16 and a null answer of the allocator are refused before any access.", "quantifier": "all histories of allocations, writes and releases, all addresses the allocator may return, all element sizes and counts", "why_tests_cant": "The alignment of the addresses an allocator returns and the interleaving of buffers are not under a test's control.", "anchors": ["global/src/ga_malloc.c: GA_Register_stack_memory, ga_malloc, ga_free"]}
{"id": "C96", "title": "Count sketch adds up the rows with the same label", "statement": "A count sketch of a sparse matrix with size_k rows assigns every row of the matrix a label in 0..size_k-1 and a weight; row k of the result is the sum of the rows with label k times their weights, on any number of processes and in any order of their accumulations, transposed if asked for. The vectors of labels and weights are distributed like the rows. A sketch with more rows than the matrix is refused.", "quantifier": "all assembled sparse matrices and their histories, all numbers of processes, all labels and weights, all orders of the accumulations", "why_tests_cant": "Labels are random and the failure for missing blocks depends on where the elements of the matrix are; tests use a few matrices.", "anchors": ["global/src/sketch.c: pnga_sprs_array_count_sketch", "global/src/base.c: pnga_rand", "global/src/mtwister.c: genRand"]}
{"id": "C97", "title": "Aggregated requests are carried out once, in order, and completely at the wait", "statement": "Requests issued under an aggregate handle (contiguous, strided, vectors, single values) may be delayed; after a wait for the handle exactly the segments asked for under it have been transferred, each one once and in the order of the calls, whatever other aggregate handles were used in between. Before the wait only a beginning of them has been. The buffers never overflow. A call under a handle in use for another operation or process is refused; every other call returns while fewer than 32 handles are in use.", "quantifier": "all histories of calls and waits under any number of handles, all sizes, all numbers of segments and strides", "why_tests_cant": "When a buffer is flushed depends on the sizes and the interleaving of all calls so far; tests use one handle and small requests.", "anchors": ["armci/src/common/aggregate.c: armci_agg_save_descriptor", "armci/src/common/aggregate.c: armci_agg_save_strided_descriptor", "armci/src/common/aggregate.c: armci_agg_save_giov_descriptor", "armci/src/common/aggregate.c: armci_agg_complete", "armci/src/progress/wait.c: PARMCI_Wait"]}
{"id": "C98", "title": "Waiting completes the non-blocking requests issued without a handle", "statement": "After a wait for all, every non-blocking request issued without a handle is complete; after a wait for one process, every such request to this process is. Requests to other processes and requests with a handle of the caller are left alone. At most the last fifteen requests without a handle are incomplete at any time. The calls never fail.", "quantifier": "all histories of requests, waits and arrivals, all numbers of requests, all assignments of processes to nodes", "why_tests_cant": "Handles are reused in a ring; which entry a request takes depends on the whole history, and the overflow needs two thousand million calls.", "anchors": ["armci/src/progress/wait.c: armci_set_implicit_handle", "armci/src/progress/wait.c: PARMCI_WaitAll", "armci/src/progress/wait.c: PARMCI_WaitProc"]}
{"id": "C99", "title": "A strided message may arrive in pieces of any size", "statement": "The answer to a strided get that arrives in pieces is stored as if it had arrived as a whole, whatever the sizes of the pieces, also when they end in the middle of segments: after each piece the bytes that have arrived are at their places in the strided region, and nothing else has been written. No assertion fails.", "quantifier": "all stride levels, counts, strides without overlap, and all ways to cut the message into pieces that are not empty", "why_tests_cant": "The sizes of the pieces depend on the network; tests see few of them.", "anchors": ["armci/src/xfer/strided.c: armci_read_strided_inc", "armci/src/common/ds-shared.c: armci_rcv_strided_data", "armci/src/common/iterator.c: armci_stride_info_next"]}
