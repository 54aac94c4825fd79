# Formal model of GlobalArrays/ga in Lean 4

## 1. Trusted base

* Lean 4.33.0's kernel. Theorems may depend only on the three standard axioms
  `propext`, `Classical.choice`, `Quot.sound`. `AXIOMS.md` lists the axioms of each theorem
  named in MANIFEST.json; it is generated by `tools/axioms.py` from `#print axioms`.
* The correspondence between the C code in `/repo` and the definitions in
  `lean/Verif/Model/*.lean`. Every definition cites the file and line range it models
  and says what it simplifies. The correspondence is by reading; nothing is extracted.
* The specifications in `lean/Verif/Spec/*.lean` and the theorem statements in
  `lean/Verif/Props/*.lean`, which are meant to be read.

No axioms of our own, no `sorry`/`admit`, no `native_decide`/`bv_decide`.

## 2. Layout

| directory | content |
|---|---|
| `Verif/Spec` | small definitions used to *state* properties; they do not mention the model |
| `Verif/Model` | function-by-function model of the C code |
| `Verif/Lemmas` | proofs |
| `Verif/Props` | property theorems `Cxx_...`, each followed by `example`s showing that its hypotheses are met by a concrete case, and, where the code violates the property, a theorem `Cxx_..._fails` with a concrete witness |

## 3. General modelling decisions

* `Integer` (C `long`, 64 bit) is modelled by `Int` or `Nat` without overflow. Where C code
  computes with machine words on purpose (the `%` on unsigned differences in `ma.c`) the
  model says so.
* Arrays of length `ndim` are lists. The flat `mapc` array is a list that is consumed by
  prefixes as in the C code.
* Element values are an arbitrary type (put/get/scatter/...) or an arbitrary commutative
  additive structure (accumulate, dot, scans): floating point rounding is out of scope.
* `ga_error`/`assert` failures are an explicit error outcome (`none`).
* Undefined behaviour (out-of-bounds reads) is an explicit outcome where the model can reach it.
* Concurrency: small-step transition systems with arbitrary interleaving; one progress server
  per node that serves messages one at a time, channels FIFO per (sender, server) as MPI
  guarantees for equal communicator and tag.

## 4. Properties: what is modelled and how it is proved

| id | model | proof |
|---|---|---|
| C01 | `ga_ownsM_no_handle`, `findblock`, `pnga_locate`, `ga_ComputeIndexM` on lists | induction over dimensions; mixed radix bijection |
| C02 | `findblock` with the candidate as a free parameter | loop invariants, both search directions |
| C03 | map construction loop of `pnga_allocate` | loop invariant, closed form of block starts |
| C04 | `ddb_h2` with an arbitrary choice oracle for the dimension that receives each factor | product invariant |
| C05 | index/coordinate conversions, block bounds of the four block-cyclic layouts | division with remainder, mixed radix |
| C06 | `gam_Loc_ptr`/`gam_Location` offsets incl. ghost widths, block packing | mixed radix injectivity and bounds |
| C07 | `put/get/acc` as loops over iterator pieces, per-process memories | refinement to a function on subscripts; induction over op histories |
| C08 | `pnga_locate_region`, piece clipping | pieces are a partition of the patch (Nodup + membership) |
| C09 | block-cyclic iterators and packed local storage | instance of the generic refinement used for C07 |
| C10 | interleavings of element updates | permutation invariance of folds |
| C11 | atomic fetch-and-add at the server | induction over the schedule |
| C12 | bucketing of `gai_gatscat` | permutation of item list; fold lemmas |
| C13 | `INDEX_SORT` line by line on arrays with `SWAP` acting on all arrays | heap invariant, sortedness, permutation |
| C14 | `gai_correct_strided_patch`, `gai_ComputeCountWithSkip`, buffer index with skip | arithmetic; negation for ndim >= 3 buffer index |
| C15 | `pack`/`unpack` loops with `bvalue`/`bunit` | closed form of the odometer |
| C16 | stride iterator state machine | closed form of the odometer |
| C17,C18 | small-step system with FIFO channels, `fence_array` | inductive invariant |
| C19 | mutex server | inductive invariant |
| C20 | `pnga_create_mutexes`/`pnga_lock` index arithmetic | negation with witness (code uses the wrong variable) and the positive theorem for the intended formula |
| C21 | handle pool of `nbutil.c` | inductive invariant |
| C22 | request slots of `comex.c` | list induction |
| C23 | GA handle table | inductive invariant |
| C24 | memory accounting | inductive invariant; negation for re-set limit |
| C25,C26 | group creation and splits | list lemmas (sort, index maps), division |
| C27 | type table | inductive invariant |
| C28 | `ma/table.c` | inductive invariant incl. growth |
| C29,C30 | `ma/ma.c` heap and stack lists | inductive invariant over histories |
| C31 | registration cache | inductive invariant |
| C32 | `ngai_peri_get_range_`, `pnga_periodic` | arithmetic; negations for far negative requests and widths above dim |
| C33 | message plan and message exchange of `update4_ghosts` as an asynchronous transition system | simulation by synchronous rounds, invariant over processed dimensions |
| C34 | `pnga_compare_distr` | list induction |
| C35 | local loops over owned blocks; `GA_Add` and `GA_Dot` with their local loops and fallbacks | partition of index space, fold over partition |
| C36,C37 | `pnga_scan_copy`, `pnga_scan_add`, `sga_pack_unpack` per process with exchanged boundary data | composition of local scans |
| C38 | `sgai_bin_offset` on the binary tree | tree induction; negation for repeated calls |
| C39 | `snga_select_elem`, `pnga_select_elem` | fold invariant; negation for block-cyclic arrays |
| C40 | read cache list | simulation; negation for leading dimension |
| C41,C42 | chunk loops | loop invariant |
| C43 | `pnga_set_irreg_distr` checks | negation + positive theorem with the missing check |
| C44 | `rank_rstrctd`/`rstrctd_list`, group maps | bijection lemmas |
| C45 | splitting of oversized pieces in the REGULAR iterator | loop invariant; negation (division by zero) |
| C46 | `pnga_pgroup_brdcst` | loop invariant; negation from 2 GiB on |
| C47 | `gai_get_shmem` bookkeeping per process | simulation of all processes by one |
| C48 | `pnga_access_block_ptr`, `pnga_access_block_grid_ptr`, local iterator | mixed radix offsets; negation for TILED grids |
| C49 | default map | closed form of block starts |
| C50 | inquiries of `ma/ma.c` | inductive invariant; negations |
| C51 | patch operations as lists of touched cells, any interleaving; `NGA_Add_patch`, `NGA_Dot_patch` as sequences of copies and local loops | partition of the patch over the local blocks; effect of each phase |
| C52 | same model as C33, with sends that need not be buffered | invariant, minimal pending step can be taken; strictly decreasing measure |
| C53 | `NGA_Copy_patch` and `GA_Copy` as lists of moves per process, any interleaving of all of them | rank of an element in a patch is a bijection; the local parts partition the patch; moves with distinct targets commute |
| C54 | `GA_Transpose` and `GA_Symmetrize` as get, local loop, put per process | the blocks partition the array; swapping the last two subscripts is a bijection |
| C55 | diagonal and row/column operations of matrix.c: segment of each block, vector get/put, local loop | the segments partition the diagonal; distinct targets commute |
| C56 | unary operations of elem_alg.c (`gai_oper_elem`) as a loop over the local intersections; scalar formulas as functions | the local parts partition the patch; scalar formulas by field arithmetic |
| C57 | binary operations (`ngai_elem2_patch_`) with temporaries and aliasing | as C51: copies preserve content, distinct targets commute; a general theorem gives the wrong complex product |
| C58 | `pnga_median_patch` with its copies and its test of distributions | as C57; case analysis of the comparison macro |
| C59 | norms of matrix.c: loop over local blocks, global sum or maximum | the blocks partition the array |
| C60 | `pnga_matmul` with its three algorithms (shared memory, regular with overlapped gets, irregular with a task counter): chunk loops, buffers, put or accumulate per task, any interleaving | the chunks partition the index space; every algorithm emits the tasks of the block, in some order, exactly once; sum over all tasks |
| C61 | `pnga_matmul_patch` in two dimensions | as C60 |
| C62 | `pnga_matmul_basic`: loop over the local blocks of the result, rotated loop over pieces of the inner dimension | the blocks partition the result, the rotation is a permutation; negations by general theorem and concrete runs |
| C63 | `pnga_locate_region` for the four kinds of blocks, `pnga_locate_nnodes`, `pnga_locate_num_blocks` | the loops enumerate the grid coordinates between the blocks of the corners (as in C03) or filter all blocks by the end point test, which is compared with real overlap; negations by general theorem and concrete runs |
| C64 | index conversion of capi.c (`COPYINDEX_C2F`, `COPYC2F`), `NGA_Put`/`Get`/`Acc`/`Read_inc`/`Access` on top of the modelled library calls | conversion is a bijection that maps row-major to column-major positions; C06, C07, C09, C12 are transported along it to a separate row-major specification |
| C65 | `NGA_Create`, `NGA_Create_irreg` with `copy_map`, distribution queries, process grid, direction mask | transport of C01, C02, C04, C08; separate row-major specification of blocks; negations by general theorems and concrete runs |
| C66 | argument exchange in `GA_Dgemm`, `NGA_Matmul_patch`, `GA_Matmul_patch`, `GA_Scale_rows/cols` | transport of C55, C60, C61 to the row view; negation for `GA_Matmul_patch` |
| C67 | pointer and size arrays by content, byte memory of each process, `pgp_get/put/get_size/memzero`, assignment | invariant over histories (`GPHolds`); the three index computations refine to the box of the patch |
| C68 | linked lists of `pgp_gather/scatter` | the list of a process is the reversed list of its element numbers; then as C67 |
| C69 | decomposition of a section, chunks, position in files, transfers through buffers, I/O ranks, any interleaving | the place of an element is an injective function of its subscript; every process transfers the elements of its blocks; projection of an interleaving to one process; induction over histories |
| C70 | `ndai_chunking` with abstract rounding | invariants of the fill loop and of the reduction loop, the sort is a permutation |
| C71 | adding, binning by linked lists, reserving and putting with two interleavings, sorting into column blocks and rows | the walks give the bins, reserved pieces are disjoint and make up the owner's part in every order, layout invariant of the local arrays |
| C72 | loops over the blocks of every process, inductive histories, accumulations in any order | the layout invariant is kept with new values; sums over cells are sums over rows; disjoint rows |
| C73 | the table of products with its hash chains, the search in a chain, the buffer size from the numbers of elements per row, the new layout | the table holds the sums of the products, one entry per position; the number of positions is at most the buffer size; the products in loop order are a permutation of those in the definition of the matrix product; products are a step of the histories of C72 |
| C74 | the filter loop over a patch with its leading dimension, the map of the new dense array, stores at computed distances, the loop of get_column | the filtered elements represent the dense matrix; the diagonal meets the conditions of assembly; a distance determines row and column; the cells of a row are the row of the matrix |
| C75 | the loops over blocks with the fetched patches, additions at computed distances, the checks that abort | additions are a permutation of one term per row, entry and column; sums with one term that is not zero; exchange of sums |
| C76 | the elimination with row interchanges on columns, `info`, both solutions, the built-in vector operations | each step is an invertible linear pass on all columns (the multipliers are not part of the matrix), so the passes on the right hand side give the triangular equations; back substitution by induction; a column without pivot gives a null vector; the transposed passes are the adjoints |
| C77 | the allocator of local memory: circular list of free blocks with its pointer, blocks in use, joining, statistics; answers of the system are universally quantified | invariant over all histories: addresses increase around the circle, blocks in use and free blocks are disjoint and cover exactly the memory obtained, free blocks never touch |
| C78 | files made of extents: write, read, open, length, truncate, delete; interrupted, partial and failing system calls as universally quantified answers | induction over extents and answers; invariant over all histories relating the bytes on the disk to the values last written |
| C79 | the shared counter NXTVAL: counter, two barriers per reset, any interleaving | invariant over all schedules: barriers keep processes within one barrier of each other, so nobody draws while the counter is reset |
| C80 | the largest step: the sequence of elementwise operations, the search for negative elements by process and block, the selection of the extreme element | case analysis of one component for any division that rounds down; extreme elements of lists |
| C81 | the table of exclusive access files, files in memory and on disk, opening, closing, reading, writing, deleting, lengths, the asynchronous calls | refinement of what a program knows from its calls and their results, for all programs; two corollaries with conditions a program can check; concrete programs and general theorems for what fails |
| C82 | copies and dot products of patches called by every process for its part: intersection, pointers into blocks, put and get | what all parts together do, by induction over the processes; sums over the partition into blocks; general theorems for the wrong results |
| C83 | message passing between processes with programs, channels of any capacity and arbitrary schedules; the binary trees of the broadcast and the global operations, in pieces, by node, by node masters and in groups; the operations by name | confluence of the network (diamond lemma) reduces every schedule to one; invariants along the tree; induction over the history of calls |
| C84 | the broadcast within a node as a state machine: two buffers with flags, one flag per process, one step is one access to shared memory, arbitrary schedules | invariant of the protocol (which turn is on, who has been told), a weight that every step makes smaller, a schedule that deadlocks for the case left out |
| C85 | lock, table of eight slots, memory and processes as a state machine, one step is one access to shared memory, arbitrary schedules; contiguous, strided and scattered accumulates as programs | invariant (who holds which slot, areas of holders apart, what is left to add), a measure for the way to the end, a schedule that loses an update for the case left out |
| C86 | the reduction within a node as a state machine: one buffer and one flag per process, one step is one access to shared memory, the schedule also chooses at which child a process looks | invariant (turns done against turns taken by the parent and the flag, what buffers hold), a weight that every step makes smaller, the value of the tree is the linear combination |
| C87 | comex_lock and comex_unlock of the MPI-3 port as a state machine: wait lists in windows, messages with the number of the mutex as tag | invariant on where the right to each mutex is (free, held, about to be sent, in the mail), weight for the end under fair schedules, potential for the overtaking of ranks 0 and 1, an explicit schedule for the starvation of the others |
| C88 | the port over two-sided MPI as a state machine: local steps of every call, handlers of `comex_make_progress`, one first-in-first-out channel for each pair of processes | counters of barrier requests and responses, requests logged and on their way = calls made (order), content of messages, fence requests behind updates, weight and absence of deadlock for fair schedules |
| C89 | the mutex calls of the port over two-sided MPI as a state machine: one list of lock requests at each process, passes over it, first-in-first-out channels | for every process and mutex a token (request sent, queued, granted, held, release sent, idle), barrier counts, updates before releases in a channel, weight and absence of deadlock for fair schedules |
| C90 | one memory with world ranks, a copy of the array on every node through the rank translation of the node; merge as a sum over the group of each process; merge into a distributed array as zeroing and accumulates in any order | translation of transfers to the memory of the node and the theorems of C07, C35 and C51; the owner of an element is unique, so that each copy contributes once; sums over ranks split by nodes |
| C91 | bytes of files and memories, a table of control blocks per process, the system moves one byte of any request in progress at any time | invariant: bytes that no request in progress will change are those of the sequential execution, bytes still to be moved have their final value at their source; ids by induction over runs; lookups by induction over the table |
| C92 | a get is a list of element copies, run in any order and interleaved with those of all processes; the masks are enumerated as in the code | every copy writes a ghost cell and reads an owned cell, so copies commute; the copies of a mask are exactly the cells on its side, by the geometry of blocks proved for C33; masks by induction over the base 3 counter |
| C93 | memory in bytes; the strided call of a piece is the list of its byte transfers, with the extra stride level and the rescaled strides of the code | the transfers of a piece are shown to be the bytes of the field of its elements by the linearity of strides; pieces as in C07; last write wins and all writes agree by injectivity of byte addresses; histories by induction |
| C94 | state machine of the caller's table of handles, the pending element transfers and the memory; deliveries in any order that keeps the order to one process | refinement: performing all pending transfers gives the sequential result of the requests (invariant by induction over events); waits by splitting the pending transfers into older, own and newer ones; the order of notification and data by an invariant on deliveries |
| C95 | memory as the integers that can be read back from it; the allocator, the holders and everybody else are the environment | assume-guarantee over histories: as long as the others keep to the bargain every answer is good; invariant: the header of every buffer in use is intact and the memory blocks are disjoint |
| C96 | the labels and weights as inputs, the linked list of rows per label, the buffer of a label, the accumulates of all processes in any order | the buffer is a sum over the rows with the label, the rows of all processes are a permutation of the matrix; negations: a missing block among the first ones, label equal to the size, partial sums of the sizes |
| C97 | the table of buffers with its lists of free and used buffers, the descriptors and pointers of a buffer, the handle, flushing, the loops over the segments of a strided and a vector call, the counters of the stride levels | invariant over all histories: for each handle what was sent, followed by what its buffer holds, is what was asked for; the number of segments of the loop in closed form; negations in general form and on a concrete block |
| C98 | the ring of fifteen handles with its flags and counter, waits for all and for one process, arrival of requests at any time | invariant over all histories: every incomplete request without a handle is held by a flagged entry, and the entries are the last fifteen requests; the counter against the number of requests since the last wait for all |
| C99 | the incremental scatter with its offset in the current segment and the loop that feeds it, over the iterator of C16 | after `usr` bytes the iterator is at segment usr / c0, the offset is usr mod c0 and memory holds the first bytes: induction over the loop and over the pieces; addresses of bytes are distinct |
| C100 | the buffer as bytes with the stamps written by the sender of the request, the answer arriving byte by byte, one look at it and the loop of looks | a stamp that has not been reached is still there, so a missing one shows arrival; the values of bytes_done are multiples of the stamp distance; induction over the looks; composed with C99 for the whole get |
| C101 | the server's lists of buffers and of waiting requests of one client, with every decision of the default ordering rule; other clients are the free choice of full buffers and of moments of promotion | invariant: requests issued = carried out, then puts in buffers, then waiting; gets precede puts in the list of buffers; induction over events; freedom from deadlock by a decreasing count of buffers in use and waiting requests |
| C102 | the free list kept in the buffers themselves, growth by regions, both calls | invariant: the chain from the head and the held buffers are all buffers, each once; induction over the history |

## 5. What is modelled

| module | code |
|---|---|
| `Index`, `Distr`, `Region` | index macros (base.c 172-208, base.h), `ga_ownsM_no_handle`, `findblock`, `pnga_locate`, `pnga_distribution`, `pnga_locate_region` (REGULAR), REGULAR half of iterator.c |
| `Decomp`, `Restrict` | `ddb_h2`, map construction of `pnga_allocate`, `pnga_set_irreg_distr`, `pnga_set_restricted[_range]`, `pnga_duplicate` (distribution fields), `pnga_compare_distr` |
| `BlockCyclic`, `BlockAccess` | `pnga_set_block_cyclic`, `..._proc_grid`, `set_tiled...`, block macros of base.h, `pnga_locate`, non-REGULAR half of iterator.c, `pnga_access_block[_grid]_ptr`, local iterator |
| `OneSided`, `Pieces`, `Chunk`, `Strided`, `Skip`, `Cache`, `Periodic` | `ngai_put/get/acc_common`, chunk loops and broadcast, `pack`/`unpack` and ARMCI stride iterator, `pnga_strided_put/get/acc`, read cache of `pnga_get` with `gai_mem_copy`, global.periodic.c |
| `GatScat`, `HSort`, `ReadInc` | `gai_gatscat_new`, hsort.scat.c, `pnga_read_inc` |
| `LocalPatch`, `Select`, `Sparse`, `Bin` | fill, zero, scale and their patch versions, select.c with `armci_msg_sel_scope`, scan_copy, scan_add, pack, unpack, patch_enum, bin_index |
| `Copy`, `AddDot` | `pnga_copy`, `pnga_copy_patch`, `pnga_add`, `pnga_add_patch`, `pnga_dot`, `pnga_dot_patch` and helpers |
| `Matrix` | `pnga_transpose`, `pnga_symmetrize`, `pnga_get_diag`, `pnga_add_diagonal`, `pnga_set_diagonal`, `pnga_shift_diagonal`, `pnga_zero_diagonal`, `pnga_scale_rows`, `pnga_scale_cols` |
| `Elem` | elem_alg.c: add constant, absolute value, reciprocal, multiply, divide, maximum, minimum and patch versions; matrix.c: median, norm1, norm infinity |
| `BlockRegion` | base.c: `pnga_locate_region` (arrays that are not REGULAR), `pnga_locate_nnodes`, `pnga_locate_num_blocks` |
| `Matmul` | matmul.c: `pnga_matmul` (shared memory, regular, irregular), `pnga_matmul_patch`, `pnga_matmul_basic`; arrays by content, result different from both operands, two dimensions |
| `Ghosts` | `pnga_update4_ghosts`, `pnga_set_update4_info`, `gai_check_ghost_distr`, the corner flag in `pnga_allocate` |
| `Handles`, `Types`, `Groups` | handle table and memory accounting, type registration, process groups with the communicator construction of groups.c |
| `Comex`, `Requests`, `NbHandle`, `Mutex`, `RegCache` | comex/src-mpi-pr: contiguous put/get/acc/rmw, fences, barrier, progress server; request slots; nbutil.c; mutex server and GA mutexes; registration cache |
| `MATable`, `MAAlloc` | ma/table.c, the allocator of ma/ma.c |
| `CApi`, `CMatrix` | capi.c: index conversion, one-sided calls, creation, distribution queries, matrix multiplication, scaling of rows and columns |
| `GPArray` | gparrays/src: gpbase.c (allocate, assign, free, memzero), gponesided.c (get, put, get_size, gather, gather_size, scatter, access_element) |
| `Dra`, `DraChunk` | pario/dra: disk.arrays.c (create, set_config, io_procs, io_nodeid, chunking, decomp_section, next_chunk, file_location, transfer, nga_move, write/read_section), patch.util.c |
| `SprsArray` | global/src/sparse.array.c: create, add_element, assemble, row/column_distribution, access_col_block, diag_left/right_multiply, shift_diag, scale, get_diag, matvec_multiply |
| `SprsMul` | global/src/sparse.array.c: matmat_multiply (with `ENABLE_PREALLOC`), the counting of elements per row in assemble |
| `SprsDense` | global/src/sparse.array.c: create_from_dense, create_from_sparse, get_column, sprsdns_multiply and dnssprs_multiply (real elements, `trans` = 1) |
| `LuSolve` | global/src/ga_solve_seq.c: the solver used without LAPACK (over an ordered field) |
| `KrMalloc` | armci/src/memory/kr_malloc.c: kr_malloc_init, kr_malloc, kr_free, morecore; of the variant for shared memory the search and the first piece |
| `Elio` | pario/elio/elio.c: elio_open, elio_write, elio_read, elio_length, elio_truncate, elio_delete, elio_get_next_extent (the stream of physical files is a function from extents to contents) |
| `Nxtval` | tcgmsg/tcgmsg-mpi/nxtval-armci.c: NXTVAL_, install_nxtval (the variant with a server process in nxtval.c is not compiled) |
| `StepMax` | global/src/elem_alg.c: do_step_divide, do_stepb_divide, do_step_mask, do_stepmax, has_negative_elem, pnga_step_max(_patch), pnga_step_bound_info(_patch) |
| `Eaf` | pario/eaf/eaf.c: EAF_Open, EAF_Close, EAF_Write, EAF_Awrite, EAF_Read, EAF_Aread, EAF_Wait, EAF_Probe, EAF_Delete, EAF_Length; pario/elio/elio.c: elio_awrite, elio_aread, elio_wait, elio_probe without LINUXAIO |
| `DpPatch` | global/src/DP.c: own_patch, patch_intersect, pnga_copy_patch_dp, pnga_ddot_patch_dp |
| `Net`, `Gop` | armci/src/collectives/message.c: armci_msg_bintree, armci_msg_bcast_scope, armci_msg_reduce_scope, armci_msg_gop_scope, armci_msg_group_*, armci_msg_gop2, idoop; global/src/collect.c; comex/src-armci/message.c: do_gop |
| `Smp` | armci/src/collectives/message.c: armci_smp_bcast, armci_msg_gop_init |
| `MemLock` | armci/src/locks/memlock.c: armci_lockmem, armci_unlockmem; armci/src/xfer/strided.c: armci_acc_1D, armci_acc_2D; armci/src/xfer/vector.c: armci_lockmem_scatter, armci_scatter_acc |
| `SmpReduce` | armci/src/collectives/message.c: armci_smp_reduce, gop, gop2, armci_msg_bintree (within a node) |
| `WinMutex` | comex/src-mpi3/comex.c: comex_create_mutexes, comex_destroy_mutexes, comex_lock, comex_unlock |
| `TwoSided` | comex/src-mpi/comex.c: _put_nbi, _acc_nbi, _get_nbi, comex_rmw, comex_wait_all, comex_fence_proc, comex_fence_all, comex_barrier, comex_make_progress and the handlers of these requests |
| `MsgLock` | comex/src-mpi/comex.c: comex_create_mutexes, comex_destroy_mutexes, comex_lock, comex_unlock, _lq_push, _lq_progress, the handlers of lock, response and unlock |
| `Mirror` | global/src/base.c: groups of ga_initialize 438-476, pnga_merge_mirrored (without OPENIB), pnga_merge_distr_patch; global.nalg.c: the mixed branches of pnga_copy |
| `SharedFiles` | pario/sf/shared.files.c: table, sf_create, sf_create_suffix, sf_destroy, sf_rwtor, sf_open, sf_close, sf_write, sf_read, sf_wait, sf_waitall; pario/elio/elio.c: AIO_LOOKUP, elio_awrite, elio_aread, elio_wait, elio_init |
| `GhostGet` | global/src/ghosts.c: pnga_update_ghosts_nb, pnga_update_ghost_dir, pnga_nbget_ghost_dir, pnga_get_ghost_block; global/src/capi.c: NGA_Update_ghost_dir, NGA_NbGet_ghost_dir, COPYINDEX_C2F |
| `Field` | global/src/onesided.c: ngai_puts, ngai_nbputs, ngai_gets, ngai_nbgets, ngai_put_common, ngai_get_common, pnga_put_field, pnga_get_field; global/src/capi.c: NGA_Put_field, NGA_Get_field, NGA_Nbput_field, NGA_Nbget_field |
| `Notify` | global/src/onesided.c: pnga_nbput_notify, pnga_nbwait_notify, putn_find_empty_slot, putn_intersect_coords, putn_verify_element_in_buf |
| `Scratch` | global/src/ga_malloc.c: GA_Register_stack_memory, ga_malloc, ga_free |
| `Sketch` | global/src/sketch.c: pnga_sprs_array_count_sketch |
| `Agg` | armci/src/common/aggregate.c: _armci_agg_get_bufferid, _armci_agg_update_lists, _armci_agg_get_descriptor, armci_agg_save_descriptor, armci_agg_save_strided_descriptor, armci_agg_save_giov_descriptor, armci_agg_complete |
| `Implicit` | armci/src/progress/wait.c: PARMCI_Wait, armci_set_implicit_handle, PARMCI_WaitAll, PARMCI_WaitProc |
| `StridedInc` | armci/src/xfer/strided.c: armci_read_strided_inc; armci/src/common/ds-shared.c: the receiving loop; armci/src/common/iterator.c |
| `Stamp` | armci/src/devices/openib/openib.c: the stamps of armci_send_req_msg, armci_ReadFromDirectSegment; armci/src/common/ds-shared.c: the receiving loop |
| `PendBuf` | armci/src/devices/openib/pendbufs.c: all functions but the attributes; only the default ordering rule, descriptors within the immediate buffer |
| `CBuf` | armci/src/devices/openib/cbuf.c: allocate_cbuf_region, get_cbuf, release_cbuf |

Each module header and the comment of each definition give file and lines and the simplifications.

## 6. Where the code does not do what the property says

For each a theorem proves, on a concrete case, that the property fails; the positive theorem carries
the suffix `_partial` when it needs a hypothesis excluding the case.

| theorem | finding |
|---|---|
| `C05_grid_too_large`, `C09_grid_too_large` | process grid larger than the number of blocks in a dimension: the local iterator and put/get fail |
| `C09_more_processes_than_blocks` | fewer blocks than processes: put goes to wrong memory |
| `C09_no_bounds_check` | a patch outside a block-cyclic array is not rejected |
| `C11_large_increment` | `NGA_Read_inc` truncates the increment to `int` |
| `C11_tiled_wrong_element`, `C48_tiled_wrong_pointer`, `C48_tiled_wrong_pointer3` | block pointers of tiled arrays are wrong unless every grid extent is 2 |
| `C12_scatter64_wrong` | the 64-bit C entry points of gather/scatter address wrong elements |
| `C13_sort_scat_int_truncates` | the sort used by scatter with `int` values passes subscripts through an `int` |
| `C14_3d_wrong_position`, `C14_group_wrong_process`, `C14_empty_tile` | strided put/get: wrong buffer position from dimension 3 on, wrong process on groups, empty tiles |
| `C20_not_distinct`, `C20_second_lock_never_granted` | all GA mutexes are one lock |
| `C24_replace_twice_fails`, `C24_limit_live_fails` | memory limit accounting |
| `C25_subgroup_rank_unchecked`, `C25_duplicate_wrong` | group creation and duplication |
| `C29_piece_after_numalign`, `C50_stack_check_heap_overpromises`, `C50_heap_no_partition_not_largest` | MA allocator |
| `C32_far_below_fails`, `C32_wide_fails` | periodic requests far below the array or wider than it |
| `C33_narrow_never_finishes` | an array with a block narrower than its ghost width passes the width check and `GA_Update_ghosts` never returns |
| `C33_corner_flag_ignored` | the corner flag set before `GA_Allocate` is overwritten |
| `C34_empty_blocks`, `C34_empty_tiles`, `C34_group_ignored` | `GA_Compare_distr` says equal for different owners |
| `C35_empty_block_error`, `C36_empty_block_error` | zero, scale and scans stop with an error on empty blocks |
| `C38_second_call_overlaps`, `C38_second_chunk_overlaps` | stale work array in `GA_Bin_index` |
| `C39_stale_index`, `C39_idle_process`, `C39_layouts`, `C39_empty_tile` | `NGA_Select_elem` |
| `C40_padded_buffer`, `C40_large_subscripts` | read cache |
| `C43_first_entry_unchecked`, `C43_zero_blocks`, `C43_too_many_blocks` | checks of `GA_Set_irreg_distr` |
| `C44_duplicate_process`, `C44_list_too_short` | checks of `GA_Set_restricted` |
| `C45_oversize_crash` | a legal 7-dimensional request divides by zero |
| `C46_pgroup_brdcst_truncates` | broadcasts on groups from 2 GiB on |
| `C53_smaller_group_noop` | `NGA_Copy_patch` with a transposition or change of shape to an array on a smaller group returns normally and moves nothing |
| `C35_add_same_array` | `GA_Add` with both operands equal to the result selects its loop by an unset variable |
| `C51_add_ghost_widths`, `C35_add_ghost_widths`, `C51_dot_ghost_widths` | add and dot use the leading dimensions of one array for all of them: wrong for different ghost widths |
| `C35_copy_empty_block` | `GA_Copy` from a tiled irregular array with an empty block is an error |
| `C55_zero_diagonal_wrong` | `GA_Zero_diagonal` starts at the first element of each block that meets the diagonal, not at the diagonal: it clears other elements |
| `C54_symmetrize_ghosts` | `GA_Symmetrize` ignores the leading dimension: wrong on arrays with ghost cells |
| `C57_multiply_cpl_wrong` | the complex product overwrites the real part before it computes the imaginary part: wrong when the result is an operand or operands are copied to temporaries |
| `C58_median_refused` | `GA_Median_patch` stops if the blocks of an operand differ from those of the result on every process |
| `C58_median_patch_outside` | `GA_Median_patch` on block-cyclic arrays stores medians of temporaries outside the patch |
| `C59_norm1_blocks`, `C59_norm_infinity_blocks` | the norms reset their accumulator at every block |
| `C60_regular_endless` | `GA_Dgemm` never returns if a process has 1024 or more chunks of rows (the task list is resumed at the wrong place) |
| `C60_group_wrong` | the irregular algorithm deals tasks to `GA_Nnodes()` processes: on a smaller group some are not done |
| `C60_empty_inner_wrong` | inner extent 0 and `beta = 0`: the result keeps its old content |
| `C62_patch_ignored` | with a block-cyclic result the result patch is ignored: elements outside it change |
| `C62_operand_shifted` | with a block-cyclic result, row and column subscripts of the result are used for the operands |
| `C62_overflow` | with a block-cyclic result, blocks with more rows than columns overflow the buffer of the first operand |
| `C63_cyclic_missing`, `C63_count_zero` | a patch that a block surrounds in a dimension: the block is not reported and not counted |
| `C63_grid_unclipped` | ScaLAPACK and tiled arrays: the pieces reported are whole blocks, not their parts in the patch |
| `C63_grid_number`, `C63_grid_number3` | ScaLAPACK and tiled arrays: wrong block numbers for different numbers of blocks per dimension or three dimensions |
| `C63_count_empty`, `C63_count_short` | irregular tiles: an empty tile is counted; the count may be smaller than the list `NGA_Locate_region` writes |
| `C65_region_illegal`, `C65_region_blocks` | `NGA_Locate_region` in C: for illegal patches an uninitialised count is used; for block-cyclic arrays the temporary lists may be too short |
| `C65_topology_reversed`, `C65_topology_wrong` | `NGA_Proc_topology` and `NGA_Get_proc_grid` return Fortran order to C callers, `GA_Nblock` returns C order |
| `C65_ghost_dir_wrong` | `NGA_NbGet_ghost_dir` adds one to the direction, which is not a subscript |
| `C66_matmul_patch_order_wrong` | `GA_Matmul_patch` in C does not exchange the operands: it computes `B A` in the caller's view |
| `C67_refused`, `C67_empty_block_refused` | GP arrays: a process without elements can call neither `GP_Get` nor `GP_Put`; a patch that spans an empty block ends with an error |
| `C67_check_ignores_ld` | `GP_Put` with comparison of sizes reads the list of sizes without its leading dimension |
| `C67_size8_wrong` | `GP_Get_size` with 8-byte sizes reads them through an `int` pointer |
| `C68_empty_element` | `GP_Gather`/`GP_Scatter` with an element of size 0 free pointers that were not set |
| `C68_sum_wide_wrong` | the total returned by `GP_Gather`/`GP_Scatter` reads 4-byte sizes as `Integer` |
| (read) | `GP_Put` never sets its result `size`; `GP_Scatter` prints or ignores a size mismatch; `pgp_access_element` stores a 4-byte size into an 8-byte `Integer` |
| `C69_not_seven_dims` | disk arrays with seven dimensions: `ndai_decomp_section` reads `cover[-1]`, a place the request before has used; part of the section is not transferred |
| `C69_not_nonuniform` | `dai_io_nodeid` numbers processes as if all nodes had the same size: on other clusters an I/O rank is missing and its blocks are never transferred |
| `C69_not_reopen_files` | an array in several files opened with fewer processes: other blocks are looked for in the files |
| `C69_accepted` | disk arrays: the reshaping of sections the documentation allows is refused |
| (read) | disk arrays: `nga_move` uses the temporary array of a transposed transfer before the transfer is complete (load) and frees it before (store); `dra_create` over an old file keeps its content; `dra_init(-1)` allocates with a negative count; `dra_probe` then `dra_wait` reuse a buffer before its transfer is complete; two outstanding writes to one block lose data; a transposed transfer of `long long` is skipped |
| C71 | more processes than rows or columns: the loops for the upper limit lack the correction of the lower one, so a process gets an empty range for rows it owns and stores outside its arrays (`C71_more_processes`) |
| C71 | fewer elements, or fewer row pointers, than processes: assemble aborts in `pnga_set_irreg_distr` (`C71_fewer_elements`, `C71_one_block`) |
| C72 | matvec: a process without elements accumulates memory from malloc into the result (`C72_empty_process`) |
| C72 | matvec: the loop for complex elements reads the vector instead of the matrix and assigns instead of adding (`C72_complex`) |
| C72 | matvec: the result must have one element per column (`C72_result_length`); right multiplication compares the vector with the number of rows (`C72_right_wide`, `C72_right_narrow`) |
| C72 | get_diag dereferences a null pointer if the diagonal block is empty (`C72_get_diag_empty`) and keeps one of several values (`C72_get_diag_repeated`) |
| C73 | matmat_multiply aborts if one process has no element of the product (`C73_no_product`); without products it also stores `offset[0]` into an allocation of size zero |
| C74 | create_from_dense takes the width of the patch as leading dimension: ghost cells are read as elements (`C74_ghost`); a process without a patch aborts (`C74_empty_patch`) |
| C74 | create_from_sparse: through Fortran it always aborts because entry 0 of the map is zero (`C74_from_sparse_fortran`); through C the dimensions are not exchanged, so arrays that are not square abort or have their elements in wrong places (`C74_from_sparse_dims`, `C74_from_sparse_tall`, `C74_from_sparse_wide`) |
| C74 | conversions keep one of several entries in a position, products use the sum (`C74_repeated`) |
| C75 | sprsdns_multiply takes the columns of the product from the columns of the sparse operand: further columns stay zero (`C75_sprsdns_wide`), fewer abort (`C75_sprsdns_narrow`) |
| C75 | dnssprs_multiply compares the columns of the dense operand with the columns of the sparse one: every product with a sparse operand that is not square aborts (`C75_dnssprs_not_square`) |
| C76 | the loops of LP_daxpy, LP_ddot and LP_dscal are compiled only with the macros ROLL or UNROLL, which nothing defines: the solver returns wrong numbers (`C76_not_compiled`) |
| C76 | a column without pivot is reported by its index counted from 0, so a first column of zeros is not reported (`C76_zero_column`) |
| C76 | the last loop for the transposed equations stops before the first column (`C76_trans`) |
| C77 | the limit `max_nalloc` is compared only before memory is obtained: one allocation can exceed it by any amount (`C77_limit`) |
| C77 | the list of free blocks of the shared memory allocator has no empty node: a request for exactly the only free block leaves it in the list, and the same request returns the same memory again (`C77_shm_twice`, `C77_shm_first`) |
| C78 | the length of a file counts only extents that this program has opened: after a file of several extents is opened again its length is that of the first extent (`C78_length_reopened`) |
| C78 | a read beyond the end fails, but opens the extents before it, which counts for the length (`C78_length_read`) |
| C78 | bytes that were never written read as zeros in the last extent, but end of file is reported for them in earlier extents (`C78_hole`) |
| C78 | truncation leaves later extents and does not fill earlier ones (`C78_truncate`) |
| C78 | `elio_delete` ends one extent too early: extent 127 is left (`C78_delete_last`) |
| C79 | `NXTVAL(-m)` is documented to wait for `m` processes, but waits for all: a reset by a part of the processes never returns (`C79_subset`) |
| C79 | with four byte Fortran integers the C interface returns a long of which only the lower half was stored (`C79_c_interface`) |
| C80 | `GA_Step_max` of integers: `1 / 2 = 0` counts as a bound for an element that grows (`C80_int`) |
| C80 | `GA_Step_max_patch` selects from the whole temporary array, of which only the patch was written (`C80_patch`); `GA_Step_bound_info_patch` returns 0 for a proper patch (`C80_bound_info_patch`) |
| C80 | `has_negative_elem` forgets the blocks of a process but the last one (`C80_negative_missed`) |
| C81 | `EAF_Open` looks for a file in memory only below the first unused descriptor: its bytes are lost when it is opened again after a smaller descriptor was closed (`C81_reopen`) |
| C81 | `eafhack_openfiles` counts files in memory, but bounds descriptors: `EAF_Delete` reports success for a file in memory it did not delete, and deletes a file on disk of that name (`C81_delete`) |
| C81 | `EAF_Aread` of a file in memory copies the buffer into the file (`C81_aread`), `EAF_Awrite` returns the number of bytes as an error (`C81_awrite`), `EAF_Read` compares only the offset with the size (`C81_bounds`) |
| C81 | `EAF_Probe` never asks about the request; `EAF_Wait` returns an uninitialised code for files in memory (`C81_probe`) |
| C82 | `ga_copy_patch_dp` and `ga_ddot_patch_dp` take a pointer to the block of a process and use it as a pointer to the intersection of block and patch: elements from the corner of the block are copied or multiplied (`C82_copy_corner`, `C82_dot_corner`) |
| C82 | `ga_copy_patch_dp` with transposition asks for a destination of the same shape as the source and writes the transposed shape: outside of the patch, or an error (`C82_transpose_shape`) |
| C83 | the global operations `absmax`, `absmin`, `&&`, `||` leave the value of a single process as it is: the largest absolute value of -3 is -3 (`C83_single`); the port on MPI alone takes absolute values first (`C83_names_mpi`) |
| C83 | `GA_Zgop` with `*` multiplies real parts with real parts and imaginary parts with imaginary parts (`C83_complex_product`) |
| C84 | `armci_smp_bcast`: if the first two broadcasts on a node with three or more processes have different senders, the second sender does not wait for the first one (both buffers are free at the start), both set the flag of the same process, one sign is lost and the process waits for ever (`C84_deadlock`) |
| C85 | `armci_lockmem`: the test for a conflict looks only whether one of the two ends of the new area lies in a stored area; a new area that goes beyond a stored one on both sides is let in, both processes change the same elements at the same time, and updates are lost (`C85_missed`, `C85_lost_update`) |
| C87 | comex/src-mpi3/comex.c: `comex_unlock` always hands a mutex to the waiting process of the lowest rank, so that two processes can pass it to each other while a process of rank 2 or more waits for ever (`C87_starvation`); only ranks 0 and 1 have bounded waiting |
| C87 | comex/src-mpi3/comex.c: `comex_create_mutexes` called while there are mutexes destroys the tables it has just set and then reads `_mutex_num` through a null pointer (`C87_create`) |
| C89 | On the port over two-sided MPI the creation of mutexes does not synchronise (comex.c 2011-2035, and neither PARMCI_Create_mutexes nor GA_Create_mutexes add a barrier after it): a lock request can reach a process that has not created its mutexes yet; `_lq_progress` then reads `mutexes` through a null pointer (C89_create_race). With a barrier after the creation no such access happens (C89_no_fault). |
| C90 | `GA_Merge_mirrored` on nodes with different numbers of processes (base.c 470-476 and 5428): all processes call one global sum on the world group with buffers of different lengths, and processes without a block do not call it: the collective calls do not match (C90_merge_mixed_nodes). The branch for OPENIB handles this case. |
| C90 | `GA_Merge_mirrored` on an array with ghost cells (base.c 5418-5428): the sum runs over as many consecutive elements as the block has, but the columns of the block are separated by ghost cells: some elements are not merged, and ghost cells are (C90_merge_ghosts). |
| C90 | `NGA_Merge_distr_patch` tests subscripts that start at 1 with bounds for subscripts that start at 0 (base.c 5503-5514): every patch that reaches the last element of a dimension, in particular the whole array, is refused (C90_distr_last_refused), and subscript 0 passes (C90_distr_zero_accepted). |
| C90 | `NGA_Merge_distr_patch` (base.c 5529-5545): an empty block inside of the patch passes the intersection test and pnga_access_ptr ends the program (C90_distr_empty_block). |
| C91 | The table of asynchronous requests is marked free only if the macro `ASYNC` is defined (elio.c 901), and nothing defines it; the macro that switches asynchronous I/O on is `AIO`. The table stays full of zeros, every asynchronous call blocks until it is done (C91_in_order), and every lookup reads `aio_req[MAX_AIO_REQ]`, behind the end of the table (elio.c 122 tests the content before the index; C91_lookup_overrun). |
| C91 | `elio_wait`, `sf_wait` and `sf_waitall` do not ask for the status of an asynchronous transfer (no `aio_return` or `aio_error`, elio.c 608-647): a transfer that failed, or a read behind the end of the file, is reported as done (C91_failure_not_reported). This needs the table to be marked free. |
| C91 | `sf_create_suffix` accepts a name that is in use (shared.files.c 126-158): two handles share one file, and destroying one deletes the file of the other (C91_suffix_shared). |
| C91 | `sf_destroy` of a file that was closed with `sf_close` closes the freed descriptor again (shared.files.c 162-180, 219-225; C91_destroy_closed). |
| C92 | `pnga_update_ghosts_nb` returns before `ga_init_nbhandle` if the array has no ghost cells or its blocks are thin (ghosts.c 2775-2794): the caller waits on a handle nobody initialised (C92_update_nb_issues). |
| C92 | `pnga_update_ghost_dir` with the flag set asks for an empty region if a dimension other than the one updated has ghost width zero, which ends the program with a region error (ghosts.c 2984-3060; C92_dir_zero_width). With thin blocks it returns before the closing synchronisation. |
| C92 | `NGA_NbGet_ghost_dir` converts its mask with `COPYINDEX_C2F` (capi.c 1572-1589), which adds 1 to every entry: masks with an entry 1 are refused, and other masks fetch the cells of another direction (C92_c_mask_never). |
| C92 | `NGA_Update_ghost_dir` adds 1 to the dimension but does not reverse it (capi.c 1559-1570): in an array of two or more dimensions the ghost cells of another dimension are updated (C92_c_dimension_wrong). |
| C92 | The check whether blocks are as wide as the ghost cells takes an inner block for one element wider than it is (ghosts.c, `gai_check_ghost_distr` and 2962-2980): a block one element too thin passes, and ghost cells get wrong elements (C92_thin_not_refused). |
| C93 | `NGA_Put_field`, `NGA_Get_field` and their non-blocking forms convert the leading dimensions with `COPYINDEX_C2F` (capi.c 5284-5335), which adds 1 to each: with two or more dimensions every element outside the first column is taken from, or stored to, a wrong place in the buffer (C93_c_ld_off_by_one, C93_c_wrong_bytes). |
| C93 | Nothing checks that a field lies inside the element (onesided.c 375-487): a field that does not reads and overwrites bytes of the next element (C93_field_unchecked, C93_put_unchecked). With the field size equal to the size of the element the offset is ignored (C93_whole_element). |
| C93 | An empty field divides by zero when the strides are restored (onesided.c 400, 432, 483; C93_empty_field). |
| C94 | `pnga_nbput_notify` starts the put of the notification right behind that of the data (onesided.c 797-803, 819-825); with data on more than one owner the notification can be seen before the data, even if the network keeps the order of puts to one process (C94_data_late). |
| C94 | If the notification lies in the patch, every byte of its element in the caller's buffer is incremented and never restored (onesided.c 812-817; C94_user_buffer, C94_buffer_changed). |
| C94 | `putn_verify_element_in_buf` does not multiply up the leading dimensions (onesided.c 763-764): with three dimensions the right place in the buffer is refused and ends the program, and a wrong one is accepted (C94_three_dimensions_refused). |
| C94 | `pnga_nbwait_notify` returns without waiting if it does not know the handle, and waits for one of two requests that use the same handle (onesided.c 840-845; C94_unknown_handle, C94_handle_twice). |
| C95 | `ga_free` looks at the current setting of `ga_usesMA` (ga_malloc.c 76-79): registering an allocator while a buffer of MA is in use hands `ext_free` an address that `ext_alloc` never returned (C95_register_between). |
| C96 | `pnga_sprs_array_count_sketch` asks for column block `n` instead of block `blkidx[n]` (sketch.c 248-256, 297): every process with an element in some block of columns and none in an earlier one uses null pointers, for instance for every diagonal matrix on two processes (C96_missing_block). |
| C96 | The label of a row is `size_k*pnga_rand()` and `pnga_rand` can return 1 (sketch.c 145): then `top[size_k]` is written (C96_label_overflow). |
| C96 | With indices of four bytes the sizes are summed as `nprocs` integers of four bytes in an array of eight byte elements (sketch.c 130-132): from four processes on the processes give different maps to the same array (C96_maps_differ). |
| C96 | `pnga_sprs_array_num_nonzeros` (sketch.c 386-441) reduces the type of the array and `nprocs` elements at the address of one counter and has no return statement (read, not modelled). |
| C97 | The loop of `armci_agg_save_strided_descriptor` computes the rest as `total1D - ptr_array_len`, where `ptr_array_len` is the last part only (aggregate.c 285): with more than 512 segments, not a multiple of 256, segments behind the end of the request are transferred (C97_overrun). |
| C97 | The counters of the stride levels go up when `num1D%count[j]==0` instead of when the product of the counts divides `num1D` (aggregate.c 276-280): from three stride levels on the wrong segments are transferred (C97_three_levels). |
| C97 | The loop of `armci_agg_save_giov_descriptor` ends when the descriptor in the buffer is exhausted, not the vector of the caller (aggregate.c 239): a second vector of the same segment size under one handle is read behind its end (C97_vector_again). |
| C98 | `impcount` (wait.c 53) is a signed integer that only PARMCI_WaitAll resets: after 2^31 requests without a handle in a program that waits by PARMCI_WaitProc it overflows, and the index `impcount%ARMCI_MAX_IMPLICIT` is negative (C98_overflow). |
| C100 | `armci_send_req_msg` (openib.c 2579-2590) stamps the last word of the answer first and then every 1024 bytes below it. When the length of the answer is not a multiple of four, one of these stamps can overlap the last one and change it (descriptor of 40 bytes, answer of 1069 bytes). The first look then reports the whole answer before any byte has arrived. Proved: C100_damaged. |
| C100 | for answers of one to three bytes `datalen - sizeof(int)` is a large unsigned number and the stamp is written into the request header before it is sent (openib.c 2575-2579). Proved: C100_short. |
| C101 | the inner loop of `_armci_serv_pendbuf_progress` (pendbufs.c 696-709) goes on with the first buffer in order but does not set `msginfo` anew. When a get ends and the next buffer is a put whose data have arrived, the put is handed to the handler of gets, which stops the server (`armci_die`). Proved: C101_dies. |
| C101 | accumulates are not held back by earlier puts of the same client: small ones are carried out on arrival (pendbufs.c 387-389), large ones when their data have arrived (pendbufs.c 652-662 tests only puts). A put followed by an accumulate on the same place can lose the accumulate. Proved: C101_overtakes, C101_overtakes_large. |
| C102 | the assertion of `release_cbuf` (cbuf.c 290) notices a second release only when no other buffer was released in between; otherwise the free list becomes circular and one buffer is handed to two users. Wrong use by the caller, not a fault of the pool. Proved: C102_double. |
| (read) | kr_malloc.c 404: the first allocation of shared memory returns without releasing the lock when the system has no memory |
| (read) | sparse.array.c: the complex macro of dnssprs without `trans` uses `_ii*_kk*_ld_a` as distance; sprsdns without `trans` loops over the limits of the wrong block |
| (read, not modelled) | sparse.array.c: create returns an unset handle when all slots are in use; get_block tests `==` where it should assign a null pointer, and reads four byte row pointers as eight byte ones; duplicate converts the type twice |
| (read, not modelled) | `NGA_Access_ghost_element` (capi.c 2502-2524) never stores the leading dimensions it obtains |

## 7. Not modelled

Floating point rounding, MPI internals, data type dispatch (C macros per type), Fortran/C
index-order wrappers (`capi.c`, `fapi.c`), mirrored arrays beyond C90, ghost updates on process groups and the other
routines of ghosts.c, ScaLAPACK/Peigs interfaces,
performance instrumentation, `profiling`, GPU, error text. The mirrored and
N-dimensional cases of matmul.c, the remaining functions of sparse.array.c (duplicate, the Fortran loops of products with dense arrays), `pnga_sprs_array_num_nonzeros` in sketch.c and the parallel linear solvers are not modelled;
neither are the other ports of comex (only comex/src-mpi-pr is, the mutexes of comex/src-mpi3, and of comex/src-mpi contiguous calls, fences, mutexes and the barrier of the world group). Of disk arrays: asynchronous I/O, several requests at a time, the parameter file. Of elio: the interrupted or rejected asynchronous calls of the system, elio_probe, file systems, dup (C91 has the asynchronous requests).

## 8. Audit

`lake build` in `/verif/lean`; then `python3 tools/axioms.py` rewrites AXIOMS.md.
