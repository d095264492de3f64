{"id": "C01", "title": "Distributed lock: mutual exclusion", "statement": "If PEs use a symmetric lock only through shmem_set_lock, shmem_test_lock and shmem_clear_lock (clear only by the holder), then at no moment do two PEs hold the lock: between the return of a successful set/test and the start of the matching clear no other PE's set returns and no other PE's test reports success.", "quantifier": "every number of PEs, every history of set/test/clear calls by every PE, every interleaving of the remote atomic operations they issue", "why_tests_cant": "the failing schedules are interleavings of one-sided atomics between arbitrarily many processes; a test observes a handful of schedules", "anchors": ["src/internal/lock_impl.h: OSHMPI_set_lock, OSHMPI_clear_lock, OSHMPI_test_lock", "src/shmem/lock.c"]}
{"id": "C02", "title": "Distributed lock: FIFO hand-off", "statement": "Callers of shmem_set_lock are granted the lock in the order in which their requests reach the lock's root, each request exactly once; a successful shmem_test_lock enters that order only when it is empty.", "quantifier": "every number of PEs, every call history, every interleaving", "why_tests_cant": "a wrong hand-off order only appears when requests overlap in specific ways", "anchors": ["src/internal/lock_impl.h: OSHMPI_set_lock, OSHMPI_clear_lock"]}
{"id": "C03", "title": "Distributed lock: no lost wake-up, no deadlock", "statement": "Whenever some PE is blocked in shmem_set_lock or shmem_clear_lock, either a PE currently holds the lock in its critical section or some PE inside a lock call can take a step that is not a useless poll; once holders release, every waiter is granted the lock after a bounded number of such steps.", "quantifier": "every reachable state of every execution, any number of PEs", "why_tests_cant": "deadlock and starvation are properties of all infinite schedules", "anchors": ["src/internal/lock_impl.h: OSHMPI_set_lock, OSHMPI_clear_lock"]}
{"id": "C04", "title": "shmem_test_lock is exact and non-blocking", "statement": "shmem_test_lock returns 0 exactly when the lock was free with no requester queued at the instant of its single remote atomic, in which case the caller holds the lock; otherwise it returns 1 and changes nothing.", "quantifier": "every reachable lock state, every caller", "why_tests_cant": "requires all lock states reachable under concurrency", "anchors": ["src/internal/lock_impl.h: OSHMPI_test_lock"]}
{"id": "C05", "title": "clear_lock makes critical-section updates visible", "statement": "Remote updates a PE issued before shmem_clear_lock are complete at their targets before the next holder acquires the lock.", "quantifier": "every execution; every mix of puts and AMOs issued in the critical section", "why_tests_cant": "the window between release and delivery is schedule dependent", "anchors": ["src/internal/lock_impl.h: OSHMPI_clear_lock", "src/internal/order_impl.h: OSHMPI_ctx_quiet"]}
{"id": "C06", "title": "Space allocator: live blocks are in bounds and pairwise disjoint", "statement": "Every block returned by a space allocation lies inside the space's memory and is disjoint from every other block currently allocated from that space, after any history of allocations and frees.", "quantifier": "every pool size and chunk size, every history of alloc/free calls with any (non-zero, representable) sizes", "why_tests_cant": "overlap may need a long specific fragmentation history", "anchors": ["src/internal/util/mem_pool.c: OSHMPIU_mempool_alloc, OSHMPIU_mempool_free, OSHMPIU_mempool_init", "src/internal/space_impl.c: OSHMPI_space_malloc"]}
{"id": "C07", "title": "Space allocator: first fit and completeness", "statement": "A space allocation returns NULL only if no run of free chunks long enough for the request exists; otherwise it returns the lowest such run.", "quantifier": "every reachable pool state, every request size", "why_tests_cant": "needs all fragmentation states", "anchors": ["src/internal/util/mem_pool.c: OSHMPIU_mempool_alloc"]}
{"id": "C08", "title": "Space allocator: free returns exactly the block", "statement": "Freeing a live block makes exactly its chunks free and leaves every other live block untouched; freeing a pointer that is not the start chunk of a live block aborts; after all blocks are freed the pool is as new, so destroying it succeeds and a request of the full size succeeds.", "quantifier": "every history and every live pointer", "why_tests_cant": "depends on the complete history", "anchors": ["src/internal/util/mem_pool.c: OSHMPIU_mempool_free, OSHMPIU_mempool_destroy"]}
{"id": "C09", "title": "Space allocator: symmetric offsets", "statement": "If all PEs perform the same sequence of allocations and frees on a space, then each allocation returns the same offset from the space's base on every PE, whatever the base addresses are.", "quantifier": "every number of PEs, every call sequence, all base addresses", "why_tests_cant": "quantifies over all call sequences and address layouts", "anchors": ["src/internal/util/mem_pool.c: OSHMPIU_mempool_alloc", "src/internal/space_impl.c: OSHMPI_space_malloc, OSHMPI_space_align, OSHMPI_space_free"]}
{"id": "C10", "title": "Space allocator: any request size is handled safely", "statement": "No request size makes a space allocation write outside its bookkeeping or return a block smaller than the request.", "quantifier": "all size_t request sizes, all pool states", "why_tests_cant": "the failing sizes are 0, those near 2^64, and those whose chunk count exceeds the int range", "anchors": ["src/internal/util/mem_pool.c: OSHMPIU_mempool_alloc", "src/include/oshmpi_util.h: OSHMPI_ALIGN"]}
{"id": "C11", "title": "Size rounding", "statement": "OSHMPI_ALIGN(v, a) for a power of two a and v+a-1 < 2^64 is the least multiple of a that is at least v; heap and space sizes derived from it are page multiples not smaller than requested.", "quantifier": "all 64-bit values and all power-of-two alignments", "why_tests_cant": "2^64 x 64 inputs", "anchors": ["src/include/oshmpi_util.h: OSHMPI_ALIGN", "src/internal/setup_impl.c: initialize_symm_heap", "src/internal/space_impl.c: OSHMPI_space_create"]}
{"id": "C12", "title": "Symmetric object handles round-trip", "statement": "The object kind, the all-PEs-same-base flag and the index recovered from a symmetric object handle are those it was built from, and distinct (kind, flag, index) give distinct handles, as long as the index fits in 29 bits.", "quantifier": "all kinds, flags and 29-bit indices (and the failure for larger indices)", "why_tests_cant": "2^29 indices; the wrap needs half a billion attaches", "anchors": ["src/include/oshmpi_impl.h: OSHMPI_SOBJ_SET_HANDLE and masks, OSHMPI_sobj_set_handle"]}
{"id": "C13", "title": "Remote address translation reaches the symmetric counterpart", "statement": "A put/get/AMO/lock on local symmetric address A with target PE t accesses, at t, the address at the same offset from t's base of the same symmetric object, in relative-displacement windows, absolute-displacement (dynamic) windows with equal bases and with differing bases.", "quantifier": "all objects, offsets, PEs, per-PE base addresses and displacement modes", "why_tests_cant": "layouts (ASLR, non-symmetric bases) differ per run", "anchors": ["src/include/oshmpi_impl.h: OSHMPI_sobj_trans_vaddr_to_disp, OSHMPI_sobj_trans_disp_to_vaddr", "src/internal/util/symm_mem.c: OSHMPIU_check_symm_mem"]}
{"id": "C14", "title": "Active-message address round-trip", "statement": "The (handle, displacement) pair that an active message carries resolves on the target PE to the symmetric counterpart of the origin's address for global data, the symmetric heap and every attached space; a never-attached space aborts instead of touching memory.", "quantifier": "all objects, offsets, PEs and attach histories", "why_tests_cant": "depends on all attach/detach histories and layouts", "anchors": ["src/include/oshmpi_impl.h: OSHMPI_sobj_trans_disp_to_vaddr", "src/internal/rma_am_impl.c", "src/internal/amo_am_impl.c"]}
{"id": "C15", "title": "Pointer lookup finds the right object", "statement": "An address is accepted for remote access on the default context iff it lies in [base, base+size) of the symmetric heap, the global data segment or a space; the object chosen contains the address, and it is the only one when the ranges are disjoint.", "quantifier": "all addresses, all sets of spaces", "why_tests_cant": "64-bit address space and unbounded number of spaces", "anchors": ["src/include/oshmpi_impl.h: OSHMPI_sobj_query_attr_ictx, OSHMPI_sobj_check_range"]}
{"id": "C16", "title": "Attach indices are never reused", "statement": "Across any history of space creation, attach, detach and destroy, two spaces that are attached (at the same or different times) never receive the same handle, and all PEs give the same handle to the same space.", "quantifier": "every history with fewer than 2^29 attaches; every number of PEs performing the same collective sequence", "why_tests_cant": "needs unbounded histories", "anchors": ["src/internal/space_impl.c: OSHMPI_space_attach, OSHMPI_space_detach"]}
{"id": "C17", "title": "Contiguous put/get copy exactly the requested elements", "statement": "A completed put of n elements makes the n target elements equal to the source and changes no other remote byte; a completed get does the same locally; zero elements is a no-op.", "quantifier": "all buffers, offsets, element sizes and counts below 2^31", "why_tests_cant": "all sizes and offsets", "anchors": ["src/internal/rma_impl.h: OSHMPI_ctx_put, OSHMPI_ctx_get", "src/internal/rma_am_impl.h", "src/internal/rma_am_impl.c"]}
{"id": "C18", "title": "Strided put/get element mapping", "statement": "iput with target stride tst and source stride sst moves, for every i < n, source element i*sst to target element i*tst and changes nothing else; iget symmetrically; the result does not depend on the datatype fast path, on the datatype cache or on whether the direct or the active-message path is used.", "quantifier": "all n, all strides >= 1, all buffers", "why_tests_cant": "unbounded parameters and both paths", "anchors": ["src/internal/rma_impl.h: OSHMPI_ctx_iput, OSHMPI_ctx_iget, ctx_iput_nbi_impl, ctx_iget_nbi_impl", "src/internal/strided_impl.h: OSHMPI_create_strided_dtype", "src/internal/rma_am_impl.c"]}
{"id": "C19", "title": "Element counts up to SIZE_MAX are honoured", "statement": "put/get/collect transfer the number of elements the caller passed, for every size_t count.", "quantifier": "all 64-bit counts", "why_tests_cant": "counts of 2^31 and more are not testable in practice", "anchors": ["src/internal/rma_impl.h: ctx_put_nbi_impl, ctx_get_nbi_impl (int cast)", "src/internal/coll_activeset_impl.h: OSHMPI_collect"]}
{"id": "C20", "title": "The strided datatype cache is transparent", "statement": "Over any history of strided calls the datatype used for (count, stride, element type, extent) describes exactly the layout that a freshly created datatype would.", "quantifier": "every call history", "why_tests_cant": "a stale hit needs a particular history", "anchors": ["src/internal/strided_impl.h: strided_set_dtype_cache, strided_find_dtype_cache, OSHMPI_create_strided_dtype"]}
{"id": "C21", "title": "Active-message flush implies remote completion", "statement": "When the flush of shmem_quiet/shmem_fence returns on a PE (single-threaded use), every put, strided put and non-fetching AMO that this PE issued earlier through active messages has been applied at its target.", "quantifier": "every number of PEs, every program of operations per PE, every interleaving of sends, deliveries and handler executions", "why_tests_cant": "all network/handler schedules", "anchors": ["src/internal/am_impl.h: OSHMPI_am_flush, OSHMPI_am_flush_all", "src/internal/am_impl.c: OSHMPI_am_flush_pkt_cb", "src/internal/order_impl.h"]}
{"id": "C22", "title": "Active-message operations to one target take effect in program order", "statement": "The active-message operations of one PE to one target are applied in the order issued, each exactly once; hence a blocking get/fetch/compare-swap observes the issuing PE's own earlier operations on that target.", "quantifier": "every execution", "why_tests_cant": "all schedules", "anchors": ["src/internal/am_impl.c: am_cb_handle_pkt, am_cb_manual_progress, am_cb_async_progress", "src/internal/rma_am_impl.h", "src/internal/amo_am_impl.h"]}
{"id": "C23", "title": "AMOs are atomic (linearizable)", "statement": "In active-message mode all AMOs on a variable are applied one at a time at its owner: the final value and every fetched value are those of executing all AMOs in one sequential order that extends every PE's program order; e.g. k concurrent fetch-increments return k distinct consecutive values.", "quantifier": "every number of PEs and operations, every schedule", "why_tests_cant": "lost updates show up only in rare interleavings", "anchors": ["src/internal/amo_am_impl.c: OSHMPI_amo_am_cswap_pkt_cb, OSHMPI_amo_am_fetch_pkt_cb, OSHMPI_amo_am_post_pkt_cb"]}
{"id": "C24", "title": "AMO arithmetic is exact for every type", "statement": "Each AMO handler computes, for every integer type it supports, the operation OpenSHMEM names (two's-complement wrap-around add, bitwise and/or/xor, set, fetch, compare-swap) on the full width, and the active-message and direct MPI paths compute the same value; unsupported (type, op) pairs abort without storing.", "quantifier": "all operand values of all widths, all operations", "why_tests_cant": "2^128 operand pairs per op", "anchors": ["src/internal/amo_am_impl.c: OSHMPI_AMO_OP_TYPE_IMPL", "src/internal/amo_impl.h", "src/shmem/amo_std_typed.c.tpl, amo_ext_typed.c.tpl, amo_bitws_typed.c.tpl"]}
{"id": "C25", "title": "The packet receive never takes a payload, payload receives never take a packet", "statement": "In every execution the handler's wildcard receive is matched only with packet headers, and the payload receive of a put is matched with the payload of that very put; also with several threads issuing concurrently and with the any-tag re-post of the asynchronous progress thread.", "quantifier": "every number of PEs and threads, every message interleaving", "why_tests_cant": "mismatches depend on message races", "anchors": ["src/internal/am_impl.c: am_cb_async_progress, am_cb_manual_progress", "src/internal/rma_am_impl.c: OSHMPI_rma_am_put_pkt_cb", "src/internal/am_pre.h: tags"]}
{"id": "C26", "title": "Private tags are unique and in range", "statement": "Operations in flight on one PE never share a private tag, no private tag equals the header tag, and every tag used is below the MPI tag upper bound, for the whole life of the program.", "quantifier": "every number of operations, any number of concurrent threads", "why_tests_cant": "wrap/exhaustion needs 2^31 operations", "anchors": ["src/internal/am_impl.h: OSHMPI_am_get_pkt_ptag", "src/internal/am_pre.h: OSHMPI_AM_PKT_PTAG_START"]}
{"id": "C27", "title": "Blocking active-message calls make progress", "statement": "PEs that are simultaneously inside blocking active-message calls toward each other cannot deadlock: as long as some call has not returned, some message can be sent, handled or received.", "quantifier": "every reachable state, any number of PEs", "why_tests_cant": "deadlock freedom quantifies over all states", "anchors": ["src/internal/am_progress_impl.h: OSHMPI_am_progress_mpi_waitall", "src/internal/am_impl.c: am_cb_manual_progress"]}
{"id": "C28", "title": "No operation is lost at finalize", "statement": "Operations issued before shmem_finalize are applied before the target stops handling active messages.", "quantifier": "every execution that ends with finalize", "why_tests_cant": "race between the last packet and the terminate packet", "anchors": ["src/internal/setup_impl.c: finalize_impl", "src/internal/am_impl.c: am_cb_progress_end"]}
{"id": "C29", "title": "quiet completes everything on the default context", "statement": "When shmem_quiet (or fence) on the default context returns, no put, non-blocking put/get or AMO issued earlier by the calling PE is outstanding on any window it was issued on, over all symmetric objects and spaces; skipping windows by operation tracking never skips one with an outstanding operation.", "quantifier": "every history of operations, spaces, contexts and flushes, tracking on or off", "why_tests_cant": "needs every history of flag updates", "anchors": ["src/internal/order_impl.h: OSHMPI_ctx_quiet, OSHMPI_ctx_fence, ctx_flush_impl", "src/include/oshmpi_impl.h: OSHMPI_SET_OUTSTANDING_OP"]}
{"id": "C30", "title": "barrier_all completes everything", "statement": "After shmem_barrier_all no operation issued earlier by any PE is outstanding.", "quantifier": "every history, including operations on spaces", "why_tests_cant": "needs every history", "anchors": ["src/internal/coll_impl.h: OSHMPI_barrier_all", "src/internal/order_impl.h"]}
{"id": "C31", "title": "quiet on a user context completes that context's operations", "statement": "When shmem_ctx_quiet(ctx) returns, no operation issued earlier on ctx is outstanding.", "quantifier": "every history of operations on ctx, both AMO modes", "why_tests_cant": "needs histories mixing AMOs and puts on contexts", "anchors": ["src/internal/order_impl.h: OSHMPI_ctx_quiet", "src/internal/amo_impl.h"]}
{"id": "C32", "title": "quiet is correct under concurrent threads", "statement": "With several threads issuing on one PE, quiet still completes every operation that returned before quiet was called.", "quantifier": "every interleaving of the threads' flag updates", "why_tests_cant": "data race window of a few instructions", "anchors": ["src/internal/rma_am_impl.h: OSHMPI_rma_am_get (flag reset)", "src/internal/amo_am_impl.h", "src/internal/am_impl.h: OSHMPI_am_flush", "src/internal/order_impl.h"]}
{"id": "C33", "title": "Active-set communicator is the set, and the cache is transparent", "statement": "The communicator used for active set (start, logstride, size) contains exactly PEs start + i*2^logstride with rank i, for every i < size, over any history of collective calls on any sets.", "quantifier": "every active set, every call history", "why_tests_cant": "a wrong cache hit needs a particular history", "anchors": ["src/internal/coll_activeset_impl.h: OSHMPI_coll_acquire_comm, coll_set_comm_cache, coll_find_comm_cache"]}
{"id": "C34", "title": "Active-set broadcast delivers the root's data", "statement": "shmem_broadcast copies the root's source to the dest of every other member of the active set and leaves the root's dest unchanged, for every root index of the set.", "quantifier": "every active set, every root, all data", "why_tests_cant": "depends on set geometry", "anchors": ["src/internal/coll_activeset_impl.h: OSHMPI_broadcast"]}
{"id": "C35", "title": "collect / fcollect concatenate in rank order", "statement": "collect gives every member the concatenation of the members' blocks in rank order with block sizes that may differ; fcollect the same with equal sizes; all members make the same algorithm choice.", "quantifier": "every set size, all contribution sizes and data", "why_tests_cant": "unbounded sizes; branch divergence deadlocks", "anchors": ["src/internal/coll_activeset_impl.h: OSHMPI_collect, OSHMPI_fcollect", "src/internal/coll_impl.h: OSHMPI_collect_team"]}
{"id": "C36", "title": "alltoall / alltoalls permute blocks", "statement": "alltoall(s): element k of block j of member i's source (stride sst) lands at element k of block i of member j's dest (stride dst); nothing between strided elements is touched.", "quantifier": "every team size, count, strides >= 1, data", "why_tests_cant": "unbounded parameters", "anchors": ["src/internal/coll_activeset_impl.h: OSHMPI_alltoall, OSHMPI_alltoalls", "src/internal/coll_impl.h: OSHMPI_alltoalls_team"]}
{"id": "C37", "title": "Reductions combine all members element-wise", "statement": "to_all reductions give every member, for each element, the operator folded over all members' contributions, including the in-place case source == dest.", "quantifier": "every team size, count, operator and data", "why_tests_cant": "unbounded parameters", "anchors": ["src/internal/coll_activeset_impl.h: OSHMPI_allreduce", "src/internal/coll_impl.h: OSHMPI_allreduce_team"]}
{"id": "C38", "title": "Team broadcast", "statement": "shmem_broadcast on a team copies the team root's source into dest on every member including the root.", "quantifier": "every team, root, data", "why_tests_cant": "unbounded parameters", "anchors": ["src/internal/coll_impl.h: OSHMPI_broadcast_team"]}
{"id": "C39", "title": "split_strided selects exactly the triplet", "statement": "team_split_strided with a valid (start, stride, size) triplet creates a team whose members are exactly parent ranks start + i*stride (i < size), in that order, and returns a valid handle exactly on those; invalid triplets fail on every PE alike.", "quantifier": "every parent size, every triplet of ints", "why_tests_cant": "all integers, incl. zero and negative strides and overflow", "anchors": ["src/shmem/team.c: shmem_team_split_strided", "src/internal/team_impl.c: OSHMPI_team_split"]}
{"id": "C40", "title": "split_2d partitions the parent into a grid", "statement": "team_split_2d(xrange) puts parent rank r in the x-team numbered r/xrange with rank r mod xrange and in the y-team numbered r mod xrange with rank r/xrange; the x-teams partition the parent, so do the y-teams, and an x- and a y-team share at most one PE.", "quantifier": "every parent size and every xrange > 0", "why_tests_cant": "unbounded sizes", "anchors": ["src/shmem/team.c: shmem_team_split_2d", "src/internal/team_impl.c: OSHMPI_team_split"]}
{"id": "C41", "title": "Team PE translation is a round trip", "statement": "translate_pe maps team ranks to the right PE of the other team and is inverted by translating back; it returns -1 exactly when the PE is not a member of the destination or the handle is invalid.", "quantifier": "all pairs of teams and all ranks", "why_tests_cant": "unbounded", "anchors": ["src/shmem/team.c: shmem_team_translate_pe, shmem_team_my_pe, shmem_team_n_pes"]}
{"id": "C42", "title": "Space contexts are exclusively owned", "statement": "Concurrent context creations on a space never return the same context; a creation fails only if at every inspection each context was in use; a destroyed context can be obtained again.", "quantifier": "every number of threads, every interleaving, every history", "why_tests_cant": "CAS races", "anchors": ["src/internal/space_impl.c: OSHMPI_space_create_ctx", "src/internal/ctx_impl.c"]}
{"id": "C43", "title": "wait_until / test honour the comparison", "statement": "test returns whether the comparison holds for the value read atomically; wait_until returns only after reading a value for which it holds and, if the value holds from some time on, it does return; each of the six comparison codes means its mathematical relation for signed and unsigned values.", "quantifier": "all values, comparison codes, all sequences of values observed", "why_tests_cant": "all values and update schedules", "anchors": ["src/internal/p2p_impl.h: OSHMPI_COMP, OSHMPI_WAIT_UNTIL, OSHMPI_TEST"]}
{"id": "C44", "title": "AMO operation list parses to the set it names and prints back", "statement": "Parsing OSHMPI_AMO_OPS yields exactly the set of operations whose names occur in the comma separated list; printing a set and parsing the text returns the set.", "quantifier": "all strings / all 2^14 sets", "why_tests_cant": "unbounded strings", "anchors": ["src/internal/setup_impl.c: set_env_amo_ops, getstr_env_amo_ops"]}
{"id": "C45", "title": "Direct AMOs are enabled only when MPI guarantees atomicity", "statement": "Unless the build options or the environment force a path, the direct MPI path is chosen only if every pair of AMOs the user declared may be used concurrently is mutually atomic under the accumulate hints passed to MPI; the choice is the same on all PEs with the same environment.", "quantifier": "all declared operation sets and hint combinations", "why_tests_cant": "2^14 sets; the README promises more cases", "anchors": ["src/internal/setup_impl.c: set_mpi_info_args"]}
{"id": "C46", "title": "Size strings", "statement": "A size string <number><K|M|G|T> is converted to number times the unit, rounding to an integer number of bytes; integers are exact.", "quantifier": "all numbers", "why_tests_cant": "precision loss only above 2^24", "anchors": ["src/include/oshmpi_util.h: OSHMPIU_str_to_size"]}
{"id": "C47", "title": "Requested heap is usable", "statement": "After start-up with symmetric size S every address of the symmetric heap handed out by shmem_malloc is accepted for remote access, and at least S bytes are usable; exhaustion yields NULL on every PE.", "quantifier": "all S, all allocation histories", "why_tests_cant": "boundary only reached when the heap is nearly full", "anchors": ["src/internal/setup_impl.c: initialize_symm_heap", "src/internal/mem_impl.c", "src/internal/util/dlmalloc.c: sys_alloc"]}
{"id": "C48", "title": "Provided thread level never exceeds what is safe", "statement": "shmem_init_thread's provided level is at least SINGLE, is what MPI and the build support, never exceeds the build's limit, and query returns it.", "quantifier": "all requested levels, MPI answers and build options", "why_tests_cant": "cross product with MPI behaviours", "anchors": ["src/internal/setup_impl.c: OSHMPI_initialize_thread", "src/shmem/setup.c"]}
{"id": "C49", "title": "GPU transfer decision", "statement": "A transfer involving device memory uses MPI RMA directly iff the corresponding feature is enabled, otherwise active messages, and aborts if neither is enabled.", "quantifier": "all buffer placements and feature sets", "why_tests_cant": "hardware dependent", "anchors": ["src/include/oshmpi_impl.h: OSHMPI_check_gpu_direct_rma", "src/internal/setup_impl.c: set_env_mpi_gpu_features"]}
{"id": "C50", "title": "Symmetric region allocation agrees on all PEs", "statement": "OSHMPIU_allocate_symm_mem either fails on all PEs or succeeds on all PEs with the same address, and never maps over memory a PE was using.", "quantifier": "all PE counts, all address-space layouts, all random choices, any number of retries", "why_tests_cant": "depends on ASLR layouts of many processes", "anchors": ["src/internal/util/symm_mem.c: OSHMPIU_allocate_symm_mem, check_maprange_ok"]}
{"id": "C51", "title": "Lifecycle: finalize runs once", "statement": "The library resources are released exactly once whatever the combination of init, explicit finalize calls and the implicit finalize at exit.", "quantifier": "all call histories", "why_tests_cant": "all histories", "anchors": ["src/internal/setup_impl.c: OSHMPI_finalize, OSHMPI_implicit_finalize, finalize_impl, OSHMPI_initialize_thread"]}
{"id": "C52", "title": "Symmetric heap API argument handling", "statement": "shmem_malloc(0) and shmem_calloc with zero size return NULL without a barrier; otherwise allocation ends, and free begins, with a barrier on all PEs, so that no PE can use or reuse memory that another PE has not yet allocated or is still using.", "quantifier": "all argument values and interleavings of PEs", "why_tests_cant": "reuse races across processes", "anchors": ["src/internal/mem_impl.c: OSHMPI_malloc, OSHMPI_free, OSHMPI_realloc, OSHMPI_align, OSHMPI_calloc"]}
{"id": "C53", "title": "Space calls return what their names promise", "statement": "space_calloc returns count*size zeroed bytes and space_memalign a pointer that is a multiple of the alignment.", "quantifier": "all counts, sizes and alignments", "why_tests_cant": "all arguments", "anchors": ["src/shmemx/space.c", "src/internal/space_impl.c: OSHMPI_space_align"]}
{"id": "C54", "title": "Space and datatype lists", "statement": "Appending, prepending and deleting on the library's intrusive lists keeps every other element, in order; the space list always contains exactly the spaces created and not destroyed.", "quantifier": "every history", "why_tests_cant": "unbounded histories", "anchors": ["src/internal/util/utlist.h", "src/internal/space_impl.c"]}
{"id": "C55", "title": "Shared team", "statement": "SHMEM_TEAM_SHARED contains exactly the PEs that share a memory domain with the caller.", "quantifier": "every number of PEs and every placement on nodes", "why_tests_cant": "tests run on one node, where the answer is always right", "anchors": ["src/internal/setup_impl.c"]}
{"id": "C56", "title": "Quiet, fence and barrier always return", "statement": "In every state reachable by legal use of the space API, shmem_quiet and shmem_fence on the default context and the local part of a barrier return: they never abort and never touch memory or windows that do not exist.", "quantifier": "every history of RMA, AMO, space create/attach/detach/destroy, context and ordering calls, in every build (static or dynamic windows, tracking on or off)", "why_tests_cant": "the failing states are particular combinations of space life cycle and build options", "anchors": ["src/internal/order_impl.h: OSHMPI_ctx_quiet, OSHMPI_ctx_fence", "src/internal/space_impl.c: OSHMPI_space_detach, space_ictx_destroy"]}
{"id": "C57", "title": "Active-set barrier completes the caller's operations", "statement": "When shmem_barrier on an active set returns, none of the caller's earlier default-context operations is outstanding, whatever PE it targets.", "quantifier": "every active set and every history before it", "why_tests_cant": "an update in flight to a PE outside the set arrives soon in practice", "anchors": ["src/internal/coll_activeset_impl.h: OSHMPI_barrier", "src/internal/am_impl.h: OSHMPI_am_flush"]}
{"id": "C58", "title": "The heap is released the way it was allocated", "statement": "The memory of the symmetric heap, allocated with mmap or with malloc depending on whether a common address was found, is released at finalize with munmap or free accordingly, once.", "quantifier": "every number of PEs, every address-space layout, every outcome of the search for a common address", "why_tests_cant": "depends on which addresses the system returns on each PE; freeing with the wrong function often passes unnoticed", "anchors": ["src/internal/util/util.h: OSHMPIU_allocate_symm_mem, OSHMPIU_free_symm_mem", "src/internal/setup_impl.c: initialize_symm_heap, finalize_symm"]}
{"id": "C59", "title": "Stopping the progress thread", "statement": "When shmem_finalize returns, the asynchronous progress thread has ended; it does not touch the mutex or condition variable after they are destroyed, and the two threads never wait for each other for ever.", "quantifier": "every interleaving of the finalizing thread and the progress thread", "why_tests_cant": "the bad interleaving is a few instructions wide", "anchors": ["src/internal/am_impl.c: OSHMPI_am_finalize, am_cb_progress_end, am_cb_async_progress"]}
{"id": "C60", "title": "Heap blocks are sound", "statement": "After any sequence of shmem_malloc, calloc, align, realloc and free, the blocks held by the program are pairwise disjoint, at multiples of 16 (or of the alignment asked for), inside the heap's memory, and disjoint from everything the allocator writes for itself; freeing a held block always succeeds.", "quantifier": "every sequence of calls with arbitrary sizes, alignments and allocator placement decisions", "why_tests_cant": "corruption needs particular sequences of sizes; a test sees a few", "anchors": ["src/internal/util/dlmalloc.c: mspace_malloc, mspace_free, mspace_realloc, mspace_memalign, mspace_calloc", "src/internal/mem_impl.c"]}
{"id": "C61", "title": "Symmetric allocation", "statement": "The same sequence of memory-management calls gives every PE blocks at the same offset from the start of its heap.", "quantifier": "every sequence of calls, every placement of the heaps", "why_tests_cant": "tests run where all PEs get the same heap address", "anchors": ["src/internal/mem_impl.c: OSHMPI_malloc, OSHMPI_align", "src/internal/util/dlmalloc.c: internal_memalign"]}
{"id": "C62", "title": "Freed heap memory is complete", "statement": "Once a program has freed all its blocks, the heap is again one free area of its full size.", "quantifier": "every sequence of calls", "why_tests_cant": "fragmentation bugs appear only after long particular histories", "anchors": ["src/internal/util/dlmalloc.c: mspace_free, dispose_chunk"]}
{"id": "C63", "title": "Typed, sized and untyped put/get move what their name says", "statement": "Every contiguous put/get routine (24 C types, sizes 8 to 128 bits, mem) with n elements moves exactly n times the size in its name from source to destination, and nothing else changes, on the direct and on the active-message path.", "quantifier": "every routine of the tables, every count, address, path and memory content", "why_tests_cant": "tests use a few types and the direct path; the tables are combined by a code generator and the active-message path computes byte counts separately", "anchors": ["maint/rma_typedef.txt", "maint/rma_sizedef.txt", "src/shmem/rma_typed.c.tpl", "src/shmem/rma_sized.c.tpl", "src/shmem/rma.c", "src/internal/rma_am_impl.h: OSHMPI_rma_am_get"]}
{"id": "C64", "title": "Accessibility queries agree with the communication routines", "statement": "shmem_pe_accessible is 1 exactly for PEs of the program; shmem_addr_accessible is 1 exactly when a put/get/AMO to the address and PE would be accepted; shmem_ptr returns a pointer only to memory the caller can load and store.", "quantifier": "every address, every PE number, every set of attached spaces", "why_tests_cant": "tests query a few addresses", "anchors": ["src/shmem/setup.c: shmem_pe_accessible, shmem_addr_accessible, shmem_ptr", "src/internal/sobj_impl.h: OSHMPI_sobj_query_attr"]}
{"id": "C65", "title": "Data put before a barrier are in the target's memory after it", "statement": "If a PE puts data (blocking or non-blocking, contiguous or strided) to another PE and then both pass shmem_barrier_all, then every PE that has left the barrier finds in the target's memory, in each byte that nobody else wrote, what the source held at the call.", "quantifier": "any number of PEs, any interleaving of their calls and of the transfers MPI or the handlers perform, any byte", "why_tests_cant": "MPI usually transfers small data at once; orders in which bytes are still in flight when the barrier is entered cannot be forced by a test", "anchors": ["src/internal/coll_impl.h: OSHMPI_barrier_all", "src/internal/rma_impl.h: OSHMPI_ctx_put", "src/internal/rma_am_impl.h: OSHMPI_rma_am_put", "src/internal/order_impl.h"]}
{"id": "C66", "title": "Put, fence, flag: who sees the flag sees the data", "statement": "If a PE puts data, calls shmem_fence or shmem_quiet, and only after that the flag is written (by a put, an atomic or a store), then at every moment at which the flag has changed the data are in the target's memory.", "quantifier": "any number of PEs, any interleaving, data on any object and any context, blocking or not, direct or by active message", "why_tests_cant": "a reordering shows up only under load and on particular networks", "anchors": ["src/internal/order_impl.h: OSHMPI_ctx_fence, OSHMPI_ctx_quiet", "src/internal/rma_impl.h", "src/internal/am_impl.h: OSHMPI_am_flush"]}
{"id": "C67", "title": "No atomic update of a counter is lost", "statement": "A counter changed only by atomic_inc, atomic_add, atomic_fetch_inc and atomic_fetch_add of any PEs has, after a barrier, grown by exactly the sum of the operands of all calls made before it.", "quantifier": "any number of PEs and calls, any interleaving, each integer type, by MPI or by active message", "why_tests_cant": "a lost update needs a rare interleaving; a test counts a few thousand increments in the orders it happens to get", "anchors": ["src/internal/amo_impl.h", "src/internal/amo_am_impl.c", "src/internal/amo_am_impl.h", "src/internal/coll_impl.h: OSHMPI_barrier_all"]}
{"id": "C68", "title": "A get returns the remote data", "statement": "When shmem_get or shmem_iget returns, and after the next quiet for the non-blocking forms, each byte of the destination holds what the remote source held at the call, if nobody writes either of them meanwhile.", "quantifier": "any number of PEs, any interleaving of other calls and transfers, any object, context, path and stride", "why_tests_cant": "with little traffic the data arrive early in any case", "anchors": ["src/internal/rma_impl.h: OSHMPI_ctx_get, OSHMPI_ctx_get_nbi, OSHMPI_ctx_iget", "src/internal/rma_am_impl.h: OSHMPI_rma_am_get"]}
{"id": "C70", "title": "The allocator's free lists never go wrong", "statement": "After any sequence of memory-management calls, a further call that names no block or a block still held always completes: no free chunk is lost from or duplicated in the bins, no chunk in use or too small is taken from them, and the blocks handed out are disjoint, aligned and inside the heap.", "quantifier": "every sequence of calls with arbitrary sizes and alignments, every heap size", "why_tests_cant": "corrupted bins show up only much later, after particular sequences of sizes", "anchors": ["src/internal/util/dlmalloc.c: insert_small_chunk, insert_large_chunk, unlink_*, replace_dv, tmalloc_large, tmalloc_small, mspace_malloc, mspace_free, try_realloc_chunk, internal_memalign, dispose_chunk"]}
{"id": "C71", "title": "No allocation fails while there is room", "statement": "shmem_malloc, calloc, align and realloc return a block of the symmetric heap whenever a gap of the size asked for (plus a fixed overhead) is left between the blocks held.", "quantifier": "every sequence of calls before, every gap, every heap size", "why_tests_cant": "needs a fragmented heap of a particular shape; heaps beyond 1 TiB are not tested", "anchors": ["src/internal/util/dlmalloc.c: mspace_malloc, tmalloc_large, tmalloc_small, compute_tree_index"]}
{"id": "C72", "title": "Best fit", "statement": "A request for more than 232 bytes is served from a smallest free chunk in which it fits, and from the unused rest of the heap only if it fits in none.", "quantifier": "every sequence of calls before, every heap size", "why_tests_cant": "needs many free chunks of nearly equal sizes in one tree", "anchors": ["src/internal/util/dlmalloc.c: tmalloc_large, insert_large_chunk, compute_tree_index"]}
{"id": "C73", "title": "AMOs are linearizable", "statement": "Atomic operations of any PEs on one word take effect one after another in some order: each does to the word and returns exactly what the API says for the value left by the one before. An operation that returns a value takes effect exactly once, between its call and its return; one that does not takes effect at most once, and exactly once by the next barrier.", "quantifier": "all executions of all PEs: any number of calls, any routines and types, any interleaving, by MPI or by active message", "why_tests_cant": "atomicity fails only in rare interleavings that no test can enumerate", "anchors": ["src/internal/amo_impl.h: ctx_fetch_op_impl, ctx_set_op_impl, ctx_cswap_impl, OSHMPI_amo_cswap, OSHMPI_amo_fetch, OSHMPI_amo_post", "src/internal/amo_am_impl.h", "src/internal/amo_am_impl.c: OSHMPI_amo_am_cswap_pkt_cb, OSHMPI_amo_am_fetch_pkt_cb, OSHMPI_amo_am_post_pkt_cb"]}
{"id": "C74", "title": "Fetching additions hand out distinct tickets", "statement": "If a counter is changed by additions only, fetch_add and fetch_inc return the start value plus everything added before; with increments by one the values handed out are consecutive and no two calls get the same one (up to the word size).", "quantifier": "all executions, any number of PEs and calls", "why_tests_cant": "duplicates appear only under particular races", "anchors": ["src/internal/amo_impl.h", "src/shmem/amo_std_typed.c.tpl"]}
{"id": "C75", "title": "One winner of a compare-and-swap", "statement": "If several calls compare a word with its current value c and swap in something else, exactly the first to take effect gets c back; a later success is possible only after some operation has put c back.", "quantifier": "all executions, any number of PEs and calls, any values", "why_tests_cant": "two winners appear only under particular races", "anchors": ["src/internal/amo_impl.h: OSHMPI_amo_cswap", "src/internal/amo_am_impl.c: OSHMPI_amo_am_cswap_pkt_cb"]}
{"id": "C76", "title": "A spin lock built from AMOs excludes", "statement": "A word that is taken by compare_swap(0, v) and released by atomic_set(0), by PEs that release only what they got, admits at most one PE at a time, although the release is only posted.", "quantifier": "all executions, any number of PEs, any number of acquisitions", "why_tests_cant": "overlap of critical sections depends on the interleaving and on when posted releases are performed", "anchors": ["src/internal/amo_impl.h: OSHMPI_amo_cswap, OSHMPI_amo_post", "src/internal/amo_am_impl.c"]}
{"id": "C69", "title": "A routine that is not implemented does not pretend", "statement": "A call of a routine either does what OpenSHMEM says or reports that it did not (an error code or an abort): wait_until_all/any/some and test_all/any/some do not return although the condition does not hold, put with signal does not return without putting, shmem_team_sync reports success only after synchronising, context creation never hands out a context that does not exist.", "quantifier": "all arguments, all memory contents, all builds (default and --enable-fast=ndebug)", "why_tests_cant": "the test suite is run with the default build, where the stubs abort and are therefore not called", "anchors": ["src/shmem/p2p_typed.c.tpl", "src/shmem/signal.c, signal_typed.c.tpl, signal_sized.c.tpl", "src/shmem/p2p.c: shmem_signal_wait_until", "src/shmem/context.c", "src/shmem/coll.c: shmem_team_sync", "src/include/oshmpi_util.h: OSHMPI_ASSERT"]}
{"id": "C77", "title": "A typed reduction computes what its name says", "statement": "shmem_TYPE_OP_reduce and shmem_TYPE_OP_to_all deliver to every member, element by element, the sum or product (modulo the range of TYPE), the smallest or largest (compared as numbers of TYPE, signed or unsigned), or the bitwise and/or/exclusive or of all members' elements, for every type and operator the API offers.", "quantifier": "all routines generated from the six tables, all member lists, all contributions, all orders in which MPI combines them", "why_tests_cant": "there are over 200 generated routines; tests exercise few types, and a wrong signedness or size shows only for particular values", "anchors": ["maint/reduce_*_typedef.txt", "src/shmem/reduce_{minmax,sumprod,bitws}_{team,aset}_typed.c.tpl", "maint/build_typed_api.pl", "src/internal/coll_impl.h: OSHMPI_allreduce_team", "src/internal/coll_activeset_impl.h: OSHMPI_allreduce", "configure.ac: OSHMPI_MPI_SIZE_T, OSHMPI_MPI_PTRDIFF_T"]}
{"id": "C78", "title": "The allocator's bookkeeping in the heap survives every use", "statement": "The symmetric heap keeps sizes and flags of its blocks in the heap itself, between the users' data. As long as programs write only inside blocks they hold, no call on a held block and no allocation ever aborts, and the offsets that calls return depend only on the sequence of calls: not on what users store in their blocks, nor on what the memory contained at start-up.", "quantifier": "all sequences of shmem_malloc/calloc/align/realloc/free with all sizes, interleaved with arbitrary writes to held blocks, all initial contents", "why_tests_cant": "a wrong size or flag shows only when a later call happens to use the neighbouring block", "anchors": ["src/internal/util/dlmalloc.c: malloc_chunk, set_inuse, set_size_and_pinuse_of_inuse_chunk, set_free_with_pinuse, mspace_malloc, mspace_free, mspace_realloc, mspace_memalign, mspace_calloc, try_realloc_chunk, dispose_chunk"]}
{"id": "C79", "title": "Blocks of the symmetric heap keep their contents", "statement": "The contents of a block change only by writes to it: allocation, resizing and freeing of other blocks leave every byte as it is. shmem_realloc carries over the contents up to the smaller size and leaves the block unchanged if it returns NULL; shmem_calloc returns zeros; no call writes outside the heap.", "quantifier": "all histories of calls and writes, all blocks, all bytes", "why_tests_cant": "corruption by the allocator needs particular neighbours and sizes", "anchors": ["src/internal/util/dlmalloc.c: mspace_malloc, mspace_free, mspace_realloc, mspace_memalign, mspace_calloc, try_realloc_chunk, dispose_chunk"]}
{"id": "C80", "title": "All members of a team agree on it", "statement": "If a PE obtained a team by some sequence of splits, every PE in that team obtained, by the same splits, a team with the same members in the same order and the same size; its own number in the team is its position in that order.", "quantifier": "all numbers of PEs, all sequences of strided and 2D splits with all arguments, all members", "why_tests_cant": "each PE computes its own view; agreement is a statement about all of them at once", "anchors": ["src/shmem/team.c: shmem_team_split_strided, shmem_team_split_2d", "src/internal/team_impl.c: OSHMPI_team_split"]}
{"id": "C81", "title": "Every collective routine moves the elements its name promises, among the PEs of its team or active set", "statement": "shmem_TYPENAME_{broadcast,collect,fcollect,alltoall,alltoalls} and the …mem routines on any team, and the …32/…64 and …_to_all routines on any active set, move (or combine) whole elements of the size of the C type, of the byte, or of 32/64 bits, between exactly the members, in the order of their numbers; no other byte and no other PE is touched.", "quantifier": "all routines, all teams made by any splits, all active sets, all histories of the communicator caches, all counts, strides, addresses and memory contents", "why_tests_cant": "composition of team construction, communicator cache, type tables and data movement", "anchors": ["src/shmem/coll_typed.c.tpl", "src/shmem/coll.c", "src/shmem/coll_activeset.c", "maint/coll_typedef.txt", "src/internal/coll_impl.h", "src/internal/coll_activeset_impl.h"]}
{"id": "C82", "title": "The free lists of the symmetric heap stay intact and out of the users' data", "statement": "The allocator keeps free memory in linked lists and tries whose links are addresses stored inside the free memory itself, next to the users' data. As long as programs write only inside blocks they hold, no allocation, resize or free ever follows a wrong link, aborts on one of its consistency checks or loops forever; every free piece is in exactly the list of its size and can be found there; no link is ever written into a block that is in use, and nothing at all outside the heap; what calls return does not depend on the contents of the memory.", "quantifier": "all sequences of shmem_malloc/calloc/align/realloc/free with all sizes, interleaved with arbitrary writes to held blocks, all initial contents, all bases", "why_tests_cant": "a broken list shows only many calls later, when the damaged link is followed", "anchors": ["src/internal/util/dlmalloc.c: insert_small_chunk, unlink_small_chunk, unlink_first_small_chunk, insert_large_chunk, unlink_large_chunk, replace_dv, tmalloc_large, tmalloc_small, mspace_malloc, mspace_free, mspace_realloc, mspace_memalign, mspace_calloc, init_bins, init_user_mstate"]}
{"id": "C83", "title": "Blocked PEs keep handling active messages", "statement": "A program that would go on if every operation were carried out at once, whatever its target is doing (as the OpenSHMEM specification describes operations), also goes on with the library: no PE waits for ever for an operation on a PE that is itself waiting inside a library call, and polling with shmem_test or shmem_test_lock lets others' operations complete.", "quantifier": "all programs, all numbers of PEs, teams and active sets, all schedules, both settings of the asynchronous thread, both MPI buffering choices, all completion rules of MPI collectives within MPI's guarantees", "why_tests_cant": "a deadlock needs a particular program and a particular order of arrival; MPI implementations hide it by buffering or by fast collectives", "anchors": ["src/internal/am_progress_impl.h: OSHMPI_AM_PROGRESS_MPI", "src/internal/am_impl.c: OSHMPI_am_cb_progress", "src/internal/team_impl.c: OSHMPI_team_split, OSHMPI_team_destroy", "src/internal/coll_activeset_impl.h: coll_acquire_comm", "src/internal/space_impl.c: OSHMPI_space_attach, OSHMPI_space_detach", "src/internal/lock_impl.h: OSHMPI_set_lock, OSHMPI_clear_lock, OSHMPI_test_lock", "src/internal/p2p_impl.h: OSHMPI_WAIT_UNTIL, OSHMPI_TEST"]}
{"id": "C84", "title": "Threads inside the library do not corrupt or block each other", "statement": "With SHMEM_THREAD_MULTIPLE, and with the asynchronous progress thread, any number of threads of a PE may be inside library calls: the list of spaces, the symmetric heap's allocator, a space's memory pool, the pending active-message receive and the two caches are never accessed by two threads at once; no thread reaches a space object after it was freed or before its members are stored; every mutex is unlocked by its holder before the call returns, none is held while waiting for another PE, and a thread that asks for one gets it.", "quantifier": "all numbers of threads, all interleavings of their accesses, all histories of calls, all numbers of spaces and contexts", "why_tests_cant": "data races and lock-order deadlocks appear only under particular interleavings", "anchors": ["src/include/oshmpi_impl.h: OSHMPI_THREAD_ENTER_CS, OSHMPI_sobj_query_attr_ictx, OSHMPI_sobj_trans_disp_to_vaddr", "src/internal/space_impl.c: OSHMPI_space_create, OSHMPI_space_destroy, OSHMPI_space_attach, OSHMPI_space_detach, OSHMPI_space_malloc", "src/internal/mem_impl.c", "src/internal/order_impl.h: OSHMPI_ctx_quiet, OSHMPI_ctx_fence", "src/internal/am_impl.c: am_cb_manual_progress, am_cb_async_progress", "src/internal/coll_activeset_impl.h", "src/internal/strided_impl.h"]}
{"id": "C85", "title": "Nothing is used before it exists or after it is gone", "statement": "In every configuration, at every moment from shmem_init to shmem_finalize, the communicators, windows, critical sections, receives, tables and memory that a call, a packet handler, the initialisation or the finalisation itself uses have been created and not yet released.", "quantifier": "all builds (kind of windows, kinds of operations, caches, thread level, progress thread), all sequences of init, start_pes, finalize and MPI's own init and finalize, all calls and all their branches", "why_tests_cant": "the configurations multiply; a use of a handle that was never created often passes unnoticed", "anchors": ["src/internal/setup_impl.c: OSHMPI_initialize_thread, finalize_impl, initialize_env", "src/internal/am_impl.c: OSHMPI_am_initialize, OSHMPI_am_finalize, OSHMPI_am_cb_progress, am_cb_manual_progress", "src/internal/am_impl.h: OSHMPI_am_flush", "src/internal/am_progress_impl.h"]}
{"id": "C86", "title": "A type-generic call calls the routine for the type of its pointer", "statement": "With a C11 compiler, a call of a type-generic macro (shmem_put, shmem_atomic_add, shmem_sum_reduce, shmem_wait_until, the deprecated shmem_swap and so on) either does not compile or calls the operation in the macro's name for the type its pointer points to: with the context if and only if a context is given first. It compiles for every type of the operation's table, whatever int64_t, size_t and the like stand for, const-qualified or not where the routine takes a pointer to const, and the routine selected does the same as the one named after the type.", "quantifier": "all C implementations (choices of the typedefs), all macros, all argument lists and types", "why_tests_cant": "the selection depends on what typedef names stand for on the platform; a duplicated association breaks every use of the macro; tests of the generic interface cover few types", "anchors": ["include/shmem.h.in.tpl", "include/shmem_rma_typed.h.tpl, shmem_amo_std_typed.h.tpl, shmem_amo_ext_typed.h.tpl, shmem_amo_bitws_typed.h.tpl, shmem_p2p_typed.h.tpl, shmem_coll_typed.h.tpl, shmem_reduce_*_team_typed.h.tpl, shmem_signal_typed.h.tpl", "maint/build_typed_api.pl", "maint/*_typedef.txt"]}
{"id": "C87", "title": "Every typed atomic routine does what its name says", "statement": "Each of the atomic routines (compare_swap, fetch_inc, inc, fetch_add, add, fetch, set, swap, and, or, xor with their fetch_, _nbi, ctx_ and deprecated versions) of each type changes the object of its type at the symmetric address on the target PE to what the operation in its name says, returns the old value or stores it through fetch, uses the context it is given or the default one, and changes nothing else in any PE's memory; a generic call reaches such a routine.", "quantifier": "all routines and types, both paths, all operands and memories, all symmetric objects and layouts", "why_tests_cant": "51 routine templates times 7 to 14 types; a wrong operation or a wrong size in one of them is seen only by a test of that very routine with suitable operands", "anchors": ["src/shmem/amo_std_typed.c.tpl", "src/shmem/amo_ext_typed.c.tpl", "src/shmem/amo_bitws_typed.c.tpl", "src/internal/amo_impl.h: OSHMPI_amo_cswap, OSHMPI_amo_fetch, OSHMPI_amo_post", "maint/amo_*_typedef.txt"]}
{"id": "C88", "title": "Every put and get routine does what its name says", "statement": "Each put and get routine (p, g, put, get, iput, iget and the _nbi versions; typed, sized and mem; with and without ctx_) moves the elements its name promises between the caller's buffer and the same symmetric address on the given PE, with the destination stride on the destination side and the source stride on the source side, uses the context it is given or the default one, waits exactly if its name has no _nbi, and changes nothing else in any PE's memory; a generic call reaches such a routine.", "quantifier": "all routines, types and sizes, both paths, all element counts and strides within the limits of int, all memories, all histories of the datatype cache", "why_tests_cant": "about 500 generated routines; exchanged strides or addresses in one of them show only when that routine is called with unequal strides and distinguishable memories", "anchors": ["src/shmem/rma_typed.c.tpl", "src/shmem/rma_sized.c.tpl", "src/shmem/rma.c", "src/internal/rma_impl.h: OSHMPI_ctx_iput, OSHMPI_ctx_iget", "src/internal/am_impl.c: OSHMPI_am_initialize (datatypes_table)", "maint/rma_typedef.txt", "maint/rma_sizedef.txt"]}
{"id": "C89", "title": "Many locks in one memory", "statement": "Any number of locks, placed anywhere in symmetric memory next to each other and to the users' data, work independently: each admits one holder at a time, in FIFO order, whatever happens on the other locks and in the rest of memory; a PE may hold several; a lock call never changes a byte outside the lock it is called on, on any PE, and never runs into an undefined or negative displacement; a lock nobody uses is as good as new.", "quantifier": "all numbers of PEs and locks, all placements (per-PE base addresses, offsets, window kinds), all memories, all interleavings of lock calls with other writes", "why_tests_cant": "a wrong address for a lock word shows only in builds and runs where the object's addresses differ, and then corrupts unrelated data or lets two PEs in after a particular history", "anchors": ["src/internal/lock_impl.h: OSHMPI_set_lock, OSHMPI_clear_lock, OSHMPI_test_lock (lock_last_disp, lock_next_disp)", "src/include/oshmpi_impl.h: OSHMPI_sobj_trans_vaddr_to_disp"]}
{"id": "C90", "title": "Progress with several locks", "statement": "If every PE inside a lock call keeps being given steps, holders clear their locks unless a call of theirs never returns, and every PE sets locks in increasing order, then every set, clear and test call on every lock returns, however many PEs and locks. clear and test return whatever the programs do. Without the order two PEs can wait for ever.", "quantifier": "all infinite runs, any number of PEs and locks, any other use of memory", "why_tests_cant": "progress is about infinite schedules", "anchors": ["src/internal/lock_impl.h: OSHMPI_set_lock, OSHMPI_clear_lock, OSHMPI_test_lock"]}
{"id": "C91", "title": "Every point-to-point routine does what its name says", "statement": "shmem_TYPE_wait_until, shmem_TYPE_test, the deprecated shmem_TYPE_wait and their type-generic forms, called on a symmetric variable of any offered type: the bytes looked at are those of the caller's own variable at the address passed, as a number of type TYPE; a waiting routine returns with the first read at which the relation holds and not before, whatever other PEs do to memory meanwhile; test returns 1 or 0 accordingly; the routines change no byte. An address in no symmetric object aborts before any access.", "quantifier": "all routines and types of the table, all symmetric objects and placements, both displacement modes, all memories, all sequences of changes by others", "why_tests_cant": "a wrong width or signedness in one of the generated routines shows only for particular values; waiting is about all histories", "anchors": ["src/shmem/p2p_typed.c.tpl: shmem_TYPENAME_wait_until, shmem_TYPENAME_test", "src/shmem/p2p.c: shmem_wait_until, shmem_wait, shmem_TYPE_wait", "maint/p2p_typedef.txt", "src/internal/p2p_impl.h: OSHMPI_WAIT_UNTIL, OSHMPI_TEST, OSHMPI_COMP"]}
{"id": "C92", "title": "A team handle stands for its team until it is destroyed", "statement": "Every handle returned by a split stands for the team and the config given at that split, until shmem_team_destroy is called on it, whatever other teams are created or destroyed meanwhile: its parent, its siblings, a team at the same address before. Destroying a predefined or the invalid handle does nothing. Each split that includes the caller creates one communicator and one group, each destroy releases them, and after shmem_finalize exactly the teams that the program did not destroy are left over.", "quantifier": "all job sizes and PEs, all sequences of splits and destructions on handles the program holds, all addresses that malloc may return", "why_tests_cant": "an aliased or leaked communicator shows only after particular histories of creation, destruction and address reuse", "anchors": ["src/shmem/team.c: shmem_team_split_strided, shmem_team_split_2d, shmem_team_get_config, shmem_team_destroy", "src/internal/team_impl.c: OSHMPI_team_create, OSHMPI_team_split, OSHMPI_team_destroy", "src/internal/setup_impl.c: initialize, finalize_impl"]}
{"id": "C93", "title": "A message put, fenced and flagged is there when the flag is seen", "statement": "A PE stores data with any put routine (typed, sized, mem, p, iput, with or without _nbi, with or without a context), calls shmem_fence or shmem_quiet, and then sets a flag by any routine. A PE whose wait_until, wait or test on the flag is satisfied, where it was not satisfied before, finds exactly the elements of the source in the destination, element by element with the strides of the call. The same holds after the fence or quiet itself and, without a flag, after a barrier for the addresses that barrier covers. A blocking get has delivered the remote elements when it returns, and every get has after a quiet or fence of the caller.", "quantifier": "all routines, types, strides and counts within the limits of the implementation, all symmetric objects, both transports, all executions of all PEs with operations performed in any order MPI allows, all flag types and relations", "why_tests_cant": "needs every interleaving of the bytes of the message, the flag and the polling loop; a test sees the schedules of one MPI library", "anchors": ["src/shmem/rma_typed.c.tpl", "src/shmem/p2p_typed.c.tpl", "src/internal/rma_impl.h", "src/internal/order_impl.h", "src/internal/p2p_impl.h"]}
{"id": "C94", "title": "Calls return: nothing in flight can block quiet, fence or barrier for ever", "statement": "From every state of every execution, whatever puts, gets and atomics are in flight and whichever PEs are already inside a barrier, there is a continuation in which everything in flight is performed, a quiet or fence that a PE then calls returns, and all PEs get through the barriers, none left behind, if each of them calls it as often as the others. The exception is an atomic addition of a signed type by active message that overflows, which is undefined behaviour.", "quantifier": "all job sizes, configurations, reachable states, numbers of barriers", "why_tests_cant": "a deadlock shows only in particular interleavings; a test that hangs proves nothing about the states not reached", "anchors": ["src/internal/order_impl.h", "src/internal/coll_impl.h: OSHMPI_barrier_all", "src/internal/am_impl.h", "src/internal/amo_am_impl.c"]}
{"id": "C95", "title": "A pointer from the symmetric allocator names the same block on every PE, and puts stay inside it", "statement": "All PEs make the same sequence of shmem_malloc, calloc, align, realloc and free calls. A PE that passes the pointer it got (plus an offset inside the block) as remote address to any put or get routine whose elements fit in the block reaches exactly the target PE's copy of that block, at the same offset; no byte of any other block is written on any PE. Data put into a block are found by the target at the pointer it got itself after a barrier, after a fence of the sender, or when a wait on a flag in another block returns.", "quantifier": "all job sizes, heap sizes and addresses, allocation histories, routines, types, counts, strides, executions", "why_tests_cant": "combines the allocator's placement with address translation and ordering; a test sees one history and one placement", "anchors": ["src/shmem/mem.c", "src/internal/mem_impl.c", "src/internal/util/dlmalloc.c", "src/internal/setup_impl.c:160-290", "src/include/oshmpi_impl.h:629-750", "src/internal/rma_impl.h"]}
{"id": "C96", "title": "Critical sections: data guarded by a lock is seen by the next holder, and sections run one after the other", "statement": "Data that PEs write only while they hold a lock (by any put, get, atomic or store, blocking or not), with a shmem_quiet or shmem_fence between the last write and shmem_clear_lock, is protected: a PE that gets the lock next, by shmem_set_lock or shmem_test_lock, finds exactly what the previous holder left, the first one finds the initial contents; while it holds the lock nothing but its own writes changes the data; a blocking get of it delivers the current contents, a put is what is there when the lock is cleared; and whenever nobody holds the lock, the data is what the critical sections make of the initial data when run one after the other in the order of the calls of shmem_clear_lock - a counter incremented in each section counts the sections. Without the quiet the next holder may read old data.", "quantifier": "all numbers of PEs and locks, all interleavings of all routines on all PEs, all orders in which MPI performs what is in flight, all observations of the data, all histories of any length", "why_tests_cant": "a lost update needs one particular interleaving of lock accesses, data in flight and other PEs; a test sees few schedules and on most systems puts happen to arrive in time", "anchors": ["src/internal/lock_impl.h:27-168", "src/internal/order_impl.h:11-96", "src/internal/rma_impl.h:13-243", "src/internal/amo_impl.h:14-110"]}
{"id": "C97", "title": "Atomic routines by their names in executions of all PEs: results, tickets, winners, counters, completion", "statement": "In any execution of any number of PEs, for every atomic routine of the API (all names, shmem_ and shmem_ctx_, blocking, _nbi and deprecated, every type of its table) on a symmetric object: a call with a result returns what the object on the target PE held at one moment between call and return, at which the object became what the name of the routine says and nothing else changed; an object changed only by increments hands out no number twice (in up to 2^bits steps); an object changed only by compare-and-swap from c to something else has one winner, and a loser lost to another call; no call takes effect twice; when shmem_quiet or shmem_fence of a PE returns, each atomic it has called has taken effect exactly once, and after a barrier this holds for all PEs and a counter has grown by exactly the sum of all operands. Calls are accepted and can return.", "quantifier": "all numbers of PEs, all interleavings with any other calls, all orders in which MPI or the active-message server performs what is in flight, all routines, types, operands and offsets", "why_tests_cant": "two atomics interfere only in particular schedules; a test sees few of them, and each routine and type is generated code of its own", "anchors": ["src/shmem/amo_std_typed.c.tpl", "src/shmem/amo_ext_typed.c.tpl", "src/shmem/amo_bitws_typed.c.tpl", "src/internal/amo_impl.h:14-137", "src/internal/amo_am_impl.h:10-125", "src/internal/order_impl.h:11-96"]}
{"id": "C98", "title": "All the symmetric memory of a PE: heap and spaces together, by every public name", "statement": "In any history of legal calls of the fifteen allocation routines (shmem_malloc, _with_hints, calloc, align, realloc, free, the deprecated names, shmemx_space_create, destroy, malloc, calloc, align): the blocks the user holds are disjoint and each lies in the heap or in one space; shmem_free finds the object of a pointer and gives back exactly that block, touching no other object, and ignores NULL and foreign pointers; every legal call returns; a space can be destroyed exactly if no block of it is held; the number of barriers depends on the arguments alone; alignments are respected; when everything was freed the memory is as at the start; PEs that make the same calls get the same symmetric locations, wherever their heaps and spaces lie.", "quantifier": "all histories and arguments, any number of spaces placed anywhere, all decisions of dlmalloc and of the pools, exhausted heap and pools, memory from the system or not", "why_tests_cant": "routing of a pointer to the heap or a space, and the interplay of two allocators, depend on the whole history; asymmetry of two PEs shows only with particular placements", "anchors": ["src/shmem/mem.c:10-88", "src/internal/mem_impl.c:10-95", "src/shmemx/space.c:11-64", "src/internal/space_impl.c:166-249", "src/internal/space_impl.c:362-391", "src/internal/util/dlmalloc.c:5713-5799"]}
{"id": "C99", "title": "Collective routines in executions of all PEs, together with puts, gets, AMOs, stores and barriers", "statement": "In any execution in which the members enter and leave a collective call at different moments, MPI reads and writes byte by byte in between, and all PEs go on with puts, gets, AMOs, stores and barriers: a member that has returned finds in its memory what the routine (broadcast, collect, fcollect, alltoall, alltoalls, the integer reductions, on teams and active sets) computes from the sources as they were when their PEs entered the call; nothing but the destination of the caller is written; no PE returns before the PEs have called whose data its result contains (all members for collect and fcollect, the root for broadcast); data put into the root's source before a barrier arrive with the broadcast after it; a call that all members make can complete.", "quantifier": "all executions of any length, any interleaving, any number of PEs, teams, active sets and collective calls, all arguments within the limits of C81", "why_tests_cant": "the members' calls overlap in time with each other and with other communication; tests see few interleavings and MPI libraries", "anchors": ["src/internal/coll_impl.h:51-160", "src/internal/coll_activeset_impl.h:177-313", "src/internal/am_progress_impl.h:84-173", "src/shmem/coll.c:28-68", "src/shmem/coll_activeset.c:20-82"]}
{"id": "C100", "title": "Environment variables have their documented effect", "statement": "At start-up the settings are a function of the library's documented variables alone, the same on all PEs with the same environment; an unset or empty variable means the documented default; switches are on for every value but 0; a size, a list of AMO operations or GPU features means what it says and a value that cannot be understood is reported; each variable affects its own setting only.", "quantifier": "all strings in all variables, all builds", "why_tests_cant": "unbounded strings; many builds", "anchors": ["src/internal/setup_impl.c:598-692", "src/internal/setup_impl.c:294-456", "src/include/oshmpi_util.h:145-167", "src/shmem/setup.c:10-20", "README.md:91-144"]}
{"id": "C101", "title": "Operations complete and calls return in every fair execution", "statement": "If the environment neglects no PE and no packet for ever, and packets are looked for (by the asynchronous thread, or because all calls handle packets while they block and every PE ends or makes unsuccessful tests again and again), then every put, get and atomic over active messages is carried out unless its target has finalized; every get, fetching atomic, quiet, fence and test returns; a collective returns once all members call it, a wait once its condition stays true; whatever the program reaches in all fair executions of the specification it reaches with the library; and every bulk-synchronous program ends. Without the condition on the PEs an operation may wait for ever.", "quantifier": "all programs, all job sizes, all infinite fair executions", "why_tests_cant": "liveness over infinite executions and all schedules", "anchors": ["src/internal/am_progress_impl.h:11-66", "src/internal/am_impl.c:49-122", "src/internal/am_impl.h:22-79", "src/internal/p2p_impl.h:34-80", "src/internal/coll_impl.h:12-44", "src/internal/setup_impl.c:853-868"]}
{"id": "C102", "title": "In executions in which MPI makes progress, calls return, barriers complete and data arrive", "statement": "In every infinite execution in which MPI goes on performing the accesses a blocked PE waits for and every PE that can go on does: a blocking get or value-returning atomic returns; a put, get or store the library accepts is made, though a get by active message waits for what was sent to that PE before; a quiet, fence or call on spaces or contexts that is accepted returns, whatever is in flight and whatever the other PEs do; if every PE comes to its next barrier whenever it is out of the previous one, all get through; a put followed by a quiet, fence or barrier is in the target's memory from some time on for good; and in data, fence, flag, quiet the waiting PE sees the flag some time and then the data.", "quantifier": "all job sizes, configurations, infinite fair executions, buffers and addresses", "why_tests_cant": "liveness over infinite executions and all schedules of accesses", "anchors": ["src/internal/order_impl.h:23-96", "src/internal/coll_impl.h:12-44", "src/internal/rma_impl.h:107-243", "src/internal/amo_impl.h:12-137", "src/internal/am_impl.h:22-79"]}
{"id": "C103", "title": "Device memory is touched only in ways the MPI library supports", "statement": "A PE finds out where a pointer points from the driver. With automatic choice of the path, every put, get and their variants on a heap or space, from any buffer, touches device memory only by MPI functions declared usable with device buffers (OSHMPI_MPI_GPU_FEATURES), or is refused with an abort; atomics, waits, locks, allocation with clearing and broadcasts on spaces in device memory obey the same. A space is created in the memory its hint asks for and later freed exactly once with the allocator it came from; programs that use only host memory never depend on the features.", "quantifier": "all configurations, drivers that tell the truth, buffers, memory kinds, sequences of create, attach, call, detach and destroy", "why_tests_cant": "needs machines with devices of each vendor and an MPI library for each combination of features", "anchors": ["src/internal/space_impl.c:70-150", "src/internal/space_impl.c:166-250", "src/internal/util/gpu/cuda.h:13-43", "src/internal/util/gpu/ze.h:13-46", "src/include/oshmpi_util.h:267-293", "src/include/oshmpi_impl.h:61-104", "src/include/oshmpi_impl.h:753-787", "src/internal/amo_am_impl.c:86-186", "src/shmemx/space.c:49-56", "src/internal/coll_impl.h:51-68", "src/internal/lock_impl.h:52", "src/internal/p2p_impl.h:34-79"]}
{"id": "C104", "title": "Programs without races that work in phases between barriers are deterministic and mean what they say sequentially", "statement": "Take a program whose PEs put, get, add atomically, store to their own memory, call quiet or fence and look at their own memory, and call shmem_barrier_all between phases, such that within a phase (words only added to aside) no PE writes a byte another PE reads, writes or looks at, and no PE touches what its own put or non-blocking get may still be writing (or writes what a non-blocking call may still be reading) before its next quiet. Then in every execution, whatever the schedule, the configuration and the paths data take, every PE does exactly the actions it would do working alone in each phase, sees the values it would then see, and after every barrier all memory the program works on is what comes out if in every phase the PEs are run one after the other, in any order. In particular two executions end alike; and in a ring of any number of PEs a value has moved k places after k phases.", "quantifier": "all programs, numbers of PEs and phases, configurations, memories and schedules", "why_tests_cant": "quantifies over all programs and all interleavings of accesses in flight; a test runs one schedule of one program", "anchors": ["src/internal/order_impl.h:23-96", "src/internal/coll_impl.h:12-44", "src/internal/rma_impl.h:107-243", "src/internal/am_impl.h:22-79", "src/shmem/order.c:9-27"]}
{"id": "C105", "title": "Programs without races that work in phases get through all their barriers and end with their meaning", "statement": "Take a program as in C104 (puts, gets, stores, quiets, barriers between phases, no races) with N barriers, in an infinite execution in which MPI goes on performing the accesses a blocked PE waits for and every PE that can go on does, and whose calls the library accepts. Then some time all PEs have got through all N barriers; and if the program writes nothing after its last barrier, from some time on for good nothing in flight writes to the memory it works on, and every byte of it has the value that comes out if in every phase the PEs are run one after the other.", "quantifier": "all programs, numbers of PEs and phases, configurations, memories and infinite fair executions", "why_tests_cant": "liveness over infinite executions, all programs and all schedules", "anchors": ["src/internal/order_impl.h:23-96", "src/internal/coll_impl.h:12-44", "src/internal/rma_impl.h:107-243", "src/internal/am_impl.h:22-79"]}
{"id": "C106", "title": "Programs written with the API's routines on blocks of the symmetric heap complete, are deterministic and mean what they say", "statement": "Take a program whose PEs call the put and get routines of the API by name (typed, sized, mem; p, g, put, get, iput, iget and their _nbi forms; with or without SHMEM_CTX_DEFAULT) with remote addresses in blocks they got from the symmetric heap, store to their own memory, call shmem_quiet and shmem_fence, and call shmem_barrier_all between phases, without races within a phase and with arguments within the routines' limits in a sequential run. Then in every execution every PE makes exactly the calls of the sequential run; each call moves exactly the elements its name and arguments say, between the caller's memory and the same block of the target; after every barrier all memory the program works on is that of the sequential run; the library accepts every call; and in every execution in which MPI makes progress and PEs that can go on do, all PEs get through all barriers, and the blocks hold the sequential result from some time on for good.", "quantifier": "all programs, routines, types, strides, numbers of PEs and phases, allocation histories, configurations, memories and schedules", "why_tests_cant": "quantifies over all programs, all interleavings of accesses in flight, and infinite executions; a test runs one schedule of one program", "anchors": ["src/shmem/rma_typed.c.tpl:11-119", "src/shmem/rma_sized.c.tpl:11-89", "src/shmem/rma.c:9-52", "src/shmem/order.c:9-27", "src/internal/rma_impl.h:107-243", "src/internal/order_impl.h:23-96", "src/internal/coll_impl.h:12-44", "src/internal/am_impl.h:22-79", "src/internal/mem_impl.c"]}
{"id": "C107", "title": "Counters in phase programs: after a barrier a counter holds everything all PEs added to it, and every program has fair executions", "statement": "Take a program as in C106 whose PEs also call the atomic add and inc routines of the API by name on words of blocks of the symmetric heap, any number of PEs on the same word; within a phase nothing is done with such a word but adding to it with one type. Then all of C104-C106 holds of the program, and when all PEs have come through the barrier that ends the phase the word is what it was plus the sum of all operands of all calls of all PEs, modulo its size. The library accepts each of these calls in every state. Every such program has, from every memory, executions in which MPI makes progress and PEs that can go on do, through any number of barriers (without overflow of signed words on the active-message path, where the code's behaviour is undefined). In particular, if every PE adds a number of its own to a counter of PE 0, calls shmem_barrier_all, gets the counter and calls shmem_barrier_all, in the end every PE has the sum, for good.", "quantifier": "all programs, routines, types, operands, numbers of PEs and phases, allocation histories, configurations, memories and schedules", "why_tests_cant": "quantifies over all programs, all interleavings of atomics in flight on both paths, and infinite executions; a test runs one schedule of one program", "anchors": ["src/shmem/amo_std_typed.c.tpl:46-86", "src/internal/amo_impl.h:117-137", "src/internal/amo_am_impl.c:150-174", "src/internal/order_impl.h:23-96", "src/internal/coll_impl.h:12-44", "src/internal/mem_impl.c"]}
{"id": "C108", "title": "Programs that synchronise with flags mean what the rules of OpenSHMEM say, run to the end, and exist", "statement": "Take a program without barriers whose PEs call the put and get routines of the API by name on blocks of the symmetric heap, store to their own memory, call shmem_quiet and shmem_fence, and wait for flags with shmem_TYPE_wait_until and the deprecated waits; every byte is written at most once, and each PE reads and looks only at bytes it may rely on: bytes nobody writes, bytes it has written itself (and, after a put or non-blocking get, called quiet or fence), and bytes every writer of a flag it has waited for could rely on when it wrote the flag. Then in every execution, whatever else happens elsewhere: every PE makes exactly the calls of the program's meaning; a byte a PE may rely on has its final value, for good; in particular data put before a fence and a flag are there when the receiver has waited for the flag. If PEs do not wait for each other in a circle, every execution in which MPI makes progress and PEs that can go on do brings every PE to its end, and every late write followed by quiet or fence leaves memory at its final values for good; and there are such executions. For example, data and a flag handed from PE to PE, for any number of PEs and words, arrive everywhere.", "quantifier": "all programs, routines, types, comparisons, numbers of PEs, allocation histories, configurations, memories and schedules", "why_tests_cant": "quantifies over all programs, all interleavings of accesses in flight, and infinite executions; a test runs one schedule of one program", "anchors": ["src/shmem/p2p_typed.c.tpl:13-17", "src/shmem/p2p.c:12-46", "src/internal/p2p_impl.h:13-57", "src/shmem/rma_typed.c.tpl:11-119", "src/shmem/order.c:9-27", "src/internal/rma_impl.h:107-243", "src/internal/order_impl.h:23-96", "src/internal/mem_impl.c"]}
{"id": "C109", "title": "Programs that synchronise with locks run to the end, and a counter behind a lock loses no increment", "statement": "Take a program whose PEs call shmem_set_lock and shmem_clear_lock, put and get routines, store to their own memory and call shmem_quiet, where what is put, got or stored may depend on the PE's memory; every PE sets locks in increasing order, clears only locks it holds, holds none at its end, and nothing but lock calls writes to locks. Then every execution in which MPI makes progress and PEs that can go on do, whatever the interleaving of the accesses of lock calls and of operations in flight, brings every PE to its end, in no call and with all locks free; and if the library accepts the calls, such executions exist. Worked example: when each of n PEs adds one to a counter on some PE K times, each time with set_lock, get, add, put, quiet, clear_lock, then whenever nobody is between its put and its quiet the counter is the first value plus the number of increments made, a PE in the middle of a round reads just that, and in the end the counter is the first value plus n*K, for good - also with the counter in a block of shmem_malloc and shmem_long_get and shmem_long_put called by name.", "quantifier": "all programs of this kind, numbers of PEs, locks and rounds, configurations, memories and infinite fair schedules", "why_tests_cant": "quantifies over all interleavings of single accesses of lock calls and of operations in flight and over infinite executions; a test sees a few schedules", "anchors": ["src/internal/lock_impl.h:14-168", "src/shmem/lock.c:9-22", "src/internal/rma_impl.h:107-243", "src/internal/order_impl.h:23-96", "src/shmem/rma_typed.c.tpl:11-119"]}
{"id": "C110", "title": "Programs without races that synchronise with locks behave as if executed one action at a time on one memory", "statement": "Take a program with locks as in C109 in which every byte that is used belongs to one lock (only those who hold it read or write it), to one PE, or is never written; what has been put, or got or put without blocking, is not used again before shmem_quiet, and a lock is released only when nothing is pending for the bytes that belong to it. Then every execution, whatever the schedule of accesses in flight, looks like a sequential one, in which one PE after the other does its next action at once and takes a lock only if nobody holds it: at every instant there is a sequential execution that is as far, in which every PE outside blocking calls reads what it reads in the library's memory; in every fair execution the program ends, and the memory is for good the one at the end of a complete sequential execution from the same first memory. And in these sequential executions no other PE changes a byte while a PE may read it, so that a critical section is not interfered with.", "quantifier": "all programs of this kind (puts, gets, blocking or not, stores, any addresses computed from memory, any number of nested locks), numbers of PEs, configurations, memories and schedules", "why_tests_cant": "quantifies over all programs, all interleavings of accesses in flight and all memories; tests see single programs under few schedules", "anchors": ["src/internal/lock_impl.h:27-168", "src/internal/rma_impl.h:107-243", "src/internal/order_impl.h:23-96"]}
{"id": "C111", "title": "Programs without races that synchronise with locks and barriers behave as if executed one action at a time", "statement": "Take a program with locks and shmem_barrier_all in which every byte that is used belongs, between two barriers, to one lock (only those who hold it read or write it), to one PE, or is not written; who owns a byte may change at barriers; what has been put, or got or put without blocking, is not used again before shmem_quiet; a lock is released only when nothing is pending for its bytes, and a barrier is entered only when nothing is pending. Then at every instant of every execution there is a sequential one (one PE after the other does its next action at once, locks are exclusive, a barrier is passed by all PEs at once) that is as far and in which every PE outside blocking calls reads what it reads in the library's memory; and when all PEs have come to the end, the memory is the one at the end of a complete sequential execution. If the PEs call barriers equally often and hold no locks then, an execution to the end exists.", "quantifier": "all programs of this kind, ownerships, numbers of PEs, locks and barriers, configurations, memories and schedules", "why_tests_cant": "quantifies over all programs, all interleavings of accesses in flight and all memories; tests see single programs under few schedules", "anchors": ["src/internal/lock_impl.h:27-168", "src/internal/rma_impl.h:107-243", "src/internal/order_impl.h:23-96", "src/internal/coll_impl.h:12-32"]}
{"id": "C112", "title": "Start-up with Level Zero devices finds a GPU, and spaces can be put on it", "statement": "With Level Zero devices: if some driver has a GPU, shmem_init succeeds (provided the loader's calls and the allocations do), and a space can then be created on every GPU of the machine. Whatever the loader answers, if start-up succeeds the context belongs to the first driver that has a GPU, all devices of that driver are recorded and can hold spaces. Without a driver the job aborts, with drivers but no GPU start-up aborts with a message. What start-up allocates is freed by shmem_finalize.", "quantifier": "all numbers of drivers and devices, all answers of the loader and of malloc, error checking on or off", "why_tests_cant": "needs machines with several Level Zero drivers and failing calls; a test machine has one driver with one GPU", "anchors": ["src/internal/util/gpu/ze.c:10-79", "src/internal/space_impl.c:113-162", "src/internal/util/gpu/fallback.c:9-17", "src/include/oshmpi_util.h:71-88"]}
{"id": "C113", "title": "Programs with locks and barriers come to their end, with the result of a sequential execution", "statement": "A program whose PEs use locks (set in increasing order, none held at barriers or at the end) and shmem_barrier_all (equally often on all PEs) runs to its end on every PE: every lock call and every barrier returns. If the program has no races, memory is then that of a complete sequential execution. For example, if n PEs add one to a counter K times each behind a lock, pass a barrier and get the counter, every PE gets the first value plus n*K. Every such program whose calls the library accepts has a fair execution.", "quantifier": "all programs, all numbers of PEs and locks, all fair infinite executions of the model with all interleavings and completion orders", "why_tests_cant": "deadlock and lost updates depend on the interleaving of lock accesses, completion of RMA and barriers of all PEs", "anchors": ["src/internal/lock_impl.h:27-168", "src/internal/coll_impl.h:12-32", "src/internal/order_impl.h:23-96", "src/internal/rma_impl.h:107-243"]}
{"id": "C114", "title": "A barrier completes operations in programs with locks, without a call of shmem_quiet", "statement": "In a program with locks and shmem_barrier_all a PE need not call shmem_quiet before a barrier for those puts, non-blocking gets and atomics that the code's barrier completes (on the default context, and on the symmetric heap or global data if windows are not dynamic; or made by active message): if the program has no races when such operations count as complete after the barrier, everything a PE reads and the final memory are those of a sequential execution in which every operation takes effect at once; the program runs to its end in every fair execution, and there is one. For example, if n PEs add one to a counter K times each behind a lock, pass a barrier, get the counter, put it into a variable of the next PE with shmem_long_put_nbi and pass a second barrier, every PE's variable holds the first value plus n*K.", "quantifier": "all programs, all numbers of PEs and locks, all executions of the model with all interleavings and completion orders", "why_tests_cant": "whether a put is visible after the barrier depends on when its completion and the other PEs' steps interleave", "anchors": ["src/internal/coll_impl.h:12-32", "src/internal/order_impl.h:23-96", "src/internal/lock_impl.h:27-168", "src/internal/rma_impl.h:107-243"]}
{"id": "C115", "title": "A buffer moved piece by piece arrives whole: the repository's test int_put passes in every execution", "statement": "Every PE fills a source and a destination array of SIZE*ITER ints on the symmetric heap (src[i] = its own number + i, dst[i] = 0) and passes shmem_barrier_all; PE 0 sends the source to PE 1 in ITER pieces of SIZE elements with shmem_int_put, each followed by shmem_quiet; all pass a second barrier. When PE 1 is out of it, dst[i] == i for all i, whatever the other PEs do and whatever the memory held before; in every fair execution all PEs get there, and such executions exist.", "quantifier": "all SIZE and ITER within the limits of a put and the heap, all numbers of PEs from 2, all initial memories, all interleavings and completion orders", "why_tests_cant": "the test runs with two constants on one schedule; the claim is about all sizes, numbers of PEs and schedules", "anchors": ["tests/int_put.c:25-65", "src/internal/rma_impl.h:107-243", "src/internal/order_impl.h:23-96", "src/internal/coll_impl.h:12-32"]}
{"id": "C116", "title": "Fetching additions that do not overlap return the running total: the check of the repository's test int_amo", "statement": "If an object of a standard AMO integer type is changed only by shmem_atomic_fetch_inc and shmem_atomic_fetch_add (any version), then whenever no PE is inside such a call the object has grown by exactly the sum of all operands so far, whatever else is in flight, without any quiet, fence or barrier; a call that returns when no other PE is inside one returns the first value plus all earlier operands; and if only one PE calls, each of its calls returns the first value plus the operands of its earlier calls (call number x of fetch_inc on a zeroed counter returns x).", "quantifier": "all standard AMO types, all operands (sums modulo the type's size), all numbers of calls and PEs, all executions of the model", "why_tests_cant": "whether an update is lost or seen late depends on how accesses, active messages and completions interleave", "anchors": ["tests/int_amo.c:30-52", "src/internal/amo_impl.h:16-139", "src/internal/amo_am_impl.h:20-110"]}
{"id": "C117", "title": "Strided puts arrive exactly where the strides say and nowhere else: the check of the repository's tests iput_quiet and iput", "statement": "Every PE fills a source and a destination array of SIZE ints (source[i] = its own number times the number of PEs plus i, destination[i] = 0) and passes a barrier; PE 0 calls shmem_int_iput with strides ds and ss and n elements to PE 1 ITER times, each followed by shmem_quiet; all pass a second barrier. When PE 1 is out of it, destination[i] is (i/ds)*ss if ds divides i and i/ds < n, and 0 otherwise, for all i below SIZE; in every fair execution all PEs get there, and such executions exist.", "quantifier": "all SIZE, ITER > 0, all positive strides and element counts within the arrays and the int limits, all numbers of PEs from 2, all initial memories, all interleavings and completion orders", "why_tests_cant": "the tests run a few strides on one schedule; the claim is about all strides, sizes, numbers of PEs and schedules", "anchors": ["tests/iput_quiet.c:37-82", "tests/iput.c:16-68", "src/internal/rma_impl.h:55-79", "src/internal/strided_impl.h:12-120", "src/internal/order_impl.h:23-96", "src/internal/coll_impl.h:12-32"]}
{"id": "C118", "title": "An object that is written by atomic set and swap and read by atomic fetch is a register", "statement": "On a symmetric object only shmem_atomic_set, swap and fetch of its type (any version) are called, by any PEs. At every moment it holds its first value or a value written by a call made before, and this is all a fetch or swap can return. If all writes made before some point are over (quiet or fence called after them by the writer, or the swap has returned), all writes since then write v, and one of those is over, then the object holds v, and a fetch returns v. If all writes write v, the object keeps v once it holds it, and after one fetch has returned v every fetch that returns later, on any PE, returns v.", "quantifier": "all executions: any number of PEs, writers, readers, calls, values, types of the extended AMO table, contexts, routines by MPI or by active message, any interleaving and completion order", "why_tests_cant": "a flag test sets one value once and polls on one schedule; values out of thin air, a flag that falls back or a write lost after quiet show only in particular interleavings", "anchors": ["src/shmem/amo_ext_typed.c.tpl", "tests/amo_set_fetch.c:18-22", "tests/amo_set_wait_until.c:18-22", "src/internal/amo_impl.h:16-139", "src/internal/amo_am_impl.h:10-125", "src/internal/order_impl.h:23-96"]}
{"id": "C119", "title": "A flag set by an atomic routine is seen: the fetch loop of the test amo_set_fetch ends", "statement": "A word is touched only by atomic fetches and by atomic writes (set, swap) of one value v. PE q writes v and later comes to shmem_quiet, shmem_fence or a barrier, even a barrier the other PEs have not entered. Then in every fair execution there is an instant from which on the word holds v and every fetch by any PE returns v. A PE that calls fetch until it gets v gets it.", "quantifier": "all fair infinite executions: any number of PEs, any writers and readers, values, types of the extended AMO table, contexts, routines by MPI or by active message, any interleaving and completion order", "why_tests_cant": "termination of a polling loop is a statement about infinite executions; a test that returns shows one schedule", "anchors": ["tests/amo_set_fetch.c:18-22", "tests/amo_set_wait_until.c:18-22", "src/internal/amo_impl.h:16-139", "src/internal/amo_am_impl.h:10-125", "src/internal/order_impl.h:23-96", "src/internal/coll_impl.h:12-32"]}
{"id": "C120", "title": "shmem_wait_until on a flag set by an atomic routine returns", "statement": "A word of PE t is touched only by atomic fetches and by atomic writes (set, swap) of one value v. PE t calls shmem_wait_until on it with a relation that holds for v. PE q writes v and later comes to shmem_quiet, shmem_fence or a barrier, even a barrier the other PEs have not entered. Then in every fair execution the wait returns. Whenever it returns, the relation holds for the value it has read, and that value is v or what the word held at first.", "quantifier": "all fair infinite executions: any number of PEs, writers and other calls, values, types, the six comparisons, signed and unsigned, any interleaving of reads, writes and completions; the safety part needs no fairness", "why_tests_cant": "that a wait returns is a statement about infinite executions; a test that ends shows one schedule, and one in which the wait is lost hangs", "anchors": ["tests/amo_set_wait_until.c:18-22", "src/internal/p2p_impl.h:13-58", "src/internal/amo_impl.h:16-139", "src/internal/amo_am_impl.h:10-125", "src/internal/order_impl.h:23-96", "src/internal/coll_impl.h:12-32"]}
