{
 "claims": [
  {
   "property": "C01",
   "status": "partial",
   "theorems": [
    "Verif.Lock.C01_mutual_exclusion_partial",
    "Verif.Lock.C01_mutual_exclusion_trace_partial",
    "Verif.Lock.C01_violation",
    "Verif.Lock.C89_locks_partial"
   ],
   "note": "Violated in builds with dynamic windows when the lock's object has different addresses on the PEs: the displacement of `next` is computed for the root and used with every PE. Otherwise proved for all interleavings and any number of PEs that fits a C int, and carried to locks in memory by C89."
  },
  {
   "property": "C02",
   "status": "partial",
   "theorems": [
    "Verif.Lock.C02_fifo_partial",
    "Verif.Lock.C02_violation",
    "Verif.Lock.C89_locks_partial"
   ],
   "note": "Violated in builds with dynamic windows when the lock's object has different addresses on the PEs: the displacement of `next` is computed for the root and used with every PE. Otherwise: refinement to an abstract FIFO lock, and grant order is a prefix of request order."
  },
  {
   "property": "C03",
   "status": "partial",
   "theorems": [
    "Verif.Lock.C03_progress_partial",
    "Verif.Lock.C03_no_deadlock_partial",
    "Verif.Lock.C03_violation",
    "Verif.Lock.C90_progress_partial"
   ],
   "note": "Violated in builds with dynamic windows when the lock's object has different addresses on the PEs: the displacement of `next` is computed for the root and used with every PE. Otherwise, in fair runs every set/test/clear call returns; deadlock freedom as a state property too."
  },
  {
   "property": "C04",
   "status": "partial",
   "theorems": [
    "Verif.Lock.C04_test_lock_exact_partial",
    "Verif.Lock.C04_free_again_partial",
    "Verif.Lock.C04_violation",
    "Verif.Lock.C89_test_partial"
   ],
   "note": "Violated in builds with dynamic windows when the lock's object has different addresses on the PEs: the displacement of `next` is computed for the root and used with every PE. Otherwise proved."
  },
  {
   "property": "C05",
   "status": "partial",
   "theorems": [
    "Verif.Lock.C05_visibility_fails",
    "Verif.Lock.C05_visibility_partial"
   ],
   "note": "False of the code: clear_lock performs no quiet (witness proved). Partial: holds when the program calls quiet before clear_lock."
  },
  {
   "property": "C06",
   "status": "proved",
   "theorems": [
    "Verif.MemPool.C06_disjoint_in_bounds"
   ],
   "note": "all call histories, any pool and request sizes that fit the C types"
  },
  {
   "property": "C07",
   "status": "proved",
   "theorems": [
    "Verif.MemPool.C07_first_fit"
   ],
   "note": "first fit and completeness over all reachable states"
  },
  {
   "property": "C08",
   "status": "partial",
   "theorems": [
    "Verif.MemPool.C08_free_exact",
    "Verif.MemPool.C08_free_rejects_partial",
    "Verif.MemPool.C08_wild_pointer_accepted",
    "Verif.MemPool.C08_all_freed"
   ],
   "note": "free is exact for pointers returned by the allocator; pointers at least 2^32 chunks outside the pool are accepted because the index is cut to 32 bits (negation proved)"
  },
  {
   "property": "C09",
   "status": "proved",
   "theorems": [
    "Verif.MemPool.C09_symmetric_offsets"
   ],
   "note": "same call sequence on two PEs gives equal offsets"
  },
  {
   "property": "C10",
   "status": "partial",
   "theorems": [
    "Verif.MemPool.C10_zero_size_overflows",
    "Verif.MemPool.C10_count_truncated",
    "Verif.MemPool.C10_ub_iff",
    "Verif.MemPool.C10_safe_partial"
   ],
   "note": "false for size 0 and for sizes of at least 2^31 chunks (negations proved); safe for every other size"
  },
  {
   "property": "C100",
   "status": "partial",
   "theorems": [
    "Verif.Env.C100_same",
    "Verif.Env.C100_empty",
    "Verif.Env.C100_default",
    "Verif.Env.C100_switch",
    "Verif.Env.C100_switch_default",
    "Verif.Env.C100_word_fails",
    "Verif.Env.C100_independent",
    "Verif.Env.C100_size_partial",
    "Verif.Env.C100_size_too_large",
    "Verif.Env.C100_size_fails",
    "Verif.Env.C100_all_fails",
    "Verif.Env.C100_gpu_all",
    "Verif.Env.C100_async",
    "Verif.Env.C100_async_build",
    "Verif.Env.C100_async_fails",
    "Verif.Env.C100_prints",
    "Verif.Env.C100_dbg"
   ],
   "note": "The full claim is false: OSHMPI_AMO_OPS=all, documented as the default, selects no operation (C100_all_fails); SHMEM_DEBUG, SHMEM_VERSION and SHMEM_INFO stay off for words, which the OpenSHMEM standard allows (C100_word_fails); a text that is no size makes an empty heap and a negative one is undefined, without a message (C100_size_fails); the progress thread is on by default although the README says 0 (C100_async_fails). The rest is proved."
  },
  {
   "property": "C101",
   "status": "proved",
   "theorems": [
    "Verif.Serve.C101_handled",
    "Verif.Serve.C101_answer",
    "Verif.Serve.C101_returns",
    "Verif.Serve.C101_collective",
    "Verif.Serve.C101_wait",
    "Verif.Serve.C101_fair",
    "Verif.Serve.C101_ends",
    "Verif.Serve.C101_bulk",
    "Verif.Serve.Ex.C101_starves"
   ],
   "note": "Fairness is an assumption on operating system and MPI (Exec.Fair). The conditions are needed: calls that block without looking for packets hang (C83_hangs); a PE that only makes calls that complete at once never looks for packets and starves others (C101_starves), as does one that polls a lock (C83_poll_fails)."
  },
  {
   "property": "C102",
   "status": "partial",
   "theorems": [
    "Verif.Vis.C102_blocking",
    "Verif.Vis.C102_call",
    "Verif.Vis.C102_quiet_partial",
    "Verif.Vis.C102_enter",
    "Verif.Vis.C102_barrier",
    "Verif.Vis.C102_arrives_partial",
    "Verif.Vis.C102_arrives_barrier_partial",
    "Verif.Vis.C102_message_partial",
    "Verif.Vis.C102_exists",
    "Verif.Vis.C102_issue"
   ],
   "note": "Fairness is an assumption on MPI and the operating system (Inf.Fair); for active messages C101 derives it from their handling. Missing, because the code violates the claim there: quiet and fence with spaces that are not attached (C56_fails_*), barriers after operations they do not complete (C65_space_fails); and atomic additions that overflow in a handler are undefined behaviour (C24)."
  },
  {
   "property": "C103",
   "status": "partial",
   "theorems": [
    "Verif.Gpu.C103_query",
    "Verif.Gpu.C103_rma_partial",
    "Verif.Gpu.C103_host",
    "Verif.Gpu.C103_amo",
    "Verif.Gpu.C103_create",
    "Verif.Gpu.C103_lifecycle",
    "Verif.Gpu.C103_run_partial",
    "Verif.Gpu.C103_hints",
    "Verif.Gpu.C103_amo_fails",
    "Verif.Gpu.C103_acc_fails",
    "Verif.Gpu.C103_cpu_fails",
    "Verif.Gpu.C103_wait_fails",
    "Verif.Gpu.C103_both_fails",
    "Verif.Gpu.C103_mixed_fails",
    "Verif.Gpu.C103_forced_fails"
   ],
   "note": "Proved for puts and gets with automatic choice and for creation and destruction. The rest of the claim is false: atomics on device memory are computed by the target's CPU in the default configuration (C103_amo_fails); the feature acc is never looked at (C103_acc_fails, C103_wait_fails); calloc, locks and broadcast touch device memory with the CPU (C103_cpu_fails); a library built for both vendors does not recognise Level Zero pointers (C103_both_fails); forced direct RMA ignores the features (C103_forced_fails). The drivers' answers are a parameter."
  },
  {
   "property": "C104",
   "status": "partial",
   "theorems": [
    "Verif.Bsp.C104_program_partial",
    "Verif.Bsp.C104_sees_partial",
    "Verif.Bsp.C104_barrier_partial",
    "Verif.Bsp.C104_constant_partial",
    "Verif.Bsp.C104_phase_partial",
    "Verif.Bsp.C104_deterministic_partial",
    "Verif.Bsp.C104_inTurn",
    "Verif.Bsp.C104_unique",
    "Verif.Bsp.C104_ring_partial"
   ],
   "note": "Missing, because the code violates the claim there: puts and non-blocking gets that a barrier does not complete (spaces and their contexts without dynamic windows, C65_space_fails). Additions are part of the programs (C107); other atomics, locks and waits may happen but not on the bytes the claim is about."
  },
  {
   "property": "C105",
   "status": "partial",
   "theorems": [
    "Verif.Bsp.C105_completes_partial",
    "Verif.Bsp.C105_result_partial"
   ],
   "note": "Missing, as in C104, because the code violates the claim there: puts and non-blocking gets that a barrier does not complete (spaces and their contexts without dynamic windows). Programs of this kind use no spaces; the call's acceptance by the library is C93_call, C94_issue (and discharged for blocks of the heap in C106)."
  },
  {
   "property": "C106",
   "status": "partial",
   "theorems": [
    "Verif.Bsp.C106_moves_partial",
    "Verif.Bsp.C106_program_partial",
    "Verif.Bsp.C106_barrier_partial",
    "Verif.Bsp.C106_phase_partial",
    "Verif.Bsp.C106_accepted",
    "Verif.Bsp.C106_completes_partial",
    "Verif.Bsp.C106_result_partial"
   ],
   "note": "Missing, because the code violates the claim there: blocks that end in the last part of the heap (C95_fails), calls beyond the routines' limits (C88), and, as in C104, puts to spaces and on their contexts, which a barrier does not complete without dynamic windows. Fairness is the assumption of C102."
  },
  {
   "property": "C107",
   "status": "partial",
   "theorems": [
    "Verif.Bsp.C107_counts_partial",
    "Verif.Bsp.C107_accepted",
    "Verif.Bsp.C107_exists_partial",
    "Verif.Bsp.C107_sum_partial",
    "Verif.Bsp.C107_sum_exists"
   ],
   "note": "Missing for the same reasons as C104-C106 (blocks in the last part of the heap, puts to spaces). Executions are shown to exist for additions to signed words only where atomics are MPI operations: the handler's signed overflow is undefined behaviour (C24, C27). The counters are in the models and theorems of C104-C106, too; fetching atomics of the program may happen but not on the bytes the claim is about."
  },
  {
   "property": "C108",
   "status": "partial",
   "theorems": [
    "Verif.Sig.C108_relied",
    "Verif.Sig.C108_program",
    "Verif.Sig.C108_message",
    "Verif.Sig.C108_result",
    "Verif.Sig.C108_same",
    "Verif.Sig.C108_ends",
    "Verif.Sig.C108_moves_partial",
    "Verif.Sig.C108_calls_partial",
    "Verif.Sig.C108_named_partial",
    "Verif.Sig.C108_exists_partial",
    "Verif.Sig.C108_chain_partial",
    "Verif.Sig.C108_chain_ends_partial",
    "Verif.Sig.C108_chain_exists"
   ],
   "note": "Missing, because the code violates the claim there: blocks that end in the last part of the heap (C95_fails) and calls beyond the routines' limits (C88). On the level of bytes moved (C108_relied to C108_ends) nothing is missing. The programs are single-assignment on the bytes the claim is about, on the default context; barriers, atomics, locks and anything else may happen elsewhere. Fairness is the assumption of C102."
  },
  {
   "property": "C109",
   "status": "partial",
   "theorems": [
    "Verif.Crit.C109_ends_partial",
    "Verif.Crit.C109_exists_partial",
    "Verif.Crit.C109_count_partial",
    "Verif.Crit.C109_reads_partial",
    "Verif.Crit.C109_counter_partial",
    "Verif.Crit.C109_named",
    "Verif.Crit.C109_accepted",
    "Verif.Crit.C109_job_partial"
   ],
   "note": "Missing, because the code violates the claim there: windows with absolute displacements and different bases (`Uniform`; the one displacement for all PEs, C90), and in C109_job_partial blocks in the last part of the heap (C95_fails). Programs are straight-line (loops unrolled), one thread per PE, default context, locks in the heap or the global data. Fairness is the assumption of C102."
  },
  {
   "property": "C11",
   "status": "proved",
   "theorems": [
    "Verif.C11_align_least",
    "Verif.C11_align_wraps",
    "Verif.C11_align_multiple"
   ],
   "note": ""
  },
  {
   "property": "C110",
   "status": "partial",
   "theorems": [
    "Verif.Crit.C110_sequential_partial",
    "Verif.Crit.C110_result_partial",
    "Verif.Crit.C110_section"
   ],
   "note": "Missing, because the code violates the claim there: windows with absolute displacements and different bases (`Uniform`, as in C109). That the quiet before shmem_clear_lock is needed shows C96_fails. Programs are straight-line (loops unrolled), one thread per PE, default context; barriers, flags, atomics and collectives are not part of these programs (see C104-C108). Fairness (C110_result_partial only) is the assumption of C102."
  },
  {
   "property": "C111",
   "status": "partial",
   "theorems": [
    "Verif.Crit.Mix.C111_sequential_partial",
    "Verif.Crit.Mix.C111_end_partial",
    "Verif.Crit.Mix.C111_exists_partial"
   ],
   "note": "Missing, because the code violates the claim there: windows with absolute displacements and different bases (`Uniform`, as in C109). That fair executions come to the end is C113; here an execution to the end is shown to exist. Programs are straight-line (loops unrolled), one thread per PE; a shmem_quiet has to come before a barrier if something is pending (shmem_barrier_all completes operations on the default context only, C30); flags, atomics and other collectives are not part of these programs."
  },
  {
   "property": "C112",
   "status": "partial",
   "theorems": [
    "Verif.Gpu.Ze.C112_found",
    "Verif.Gpu.Ze.C112_starts_partial",
    "Verif.Gpu.Ze.C112_none",
    "Verif.Gpu.Ze.C112_arrays",
    "Verif.Gpu.Ze.C112_fails"
   ],
   "note": "Missing, because the code violates the claim there (`C112_fails`): a space on a GPU of a second driver is refused, since the only context belongs to the first driver with a GPU; a driver without devices in front of it makes start-up abort where malloc(0) gives NULL; the device arrays of drivers that were passed over are never freed (`C112_arrays` says exactly which remain); with drivers but no GPU a NULL driver is handed to zeContextCreate."
  },
  {
   "property": "C113",
   "status": "partial",
   "theorems": [
    "Verif.Crit.Mix.C113_ends_partial",
    "Verif.Crit.Mix.C113_result_partial",
    "Verif.Crit.Mix.C113_exists_partial",
    "Verif.Crit.Mix.C113_tally_partial"
   ],
   "note": "Missing, because the code violates the claim there: windows with absolute displacements and different bases (`Uniform`, as in C109). Programs are straight-line (loops unrolled), one thread per PE; a shmem_quiet has to come before a barrier if something is pending (as in C111). Fairness is the assumption of C102."
  },
  {
   "property": "C114",
   "status": "partial",
   "theorems": [
    "Verif.Crit.Mix.C114_sequential_partial",
    "Verif.Crit.Mix.C114_end_partial",
    "Verif.Crit.Mix.C114_result_partial",
    "Verif.Crit.Mix.C114_exists_partial",
    "Verif.Crit.Mix.C114_announce_partial",
    "Verif.Crit.Mix.C114_job_partial"
   ],
   "note": "Missing, because the code violates the claim there (C30, C65): operations on other contexts or on windows the barrier does not flush are not completed by it, so the theorems take which operations it completes as a hypothesis (`EvCov`, `Covers`); locks whose address as an MPI displacement differs between PEs (`Uniform`, C01, C05). Programs are straight-line (loops unrolled), one thread per PE. Fairness is that of C102."
  },
  {
   "property": "C115",
   "status": "partial",
   "theorems": [
    "Verif.Bsp.C115_check_partial",
    "Verif.Bsp.C115_passes_partial",
    "Verif.Bsp.C115_exists"
   ],
   "note": "Missing, because the code violates the claim there (as C106): arrays that end in the last part of the heap (C95_fails) and pieces beyond the limits of a put (C88). The variant with the arrays on the heap is modelled (USE_SYMM_HEAP); the element-wise fill is a store per byte. Fairness is the assumption of C102."
  },
  {
   "property": "C116",
   "status": "proved",
   "theorems": [
    "Verif.Flow.C116_counter",
    "Verif.Flow.C116_fetch",
    "Verif.Flow.C116_alone"
   ],
   "note": "About the calls in an execution, not about the whole test program: the barriers of int_amo.c and PE 1's final check are C97_barrier_partial. All changes of the object are calls of one type; that no change is in flight at the start is a hypothesis (`Calm`)."
  },
  {
   "property": "C117",
   "status": "partial",
   "theorems": [
    "Verif.Bsp.C117_check_partial",
    "Verif.Bsp.C117_passes_partial",
    "Verif.Bsp.C117_exists",
    "Verif.Bsp.expected_same"
   ],
   "note": "Missing, because the code violates the claim there (as C106): arrays that end in the last part of the heap (C95_fails), strides and counts beyond an int (C18). Not the tests to the letter: barriers are shmem_barrier_all, not shmem_sync_all, and the source is a block of the symmetric heap, not of malloc. tests/iput.c calls quiet once after several iputs of the same elements; only the form with a quiet after each is covered. Fairness is the assumption of C102."
  },
  {
   "property": "C118",
   "status": "proved",
   "theorems": [
    "Verif.Flow.C118_value",
    "Verif.Flow.C118_fetch",
    "Verif.Flow.C118_last",
    "Verif.Flow.C118_read",
    "Verif.Flow.C118_flag",
    "Verif.Flow.C118_seen"
   ],
   "note": "Safety of the pattern of tests/amo_set_fetch.c; that the loop ends once the writer is in a quiet is C102. Signed addition by active message (C87) does not occur here."
  },
  {
   "property": "C119",
   "status": "partial",
   "theorems": [
    "Verif.Flow.C119_arrives_partial",
    "Verif.Flow.C119_fetch_partial",
    "Verif.Flow.C119_loop_partial"
   ],
   "note": "Missing, because the code violates it: spaces in a state in which quiet does not return (C56) and, for the barrier, calls the code's barrier does not complete (C30, C65). Fairness is the assumption stated with C102."
  },
  {
   "property": "C12",
   "status": "proved",
   "theorems": [
    "Verif.Sobj.C12_round_trip",
    "Verif.Sobj.C12_injective",
    "Verif.Sobj.C12_large_index_breaks"
   ],
   "note": "for indices below 2^29; larger ones overwrite the kind bits (proved)"
  },
  {
   "property": "C120",
   "status": "partial",
   "theorems": [
    "Verif.Flow.C120_safe",
    "Verif.Flow.C120_wait_partial"
   ],
   "note": "C120_safe is complete. Missing in C120_wait_partial, because the code violates it: spaces in a state in which quiet does not return (C56) and, for the barrier, calls the code's barrier does not complete (C30, C65). Fairness is the assumption stated with C102; that the library accepts the address while the wait lasts is a hypothesis (C12-C15)."
  },
  {
   "property": "C13",
   "status": "partial",
   "theorems": [
    "Verif.Sobj.C13_reaches_counterpart",
    "Verif.Sobj.C13_flag_agrees",
    "Verif.Sobj.C13_disp_nonneg",
    "Verif.Lock.C13_lock_exact",
    "Verif.Lock.C13_lock_violation"
   ],
   "note": "Violated by the lock calls: `next` of a PE is reached at the right address iff the window has relative displacements or the PE's object is at the root's address (C13_lock_exact). Proved for put, get, AMO and the lock's `last`."
  },
  {
   "property": "C14",
   "status": "proved",
   "theorems": [
    "Verif.Space.C14_attached_space",
    "Verif.Space.C14_heap_data",
    "Verif.Space.C14_unattached_aborts"
   ],
   "note": "all attach histories of at most 2^29 attaches"
  },
  {
   "property": "C15",
   "status": "proved",
   "theorems": [
    "Verif.Sobj.C15_lookup"
   ],
   "note": ""
  },
  {
   "property": "C16",
   "status": "proved",
   "theorems": [
    "Verif.Space.C16_never_reused",
    "Verif.Space.C16_agree",
    "Verif.Space.C16_registry"
   ],
   "note": "all histories of at most 2^29 attaches"
  },
  {
   "property": "C17",
   "status": "partial",
   "theorems": [
    "Verif.Rma.C17_put_partial",
    "Verif.Rma.C17_get_partial",
    "Verif.Rma.C17_zero",
    "Verif.Rma.C17_put_symmetric_partial",
    "Verif.Rma.C17_am_fails",
    "Verif.Rma.C17_get_symmetric_partial",
    "Verif.Rma.C17_put_counts",
    "Verif.Rma.C17_get_counts",
    "Verif.Rma.C17_get_am_fails"
   ],
   "note": "Exact byte-for-byte effect for every buffer, offset, element size and count below 2^31 on the direct path; on the active-message path the byte count must also be below 2^31, because the handler passes it as an int (C17_am_fails). C17_put_counts and C17_get_counts give the exact behaviour for every count. C17_get_am_fails: over active messages a get of 2^29 elements of 8 bytes returns and has got nothing, because the byte count wraps to 0."
  },
  {
   "property": "C18",
   "status": "partial",
   "theorems": [
    "Verif.Rma.C18_iput_partial",
    "Verif.Rma.C18_iget_partial",
    "Verif.Rma.C18_path_independent",
    "Verif.Rma.C18_unit_stride",
    "Verif.Rma.C18_large_stride_fails",
    "Verif.Coll.C18_iput_counts",
    "Verif.Coll.C18_iget_counts"
   ],
   "note": "Both paths, every datatype any history of the cache can hand out, counts and strides below 2^31; larger strides are truncated to int (C18_large_stride_fails). C18_iput_counts and C18_iget_counts give the exact behaviour for every count and every stride (the stride at the receiving side not a multiple of 2^32)."
  },
  {
   "property": "C19",
   "status": "partial",
   "theorems": [
    "Verif.Rma.C19_count_is_int_partial",
    "Verif.Rma.C19_fails"
   ],
   "note": "False of the code: exactly (int) n elements are moved, or the program aborts. The theorem gives the exact behaviour for every count and C19_fails the counterexamples (put and get; collect is under C35)."
  },
  {
   "property": "C20",
   "status": "proved",
   "theorems": [
    "Verif.Rma.C20_transparent",
    "Verif.Rma.C20_obtained_unique"
   ],
   "note": "Invariant over every interleaving of any number of threads calling create/use/free, cache on or off."
  },
  {
   "property": "C21",
   "status": "proved",
   "theorems": [
    "Verif.Am.C21_flush",
    "Verif.Am.flush_skip"
   ],
   "note": "Any number of PEs, any program, any interleaving; PE used by one thread. flush_skip: the early return is taken only when nothing uses active messages."
  },
  {
   "property": "C22",
   "status": "proved",
   "theorems": [
    "Verif.Am.C22_order",
    "Verif.Am.C22_none_lost",
    "Verif.Am.C22_read_own"
   ],
   "note": "Per thread and target, exactly once and in order, until the target is finalized (see C28)."
  },
  {
   "property": "C23",
   "status": "proved",
   "theorems": [
    "Verif.Am.C23_linear",
    "Verif.Am.C23_realtime",
    "Verif.Am.C23_fetch_inc",
    "Verif.Am.numbers_lt",
    "Verif.Am.numbers_disjoint"
   ],
   "note": "Handlers run one at a time (cb_progress_cs or the single asynchronous thread), which the model has by construction from the code; atomicity with respect to the application's own loads and stores is not claimed."
  },
  {
   "property": "C24",
   "status": "partial",
   "theorems": [
    "Verif.Amo.C24_unsigned",
    "Verif.Amo.C24_signed_partial",
    "Verif.Amo.C24_signed_iff",
    "Verif.Amo.C24_ok",
    "Verif.Amo.C24_signed_overflow_ub",
    "Verif.Amo.C24_direct",
    "Verif.Amo.C24_fp",
    "Verif.Amo.C24_unsupported_aborts"
   ],
   "note": "Exact for all unsigned types and, for all signed types, exactly when the C addition does not overflow (C24_signed_iff); whenever a handler runs to its end it has done the right thing (C24_ok). False for overflowing signed additions: undefined behaviour in the handler (witness)."
  },
  {
   "property": "C25",
   "status": "proved",
   "theorems": [
    "Verif.Am.C25_header",
    "Verif.Am.C25_payload",
    "Verif.Am.C25_never_bad"
   ],
   "note": "Also with any number of threads and the any-tag re-post."
  },
  {
   "property": "C26",
   "status": "partial",
   "theorems": [
    "Verif.Am.C26_unique_partial",
    "Verif.Am.C26_exhausted"
   ],
   "note": "Unique, different from the header tag and below the bound in every reachable state. Refuted for the whole life of the program: the counter is never reset, so after pkt_ptag_ub - 2003 operations the PE is aborted (C26_exhausted)."
  },
  {
   "property": "C27",
   "status": "proved",
   "theorems": [
    "Verif.Am.C27_progress",
    "Verif.Am.C27_bounded",
    "Verif.Am.C27_return"
   ],
   "note": "Hypotheses: tags not exhausted, handlers not shut down, and without the asynchronous thread every PE is inside the library (as the statement says)."
  },
  {
   "property": "C28",
   "status": "partial",
   "theorems": [
    "Verif.Am.C28_finalize_partial",
    "Verif.Am.C28_fails",
    "Verif.Am.C28_fails_async"
   ],
   "note": "Holds for programs that complete their active messages before finalize. The code violates the full claim: finalize does not flush, an AMO whose call returned may be dropped (both progress modes)."
  },
  {
   "property": "C29",
   "status": "proved",
   "theorems": [
    "Verif.Order.C29_quiet",
    "Verif.Order.C29_fence",
    "Verif.Order.C29_skip",
    "Verif.Order.C29_recorded"
   ],
   "note": "Every history of one PE with any number of spaces and contexts, static or dynamic windows, tracking on or off, legal use of attach/destroy (C29_double_attach shows why that is assumed)."
  },
  {
   "property": "C30",
   "status": "partial",
   "theorems": [
    "Verif.Order.C30_barrier_partial",
    "Verif.Order.C30_barrier_dyn",
    "Verif.Order.C30_stamp",
    "Verif.Order.C30_fails"
   ],
   "note": "Full for default-context operations with dynamic windows. The code violates the claim with static windows: the barrier does not flush the windows of spaces."
  },
  {
   "property": "C31",
   "status": "partial",
   "theorems": [
    "Verif.Order.C31_ctx_quiet_partial",
    "Verif.Order.C31_ctx_quiet_direct",
    "Verif.Order.C31_only",
    "Verif.Order.C31_fails"
   ],
   "note": "Full when nothing uses active messages. The code violates the claim for AMOs sent as active messages on a space context."
  },
  {
   "property": "C32",
   "status": "partial",
   "theorems": [
    "Verif.Am.C32_threads_partial",
    "Verif.Am.C32_fails",
    "Verif.Order.Threads.C32_untracked",
    "Verif.Order.Threads.C32_tracked_partial",
    "Verif.Order.Threads.C32_serialized",
    "Verif.Order.Threads.C32_tracked_fails"
   ],
   "note": "Window operations: proved for all interleavings without operation tracking, and with tracking up to THREAD_SERIALIZED; with tracking at THREAD_MULTIPLE another thread's flag reset makes a quiet skip the caller's own put. Active messages: holds if the other threads only put and post; a get/fetch of another thread resets the flag set by a completed put/AMO."
  },
  {
   "property": "C33",
   "status": "proved",
   "theorems": [
    "Verif.Coll.C33_comm",
    "Verif.Coll.C33_total",
    "Verif.Coll.C33_created",
    "Verif.Coll.C33_agree",
    "Verif.Coll.C33_finalize",
    "Verif.Coll.C33_made_count",
    "Verif.Coll.C33_threads",
    "Verif.Coll.C33_tag_fails"
   ],
   "note": "Any history of calls of one thread (C33_comm, with the creation decision characterised and shown equal on members that used the set equally often) and any interleaving of threads (C33_threads). C33_tag_fails: concurrent first uses of two sets with the same first PE call MPI_Comm_create_group with the same tag."
  },
  {
   "property": "C34",
   "status": "partial",
   "theorems": [
    "Verif.Coll.C34_partial",
    "Verif.Coll.C34_fails",
    "Verif.Coll.C34_get_fails"
   ],
   "note": "Holds where the root's index in the set is its PE number (set starts at PE 0 and stride 1 or root 0) and counts below 2^31. The code uses the index as a PE number: C34_fails characterises the wrong result for all other roots that are PE numbers of members; C34_get_fails shows the path where the data of a PE outside the set is delivered."
  },
  {
   "property": "C35",
   "status": "partial",
   "theorems": [
    "Verif.Coll.C35_fcollect_partial",
    "Verif.Coll.C35_collect_partial",
    "Verif.Coll.C35_same_choice_partial",
    "Verif.Coll.C35_count_fails",
    "Verif.Coll.C35_displ_fails",
    "Verif.Coll.C35_fcollect_fails",
    "Verif.Coll.C35_fcollect_counts",
    "Verif.Coll.C35_collect_counts"
   ],
   "note": "For counts and displacements below 2^31. Counts travel as int: C35_count_fails gives divergent algorithm choice (hang), C35_displ_fails signed overflow of displacements, C35_fcollect_fails a 2^32-element call that moves nothing. The …_counts theorems give the exact behaviour of both for every count."
  },
  {
   "property": "C36",
   "status": "partial",
   "theorems": [
    "Verif.Coll.C36_alltoall_partial",
    "Verif.Coll.C36_alltoalls_partial",
    "Verif.Coll.C36_count_fails",
    "Verif.Coll.C36_alltoall_counts",
    "Verif.Coll.C36_alltoalls_counts"
   ],
   "note": "For counts and strides below 2^31, any strides >= 1, any state of the datatype cache. C36_count_fails: 2^32 elements per block move nothing. The …_counts theorems give the exact behaviour for every count (alltoall) and every count and stride (alltoalls)."
  },
  {
   "property": "C37",
   "status": "partial",
   "theorems": [
    "Verif.Coll.C37_int_partial",
    "Verif.Coll.C37_other_partial",
    "Verif.Coll.C37_count_fails",
    "Verif.Coll.C37_counts"
   ],
   "note": "Integer types and operators: fold over all members in rank order, whatever order MPI uses. Floating/complex: some order and bracketing with every contribution once. Counts below 2^31; C37_count_fails for larger ones. The …_counts theorem gives the exact behaviour for every count."
  },
  {
   "property": "C38",
   "status": "partial",
   "theorems": [
    "Verif.Coll.C38_partial",
    "Verif.Coll.C38_count_fails",
    "Verif.Coll.C38_counts"
   ],
   "note": "For counts below 2^31; C38_count_fails: with 2^32 elements the non-root members receive nothing. The …_counts theorem gives the exact behaviour for every count."
  },
  {
   "property": "C39",
   "status": "partial",
   "theorems": [
    "Verif.Team.C39_exact",
    "Verif.Team.C39_invalid_fails_partial",
    "Verif.Team.C39_size_zero_accepted",
    "Verif.Team.C39_zero_stride_ub"
   ],
   "note": "Exact for every valid triplet and for every triplet with a first or last rank outside the parent. False in corner cases, with witnesses: size 0 with a negative stride creates a team; stride 0 divides by zero."
  },
  {
   "property": "C40",
   "status": "proved",
   "theorems": [
    "Verif.Team.C40_grid",
    "Verif.Team.C40_partition",
    "Verif.Team.C40_zero_ub"
   ],
   "note": "For every parent and every positive xrange."
  },
  {
   "property": "C41",
   "status": "partial",
   "theorems": [
    "Verif.Team.C41_my_pe",
    "Verif.Team.C41_translate_partial",
    "Verif.Team.C41_invalid",
    "Verif.Team.C41_out_of_range_violation"
   ],
   "note": "For every team reachable by splits. Violated for a number that is not a rank of the source team: MPI aborts instead of -1 being returned."
  },
  {
   "property": "C42",
   "status": "proved",
   "theorems": [
    "Verif.Space.Ctx.C42_exclusive",
    "Verif.Space.Ctx.C42_fails_only_if_busy",
    "Verif.Space.Ctx.C42_obtainable",
    "Verif.Space.Ctx.C42_detach_iff"
   ],
   "note": "any number of threads, all interleavings"
  },
  {
   "property": "C43",
   "status": "proved",
   "theorems": [
    "Verif.P2p.C43_test",
    "Verif.P2p.C43_val",
    "Verif.P2p.C43_wait_safe",
    "Verif.P2p.C43_wait_live",
    "Verif.P2p.C43_wait_deprecated",
    "Verif.P2p.C43_bad_code"
   ],
   "note": "All types, values, codes and observation sequences. A seventh code is not diagnosed (C43_bad_code)."
  },
  {
   "property": "C44",
   "status": "partial",
   "theorems": [
    "Verif.Env.C44_parse_partial",
    "Verif.Env.C44_exact",
    "Verif.Env.C44_default",
    "Verif.Env.C44_roundtrip",
    "Verif.Env.C44_dbg_roundtrip",
    "Verif.Env.C44_fails"
   ],
   "note": "Full statement fails: entries are matched by prefix, a list starting with none declares nothing, and all is not recognised (C44_fails). Proved: exact characterisation of the parser, exactness for well-formed lists, round trip for all sets."
  },
  {
   "property": "C45",
   "status": "proved",
   "theorems": [
    "Verif.Env.C45_direct_iff",
    "Verif.Env.C45_direct_atomic",
    "Verif.Env.C45_which_covers",
    "Verif.Env.C45_single_op_not_direct",
    "Verif.Env.C45_library_ops_not_covered",
    "Verif.Env.C45_overrides"
   ],
   "note": "Default configuration; the explicit overrides ignore the declared set (C45_overrides). The converse in the README is false (C45_single_op_not_direct) and the operations the library issues itself are not covered by the hint (C45_library_ops_not_covered)."
  },
  {
   "property": "C46",
   "status": "partial",
   "theorems": [
    "Verif.Env.C46_integer_partial",
    "Verif.Env.C46_units",
    "Verif.Env.C46_decimal",
    "Verif.Env.C46_spec_example",
    "Verif.Env.C46_fails",
    "Verif.Env.C46_blanks",
    "Verif.Env.C46_exponent",
    "Verif.Env.C46_exponent_negative"
   ],
   "note": "Full statement fails: integers with more than 24 significant bits are rounded to single precision (C46_fails). Proved: exact up to 24 significant bits, error bound and rounding up for decimals."
  },
  {
   "property": "C47",
   "status": "partial",
   "theorems": [
    "Verif.Heap.C47_served",
    "Verif.Heap.C47_accepted_partial",
    "Verif.Heap.C47_usable_partial",
    "Verif.Heap.C47_free_partial",
    "Verif.Heap.C47_exact_sound",
    "Verif.Heap.C47_fails",
    "Verif.Heap.C47_exhaustion_fails",
    "Verif.Heap.C47_leak"
   ],
   "note": "Fails: the range checks use the size without the allocator's share, so the last 960 bytes of shmem_malloc(S) are rejected and blocks beyond are never freed; when exhausted, memory outside the heap is returned."
  },
  {
   "property": "C48",
   "status": "proved",
   "theorems": [
    "Verif.Env.C48_level",
    "Verif.Env.C48_async",
    "Verif.Env.C48_unknown_aborts",
    "Verif.Env.C48_query"
   ],
   "note": "Levels are the four ordered MPI constants."
  },
  {
   "property": "C49",
   "status": "proved",
   "theorems": [
    "Verif.Env.C49_decision",
    "Verif.Env.C49_host",
    "Verif.Env.C49_features_roundtrip",
    "Verif.Env.C49_features_parse"
   ],
   "note": "The GPU pointer query is a parameter here; it is modelled in C103."
  },
  {
   "property": "C50",
   "status": "proved",
   "theorems": [
    "Verif.Symm.C50_all_or_nothing",
    "Verif.Symm.C50_success"
   ],
   "note": "Over a model of mmap/msync with arbitrary address-space contents and arbitrary candidate addresses on every PE."
  },
  {
   "property": "C51",
   "status": "partial",
   "theorems": [
    "Verif.Setup.C51_once_partial",
    "Verif.Setup.C51_exit_partial",
    "Verif.Setup.C51_world",
    "Verif.Setup.C51_idempotent",
    "Verif.Setup.C51_order",
    "Verif.Setup.C51_mpi",
    "Verif.Setup.C51_leak",
    "Verif.Setup.C51_user_mpi_fails"
   ],
   "note": "Holds except for the heap critical section in dynamic-window builds (C51_leak); a program that initialises MPI itself finds it finalised (C51_user_mpi_fails)."
  },
  {
   "property": "C52",
   "status": "partial",
   "theorems": [
    "Verif.Heap.Bar.C52_alloc",
    "Verif.Heap.Bar.C52_free",
    "Verif.Heap.Bar.C52_reuse",
    "Verif.Heap.Bar.C52_zero",
    "Verif.Heap.Bar.C52_progress",
    "Verif.Heap.Bar.C52_realloc_partial",
    "Verif.Heap.Bar.C52_realloc_fails"
   ],
   "note": "Proved for malloc, calloc, align, free. shmem_realloc has no barrier on entry: a PE may give up the old block while another still uses it."
  },
  {
   "property": "C53",
   "status": "partial",
   "theorems": [
    "Verif.MemPool.C53_calloc_ignores_count",
    "Verif.MemPool.C53_calloc_exhausted",
    "Verif.MemPool.C53_align_unaligned",
    "Verif.MemPool.C53_calloc_partial",
    "Verif.MemPool.C53_align_partial"
   ],
   "note": "false: calloc ignores count and writes through NULL on exhaustion, align does not align the address (negations proved); proved for count 1 and for alignments dividing page and base"
  },
  {
   "property": "C54",
   "status": "proved",
   "theorems": [
    "Verif.UtList.C54_append",
    "Verif.UtList.C54_prepend",
    "Verif.UtList.C54_delete",
    "Verif.UtList.C54_delete_empty",
    "Verif.UtList.C54_foreach",
    "Verif.UtList.C54_search",
    "Verif.UtList.C54_delete_all",
    "Verif.UtList.C54_space_list"
   ],
   "note": "pointer-level model refined to lists"
  },
  {
   "property": "C55",
   "status": "partial",
   "theorems": [
    "Verif.Team.C55_shared_is_world",
    "Verif.Team.C55_fails",
    "Verif.Team.C55_one_node_partial"
   ],
   "note": "False: the shared team is the whole world. Holds on one node."
  },
  {
   "property": "C56",
   "status": "partial",
   "theorems": [
    "Verif.Order.C56_quiet_partial",
    "Verif.Order.C56_barrier",
    "Verif.Order.C56_fails_null",
    "Verif.Order.C56_fails_unattached",
    "Verif.Order.C56_fails_stale"
   ],
   "note": "Quiet is total when spaces are attached; three ways it faults or aborts with spaces that are not. The barrier is always total."
  },
  {
   "property": "C57",
   "status": "partial",
   "theorems": [
    "Verif.Order.C57_active_barrier_partial",
    "Verif.Order.C57_fails"
   ],
   "note": "Active messages to PEs outside the set are not flushed by the code."
  },
  {
   "property": "C58",
   "status": "partial",
   "theorems": [
    "Verif.Symm.C58_release_partial",
    "Verif.Symm.C58_fails"
   ],
   "note": "Fails when the fallback malloc returns equal addresses on all PEs (always with one PE): the pointer is then unmapped instead of freed."
  },
  {
   "property": "C59",
   "status": "partial",
   "theorems": [
    "Verif.Setup.Hs.C59_stopped",
    "Verif.Setup.Hs.C59_objects_partial",
    "Verif.Setup.Hs.C59_progress",
    "Verif.Setup.Hs.C59_return",
    "Verif.Setup.Hs.C59_signal_fails"
   ],
   "note": "The thread is always stopped, but signals a condition variable after unlocking, when it may already be destroyed (C59_signal_fails)."
  },
  {
   "property": "C60",
   "status": "proved",
   "theorems": [
    "Verif.Heap.C60_blocks",
    "Verif.Heap.C60_metadata",
    "Verif.Heap.C60_free_ok",
    "Verif.Heap.C60_align",
    "Verif.Heap.C60_calloc"
   ],
   "note": "Over the chunk-sequence model of dlmalloc with an arbitrary choice of the free chunk."
  },
  {
   "property": "C61",
   "status": "partial",
   "theorems": [
    "Verif.Heap.C61_offsets_partial",
    "Verif.Heap.C61_fails",
    "Verif.Dl.C61_actual_partial",
    "Verif.Dl.C61_actual_fails"
   ],
   "note": "Fails for alignments above the page size when the heaps are at different addresses. The actual versions are about the allocator with its own bins, without assumptions on its choices."
  },
  {
   "property": "C62",
   "status": "proved",
   "theorems": [
    "Verif.Heap.C62_empty",
    "Verif.Heap.C62_extended",
    "Verif.Dl.C62_restart"
   ],
   "note": "First and third theorem: no memory taken from the system for a new segment; second: it was. The third includes the bins."
  },
  {
   "property": "C63",
   "status": "partial",
   "theorems": [
    "Verif.Api.C63_put_partial",
    "Verif.Api.C63_get_partial",
    "Verif.Api.C63_sized_get_fails"
   ],
   "note": "Every put, and every get except the sized ones over active messages, moves n elements of the size in its name (counts below 2^31). The sized gets over active messages pass the size in bits as bytes and abort: proved for every buffer and positive count."
  },
  {
   "property": "C64",
   "status": "partial",
   "theorems": [
    "Verif.Api.C64_pe",
    "Verif.Api.C64_accessible_found",
    "Verif.Api.C64_accessible_iff_partial",
    "Verif.Api.C64_space_fails",
    "Verif.Api.C64_ptr"
   ],
   "note": "Exact for heap and global data. shmem_addr_accessible reports the memory of attached spaces inaccessible although puts, gets and AMOs to it work: proved."
  },
  {
   "property": "C65",
   "status": "partial",
   "theorems": [
    "Verif.Vis.C65_barrier_partial",
    "Verif.Vis.C65_phases_partial",
    "Verif.Vis.C65_space_fails",
    "Verif.Vis.put_link",
    "Verif.Vis.iput_link"
   ],
   "note": "Proved for all executions of the system of all PEs, for heap and global data, for spaces with dynamic windows, and for everything sent as active messages. Without dynamic windows the barrier does not complete puts to a space: an execution in which the byte is still old after the barrier is given (C65_space_fails). Puts on user contexts are excluded (the standard leaves them to the quiet of the context)."
  },
  {
   "property": "C66",
   "status": "proved",
   "theorems": [
    "Verif.Vis.C66_fence",
    "Verif.Vis.C66_message"
   ],
   "note": "For all executions; the flag may be written by any call of any PE after the fence. About each byte the call transfers; which bytes those are is C17, C18 and C88."
  },
  {
   "property": "C67",
   "status": "partial",
   "theorems": [
    "Verif.Vis.C67_sum_partial"
   ],
   "note": "Proved for all executions, integer types of the AMO tables, modulo the word size. Same exclusion as C65 (counters in a space without dynamic windows, AMOs on user contexts). The value a fetching AMO returns is C22-C24."
  },
  {
   "property": "C68",
   "status": "proved",
   "theorems": [
    "Verif.Vis.C68_get",
    "Verif.Vis.C68_get_nbi",
    "Verif.Vis.get_link",
    "Verif.Vis.iget_link"
   ],
   "note": "For all executions. About each byte the call transfers; which bytes those are is C17, C18 and C88."
  },
  {
   "property": "C69",
   "status": "partial",
   "theorems": [
    "Verif.Stub.C69_abort_partial",
    "Verif.Stub.C69_ndebug_fails",
    "Verif.Stub.C69_ctx",
    "Verif.Stub.C69_team_sync",
    "Verif.Stub.C69_team_sync_fails"
   ],
   "note": "Default build: the unimplemented routines abort, contexts and team_sync report failure. False with --enable-fast=ndebug: wait_until_all/any/some return at once, test_all says true, put with signal does nothing (C69_ndebug_fails). team_sync synchronises no team but the world (C69_team_sync_fails; it says so by its return value)."
  },
  {
   "property": "C70",
   "status": "proved",
   "theorems": [
    "Verif.Dl.C70_refines",
    "Verif.Dl.C70_total",
    "Verif.Dl.C70_blocks"
   ],
   "note": "Over the chunk sequence with the bins (small lists, trees, bit maps, dv); memory of the heap only: no further segment is added."
  },
  {
   "property": "C71",
   "status": "partial",
   "theorems": [
    "Verif.Dl.C71_malloc_partial",
    "Verif.Dl.C71_calloc_partial",
    "Verif.Dl.C71_realloc_partial",
    "Verif.Dl.C71_align_partial",
    "Verif.Dl.C71_fails"
   ],
   "note": "Proved for heaps up to 1 TiB (and for requests up to 232 bytes in any heap). Fails beyond: compute_tree_index keeps only 32 bits of the size, so a free chunk of 1 TiB is put into a bin where a request for 512 GiB does not look."
  },
  {
   "property": "C72",
   "status": "partial",
   "theorems": [
    "Verif.Dl.C72_bestfit_partial",
    "Verif.Dl.C72_fails"
   ],
   "note": "Proved for heaps up to 1 TiB; fails beyond for the same reason as C71."
  },
  {
   "property": "C73",
   "status": "partial",
   "theorems": [
    "Verif.Vis.C73_linear",
    "Verif.Vis.C73_once",
    "Verif.Vis.C73_at_most_once",
    "Verif.Vis.C73_exactly_once_partial"
   ],
   "note": "Order, values and exactly-once of value-returning AMOs: proved for all executions. AMOs without result: at most once always; exactly once by the next barrier except for words in a space without dynamic windows and AMOs on user contexts (same exclusion as C65, which the code violates: C65_space_fails). Executions in which a handler overflows a signed addition (undefined behaviour, C24) have no step there."
  },
  {
   "property": "C74",
   "status": "proved",
   "theorems": [
    "Verif.Vis.C74_prefix",
    "Verif.Vis.C74_tickets"
   ],
   "note": "All executions, integer types of the AMO tables."
  },
  {
   "property": "C75",
   "status": "proved",
   "theorems": [
    "Verif.Vis.C75_winner",
    "Verif.Vis.C75_between"
   ],
   "note": "All executions, all types with compare_swap."
  },
  {
   "property": "C76",
   "status": "proved",
   "theorems": [
    "Verif.Vis.C76_spinlock"
   ],
   "note": "All executions; the rule that PEs release only what they got is the hypothesis on the program."
  },
  {
   "property": "C77",
   "status": "partial",
   "theorems": [
    "Verif.Api.C77_int_partial",
    "Verif.Api.C77_fp_partial",
    "Verif.Api.C77_char_fails",
    "Verif.Api.C77_all"
   ],
   "note": "All generated routines except char, counts below 2^31. char: the routines pass MPI_CHAR, which the MPI standard excludes from reductions (5.9.2), so a conforming MPI reports an error and the program aborts (C77_char_fails). Larger counts: C37_count_fails."
  },
  {
   "property": "C78",
   "status": "proved",
   "theorems": [
    "Verif.Tag.C78_refines",
    "Verif.Tag.C78_realised",
    "Verif.Tag.C78_total",
    "Verif.Tag.C78_data_independent",
    "Verif.Tag.C78_headers"
   ],
   "note": "On a memory of bytes with every access to head and prev_foot. Links of the bins (fd, bk, child, parent) stay abstract: they are arbitrary changes of the payload of free chunks. Heap sizes are multiples of 16 (they are page aligned); no further segment is added."
  },
  {
   "property": "C79",
   "status": "proved",
   "theorems": [
    "Verif.Tag.C79_keep",
    "Verif.Tag.C79_realloc",
    "Verif.Tag.C79_realloc_null",
    "Verif.Tag.C79_calloc",
    "Verif.Tag.C79_bounds"
   ],
   "note": "Same model as C78."
  },
  {
   "property": "C80",
   "status": "proved",
   "theorems": [
    "Verif.Team.C80_agree",
    "Verif.Team.C80_self"
   ],
   "note": "Splits are called by all members of the parent with the same arguments, as the specification demands."
  },
  {
   "property": "C81",
   "status": "partial",
   "theorems": [
    "Verif.Api.C81_broadcast_partial",
    "Verif.Api.C81_collect_partial",
    "Verif.Api.C81_fcollect_partial",
    "Verif.Api.C81_alltoall_partial",
    "Verif.Api.C81_alltoalls_partial",
    "Verif.Api.C81_collect_aset_partial",
    "Verif.Api.C81_fcollect_aset_partial",
    "Verif.Api.C81_alltoall_aset_partial",
    "Verif.Api.C81_alltoalls_aset_partial",
    "Verif.Api.C81_broadcast_aset_partial",
    "Verif.Api.C81_reduce_partial",
    "Verif.Api.C81_reduce_aset_partial"
   ],
   "note": "Missing: counts and strides of 2^31 and more, and active-set broadcast from roots whose index is not their PE number, where the code is wrong (C34_fails, C35_count_fails, C36_count_fails, C38_count_fails); char reductions (C77_char_fails). Floating-point reductions are in C77_fp_partial."
  },
  {
   "property": "C82",
   "status": "proved",
   "theorems": [
    "Verif.Lnk.C82_total",
    "Verif.Lnk.C82_refines",
    "Verif.Lnk.C82_realised",
    "Verif.Lnk.C82_data_independent",
    "Verif.Lnk.C82_keep",
    "Verif.Lnk.C82_realloc",
    "Verif.Lnk.C82_realloc_null",
    "Verif.Lnk.C82_calloc",
    "Verif.Lnk.C82_lists",
    "Verif.Lnk.C82_tries",
    "Verif.Lnk.C82_bounds",
    "Verif.Lnk.C82_create_bounds"
   ],
   "note": "One segment, as the library creates it; base and capacity multiples of 16."
  },
  {
   "property": "C83",
   "status": "partial",
   "theorems": [
    "Verif.Serve.C83_sound",
    "Verif.Serve.C83_cause",
    "Verif.Serve.C83_progress_partial",
    "Verif.Serve.C83_ends_partial",
    "Verif.Serve.C83_direct_partial",
    "Verif.Serve.C83_hangs",
    "Verif.Serve.C83_poll_fails",
    "Verif.Serve.C83_test",
    "Verif.Serve.Ex.C83_split_fails",
    "Verif.Serve.Ex.C83_activeset_fails",
    "Verif.Serve.Ex.C83_attach_fails",
    "Verif.Serve.Ex.C83_detach_fails",
    "Verif.Serve.Ex.C83_testlock_fails"
   ],
   "note": "Violated without the asynchronous thread: team split and destroy, space attach and detach and the first use of an active set block in plain MPI collectives (MPI_Comm_split, MPI_Comm_create_group, MPI_Allgather, MPI_Win_create, MPI_Win_free) during which the PE handles no active messages, so a PE that waits for an answer from a PE already inside and has not called the collective yet hangs for ever; shmem_test_lock makes no progress either, so a PE polling a lock never answers its holder. Proved: this is the only cause of a hang that is not the program's own; programs without those calls, with the asynchronous thread, or with all operations on the direct path do not hang. Deadlock freedom only: fairness between several ready steps is not modelled."
  },
  {
   "property": "C84",
   "status": "partial",
   "theorems": [
    "Verif.Cs.C84_exclusive",
    "Verif.Cs.C84_alive",
    "Verif.Cs.C84_destroy_alone",
    "Verif.Cs.C84_released",
    "Verif.Cs.C84_unlock",
    "Verif.Cs.C84_relock",
    "Verif.Cs.C84_wait",
    "Verif.Cs.C84_lock_granted",
    "Verif.Cs.C84_safe_partial",
    "Verif.Cs.C84_violation_publish",
    "Verif.Cs.C84_violation_detach",
    "Verif.Cs.C84_violation_unattached"
   ],
   "note": "Violated: OSHMPI_space_create appends the space to the list before it stores ctx_list, config and default_ictx, so a shmem_quiet or shmem_fence in another thread loops over an uninitialised number of contexts; OSHMPI_space_detach frees ctx_list without the list's mutex while a quiet may be walking it; and even with a single thread, quiet or fence between creation and attach of a space configured with contexts dereferences ctx_list = NULL. Proved without restriction: mutual exclusion, lifetime of space objects, lock discipline, no deadlock on mutexes. Proved for programs that keep quiet and fence apart from creation, attach and detach and attach every space that has contexts: no uninitialised or dangling member is used."
  },
  {
   "property": "C85",
   "status": "partial",
   "theorems": [
    "Verif.Setup.C85_order",
    "Verif.Setup.C85_call_partial",
    "Verif.Setup.C85_exact",
    "Verif.Setup.C85_ends",
    "Verif.Setup.C85_handlers",
    "Verif.Setup.C85_default",
    "Verif.Setup.C85_violation",
    "Verif.Setup.C85_default_violation"
   ],
   "note": "Violated: if AMOs and RMA are both direct, OSHMPI_am_initialize returns early, but without the progress thread (the default then) OSHMPI_am_cb_progress still enters the critical section that was not initialised and calls MPI_Test on OSHMPI_am.cb_req, which no MPI call ever set; every wait does so, starting with the barrier inside shmem_init. Everything else is proved: this is the only resource ever used while it does not exist (C85_exact), creation and release are in an order that respects all dependencies, and handlers find all they need until the last packet. Also: the default of the progress thread is computed before amo_direct is known."
  },
  {
   "property": "C86",
   "status": "partial",
   "theorems": [
    "Verif.Api.C86_compiles",
    "Verif.Api.C86_selects",
    "Verif.Api.C86_accepts_partial",
    "Verif.Api.C86_reduce_generic",
    "Verif.Api.C86_types",
    "Verif.Api.C86_rma",
    "Verif.Api.C86_amo",
    "Verif.Api.C86_reduce",
    "Verif.Api.C86_sync",
    "Verif.Api.C86_const_violation"
   ],
   "note": "Violated: the associations are TYPE* only, so shmem_g and shmem_atomic_fetch (and shmem_fetch) of a pointer to const do not compile although the routines take const TYPE *. Everything else is proved. The parse of C beyond the selection and the number of arguments (conversions of the other arguments) is not modelled. The effects of equal types are compared on Linux (LP64)."
  },
  {
   "property": "C87",
   "status": "partial",
   "theorems": [
    "Verif.Api.C87_partial",
    "Verif.Api.C87_symmetric_partial",
    "Verif.Api.C87_generic",
    "Verif.Api.C87_overflow_violation"
   ],
   "note": "Violated: over active messages an addition to a signed type whose sum is not representable is undefined behaviour in the handler (C24). Everything else is proved, from the routine's name to the bytes of all PEs."
  },
  {
   "property": "C88",
   "status": "partial",
   "theorems": [
    "Verif.Api.C88_routines",
    "Verif.Api.C88_partial",
    "Verif.Api.C88_runs",
    "Verif.Api.C88_symmetric_partial",
    "Verif.Api.C88_sized_get_violation",
    "Verif.Api.C88_generic"
   ],
   "note": "Violated: the sized gets abort over active messages (C63), and counts or strides that do not fit an int are cut (C17, C18). Within those limits proved for every routine, from its name to the bytes of all PEs."
  },
  {
   "property": "C89",
   "status": "partial",
   "theorems": [
    "Verif.Lock.C89_locks_partial",
    "Verif.Lock.C89_frame_partial",
    "Verif.Lock.C89_defined",
    "Verif.Lock.C89_test_partial",
    "Verif.Lock.C89_reusable_partial",
    "Verif.Lock.C89_exclusion_violation",
    "Verif.Lock.C89_frame_violation"
   ],
   "note": "Violated in builds with dynamic windows when the lock's object has different addresses on the PEs: the displacement of `next` is computed for the root and used with every PE. There two PEs can hold the lock, and handing it over overwrites a byte of user data. Otherwise proved."
  },
  {
   "property": "C90",
   "status": "partial",
   "theorems": [
    "Verif.Lock.C90_progress_partial",
    "Verif.Lock.C90_clear_test_partial",
    "Verif.Lock.C90_order_needed"
   ],
   "note": "Missing: the placements excluded in C89, where C03_violation has a PE waiting for ever."
  },
  {
   "property": "C91",
   "status": "proved",
   "theorems": [
    "Verif.Api.C91_wait",
    "Verif.Api.C91_test",
    "Verif.Api.C91_live",
    "Verif.Api.C91_not_symmetric",
    "Verif.Api.C91_generic"
   ],
   "note": "The vector forms and shmem_signal_wait_until are not implemented (C69). That the read of one element is a single atomic access is MPI's guarantee for MPI_Fetch_and_op (trusted)."
  },
  {
   "property": "C92",
   "status": "proved",
   "theorems": [
    "Verif.Team.Life.C92_handles",
    "Verif.Team.Life.C92_split",
    "Verif.Team.Life.C92_destroy",
    "Verif.Team.Life.C92_released",
    "Verif.Team.Life.C92_dangling",
    "Verif.Team.Life.C92_invalid"
   ],
   "note": "MPI communicators and groups are numbered and numbers are not reused (simplification). All members of a parent call a split with the same arguments. malloc does not fail and does not return one of the constants 0x90000 and 0x90001."
  },
  {
   "property": "C93",
   "status": "partial",
   "theorems": [
    "Verif.Flow.C93_fence",
    "Verif.Flow.C93_message",
    "Verif.Flow.C93_poll",
    "Verif.Flow.C93_get",
    "Verif.Flow.C93_get_nbi",
    "Verif.Flow.C93_call",
    "Verif.Flow.C93_barrier_partial"
   ],
   "note": "Only the barrier part is partial: as in C65 it does not hold for operations that OSHMPI_barrier_all does not flush: direct operations on a user context or, without dynamic windows, on a space (hypothesis BarCov). Fence, quiet, flags, polling and gets are proved without that restriction. The program must not itself race: nobody else writes the elements meanwhile."
  },
  {
   "property": "C94",
   "status": "partial",
   "theorems": [
    "Verif.Vis.C94_settles",
    "Verif.Vis.C94_barrier",
    "Verif.Vis.C94_quiet_partial",
    "Verif.Vis.noFault_safe",
    "Verif.Vis.C94_issue"
   ],
   "note": "Possibility (the states are not stuck); that MPI makes progress is MPI's part. Quiet and fence: only for the states of spaces for which the code's quiet returns at all (C56; C56_fails_* show the others)."
  },
  {
   "property": "C95",
   "status": "partial",
   "theorems": [
    "Verif.Flow.C95_put_partial",
    "Verif.Flow.C95_get_partial",
    "Verif.Flow.C95_call_partial",
    "Verif.Flow.C95_barrier_partial",
    "Verif.Flow.C95_fence_partial",
    "Verif.Flow.C95_message_partial",
    "Verif.Flow.C95_read_partial",
    "Verif.Flow.C95_fails"
   ],
   "note": "Blocks that end within the heap's official size, heaps equal modulo the alignments asked for. The full statement is false of the code: C95_fails (a block from shmem_malloc whose last byte cannot be accessed remotely, C47) and C61_actual_fails (different offsets)."
  },
  {
   "property": "C96",
   "status": "partial",
   "theorems": [
    "Verif.Crit.C96_exclusion_partial",
    "Verif.Crit.C96_handover_partial",
    "Verif.Crit.C96_first_partial",
    "Verif.Crit.C96_steady_partial",
    "Verif.Crit.C96_read_partial",
    "Verif.Crit.C96_write_partial",
    "Verif.Crit.C96_message_partial",
    "Verif.Crit.C96_serial_partial",
    "Verif.Crit.C96_counter_partial",
    "Verif.Crit.C96_fails"
   ],
   "note": "Locks at the same address everywhere or in windows with relative displacements (elsewhere the locks themselves fail, C01_violation), locks in the heap or the global data, one thread per PE. The quiet is asked of the program: C96_fails shows an execution in which shmem_clear_lock without it hands on old data."
  },
  {
   "property": "C97",
   "status": "partial",
   "theorems": [
    "Verif.Flow.C97_return",
    "Verif.Flow.C97_tickets",
    "Verif.Flow.C97_winner",
    "Verif.Flow.C97_beaten",
    "Verif.Flow.C97_sum_partial",
    "Verif.Flow.C97_at_most_once",
    "Verif.Flow.C97_quiet",
    "Verif.Flow.C97_barrier_partial",
    "Verif.Flow.C97_effect",
    "Verif.Flow.C97_call",
    "Verif.Flow.C97_answer"
   ],
   "note": "After a barrier only: contexts and spaces a barrier completes (the others: C65_space_fails); all other parts are proved in full. Mixed use of different types on one object is not covered by tickets, winners and sums."
  },
  {
   "property": "C98",
   "status": "partial",
   "theorems": [
    "Verif.Mm.C98_blocks",
    "Verif.Mm.C98_objects",
    "Verif.Mm.C98_free_heap_partial",
    "Verif.Mm.C98_free_space",
    "Verif.Mm.C98_free_other",
    "Verif.Mm.C98_free_leaks",
    "Verif.Mm.C98_total_partial",
    "Verif.Mm.C98_destroy",
    "Verif.Mm.C98_barriers",
    "Verif.Mm.C98_names",
    "Verif.Mm.C98_align",
    "Verif.Mm.C98_restart_partial",
    "Verif.Mm.C98_symmetric_partial",
    "Verif.Mm.C98_alike",
    "Verif.Mm.C98_realloc_space_fails",
    "Verif.Mm.C98_realloc_zero_fails",
    "Verif.Mm.Ex.C98_symmetric_fails"
   ],
   "note": "The full claim is false: shmem_realloc of a block of a space aborts or misuses memory (C98_realloc_space_fails), shmem_realloc(p, 0) frees nothing (C98_realloc_zero_fails), blocks that start in the last part of the heap's memory are never freed (C98_free_leaks, C47), shmem_align beyond the placement of the heaps is not symmetric (C98_symmetric_fails), shmemx_space_calloc on an exhausted space is undefined (C53). All the rest is proved. Not covered, as in C70: histories in which dlmalloc adds a memory segment of the operating system to the heap."
  },
  {
   "property": "C99",
   "status": "partial",
   "theorems": [
    "Verif.Joint.C99_as_if",
    "Verif.Joint.C99_waits",
    "Verif.Joint.C99_broadcast_partial",
    "Verif.Joint.C99_collect_partial",
    "Verif.Joint.C99_fcollect_partial",
    "Verif.Joint.C99_alltoall_partial",
    "Verif.Joint.C99_alltoalls_partial",
    "Verif.Joint.C99_reduce_partial",
    "Verif.Joint.C99_collect_aset_partial",
    "Verif.Joint.C99_fcollect_aset_partial",
    "Verif.Joint.C99_alltoall_aset_partial",
    "Verif.Joint.C99_reduce_aset_partial",
    "Verif.Joint.C99_broadcast_aset_partial",
    "Verif.Joint.C99_fcollect_waits_partial",
    "Verif.Joint.C99_collect_waits_partial",
    "Verif.Joint.C99_frame",
    "Verif.Joint.C99_put_broadcast_partial",
    "Verif.Joint.C99_completes",
    "Verif.Joint.C99_broadcast_completes_partial"
   ],
   "note": "The general theorems (C99_as_if, C99_waits, C99_frame, C99_completes) are proved for any collective call. Missing are, as in C81, counts of 2^31 and more and active-set broadcasts whose root index is not its PE number, where the code violates the claim (C34_fails, C35_count_fails, C36_count_fails, C37_count_fails, C38_count_fails)."
  }
 ]
}
