# Axioms of the theorems named in MANIFEST.json

Output of `#print axioms`, regenerated at each milestone.

| property | theorem | axioms |
|---|---|---|
| C01 | `Verif.Lock.C01_mutual_exclusion_partial` | propext, Classical.choice, Quot.sound |
| C01 | `Verif.Lock.C01_mutual_exclusion_trace_partial` | propext, Classical.choice, Quot.sound |
| C01 | `Verif.Lock.C01_violation` | propext, Quot.sound |
| C01 | `Verif.Lock.C89_locks_partial` | propext, Classical.choice, Quot.sound |
| C02 | `Verif.Lock.C02_fifo_partial` | propext, Classical.choice, Quot.sound |
| C02 | `Verif.Lock.C02_violation` | propext, Quot.sound |
| C02 | `Verif.Lock.C89_locks_partial` | propext, Classical.choice, Quot.sound |
| C03 | `Verif.Lock.C03_progress_partial` | propext, Classical.choice, Quot.sound |
| C03 | `Verif.Lock.C03_no_deadlock_partial` | propext, Classical.choice, Quot.sound |
| C03 | `Verif.Lock.C03_violation` | propext, Quot.sound |
| C03 | `Verif.Lock.C90_progress_partial` | propext, Classical.choice, Quot.sound |
| C04 | `Verif.Lock.C04_test_lock_exact_partial` | propext, Classical.choice, Quot.sound |
| C04 | `Verif.Lock.C04_free_again_partial` | propext, Classical.choice, Quot.sound |
| C04 | `Verif.Lock.C04_violation` | propext, Quot.sound |
| C04 | `Verif.Lock.C89_test_partial` | propext, Classical.choice, Quot.sound |
| C05 | `Verif.Lock.C05_visibility_fails` | propext, Quot.sound |
| C05 | `Verif.Lock.C05_visibility_partial` | propext, Classical.choice, Quot.sound |
| C06 | `Verif.MemPool.C06_disjoint_in_bounds` | propext, Classical.choice, Quot.sound |
| C07 | `Verif.MemPool.C07_first_fit` | propext, Classical.choice, Quot.sound |
| C08 | `Verif.MemPool.C08_free_exact` | propext, Classical.choice, Quot.sound |
| C08 | `Verif.MemPool.C08_free_rejects_partial` | propext, Classical.choice, Quot.sound |
| C08 | `Verif.MemPool.C08_wild_pointer_accepted` | propext, Quot.sound |
| C08 | `Verif.MemPool.C08_all_freed` | propext, Classical.choice, Quot.sound |
| C09 | `Verif.MemPool.C09_symmetric_offsets` | propext, Quot.sound |
| C10 | `Verif.MemPool.C10_zero_size_overflows` | propext, Quot.sound |
| C10 | `Verif.MemPool.C10_count_truncated` | propext, Quot.sound |
| C10 | `Verif.MemPool.C10_ub_iff` | propext, Classical.choice, Quot.sound |
| C10 | `Verif.MemPool.C10_safe_partial` | propext, Classical.choice, Quot.sound |
| C100 | `Verif.Env.C100_same` | propext, Classical.choice, Quot.sound |
| C100 | `Verif.Env.C100_empty` | propext, Classical.choice, Quot.sound |
| C100 | `Verif.Env.C100_default` | propext, Classical.choice, Quot.sound |
| C100 | `Verif.Env.C100_switch` | propext, Classical.choice, Quot.sound |
| C100 | `Verif.Env.C100_switch_default` | propext, Classical.choice, Quot.sound |
| C100 | `Verif.Env.C100_word_fails` | propext, Classical.choice, Quot.sound |
| C100 | `Verif.Env.C100_independent` | propext, Classical.choice, Quot.sound |
| C100 | `Verif.Env.C100_size_partial` | propext, Classical.choice, Quot.sound |
| C100 | `Verif.Env.C100_size_too_large` | propext, Classical.choice, Quot.sound |
| C100 | `Verif.Env.C100_size_fails` | propext, Classical.choice, Quot.sound |
| C100 | `Verif.Env.C100_all_fails` | propext, Classical.choice, Quot.sound |
| C100 | `Verif.Env.C100_gpu_all` | propext, Classical.choice, Quot.sound |
| C100 | `Verif.Env.C100_async` | propext, Classical.choice, Quot.sound |
| C100 | `Verif.Env.C100_async_build` | propext, Classical.choice, Quot.sound |
| C100 | `Verif.Env.C100_async_fails` | propext, Classical.choice, Quot.sound |
| C100 | `Verif.Env.C100_prints` | propext |
| C100 | `Verif.Env.C100_dbg` | propext, Classical.choice, Quot.sound |
| C101 | `Verif.Serve.C101_handled` | propext, Classical.choice, Quot.sound |
| C101 | `Verif.Serve.C101_answer` | propext, Classical.choice, Quot.sound |
| C101 | `Verif.Serve.C101_returns` | propext, Classical.choice, Quot.sound |
| C101 | `Verif.Serve.C101_collective` | propext, Classical.choice, Quot.sound |
| C101 | `Verif.Serve.C101_wait` | propext, Classical.choice, Quot.sound |
| C101 | `Verif.Serve.C101_fair` | propext, Classical.choice, Quot.sound |
| C101 | `Verif.Serve.C101_ends` | propext, Classical.choice, Quot.sound |
| C101 | `Verif.Serve.C101_bulk` | propext, Classical.choice, Quot.sound |
| C101 | `Verif.Serve.Ex.C101_starves` | propext, Classical.choice, Quot.sound |
| C102 | `Verif.Vis.C102_blocking` | propext, Classical.choice, Quot.sound |
| C102 | `Verif.Vis.C102_call` | propext, Classical.choice, Quot.sound |
| C102 | `Verif.Vis.C102_quiet_partial` | propext, Classical.choice, Quot.sound |
| C102 | `Verif.Vis.C102_enter` | propext, Classical.choice, Quot.sound |
| C102 | `Verif.Vis.C102_barrier` | propext, Classical.choice, Quot.sound |
| C102 | `Verif.Vis.C102_arrives_partial` | propext, Classical.choice, Quot.sound |
| C102 | `Verif.Vis.C102_arrives_barrier_partial` | propext, Classical.choice, Quot.sound |
| C102 | `Verif.Vis.C102_message_partial` | propext, Classical.choice, Quot.sound |
| C102 | `Verif.Vis.C102_exists` | propext, Classical.choice, Quot.sound |
| C102 | `Verif.Vis.C102_issue` | propext, Classical.choice, Quot.sound |
| C103 | `Verif.Gpu.C103_query` | propext, Quot.sound |
| C103 | `Verif.Gpu.C103_rma_partial` | propext, Classical.choice, Quot.sound |
| C103 | `Verif.Gpu.C103_host` | propext, Classical.choice, Quot.sound |
| C103 | `Verif.Gpu.C103_amo` | propext |
| C103 | `Verif.Gpu.C103_create` | propext, Quot.sound |
| C103 | `Verif.Gpu.C103_lifecycle` | propext, Classical.choice, Quot.sound |
| C103 | `Verif.Gpu.C103_run_partial` | propext, Classical.choice, Quot.sound |
| C103 | `Verif.Gpu.C103_hints` | propext, Classical.choice, Quot.sound |
| C103 | `Verif.Gpu.C103_amo_fails` | propext, Classical.choice, Quot.sound |
| C103 | `Verif.Gpu.C103_acc_fails` | propext |
| C103 | `Verif.Gpu.C103_cpu_fails` | propext |
| C103 | `Verif.Gpu.C103_wait_fails` | propext |
| C103 | `Verif.Gpu.C103_both_fails` | propext |
| C103 | `Verif.Gpu.C103_mixed_fails` | propext |
| C103 | `Verif.Gpu.C103_forced_fails` | propext |
| C104 | `Verif.Bsp.C104_program_partial` | propext, Classical.choice, Quot.sound |
| C104 | `Verif.Bsp.C104_sees_partial` | propext, Classical.choice, Quot.sound |
| C104 | `Verif.Bsp.C104_barrier_partial` | propext, Classical.choice, Quot.sound |
| C104 | `Verif.Bsp.C104_constant_partial` | propext, Classical.choice, Quot.sound |
| C104 | `Verif.Bsp.C104_phase_partial` | propext, Classical.choice, Quot.sound |
| C104 | `Verif.Bsp.C104_deterministic_partial` | propext, Classical.choice, Quot.sound |
| C104 | `Verif.Bsp.C104_inTurn` | propext, Classical.choice, Quot.sound |
| C104 | `Verif.Bsp.C104_unique` | propext, Classical.choice, Quot.sound |
| C104 | `Verif.Bsp.C104_ring_partial` | propext, Classical.choice, Quot.sound |
| C105 | `Verif.Bsp.C105_completes_partial` | propext, Classical.choice, Quot.sound |
| C105 | `Verif.Bsp.C105_result_partial` | propext, Classical.choice, Quot.sound |
| C106 | `Verif.Bsp.C106_moves_partial` | propext, Classical.choice, Quot.sound |
| C106 | `Verif.Bsp.C106_program_partial` | propext, Classical.choice, Quot.sound |
| C106 | `Verif.Bsp.C106_barrier_partial` | propext, Classical.choice, Quot.sound |
| C106 | `Verif.Bsp.C106_phase_partial` | propext, Classical.choice, Quot.sound |
| C106 | `Verif.Bsp.C106_accepted` | propext, Classical.choice, Quot.sound |
| C106 | `Verif.Bsp.C106_completes_partial` | propext, Classical.choice, Quot.sound |
| C106 | `Verif.Bsp.C106_result_partial` | propext, Classical.choice, Quot.sound |
| C107 | `Verif.Bsp.C107_counts_partial` | propext, Classical.choice, Quot.sound |
| C107 | `Verif.Bsp.C107_accepted` | propext, Classical.choice, Quot.sound |
| C107 | `Verif.Bsp.C107_exists_partial` | propext, Classical.choice, Quot.sound |
| C107 | `Verif.Bsp.C107_sum_partial` | propext, Classical.choice, Quot.sound |
| C107 | `Verif.Bsp.C107_sum_exists` | propext, Classical.choice, Quot.sound |
| C108 | `Verif.Sig.C108_relied` | propext, Classical.choice, Quot.sound |
| C108 | `Verif.Sig.C108_program` | propext, Classical.choice, Quot.sound |
| C108 | `Verif.Sig.C108_message` | propext, Classical.choice, Quot.sound |
| C108 | `Verif.Sig.C108_result` | propext, Classical.choice, Quot.sound |
| C108 | `Verif.Sig.C108_same` | propext, Classical.choice, Quot.sound |
| C108 | `Verif.Sig.C108_ends` | propext, Classical.choice, Quot.sound |
| C108 | `Verif.Sig.C108_moves_partial` | propext, Classical.choice, Quot.sound |
| C108 | `Verif.Sig.C108_calls_partial` | propext, Classical.choice, Quot.sound |
| C108 | `Verif.Sig.C108_named_partial` | propext, Classical.choice, Quot.sound |
| C108 | `Verif.Sig.C108_exists_partial` | propext, Classical.choice, Quot.sound |
| C108 | `Verif.Sig.C108_chain_partial` | propext, Classical.choice, Quot.sound |
| C108 | `Verif.Sig.C108_chain_ends_partial` | propext, Classical.choice, Quot.sound |
| C108 | `Verif.Sig.C108_chain_exists` | propext, Classical.choice, Quot.sound |
| C109 | `Verif.Crit.C109_ends_partial` | propext, Classical.choice, Quot.sound |
| C109 | `Verif.Crit.C109_exists_partial` | propext, Classical.choice, Quot.sound |
| C109 | `Verif.Crit.C109_count_partial` | propext, Classical.choice, Quot.sound |
| C109 | `Verif.Crit.C109_reads_partial` | propext, Classical.choice, Quot.sound |
| C109 | `Verif.Crit.C109_counter_partial` | propext, Classical.choice, Quot.sound |
| C109 | `Verif.Crit.C109_named` | propext, Classical.choice, Quot.sound |
| C109 | `Verif.Crit.C109_accepted` | propext, Classical.choice, Quot.sound |
| C109 | `Verif.Crit.C109_job_partial` | propext, Classical.choice, Quot.sound |
| C11 | `Verif.C11_align_least` | propext, Classical.choice, Quot.sound |
| C11 | `Verif.C11_align_wraps` | propext, Classical.choice, Quot.sound |
| C11 | `Verif.C11_align_multiple` | propext, Classical.choice, Quot.sound |
| C110 | `Verif.Crit.C110_sequential_partial` | propext, Classical.choice, Quot.sound |
| C110 | `Verif.Crit.C110_result_partial` | propext, Classical.choice, Quot.sound |
| C110 | `Verif.Crit.C110_section` | propext, Classical.choice, Quot.sound |
| C111 | `Verif.Crit.Mix.C111_sequential_partial` | propext, Classical.choice, Quot.sound |
| C111 | `Verif.Crit.Mix.C111_end_partial` | propext, Classical.choice, Quot.sound |
| C111 | `Verif.Crit.Mix.C111_exists_partial` | propext, Classical.choice, Quot.sound |
| C112 | `Verif.Gpu.Ze.C112_found` | propext, Classical.choice, Quot.sound |
| C112 | `Verif.Gpu.Ze.C112_starts_partial` | propext, Quot.sound |
| C112 | `Verif.Gpu.Ze.C112_none` | propext, Quot.sound |
| C112 | `Verif.Gpu.Ze.C112_arrays` | propext, Classical.choice, Quot.sound |
| C112 | `Verif.Gpu.Ze.C112_fails` | propext, Quot.sound |
| C113 | `Verif.Crit.Mix.C113_ends_partial` | propext, Classical.choice, Quot.sound |
| C113 | `Verif.Crit.Mix.C113_result_partial` | propext, Classical.choice, Quot.sound |
| C113 | `Verif.Crit.Mix.C113_exists_partial` | propext, Classical.choice, Quot.sound |
| C113 | `Verif.Crit.Mix.C113_tally_partial` | propext, Classical.choice, Quot.sound |
| C114 | `Verif.Crit.Mix.C114_sequential_partial` | propext, Classical.choice, Quot.sound |
| C114 | `Verif.Crit.Mix.C114_end_partial` | propext, Classical.choice, Quot.sound |
| C114 | `Verif.Crit.Mix.C114_result_partial` | propext, Classical.choice, Quot.sound |
| C114 | `Verif.Crit.Mix.C114_exists_partial` | propext, Classical.choice, Quot.sound |
| C114 | `Verif.Crit.Mix.C114_announce_partial` | propext, Classical.choice, Quot.sound |
| C114 | `Verif.Crit.Mix.C114_job_partial` | propext, Classical.choice, Quot.sound |
| C115 | `Verif.Bsp.C115_check_partial` | propext, Classical.choice, Quot.sound |
| C115 | `Verif.Bsp.C115_passes_partial` | propext, Classical.choice, Quot.sound |
| C115 | `Verif.Bsp.C115_exists` | propext, Classical.choice, Quot.sound |
| C116 | `Verif.Flow.C116_counter` | propext, Classical.choice, Quot.sound |
| C116 | `Verif.Flow.C116_fetch` | propext, Classical.choice, Quot.sound |
| C116 | `Verif.Flow.C116_alone` | propext, Classical.choice, Quot.sound |
| C117 | `Verif.Bsp.C117_check_partial` | propext, Classical.choice, Quot.sound |
| C117 | `Verif.Bsp.C117_passes_partial` | propext, Classical.choice, Quot.sound |
| C117 | `Verif.Bsp.C117_exists` | propext, Classical.choice, Quot.sound |
| C117 | `Verif.Bsp.expected_same` | propext |
| C118 | `Verif.Flow.C118_value` | propext, Classical.choice, Quot.sound |
| C118 | `Verif.Flow.C118_fetch` | propext, Classical.choice, Quot.sound |
| C118 | `Verif.Flow.C118_last` | propext, Classical.choice, Quot.sound |
| C118 | `Verif.Flow.C118_read` | propext, Classical.choice, Quot.sound |
| C118 | `Verif.Flow.C118_flag` | propext, Classical.choice, Quot.sound |
| C118 | `Verif.Flow.C118_seen` | propext, Classical.choice, Quot.sound |
| C119 | `Verif.Flow.C119_arrives_partial` | propext, Classical.choice, Quot.sound |
| C119 | `Verif.Flow.C119_fetch_partial` | propext, Classical.choice, Quot.sound |
| C119 | `Verif.Flow.C119_loop_partial` | propext, Classical.choice, Quot.sound |
| C12 | `Verif.Sobj.C12_round_trip` | propext, Classical.choice, Quot.sound |
| C12 | `Verif.Sobj.C12_injective` | propext, Classical.choice, Quot.sound |
| C12 | `Verif.Sobj.C12_large_index_breaks` | propext, Quot.sound |
| C120 | `Verif.Flow.C120_safe` | propext, Classical.choice, Quot.sound |
| C120 | `Verif.Flow.C120_wait_partial` | propext, Classical.choice, Quot.sound |
| C13 | `Verif.Sobj.C13_reaches_counterpart` | propext, Classical.choice, Quot.sound |
| C13 | `Verif.Sobj.C13_flag_agrees` | propext, Quot.sound |
| C13 | `Verif.Sobj.C13_disp_nonneg` | propext, Classical.choice, Quot.sound |
| C13 | `Verif.Lock.C13_lock_exact` | propext, Classical.choice, Quot.sound |
| C13 | `Verif.Lock.C13_lock_violation` | propext, Classical.choice, Quot.sound |
| C14 | `Verif.Space.C14_attached_space` | propext, Classical.choice, Quot.sound |
| C14 | `Verif.Space.C14_heap_data` | propext, Classical.choice, Quot.sound |
| C14 | `Verif.Space.C14_unattached_aborts` | propext, Classical.choice, Quot.sound |
| C15 | `Verif.Sobj.C15_lookup` | propext, Quot.sound |
| C16 | `Verif.Space.C16_never_reused` | propext, Classical.choice, Quot.sound |
| C16 | `Verif.Space.C16_agree` | propext, Classical.choice, Quot.sound |
| C16 | `Verif.Space.C16_registry` | propext, Classical.choice, Quot.sound |
| C17 | `Verif.Rma.C17_put_partial` | propext, Classical.choice, Quot.sound |
| C17 | `Verif.Rma.C17_get_partial` | propext, Classical.choice, Quot.sound |
| C17 | `Verif.Rma.C17_zero` | propext, Quot.sound |
| C17 | `Verif.Rma.C17_put_symmetric_partial` | propext, Classical.choice, Quot.sound |
| C17 | `Verif.Rma.C17_am_fails` | propext, Quot.sound |
| C17 | `Verif.Rma.C17_get_symmetric_partial` | propext, Classical.choice, Quot.sound |
| C17 | `Verif.Rma.C17_put_counts` | propext, Classical.choice, Quot.sound |
| C17 | `Verif.Rma.C17_get_counts` | propext, Classical.choice, Quot.sound |
| C17 | `Verif.Rma.C17_get_am_fails` | propext, Classical.choice, Quot.sound |
| C18 | `Verif.Rma.C18_iput_partial` | propext, Classical.choice, Quot.sound |
| C18 | `Verif.Rma.C18_iget_partial` | propext, Classical.choice, Quot.sound |
| C18 | `Verif.Rma.C18_path_independent` | propext, Quot.sound |
| C18 | `Verif.Rma.C18_unit_stride` | propext, Classical.choice, Quot.sound |
| C18 | `Verif.Rma.C18_large_stride_fails` | propext, Classical.choice, Quot.sound |
| C18 | `Verif.Coll.C18_iput_counts` | propext, Classical.choice, Quot.sound |
| C18 | `Verif.Coll.C18_iget_counts` | propext, Classical.choice, Quot.sound |
| C19 | `Verif.Rma.C19_count_is_int_partial` | propext, Classical.choice, Quot.sound |
| C19 | `Verif.Rma.C19_fails` | propext, Classical.choice, Quot.sound |
| C20 | `Verif.Rma.C20_transparent` | propext, Classical.choice, Quot.sound |
| C20 | `Verif.Rma.C20_obtained_unique` | propext, Classical.choice, Quot.sound |
| C21 | `Verif.Am.C21_flush` | propext, Classical.choice, Quot.sound |
| C21 | `Verif.Am.flush_skip` | propext |
| C22 | `Verif.Am.C22_order` | propext, Classical.choice, Quot.sound |
| C22 | `Verif.Am.C22_none_lost` | propext, Classical.choice, Quot.sound |
| C22 | `Verif.Am.C22_read_own` | propext, Classical.choice, Quot.sound |
| C23 | `Verif.Am.C23_linear` | propext, Classical.choice, Quot.sound |
| C23 | `Verif.Am.C23_realtime` | propext |
| C23 | `Verif.Am.C23_fetch_inc` | propext, Classical.choice, Quot.sound |
| C23 | `Verif.Am.numbers_lt` | propext, Quot.sound |
| C23 | `Verif.Am.numbers_disjoint` | propext, Quot.sound |
| C24 | `Verif.Amo.C24_unsigned` | propext, Classical.choice, Quot.sound |
| C24 | `Verif.Amo.C24_signed_partial` | propext, Classical.choice, Quot.sound |
| C24 | `Verif.Amo.C24_signed_iff` | propext, Classical.choice, Quot.sound |
| C24 | `Verif.Amo.C24_ok` | propext, Classical.choice, Quot.sound |
| C24 | `Verif.Amo.C24_signed_overflow_ub` | propext, Classical.choice, Quot.sound |
| C24 | `Verif.Amo.C24_direct` | propext, Classical.choice, Quot.sound |
| C24 | `Verif.Amo.C24_fp` | propext, Classical.choice, Quot.sound |
| C24 | `Verif.Amo.C24_unsupported_aborts` | propext |
| C25 | `Verif.Am.C25_header` | propext, Classical.choice, Quot.sound |
| C25 | `Verif.Am.C25_payload` | propext, Classical.choice, Quot.sound |
| C25 | `Verif.Am.C25_never_bad` | propext, Classical.choice, Quot.sound |
| C26 | `Verif.Am.C26_unique_partial` | propext, Classical.choice, Quot.sound |
| C26 | `Verif.Am.C26_exhausted` | propext, Quot.sound |
| C27 | `Verif.Am.C27_progress` | propext, Classical.choice, Quot.sound |
| C27 | `Verif.Am.C27_bounded` | propext, Classical.choice, Quot.sound |
| C27 | `Verif.Am.C27_return` | propext, Classical.choice, Quot.sound |
| C28 | `Verif.Am.C28_finalize_partial` | propext, Classical.choice, Quot.sound |
| C28 | `Verif.Am.C28_fails` | propext, Classical.choice, Quot.sound |
| C28 | `Verif.Am.C28_fails_async` | propext, Classical.choice, Quot.sound |
| C29 | `Verif.Order.C29_quiet` | propext, Classical.choice, Quot.sound |
| C29 | `Verif.Order.C29_fence` | propext, Classical.choice, Quot.sound |
| C29 | `Verif.Order.C29_skip` | propext, Classical.choice, Quot.sound |
| C29 | `Verif.Order.C29_recorded` | propext, Quot.sound |
| C30 | `Verif.Order.C30_barrier_partial` | propext, Classical.choice, Quot.sound |
| C30 | `Verif.Order.C30_barrier_dyn` | propext, Classical.choice, Quot.sound |
| C30 | `Verif.Order.C30_stamp` | propext, Classical.choice, Quot.sound |
| C30 | `Verif.Order.C30_fails` | propext, Classical.choice, Quot.sound |
| C31 | `Verif.Order.C31_ctx_quiet_partial` | propext, Classical.choice, Quot.sound |
| C31 | `Verif.Order.C31_ctx_quiet_direct` | propext, Classical.choice, Quot.sound |
| C31 | `Verif.Order.C31_only` | propext, Classical.choice, Quot.sound |
| C31 | `Verif.Order.C31_fails` | propext |
| C32 | `Verif.Am.C32_threads_partial` | propext, Classical.choice, Quot.sound |
| C32 | `Verif.Am.C32_fails` | propext, Classical.choice, Quot.sound |
| C32 | `Verif.Order.Threads.C32_untracked` | propext, Quot.sound |
| C32 | `Verif.Order.Threads.C32_tracked_partial` | propext, Quot.sound |
| C32 | `Verif.Order.Threads.C32_serialized` | propext, Quot.sound |
| C32 | `Verif.Order.Threads.C32_tracked_fails` | propext, Quot.sound |
| C33 | `Verif.Coll.C33_comm` | propext, Classical.choice, Quot.sound |
| C33 | `Verif.Coll.C33_total` | propext, Quot.sound |
| C33 | `Verif.Coll.C33_created` | propext, Classical.choice, Quot.sound |
| C33 | `Verif.Coll.C33_agree` | propext, Classical.choice, Quot.sound |
| C33 | `Verif.Coll.C33_finalize` | propext, Classical.choice, Quot.sound |
| C33 | `Verif.Coll.C33_made_count` | propext, Classical.choice, Quot.sound |
| C33 | `Verif.Coll.C33_threads` | propext, Quot.sound |
| C33 | `Verif.Coll.C33_tag_fails` | propext, Quot.sound |
| C34 | `Verif.Coll.C34_partial` | propext, Classical.choice, Quot.sound |
| C34 | `Verif.Coll.C34_fails` | propext, Classical.choice, Quot.sound |
| C34 | `Verif.Coll.C34_get_fails` | propext, Quot.sound |
| C35 | `Verif.Coll.C35_fcollect_partial` | propext, Classical.choice, Quot.sound |
| C35 | `Verif.Coll.C35_collect_partial` | propext, Classical.choice, Quot.sound |
| C35 | `Verif.Coll.C35_same_choice_partial` | propext, Classical.choice, Quot.sound |
| C35 | `Verif.Coll.C35_count_fails` | propext, Quot.sound |
| C35 | `Verif.Coll.C35_displ_fails` | propext, Quot.sound |
| C35 | `Verif.Coll.C35_fcollect_fails` | propext, Classical.choice, Quot.sound |
| C35 | `Verif.Coll.C35_fcollect_counts` | propext, Quot.sound |
| C35 | `Verif.Coll.C35_collect_counts` | propext, Classical.choice, Quot.sound |
| C36 | `Verif.Coll.C36_alltoall_partial` | propext, Classical.choice, Quot.sound |
| C36 | `Verif.Coll.C36_alltoalls_partial` | propext, Classical.choice, Quot.sound |
| C36 | `Verif.Coll.C36_count_fails` | propext, Classical.choice, Quot.sound |
| C36 | `Verif.Coll.C36_alltoall_counts` | propext, Quot.sound |
| C36 | `Verif.Coll.C36_alltoalls_counts` | propext, Classical.choice, Quot.sound |
| C37 | `Verif.Coll.C37_int_partial` | propext, Classical.choice, Quot.sound |
| C37 | `Verif.Coll.C37_other_partial` | propext, Classical.choice, Quot.sound |
| C37 | `Verif.Coll.C37_count_fails` | propext, Classical.choice, Quot.sound |
| C37 | `Verif.Coll.C37_counts` | propext, Quot.sound |
| C38 | `Verif.Coll.C38_partial` | propext, Classical.choice, Quot.sound |
| C38 | `Verif.Coll.C38_count_fails` | propext, Classical.choice, Quot.sound |
| C38 | `Verif.Coll.C38_counts` | propext, Classical.choice, Quot.sound |
| C39 | `Verif.Team.C39_exact` | propext, Classical.choice, Quot.sound |
| C39 | `Verif.Team.C39_invalid_fails_partial` | propext, Quot.sound |
| C39 | `Verif.Team.C39_size_zero_accepted` | propext |
| C39 | `Verif.Team.C39_zero_stride_ub` | propext, Classical.choice, Quot.sound |
| C40 | `Verif.Team.C40_grid` | propext, Classical.choice, Quot.sound |
| C40 | `Verif.Team.C40_partition` | propext, Classical.choice, Quot.sound |
| C40 | `Verif.Team.C40_zero_ub` | propext |
| C41 | `Verif.Team.C41_my_pe` | propext, Classical.choice, Quot.sound |
| C41 | `Verif.Team.C41_translate_partial` | propext, Classical.choice, Quot.sound |
| C41 | `Verif.Team.C41_invalid` | propext, Quot.sound |
| C41 | `Verif.Team.C41_out_of_range_violation` | propext, Classical.choice, Quot.sound |
| C42 | `Verif.Space.Ctx.C42_exclusive` | propext, Quot.sound |
| C42 | `Verif.Space.Ctx.C42_fails_only_if_busy` | propext, Classical.choice, Quot.sound |
| C42 | `Verif.Space.Ctx.C42_obtainable` | propext, Classical.choice, Quot.sound |
| C42 | `Verif.Space.Ctx.C42_detach_iff` | propext, Classical.choice, Quot.sound |
| C43 | `Verif.P2p.C43_test` | propext, Classical.choice, Quot.sound |
| C43 | `Verif.P2p.C43_val` | propext |
| C43 | `Verif.P2p.C43_wait_safe` | propext, Classical.choice, Quot.sound |
| C43 | `Verif.P2p.C43_wait_live` | propext, Classical.choice, Quot.sound |
| C43 | `Verif.P2p.C43_wait_deprecated` | propext, Classical.choice, Quot.sound |
| C43 | `Verif.P2p.C43_bad_code` | propext, Quot.sound |
| C44 | `Verif.Env.C44_parse_partial` | propext, Classical.choice, Quot.sound |
| C44 | `Verif.Env.C44_exact` | propext, Classical.choice, Quot.sound |
| C44 | `Verif.Env.C44_default` | propext, Classical.choice, Quot.sound |
| C44 | `Verif.Env.C44_roundtrip` | propext, Classical.choice, Quot.sound |
| C44 | `Verif.Env.C44_dbg_roundtrip` | propext, Classical.choice, Quot.sound |
| C44 | `Verif.Env.C44_fails` | propext, Classical.choice, Quot.sound |
| C45 | `Verif.Env.C45_direct_iff` | propext, Quot.sound |
| C45 | `Verif.Env.C45_direct_atomic` | propext, Quot.sound |
| C45 | `Verif.Env.C45_which_covers` | propext, Quot.sound |
| C45 | `Verif.Env.C45_single_op_not_direct` | propext |
| C45 | `Verif.Env.C45_library_ops_not_covered` | propext |
| C45 | `Verif.Env.C45_overrides` | none |
| C46 | `Verif.Env.C46_integer_partial` | propext, Classical.choice, Quot.sound |
| C46 | `Verif.Env.C46_units` | propext |
| C46 | `Verif.Env.C46_decimal` | propext, Classical.choice, Quot.sound |
| C46 | `Verif.Env.C46_spec_example` | propext, Classical.choice, Quot.sound |
| C46 | `Verif.Env.C46_fails` | propext, Classical.choice, Quot.sound |
| C46 | `Verif.Env.C46_blanks` | propext, Classical.choice, Quot.sound |
| C46 | `Verif.Env.C46_exponent` | propext, Classical.choice, Quot.sound |
| C46 | `Verif.Env.C46_exponent_negative` | propext, Classical.choice, Quot.sound |
| C47 | `Verif.Heap.C47_served` | propext, Classical.choice, Quot.sound |
| C47 | `Verif.Heap.C47_accepted_partial` | propext, Classical.choice, Quot.sound |
| C47 | `Verif.Heap.C47_usable_partial` | propext, Classical.choice, Quot.sound |
| C47 | `Verif.Heap.C47_free_partial` | propext, Classical.choice, Quot.sound |
| C47 | `Verif.Heap.C47_exact_sound` | none |
| C47 | `Verif.Heap.C47_fails` | propext, Classical.choice, Quot.sound |
| C47 | `Verif.Heap.C47_exhaustion_fails` | propext, Classical.choice, Quot.sound |
| C47 | `Verif.Heap.C47_leak` | propext, Quot.sound |
| C48 | `Verif.Env.C48_level` | propext, Classical.choice, Quot.sound |
| C48 | `Verif.Env.C48_async` | propext, Classical.choice, Quot.sound |
| C48 | `Verif.Env.C48_unknown_aborts` | none |
| C48 | `Verif.Env.C48_query` | propext |
| C49 | `Verif.Env.C49_decision` | propext |
| C49 | `Verif.Env.C49_host` | propext, Quot.sound |
| C49 | `Verif.Env.C49_features_roundtrip` | propext, Classical.choice, Quot.sound |
| C49 | `Verif.Env.C49_features_parse` | propext, Classical.choice, Quot.sound |
| C50 | `Verif.Symm.C50_all_or_nothing` | propext, Classical.choice, Quot.sound |
| C50 | `Verif.Symm.C50_success` | propext, Classical.choice, Quot.sound |
| C51 | `Verif.Setup.C51_once_partial` | propext, Quot.sound |
| C51 | `Verif.Setup.C51_exit_partial` | propext, Quot.sound |
| C51 | `Verif.Setup.C51_world` | propext, Quot.sound |
| C51 | `Verif.Setup.C51_idempotent` | propext |
| C51 | `Verif.Setup.C51_order` | propext, Quot.sound |
| C51 | `Verif.Setup.C51_mpi` | none |
| C51 | `Verif.Setup.C51_leak` | none |
| C51 | `Verif.Setup.C51_user_mpi_fails` | none |
| C52 | `Verif.Heap.Bar.C52_alloc` | propext, Classical.choice, Quot.sound |
| C52 | `Verif.Heap.Bar.C52_free` | propext, Classical.choice, Quot.sound |
| C52 | `Verif.Heap.Bar.C52_reuse` | propext, Classical.choice, Quot.sound |
| C52 | `Verif.Heap.Bar.C52_zero` | propext, Classical.choice, Quot.sound |
| C52 | `Verif.Heap.Bar.C52_progress` | propext, Classical.choice, Quot.sound |
| C52 | `Verif.Heap.Bar.C52_realloc_partial` | propext, Classical.choice, Quot.sound |
| C52 | `Verif.Heap.Bar.C52_realloc_fails` | propext, Quot.sound |
| C53 | `Verif.MemPool.C53_calloc_ignores_count` | propext, Quot.sound |
| C53 | `Verif.MemPool.C53_calloc_exhausted` | propext, Quot.sound |
| C53 | `Verif.MemPool.C53_align_unaligned` | propext, Quot.sound |
| C53 | `Verif.MemPool.C53_calloc_partial` | propext, Classical.choice, Quot.sound |
| C53 | `Verif.MemPool.C53_align_partial` | propext, Classical.choice, Quot.sound |
| C54 | `Verif.UtList.C54_append` | propext, Quot.sound |
| C54 | `Verif.UtList.C54_prepend` | propext |
| C54 | `Verif.UtList.C54_delete` | propext, Classical.choice, Quot.sound |
| C54 | `Verif.UtList.C54_delete_empty` | propext |
| C54 | `Verif.UtList.C54_foreach` | propext |
| C54 | `Verif.UtList.C54_search` | propext |
| C54 | `Verif.UtList.C54_delete_all` | propext, Quot.sound |
| C54 | `Verif.UtList.C54_space_list` | propext, Classical.choice, Quot.sound |
| C55 | `Verif.Team.C55_shared_is_world` | propext, Classical.choice, Quot.sound |
| C55 | `Verif.Team.C55_fails` | propext, Classical.choice, Quot.sound |
| C55 | `Verif.Team.C55_one_node_partial` | propext, Classical.choice, Quot.sound |
| C56 | `Verif.Order.C56_quiet_partial` | propext, Classical.choice, Quot.sound |
| C56 | `Verif.Order.C56_barrier` | propext, Classical.choice, Quot.sound |
| C56 | `Verif.Order.C56_fails_null` | propext |
| C56 | `Verif.Order.C56_fails_unattached` | propext |
| C56 | `Verif.Order.C56_fails_stale` | propext |
| C57 | `Verif.Order.C57_active_barrier_partial` | propext, Classical.choice, Quot.sound |
| C57 | `Verif.Order.C57_fails` | propext |
| C58 | `Verif.Symm.C58_release_partial` | propext, Classical.choice, Quot.sound |
| C58 | `Verif.Symm.C58_fails` | propext, Classical.choice, Quot.sound |
| C59 | `Verif.Setup.Hs.C59_stopped` | propext |
| C59 | `Verif.Setup.Hs.C59_objects_partial` | propext |
| C59 | `Verif.Setup.Hs.C59_progress` | propext |
| C59 | `Verif.Setup.Hs.C59_return` | propext |
| C59 | `Verif.Setup.Hs.C59_signal_fails` | none |
| C60 | `Verif.Heap.C60_blocks` | propext, Classical.choice, Quot.sound |
| C60 | `Verif.Heap.C60_metadata` | propext, Classical.choice, Quot.sound |
| C60 | `Verif.Heap.C60_free_ok` | propext, Classical.choice, Quot.sound |
| C60 | `Verif.Heap.C60_align` | propext, Classical.choice, Quot.sound |
| C60 | `Verif.Heap.C60_calloc` | propext, Classical.choice, Quot.sound |
| C61 | `Verif.Heap.C61_offsets_partial` | propext, Quot.sound |
| C61 | `Verif.Heap.C61_fails` | propext, Quot.sound |
| C61 | `Verif.Dl.C61_actual_partial` | propext, Quot.sound |
| C61 | `Verif.Dl.C61_actual_fails` | propext, Quot.sound |
| C62 | `Verif.Heap.C62_empty` | propext, Classical.choice, Quot.sound |
| C62 | `Verif.Heap.C62_extended` | propext, Classical.choice, Quot.sound |
| C62 | `Verif.Dl.C62_restart` | propext, Classical.choice, Quot.sound |
| C63 | `Verif.Api.C63_put_partial` | propext, Classical.choice, Quot.sound |
| C63 | `Verif.Api.C63_get_partial` | propext, Classical.choice, Quot.sound |
| C63 | `Verif.Api.C63_sized_get_fails` | propext, Quot.sound |
| C64 | `Verif.Api.C64_pe` | propext, Classical.choice, Quot.sound |
| C64 | `Verif.Api.C64_accessible_found` | propext, Quot.sound |
| C64 | `Verif.Api.C64_accessible_iff_partial` | propext, Quot.sound |
| C64 | `Verif.Api.C64_space_fails` | propext |
| C64 | `Verif.Api.C64_ptr` | propext |
| C65 | `Verif.Vis.C65_barrier_partial` | propext, Classical.choice, Quot.sound |
| C65 | `Verif.Vis.C65_phases_partial` | propext, Classical.choice, Quot.sound |
| C65 | `Verif.Vis.C65_space_fails` | propext, Quot.sound |
| C65 | `Verif.Vis.put_link` | propext, Classical.choice, Quot.sound |
| C65 | `Verif.Vis.iput_link` | propext, Classical.choice, Quot.sound |
| C66 | `Verif.Vis.C66_fence` | propext, Classical.choice, Quot.sound |
| C66 | `Verif.Vis.C66_message` | propext, Classical.choice, Quot.sound |
| C67 | `Verif.Vis.C67_sum_partial` | propext, Classical.choice, Quot.sound |
| C68 | `Verif.Vis.C68_get` | propext, Classical.choice, Quot.sound |
| C68 | `Verif.Vis.C68_get_nbi` | propext, Classical.choice, Quot.sound |
| C68 | `Verif.Vis.get_link` | propext, Classical.choice, Quot.sound |
| C68 | `Verif.Vis.iget_link` | propext, Classical.choice, Quot.sound |
| C69 | `Verif.Stub.C69_abort_partial` | propext |
| C69 | `Verif.Stub.C69_ndebug_fails` | propext, Quot.sound |
| C69 | `Verif.Stub.C69_ctx` | propext |
| C69 | `Verif.Stub.C69_team_sync` | none |
| C69 | `Verif.Stub.C69_team_sync_fails` | none |
| C70 | `Verif.Dl.C70_refines` | propext, Classical.choice, Quot.sound |
| C70 | `Verif.Dl.C70_total` | propext, Classical.choice, Quot.sound |
| C70 | `Verif.Dl.C70_blocks` | propext, Classical.choice, Quot.sound |
| C71 | `Verif.Dl.C71_malloc_partial` | propext, Classical.choice, Quot.sound |
| C71 | `Verif.Dl.C71_calloc_partial` | propext, Classical.choice, Quot.sound |
| C71 | `Verif.Dl.C71_realloc_partial` | propext, Classical.choice, Quot.sound |
| C71 | `Verif.Dl.C71_align_partial` | propext, Classical.choice, Quot.sound |
| C71 | `Verif.Dl.C71_fails` | propext, Quot.sound |
| C72 | `Verif.Dl.C72_bestfit_partial` | propext, Classical.choice, Quot.sound |
| C72 | `Verif.Dl.C72_fails` | propext, Classical.choice, Quot.sound |
| C73 | `Verif.Vis.C73_linear` | propext, Classical.choice, Quot.sound |
| C73 | `Verif.Vis.C73_once` | propext, Classical.choice, Quot.sound |
| C73 | `Verif.Vis.C73_at_most_once` | propext, Classical.choice, Quot.sound |
| C73 | `Verif.Vis.C73_exactly_once_partial` | propext, Classical.choice, Quot.sound |
| C74 | `Verif.Vis.C74_prefix` | propext, Classical.choice, Quot.sound |
| C74 | `Verif.Vis.C74_tickets` | propext, Classical.choice, Quot.sound |
| C75 | `Verif.Vis.C75_winner` | propext, Classical.choice, Quot.sound |
| C75 | `Verif.Vis.C75_between` | propext, Classical.choice, Quot.sound |
| C76 | `Verif.Vis.C76_spinlock` | propext, Classical.choice, Quot.sound |
| C77 | `Verif.Api.C77_int_partial` | propext, Classical.choice, Quot.sound |
| C77 | `Verif.Api.C77_fp_partial` | propext, Classical.choice, Quot.sound |
| C77 | `Verif.Api.C77_char_fails` | propext, Quot.sound |
| C77 | `Verif.Api.C77_all` | none |
| C78 | `Verif.Tag.C78_refines` | propext, Classical.choice, Quot.sound |
| C78 | `Verif.Tag.C78_realised` | propext, Classical.choice, Quot.sound |
| C78 | `Verif.Tag.C78_total` | propext, Classical.choice, Quot.sound |
| C78 | `Verif.Tag.C78_data_independent` | propext, Classical.choice, Quot.sound |
| C78 | `Verif.Tag.C78_headers` | propext, Classical.choice, Quot.sound |
| C79 | `Verif.Tag.C79_keep` | propext, Classical.choice, Quot.sound |
| C79 | `Verif.Tag.C79_realloc` | propext, Classical.choice, Quot.sound |
| C79 | `Verif.Tag.C79_realloc_null` | propext, Classical.choice, Quot.sound |
| C79 | `Verif.Tag.C79_calloc` | propext, Classical.choice, Quot.sound |
| C79 | `Verif.Tag.C79_bounds` | propext, Classical.choice, Quot.sound |
| C80 | `Verif.Team.C80_agree` | propext, Classical.choice, Quot.sound |
| C80 | `Verif.Team.C80_self` | propext, Classical.choice, Quot.sound |
| C81 | `Verif.Api.C81_broadcast_partial` | propext, Classical.choice, Quot.sound |
| C81 | `Verif.Api.C81_collect_partial` | propext, Classical.choice, Quot.sound |
| C81 | `Verif.Api.C81_fcollect_partial` | propext, Classical.choice, Quot.sound |
| C81 | `Verif.Api.C81_alltoall_partial` | propext, Classical.choice, Quot.sound |
| C81 | `Verif.Api.C81_alltoalls_partial` | propext, Classical.choice, Quot.sound |
| C81 | `Verif.Api.C81_collect_aset_partial` | propext, Classical.choice, Quot.sound |
| C81 | `Verif.Api.C81_fcollect_aset_partial` | propext, Classical.choice, Quot.sound |
| C81 | `Verif.Api.C81_alltoall_aset_partial` | propext, Classical.choice, Quot.sound |
| C81 | `Verif.Api.C81_alltoalls_aset_partial` | propext, Classical.choice, Quot.sound |
| C81 | `Verif.Api.C81_broadcast_aset_partial` | propext, Classical.choice, Quot.sound |
| C81 | `Verif.Api.C81_reduce_partial` | propext, Classical.choice, Quot.sound |
| C81 | `Verif.Api.C81_reduce_aset_partial` | propext, Classical.choice, Quot.sound |
| C82 | `Verif.Lnk.C82_total` | propext, Classical.choice, Quot.sound |
| C82 | `Verif.Lnk.C82_refines` | propext, Classical.choice, Quot.sound |
| C82 | `Verif.Lnk.C82_realised` | propext, Classical.choice, Quot.sound |
| C82 | `Verif.Lnk.C82_data_independent` | propext, Classical.choice, Quot.sound |
| C82 | `Verif.Lnk.C82_keep` | propext, Classical.choice, Quot.sound |
| C82 | `Verif.Lnk.C82_realloc` | propext, Classical.choice, Quot.sound |
| C82 | `Verif.Lnk.C82_realloc_null` | propext, Classical.choice, Quot.sound |
| C82 | `Verif.Lnk.C82_calloc` | propext, Classical.choice, Quot.sound |
| C82 | `Verif.Lnk.C82_lists` | propext, Classical.choice, Quot.sound |
| C82 | `Verif.Lnk.C82_tries` | propext, Classical.choice, Quot.sound |
| C82 | `Verif.Lnk.C82_bounds` | propext, Classical.choice, Quot.sound |
| C82 | `Verif.Lnk.C82_create_bounds` | propext, Quot.sound |
| C83 | `Verif.Serve.C83_sound` | propext, Quot.sound |
| C83 | `Verif.Serve.C83_cause` | propext, Classical.choice, Quot.sound |
| C83 | `Verif.Serve.C83_progress_partial` | propext, Classical.choice, Quot.sound |
| C83 | `Verif.Serve.C83_ends_partial` | propext, Classical.choice, Quot.sound |
| C83 | `Verif.Serve.C83_direct_partial` | propext, Classical.choice, Quot.sound |
| C83 | `Verif.Serve.C83_hangs` | propext, Quot.sound |
| C83 | `Verif.Serve.C83_poll_fails` | propext, Quot.sound |
| C83 | `Verif.Serve.C83_test` | propext, Quot.sound |
| C83 | `Verif.Serve.Ex.C83_split_fails` | propext, Quot.sound |
| C83 | `Verif.Serve.Ex.C83_activeset_fails` | propext, Quot.sound |
| C83 | `Verif.Serve.Ex.C83_attach_fails` | propext, Quot.sound |
| C83 | `Verif.Serve.Ex.C83_detach_fails` | propext, Quot.sound |
| C83 | `Verif.Serve.Ex.C83_testlock_fails` | propext, Quot.sound |
| C84 | `Verif.Cs.C84_exclusive` | propext, Classical.choice, Quot.sound |
| C84 | `Verif.Cs.C84_alive` | propext, Classical.choice, Quot.sound |
| C84 | `Verif.Cs.C84_destroy_alone` | propext, Classical.choice, Quot.sound |
| C84 | `Verif.Cs.C84_released` | propext, Classical.choice, Quot.sound |
| C84 | `Verif.Cs.C84_unlock` | propext, Classical.choice, Quot.sound |
| C84 | `Verif.Cs.C84_relock` | propext, Classical.choice, Quot.sound |
| C84 | `Verif.Cs.C84_wait` | propext, Classical.choice, Quot.sound |
| C84 | `Verif.Cs.C84_lock_granted` | propext, Classical.choice, Quot.sound |
| C84 | `Verif.Cs.C84_safe_partial` | propext, Classical.choice, Quot.sound |
| C84 | `Verif.Cs.C84_violation_publish` | propext, Quot.sound |
| C84 | `Verif.Cs.C84_violation_detach` | propext, Quot.sound |
| C84 | `Verif.Cs.C84_violation_unattached` | propext, Quot.sound |
| C85 | `Verif.Setup.C85_order` | propext, Quot.sound |
| C85 | `Verif.Setup.C85_call_partial` | propext, Quot.sound |
| C85 | `Verif.Setup.C85_exact` | propext, Quot.sound |
| C85 | `Verif.Setup.C85_ends` | propext, Quot.sound |
| C85 | `Verif.Setup.C85_handlers` | propext, Classical.choice, Quot.sound |
| C85 | `Verif.Setup.C85_default` | propext |
| C85 | `Verif.Setup.C85_violation` | propext |
| C85 | `Verif.Setup.C85_default_violation` | none |
| C86 | `Verif.Api.C86_compiles` | propext |
| C86 | `Verif.Api.C86_selects` | propext, Quot.sound |
| C86 | `Verif.Api.C86_accepts_partial` | propext, Quot.sound |
| C86 | `Verif.Api.C86_reduce_generic` | propext, Quot.sound |
| C86 | `Verif.Api.C86_types` | propext |
| C86 | `Verif.Api.C86_rma` | propext, Quot.sound |
| C86 | `Verif.Api.C86_amo` | propext, Quot.sound |
| C86 | `Verif.Api.C86_reduce` | propext, Quot.sound |
| C86 | `Verif.Api.C86_sync` | propext, Classical.choice, Quot.sound |
| C86 | `Verif.Api.C86_const_violation` | propext, Classical.choice, Quot.sound |
| C87 | `Verif.Api.C87_partial` | propext, Classical.choice, Quot.sound |
| C87 | `Verif.Api.C87_symmetric_partial` | propext, Classical.choice, Quot.sound |
| C87 | `Verif.Api.C87_generic` | propext, Quot.sound |
| C87 | `Verif.Api.C87_overflow_violation` | propext, Classical.choice, Quot.sound |
| C88 | `Verif.Api.C88_routines` | propext |
| C88 | `Verif.Api.C88_partial` | propext, Classical.choice, Quot.sound |
| C88 | `Verif.Api.C88_runs` | propext, Classical.choice, Quot.sound |
| C88 | `Verif.Api.C88_symmetric_partial` | propext, Classical.choice, Quot.sound |
| C88 | `Verif.Api.C88_sized_get_violation` | propext, Quot.sound |
| C88 | `Verif.Api.C88_generic` | propext, Quot.sound |
| C89 | `Verif.Lock.C89_locks_partial` | propext, Classical.choice, Quot.sound |
| C89 | `Verif.Lock.C89_frame_partial` | propext, Classical.choice, Quot.sound |
| C89 | `Verif.Lock.C89_defined` | propext, Classical.choice, Quot.sound |
| C89 | `Verif.Lock.C89_test_partial` | propext, Classical.choice, Quot.sound |
| C89 | `Verif.Lock.C89_reusable_partial` | propext, Classical.choice, Quot.sound |
| C89 | `Verif.Lock.C89_exclusion_violation` | propext, Quot.sound |
| C89 | `Verif.Lock.C89_frame_violation` | propext, Quot.sound |
| C90 | `Verif.Lock.C90_progress_partial` | propext, Classical.choice, Quot.sound |
| C90 | `Verif.Lock.C90_clear_test_partial` | propext, Classical.choice, Quot.sound |
| C90 | `Verif.Lock.C90_order_needed` | propext, Classical.choice, Quot.sound |
| C91 | `Verif.Api.C91_wait` | propext, Classical.choice, Quot.sound |
| C91 | `Verif.Api.C91_test` | propext, Classical.choice, Quot.sound |
| C91 | `Verif.Api.C91_live` | propext, Classical.choice, Quot.sound |
| C91 | `Verif.Api.C91_not_symmetric` | propext, Quot.sound |
| C91 | `Verif.Api.C91_generic` | propext, Quot.sound |
| C92 | `Verif.Team.Life.C92_handles` | propext, Classical.choice, Quot.sound |
| C92 | `Verif.Team.Life.C92_split` | propext, Classical.choice, Quot.sound |
| C92 | `Verif.Team.Life.C92_destroy` | propext, Classical.choice, Quot.sound |
| C92 | `Verif.Team.Life.C92_released` | propext, Classical.choice, Quot.sound |
| C92 | `Verif.Team.Life.C92_dangling` | none |
| C92 | `Verif.Team.Life.C92_invalid` | propext |
| C93 | `Verif.Flow.C93_fence` | propext, Classical.choice, Quot.sound |
| C93 | `Verif.Flow.C93_message` | propext, Classical.choice, Quot.sound |
| C93 | `Verif.Flow.C93_poll` | propext, Classical.choice, Quot.sound |
| C93 | `Verif.Flow.C93_get` | propext, Classical.choice, Quot.sound |
| C93 | `Verif.Flow.C93_get_nbi` | propext, Classical.choice, Quot.sound |
| C93 | `Verif.Flow.C93_call` | propext, Classical.choice, Quot.sound |
| C93 | `Verif.Flow.C93_barrier_partial` | propext, Classical.choice, Quot.sound |
| C94 | `Verif.Vis.C94_settles` | propext, Classical.choice, Quot.sound |
| C94 | `Verif.Vis.C94_barrier` | propext, Classical.choice, Quot.sound |
| C94 | `Verif.Vis.C94_quiet_partial` | propext, Classical.choice, Quot.sound |
| C94 | `Verif.Vis.noFault_safe` | propext, Classical.choice, Quot.sound |
| C94 | `Verif.Vis.C94_issue` | propext, Classical.choice, Quot.sound |
| C95 | `Verif.Flow.C95_put_partial` | propext, Classical.choice, Quot.sound |
| C95 | `Verif.Flow.C95_get_partial` | propext, Classical.choice, Quot.sound |
| C95 | `Verif.Flow.C95_call_partial` | propext, Classical.choice, Quot.sound |
| C95 | `Verif.Flow.C95_barrier_partial` | propext, Classical.choice, Quot.sound |
| C95 | `Verif.Flow.C95_fence_partial` | propext, Classical.choice, Quot.sound |
| C95 | `Verif.Flow.C95_message_partial` | propext, Classical.choice, Quot.sound |
| C95 | `Verif.Flow.C95_read_partial` | propext, Classical.choice, Quot.sound |
| C95 | `Verif.Flow.C95_fails` | propext, Quot.sound |
| C96 | `Verif.Crit.C96_exclusion_partial` | propext, Classical.choice, Quot.sound |
| C96 | `Verif.Crit.C96_handover_partial` | propext, Classical.choice, Quot.sound |
| C96 | `Verif.Crit.C96_first_partial` | propext, Classical.choice, Quot.sound |
| C96 | `Verif.Crit.C96_steady_partial` | propext, Classical.choice, Quot.sound |
| C96 | `Verif.Crit.C96_read_partial` | propext, Classical.choice, Quot.sound |
| C96 | `Verif.Crit.C96_write_partial` | propext, Classical.choice, Quot.sound |
| C96 | `Verif.Crit.C96_message_partial` | propext, Classical.choice, Quot.sound |
| C96 | `Verif.Crit.C96_serial_partial` | propext, Classical.choice, Quot.sound |
| C96 | `Verif.Crit.C96_counter_partial` | propext, Classical.choice, Quot.sound |
| C96 | `Verif.Crit.C96_fails` | propext, Quot.sound |
| C97 | `Verif.Flow.C97_return` | propext, Classical.choice, Quot.sound |
| C97 | `Verif.Flow.C97_tickets` | propext, Classical.choice, Quot.sound |
| C97 | `Verif.Flow.C97_winner` | propext, Classical.choice, Quot.sound |
| C97 | `Verif.Flow.C97_beaten` | propext, Classical.choice, Quot.sound |
| C97 | `Verif.Flow.C97_sum_partial` | propext, Classical.choice, Quot.sound |
| C97 | `Verif.Flow.C97_at_most_once` | propext, Classical.choice, Quot.sound |
| C97 | `Verif.Flow.C97_quiet` | propext, Classical.choice, Quot.sound |
| C97 | `Verif.Flow.C97_barrier_partial` | propext, Classical.choice, Quot.sound |
| C97 | `Verif.Flow.C97_effect` | propext, Classical.choice, Quot.sound |
| C97 | `Verif.Flow.C97_call` | propext, Classical.choice, Quot.sound |
| C97 | `Verif.Flow.C97_answer` | propext, Classical.choice, Quot.sound |
| C98 | `Verif.Mm.C98_blocks` | propext, Classical.choice, Quot.sound |
| C98 | `Verif.Mm.C98_objects` | propext, Classical.choice, Quot.sound |
| C98 | `Verif.Mm.C98_free_heap_partial` | propext, Classical.choice, Quot.sound |
| C98 | `Verif.Mm.C98_free_space` | propext, Classical.choice, Quot.sound |
| C98 | `Verif.Mm.C98_free_other` | propext, Classical.choice, Quot.sound |
| C98 | `Verif.Mm.C98_free_leaks` | propext, Classical.choice, Quot.sound |
| C98 | `Verif.Mm.C98_total_partial` | propext, Classical.choice, Quot.sound |
| C98 | `Verif.Mm.C98_destroy` | propext, Classical.choice, Quot.sound |
| C98 | `Verif.Mm.C98_barriers` | propext, Quot.sound |
| C98 | `Verif.Mm.C98_names` | propext, Quot.sound |
| C98 | `Verif.Mm.C98_align` | propext, Classical.choice, Quot.sound |
| C98 | `Verif.Mm.C98_restart_partial` | propext, Classical.choice, Quot.sound |
| C98 | `Verif.Mm.C98_symmetric_partial` | propext, Classical.choice, Quot.sound |
| C98 | `Verif.Mm.C98_alike` | propext, Quot.sound |
| C98 | `Verif.Mm.C98_realloc_space_fails` | propext, Classical.choice, Quot.sound |
| C98 | `Verif.Mm.C98_realloc_zero_fails` | propext, Classical.choice, Quot.sound |
| C98 | `Verif.Mm.Ex.C98_symmetric_fails` | propext, Quot.sound |
| C99 | `Verif.Joint.C99_as_if` | propext, Classical.choice, Quot.sound |
| C99 | `Verif.Joint.C99_waits` | propext, Classical.choice, Quot.sound |
| C99 | `Verif.Joint.C99_broadcast_partial` | propext, Classical.choice, Quot.sound |
| C99 | `Verif.Joint.C99_collect_partial` | propext, Classical.choice, Quot.sound |
| C99 | `Verif.Joint.C99_fcollect_partial` | propext, Classical.choice, Quot.sound |
| C99 | `Verif.Joint.C99_alltoall_partial` | propext, Classical.choice, Quot.sound |
| C99 | `Verif.Joint.C99_alltoalls_partial` | propext, Classical.choice, Quot.sound |
| C99 | `Verif.Joint.C99_reduce_partial` | propext, Classical.choice, Quot.sound |
| C99 | `Verif.Joint.C99_collect_aset_partial` | propext, Classical.choice, Quot.sound |
| C99 | `Verif.Joint.C99_fcollect_aset_partial` | propext, Classical.choice, Quot.sound |
| C99 | `Verif.Joint.C99_alltoall_aset_partial` | propext, Classical.choice, Quot.sound |
| C99 | `Verif.Joint.C99_reduce_aset_partial` | propext, Classical.choice, Quot.sound |
| C99 | `Verif.Joint.C99_broadcast_aset_partial` | propext, Classical.choice, Quot.sound |
| C99 | `Verif.Joint.C99_fcollect_waits_partial` | propext, Classical.choice, Quot.sound |
| C99 | `Verif.Joint.C99_collect_waits_partial` | propext, Classical.choice, Quot.sound |
| C99 | `Verif.Joint.C99_frame` | propext, Classical.choice, Quot.sound |
| C99 | `Verif.Joint.C99_put_broadcast_partial` | propext, Classical.choice, Quot.sound |
| C99 | `Verif.Joint.C99_completes` | propext, Classical.choice, Quot.sound |
| C99 | `Verif.Joint.C99_broadcast_completes_partial` | propext, Classical.choice, Quot.sound |
