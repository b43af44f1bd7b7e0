Yacl.SegmentTree.C01_segment_tree_is_exact_set: Classical.choice, Quot.sound, propext
Yacl.SegmentTree.C01_max_id_violated: none
Yacl.SegmentTree.C02_one_segment_means_all_arrived: Classical.choice, Quot.sound, propext
Yacl.SegmentTree.C02_all_arrived_is_one_segment: Classical.choice, Quot.sound, propext
Yacl.Channel.C03_wire_key_roundtrip: Quot.sound, propext
Yacl.Channel.C04_exactly_once_delivery: Classical.choice, Quot.sound, propext
Yacl.Channel.C04_acks_exactly_once: Classical.choice, Quot.sound, propext
Yacl.Channel.C04_key_reuse_loses_message: Quot.sound, propext
Yacl.Channel.C05_reassembly_exact: Classical.choice, Quot.sound, propext
Yacl.Channel.C06_chunks_cover_message: Classical.choice, Quot.sound, propext
Yacl.Channel.C07_no_out_of_bounds_partial: Quot.sound, propext
Yacl.Channel.C07_inconsistent_total_out_of_bounds_violated: Quot.sound, propext
Yacl.Channel.C07_offset_wraps_out_of_bounds_violated: Quot.sound, propext
Yacl.Channel.C07_overlapping_chunks_leak_uninitialised: Quot.sound, propext
Yacl.Channel.Sender.C08_throttle_window: Classical.choice, Quot.sound, propext
Yacl.Channel.Close.C09_close_loses_nothing: Classical.choice, Quot.sound, propext
Yacl.Channel.Close.C09_close_loses_nothing_right: Classical.choice, Quot.sound, propext
Yacl.Channel.Close.C10_shutdown_progress: Classical.choice, Quot.sound, propext
Yacl.Channel.Close.C10_no_livelock: Classical.choice, Quot.sound, propext
Yacl.Channel.Close.C10_shutdown_terminates: Classical.choice, Quot.sound, propext
Yacl.Channel.Sender.C11_retry_policy: Classical.choice, Quot.sound, propext
Yacl.Channel.Sender.C11_success_iff: Classical.choice, Quot.sound, propext
Yacl.Channel.Sender.C12_retry_options_partial: propext
Yacl.Channel.Sender.C12_retry_increment_violated: none
Yacl.Channel.Sender.C13_sync_send_partial: Classical.choice, Quot.sound, propext
Yacl.Channel.Sender.C13_sync_send_hides_failure_violated: none
Yacl.Channel.Sender.C13_chunk_failure_lost_violated: none
Yacl.Channel.Sender.C13_parallel_chunks_bounded: Classical.choice, Quot.sound, propext
Yacl.Link.C14_message_ids_distinct_partial: Quot.sound, propext
Yacl.Link.C14_p2p_counter_violated: Quot.sound, propext
Yacl.Link.C15_child_id_differs_from_parent: Classical.choice, Quot.sound, propext
Yacl.Link.C15_children_distinct_partial: Quot.sound, propext
Yacl.Link.C15_spawn_violated: Quot.sound, propext
Yacl.Link.C15_grandchild_violated: Quot.sound, propext
Yacl.Link.C16_neighbours_are_ranks: none
Yacl.Link.C16_neighbours_inverse_partial: Quot.sound, propext
Yacl.Link.C16_neighbours_inverse_pow2: Quot.sound, propext
Yacl.Link.C16_large_stride_violated: none
Yacl.Link.C17_barrier_waits_for_everybody: Classical.choice, Quot.sound, propext
Yacl.Link.C18_broadcast_delivers_root_data: Classical.choice, Quot.sound, propext
Yacl.Link.C19_allgather_in_rank_order: Classical.choice, Quot.sound, propext
Yacl.Link.C19_gather_on_root_only: Classical.choice, Quot.sound, propext
Yacl.Link.C19_scatter_gives_ith_input: Classical.choice, Quot.sound, propext
Yacl.Link.C20_no_deadlock: Classical.choice, Quot.sound, propext
Yacl.Link.C20_every_step_counts: Quot.sound, propext
Yacl.Link.C20_can_finish: Classical.choice, Quot.sound, propext
Yacl.Link.C20_no_message_left: Classical.choice, Quot.sound, propext
Yacl.Cuckoo.C21_every_item_placed_once: Classical.choice, Quot.sound, propext
Yacl.Cuckoo.C21_zero_hash_functions_ub: propext
Yacl.Cuckoo.C21_zero_bins_ub: propext
Yacl.Parallel.C22_every_index_exactly_once: Classical.choice, Quot.sound, propext
Yacl.Parallel.C22_int64_wrap_violated: propext
Yacl.Parallel.C23_reduce_equals_sequential: Classical.choice, Quot.sound, propext
Yacl.Parallel.C23_thread_count_race_violated: none
Yacl.ThreadPool.C24_fifo_exactly_once: Quot.sound, propext
Yacl.ThreadPool.C24_destructor_drains: Quot.sound, propext
Yacl.ThreadPool.C24_submit_after_stop_refused: Quot.sound, propext
Yacl.ThreadPool.C24_progress: Quot.sound, propext
Yacl.ThreadPool.C24_internal_steps_terminate: Quot.sound, propext
Yacl.Int128.C25_make_uint128_value: Quot.sound, propext
Yacl.Int128.C25_make_int128_value: Classical.choice, Quot.sound, propext
Yacl.Int128.C25_uint128_round_trip: Quot.sound, propext
Yacl.Int128.C25_int128_round_trip: Classical.choice, Quot.sound, propext
Yacl.Int128.C25_bit_width: Classical.choice, Quot.sound, propext
Yacl.Int128.C25_limits: Quot.sound, propext
Yacl.Int128.C25_abs: Quot.sound, propext
Yacl.Msgpack.C26_round_trip: Classical.choice, Quot.sound, propext
Yacl.Msgpack.C26_injective: Classical.choice, Quot.sound, propext
Yacl.Msgpack.C26_serialize_total: Quot.sound, propext
Yacl.Msgpack.C26_item_round_trip: Classical.choice, Quot.sound, propext
Yacl.Msgpack.C26_no_silent_narrowing: Quot.sound, propext
Yacl.Msgpack.C27_predicted_size: Quot.sound, propext
Yacl.Msgpack.C27_fixed_buffer: Classical.choice, Quot.sound, propext
Yacl.Msgpack.C27_head_sizes: propext
Yacl.Msgpack.C27_item_size: Quot.sound, propext
Yacl.Matrix.C28_naive_transposes: Classical.choice, Quot.sound, propext
Yacl.Matrix.C28_eklundh_transposes: Classical.choice, Quot.sound, propext
Yacl.Matrix.C28_sse_transposes: Classical.choice, Quot.sound, propext
Yacl.Matrix.C28_dispatch_transposes: Classical.choice, Quot.sound, propext
Yacl.Matrix.C28_involution: Quot.sound, propext
Yacl.Matrix.C28_eklundh1024_transposes: Classical.choice, Quot.sound, propext
Yacl.Matrix.C28_sse1024_transposes: Classical.choice, Quot.sound, propext
Yacl.Matrix.C28_dispatch1024_transposes: Classical.choice, Quot.sound, propext
Yacl.Matrix.C28_avx_transposes: Classical.choice, Quot.sound, propext
Yacl.Matrix.C28_dispatch_all_transposes: Classical.choice, Quot.sound, propext
Yacl.Matrix.C28_alignment_violated: Classical.choice, Quot.sound, propext
Yacl.Circuit.C29_exec: Quot.sound, propext
Yacl.Circuit.C29_value_unique: Quot.sound, propext
Yacl.Circuit.C29_mand_refused: propext
Yacl.Circuit.C29_bytes_partial: Quot.sound, propext
Yacl.Circuit.C29_span_partial: Classical.choice, Quot.sound, propext
Yacl.Circuit.C29_bytes_violated: propext
Yacl.Circuit.C29_span_violated: propext
Yacl.Circuit.C30_bytes_reuse_partial: Quot.sound, propext
Yacl.Circuit.C30_span_ignores_inputs: propext
Yacl.Circuit.C30_span_violated: propext
Yacl.Circuit.C31_sha256_input: Quot.sound, propext
Yacl.Kv.C32_leveldb_last_write: Classical.choice, Quot.sound, propext
Yacl.Kv.C32_memory_first_write: propext
Yacl.Kv.C32_memory_overwrite_violated: none
Yacl.Kv.C32_memory_single_write_partial: Classical.choice, Quot.sound, propext
Yacl.Kv.C32_index_store: Classical.choice, Quot.sound, propext
Yacl.Kv.C32_count: Classical.choice, Quot.sound, propext
Yacl.Kv.C32_get_buffer: Classical.choice, Quot.sound, propext
Yacl.Csv.C33_roundtrip: Classical.choice, Quot.sound, propext
Yacl.Csv.C33_header: Classical.choice, Quot.sound, propext
Yacl.Csv.C33_column_reader: Classical.choice, Quot.sound, propext
Yacl.Csv.readBack_str: propext
Yacl.Csv.C33_delimiter_in_value_violated: propext
Yacl.Csv.C33_column_reader_empty_violated: propext
Yacl.Csv.C34_seek_then_read_partial: Classical.choice, Quot.sound, propext
Yacl.Csv.C34_sequential_partial: Classical.choice, Quot.sound, propext
Yacl.Csv.C34_seek_past_end: Classical.choice, Quot.sound, propext
Yacl.Csv.C34_spawn: Classical.choice, Quot.sound, propext
Yacl.Csv.C34_after_bad_row_violated: propext
Yacl.Csv.C34_count_lines_empty_violated: propext
Yacl.OtStore.C35_access: Quot.sound, propext
Yacl.OtStore.C35_nextSlice: Classical.choice, Quot.sound, propext
Yacl.OtStore.C35_windows: Classical.choice, Quot.sound, propext
Yacl.OtStore.C35_independent: Classical.choice, Quot.sound, propext
Yacl.OtStore.C35_slice: Classical.choice, Quot.sound, propext
Yacl.OtStore.C35_sender_rot: Classical.choice, Quot.sound, propext
Yacl.OtStore.C35_sender_cot: Quot.sound, propext
Yacl.OtStore.C35_copies: Quot.sound, propext
Yacl.OtStore.C35_slice_of_slice_violated: propext
Yacl.OtStore.C35_resetSlice_violated: propext
Yacl.OtStore.C35_huge_request_violated: propext
Yacl.OtStore.C36_copy_partial: Quot.sound, propext
Yacl.OtStore.C36_fresh: propext
Yacl.OtStore.C36_copy_violated: propext
Yacl.OtExt.C37_iknp: Classical.choice, Quot.sound, propext
Yacl.OtExt.C38_kos_complete: Classical.choice, Quot.sound, propext
Yacl.Ggm.C39_sgrr: Classical.choice, Quot.sound, propext
Yacl.Ggm.C39_sgrr_fixed: Classical.choice, Quot.sound, propext
Yacl.Ggm.C40_gywz: Classical.choice, Quot.sound, propext
Yacl.Ggm.C40_gywz_fixed: Classical.choice, Quot.sound, propext
Yacl.Ggm.C40_gywz_ferret: Classical.choice, Quot.sound, propext
Yacl.Kkrt.C41_kkrt: Classical.choice, Quot.sound, propext
Yacl.Kkrt.C41_online: Classical.choice, Quot.sound, propext
Yacl.MpVole.C42_mp_vole_partial: Classical.choice, Quot.sound, propext
Yacl.MpVole.C42_mp_vole_fixed_partial: Classical.choice, Quot.sound, propext
Yacl.MpVole.C42_check_violated: Classical.choice, Quot.sound, propext
Yacl.MpVole.C42_once: Quot.sound, propext
Yacl.MpVole.C42_resetup_violated: propext
Yacl.Code.C43_encode_partial: Classical.choice, Quot.sound, propext
Yacl.Code.C43_deviation_partial: Classical.choice, Quot.sound, propext
Yacl.Code.C43_correlation_partial: Classical.choice, Quot.sound, propext
Yacl.Code.C43_exacc_partial: Classical.choice, Quot.sound, propext
Yacl.Code.C43_accumulate: Classical.choice, Quot.sound, propext
Yacl.Code.C43_large_dimension_violated: Quot.sound, propext
Yacl.Dpf.C44_point_function: Classical.choice, Quot.sound, propext
Yacl.Dpf.C44_refused: Quot.sound, propext
Yacl.Dpf.C45_evalAll_partial: Classical.choice, Quot.sound, propext
Yacl.Dpf.C45_wide_violated: Quot.sound, propext
Yacl.Dcf.C46_comparison: Classical.choice, Quot.sound, propext
Yacl.Pprf.C47_punctured_partial: Classical.choice, Quot.sound, propext
Yacl.Pprf.C47_contents: Classical.choice, Quot.sound, propext
Yacl.Pprf.C47_reuse_violated: propext
Yacl.Vss.C48_recover: Classical.choice, Quot.sound, propext
Yacl.Vss.C48_share: Classical.choice, Quot.sound, propext
Yacl.Vss.C49_verify_iff: Classical.choice, Quot.sound, propext
Yacl.Vss.C49_complete: Classical.choice, Quot.sound, propext
Yacl.Vss.C49_binding: Classical.choice, Quot.sound, propext
Yacl.Sumcheck.C50_sumcheck: Classical.choice, Quot.sound, propext
Yacl.Sumcheck.C50_constant: Classical.choice, Quot.sound, propext
Yacl.Sumcheck.C50_soundness: Classical.choice, Quot.sound, propext
Yacl.Sumcheck.C51_zero_iff: Classical.choice, Quot.sound, propext
Yacl.Sumcheck.C51_zero_complete: Classical.choice, Quot.sound, propext
Yacl.Sumcheck.C51_zero_soundness: Classical.choice, Quot.sound, propext
Yacl.Sumcheck.C51_one_iff_partial: Classical.choice, Quot.sound, propext
Yacl.Sumcheck.C51_one_complete_partial: Classical.choice, Quot.sound, propext
Yacl.Sumcheck.C51_one_soundness_partial: Classical.choice, Quot.sound, propext
Yacl.Sumcheck.C51_one_violated: Classical.choice, Quot.sound, propext
Yacl.Tpre.C52_delegator: Classical.choice, Quot.sound, propext
Yacl.Tpre.C52_check_iff: Classical.choice, Quot.sound, propext
Yacl.Tpre.C52_delegatee: Classical.choice, Quot.sound, propext
Yacl.Tpre.C52_rekey_iff: Classical.choice, Quot.sound, propext
Yacl.Tpre.C52_fragment_proof: Classical.choice, Quot.sound, propext
Yacl.TSet.C53_first_hundred: Classical.choice, Quot.sound, propext
Yacl.TSet.C53_retrieve_partial: Classical.choice, Quot.sound, propext
Yacl.TSet.C53_absent: Classical.choice, Quot.sound, propext
Yacl.TSet.C53_violated: Quot.sound, propext
Yacl.Prg.C54_stream: Classical.choice, Quot.sound, propext
Yacl.Prg.C54_bool_partial: Classical.choice, Quot.sound, propext
Yacl.Prg.C54_bool_violated: Quot.sound, propext
Yacl.Prg.C55_partial: propext
Yacl.Prg.C55_fill: none
Yacl.Prg.C55_violated: none
Yacl.Prg.C56_prefix: Quot.sound, propext
Yacl.Prg.C56_continue_partial: Quot.sound, propext
Yacl.Prg.C56_ctr_violated: Quot.sound, propext
Yacl.Prg.C56_ctr_disjoint: Classical.choice, Quot.sound, propext
Yacl.Prg.C56_wrap_violated: Quot.sound, propext
Yacl.Prg.C57_narrow: Classical.choice, Quot.sound, propext
Yacl.Prg.C57_wide_partial: Classical.choice, Quot.sound, propext
Yacl.Prg.C57_wide_violated: Quot.sound, propext
Yacl.Prg.C57_fill: Classical.choice, Quot.sound, propext
Yacl.Prg.C57_ltN: Quot.sound, propext
Yacl.SyncDrbg.C58_fill_partial: Classical.choice, Quot.sound, propext
Yacl.SyncDrbg.C58_refused: propext
Yacl.SyncDrbg.C58_violated: propext
Yacl.Gf.C59_mul64: Classical.choice, Quot.sound, propext
Yacl.Gf.C59_mul128: Classical.choice, Quot.sound, propext
Yacl.Gf.C59_inner64: Classical.choice, Quot.sound, propext
Yacl.Gf.C59_inner128: Classical.choice, Quot.sound, propext
Yacl.Gf.C59_sizes: Quot.sound, propext
Yacl.Gf.C59_ring64: Classical.choice, Quot.sound, propext
Yacl.Gf.C59_ring128: Classical.choice, Quot.sound, propext
Yacl.Gf.C59_irreducible64: Classical.choice, Quot.sound, propext
Yacl.Gf.C59_irreducible128: Classical.choice, Quot.sound, propext
Yacl.Gf.C59_inverse64: Classical.choice, Quot.sound, propext
Yacl.Gf.C59_no_zero_divisors: Classical.choice, Quot.sound, propext
Yacl.Gf.C59_pack64: Classical.choice, Quot.sound, propext
Yacl.Gadget.C60_log2Floor: Quot.sound, propext
Yacl.Gadget.C60_log2Ceil: Classical.choice, Quot.sound, propext
Yacl.Gadget.C60_divCeil: Quot.sound, propext
Yacl.Gadget.C60_roundUpTo: Quot.sound, propext
Yacl.Gadget.C60_roundUpTo_wraps: propext
Yacl.Mpfss.C61_param: Classical.choice, Quot.sound, propext
Yacl.Mpfss.C61_choices: Classical.choice, Quot.sound, propext
Yacl.Mpfss.C61_genIndexes: Quot.sound, propext
Yacl.Mpfss.C61_setIndexes_partial: Quot.sound, propext
Yacl.Mpfss.C61_setIndexes_violated: propext
Yacl.ChannelMem.C62_subsequence: Quot.sound, propext
Yacl.ChannelMem.C62_exact_partial: Classical.choice, Quot.sound, propext
Yacl.ChannelMem.C62_isolated: Quot.sound, propext
Yacl.ChannelMem.C62_finish_once: Quot.sound, propext
Yacl.ChannelMem.C62_finish: Classical.choice, Quot.sound, propext
Yacl.ChannelMem.C62_violated: none
Yacl.Link.C63_contexts_do_not_interfere: Quot.sound, propext
Yacl.Link.C64_p2p_messages_pair_up: Quot.sound, propext
Yacl.Link.C65_subworld_consistent: Quot.sound, propext
Yacl.Cuckoo.C66_min_colliding_hash: Classical.choice, Quot.sound, propext
Yacl.Parallel.C67_exceptions_propagate: Quot.sound, propext
Yacl.Parallel.C68_grain_and_threads_respected: Classical.choice, Quot.sound, propext
Yacl.Buf.C69_resize: Classical.choice, Quot.sound, propext
Yacl.Buf.C69_reserve: Classical.choice, Quot.sound, propext
Yacl.Buf.C69_copy: Classical.choice, Quot.sound, propext
Yacl.Buf.C69_construct_copy: Classical.choice, Quot.sound, propext
Yacl.Buf.C69_adopt: Classical.choice, Quot.sound, propext
Yacl.Buf.C69_move: Quot.sound, propext
Yacl.Buf.C69_store: Classical.choice, Quot.sound, propext
Yacl.Buf.C69_equal: Classical.choice, Quot.sound, propext
Yacl.Buf.C69_negative_resize_violated: none
Yacl.Buf.C70_freed_once_by_right_deleter: Classical.choice, Quot.sound, propext
Yacl.Buf.C70_owned_memory_is_live: Classical.choice, Quot.sound, propext
Yacl.Buf.C70_no_leak: Classical.choice, Quot.sound, propext
Yacl.Buf.C70_deleter_called_with_null_violated: Quot.sound, propext
Yacl.Circuit.C71_read_back: Classical.choice, Quot.sound, propext
Yacl.Circuit.C71_files_differ: Classical.choice, Quot.sound, propext
Yacl.Circuit.C71_arity: Quot.sound, propext
Yacl.Circuit.C71_truncated_violated: Classical.choice, Quot.sound, propext
Yacl.Circuit.C71_truncated_line_refused: Classical.choice, Quot.sound, propext
Yacl.Circuit.C71_short_line_violated: Classical.choice, Quot.sound, propext
Yacl.Circuit.C71_count_wraps_violated: Classical.choice, Quot.sound, propext
Yacl.OtStore.C72_steal_violated: Quot.sound, propext
Yacl.Gf.C73_universalHash: Classical.choice, Quot.sound, propext
Yacl.Gf.C73_coef_partial: Classical.choice, Quot.sound, propext
Yacl.Gf.C73_coef_violated: Classical.choice, Quot.sound, propext
Yacl.OtExt.C74_kos_sound: Classical.choice, Quot.sound, propext
Yacl.Prg.C75_violated: Classical.choice, Quot.sound, propext
Yacl.Prg.C75_mask_zero: Quot.sound, propext
Yacl.OtExt.C75_hides_partial: Classical.choice, Quot.sound, propext
Yacl.OtExt.C75_good: Classical.choice, Quot.sound, propext
Yacl.Prg.C76_disjoint: Classical.choice, Quot.sound, propext
Yacl.Ggm.C77_check_binding: Classical.choice, Quot.sound, propext
Yacl.Mpfss.C78_mpfss: Classical.choice, Quot.sound, propext
Yacl.Mpfss.C78_mpfss_fixed: Classical.choice, Quot.sound, propext
Yacl.Mpfss.C78_mpfss_xor: Classical.choice, Quot.sound, propext
Yacl.SilentVole.C79_ot2vole: Classical.choice, Quot.sound, propext
Yacl.SilentVole.C80_silent_partial: Classical.choice, Quot.sound, propext
Yacl.SilentVole.C80_zero_partial: Classical.choice, Quot.sound, propext
Yacl.SilentVole.C80_dirty_violated: Classical.choice, Quot.sound, propext
Yacl.SilentVole.C80_silver_partial: Classical.choice, Quot.sound, propext
Yacl.Kdf.C81_kdf: Classical.choice, Quot.sound, propext
Yacl.Kdf.C81_edge: Quot.sound, propext
Yacl.Sumcheck.C82_evaluate: Classical.choice, Quot.sound, propext
Yacl.Sumcheck.C82_corner: Classical.choice, Quot.sound, propext
Yacl.Sumcheck.C83_matmat: Classical.choice, Quot.sound, propext
Yacl.Sumcheck.C83_matvec: Classical.choice, Quot.sound, propext
Yacl.Sumcheck.C83_refused: Quot.sound, propext
Yacl.Sumcheck.C84_iff: Classical.choice, Quot.sound, propext
Yacl.Sumcheck.C84_complete: Classical.choice, Quot.sound, propext
Yacl.Sumcheck.C84_soundness: Classical.choice, Quot.sound, propext
Yacl.Sumcheck.C84_characteristic: propext
Yacl.SyncDrbg.C85_roundtrip: Quot.sound, propext
Yacl.SyncDrbg.C85_sync: Quot.sound, propext
Yacl.SyncDrbg.C85_stuck: Quot.sound, propext
Yacl.SyncDrbg.C85_agree: Quot.sound, propext
Yacl.Bitset.C86_bitset_refines: Classical.choice, Quot.sound, propext
Yacl.Bitset.C86_canonical: Classical.choice, Quot.sound, propext
Yacl.Bitset.C87_queries: Classical.choice, Quot.sound, propext
Yacl.Bitset.C87_compare: Classical.choice, Quot.sound, propext
Yacl.Bitset.C87_strings: Classical.choice, Quot.sound, propext
Yacl.MPInt.C88_bit_count: Classical.choice, Quot.sound, propext
Yacl.MPInt.C88_word_bits: Classical.choice, Quot.sound, propext
Yacl.MPInt.C88_mag_bytes: Classical.choice, Quot.sound, propext
Yacl.MPInt.C88_mag_bytes_new: Classical.choice, Quot.sound, propext
Yacl.MPInt.C88_from_mag: Classical.choice, Quot.sound, propext
Yacl.MPInt.C88_mag_roundtrip: Classical.choice, Quot.sound, propext
Yacl.MPInt.C88_to_bytes: Classical.choice, Quot.sound, propext
Yacl.MPInt.C88_bits: Classical.choice, Quot.sound, propext
Yacl.MPInt.C88_serialize: Classical.choice, Quot.sound, propext
Yacl.MPInt.C88_deserialize: Classical.choice, Quot.sound, propext
Yacl.MPInt.C88_serialize_roundtrip: Classical.choice, Quot.sound, propext
Yacl.MPInt.C88_serialize_injective: Classical.choice, Quot.sound, propext
Yacl.MPInt.C88_set: Classical.choice, Quot.sound, propext
Yacl.MPInt.C88_get: Classical.choice, Quot.sound, propext
Yacl.MPInt.C88_set_get: Classical.choice, Quot.sound, propext
Yacl.MPInt.C88_rand_bits: Classical.choice, Quot.sound, propext
Yacl.MPInt.C88_custom_pow: Classical.choice, Quot.sound, propext
Yacl.MPInt.Arith.C89_div_partial: Classical.choice, Quot.sound, propext
Yacl.MPInt.Arith.C89_div_violated: none
Yacl.MPInt.Arith.C89_div_mod_partial: Classical.choice, Quot.sound, propext
Yacl.MPInt.Arith.C89_div_word: Classical.choice, Quot.sound, propext
Yacl.MPInt.Arith.C89_mod_word: Classical.choice, Quot.sound, propext
Yacl.MPInt.Arith.C89_mod_digit_partial: propext
Yacl.MPInt.Arith.C89_mod_digit_violated: none
Yacl.MPInt.Arith.C90_safe_prime: Classical.choice, Quot.sound, propext
Yacl.MPInt.Arith.C90_no_wrap: Quot.sound, propext
Yacl.MPInt.Arith.C90_run: propext
Yacl.MPInt.Arith.C90_random_lt: Classical.choice, Quot.sound, propext
Yacl.Bp.C91_verify_iff: Classical.choice, Quot.sound, propext
Yacl.Bp.C91_complete_partial: Classical.choice, Quot.sound, propext
Yacl.Bp.C91_identity_throws: Classical.choice, Quot.sound, propext
Yacl.Bp.C91_sound: Classical.choice, Quot.sound, propext
Yacl.Bp.C91_zero_violated: Classical.choice, Quot.sound, propext
Yacl.Bp.C92_honest_verdict: Classical.choice, Quot.sound, propext
Yacl.Bp.C92_complete_partial: Classical.choice, Quot.sound, propext
Yacl.Bp.C92_too_large: Classical.choice, Quot.sound, propext
Yacl.Bp.C92_delta: Classical.choice, Quot.sound, propext
Yacl.Bp.C92_sound: Classical.choice, Quot.sound, propext
Yacl.Bp.C92_verify_iff: Classical.choice, Quot.sound, propext
Yacl.Oprf.C93_output_partial: Classical.choice, Quot.sound, propext
Yacl.Oprf.C93_blind: Classical.choice, Quot.sound, propext
Yacl.Oprf.C93_refresh_violated: Classical.choice, Quot.sound, propext
Yacl.Oprf.C93_hiding: Classical.choice, Quot.sound, propext
Yacl.Oprf.C93_framing: Classical.choice, Quot.sound, propext
Yacl.Oprf.C94_composites: Classical.choice, Quot.sound, propext
Yacl.Oprf.C94_verify_iff: Classical.choice, Quot.sound, propext
Yacl.Oprf.C94_complete: Classical.choice, Quot.sound, propext
Yacl.Oprf.C94_output: Classical.choice, Quot.sound, propext
Yacl.Oprf.C94_reject: Classical.choice, Quot.sound, propext
Yacl.Oprf.C94_one_challenge: Classical.choice, Quot.sound, propext
Yacl.Oprf.C94_sound: Classical.choice, Quot.sound, propext
Yacl.Oprf.C94_weights: Classical.choice, Quot.sound, propext
Yacl.Oprf.C94_malleable: Classical.choice, Quot.sound, propext
Yacl.Oprf.C94_range: Classical.choice, Quot.sound, propext
Yacl.Oprf.C94_framing: Classical.choice, Quot.sound, propext
Yacl.Oprf.C95_suite: Classical.choice, Quot.sound, propext
Yacl.Oprf.C95_suite_conv: Classical.choice, Quot.sound, propext
Yacl.Oprf.C95_separation: Classical.choice, Quot.sound, propext
Yacl.Oprf.C95_roundtrip_violated: Classical.choice, Quot.sound, propext
Yacl.Oprf.C95_derive_partial: Classical.choice, Quot.sound, propext
Yacl.Oprf.C95_derive_long: Quot.sound, propext
Yacl.Oprf.C95_derive_inj: Quot.sound, propext
Yacl.Ecc.C96_add: Classical.choice, Quot.sound, propext
Yacl.Ecc.C96_membership: Classical.choice, Quot.sound, propext
Yacl.Ecc.C96_equal: Classical.choice, Quot.sound, propext
Yacl.Ecc.C96_negate: Classical.choice, Quot.sound, propext
Yacl.Ecc.C96_negate_violated: Classical.choice, Quot.sound, propext
Yacl.Ecc.C96_mul: Classical.choice, Quot.sound, propext
Yacl.Ecc.C96_mul_some: Classical.choice, Quot.sound, propext
Yacl.Ecc.C96_derived: Classical.choice, Quot.sound, propext
Yacl.Ecc.C96_div: Classical.choice, Quot.sound, propext
Yacl.Ecc.C96_predefined: propext
Yacl.Ecc.C96_secp256k1_order: Classical.choice, Quot.sound, propext
Yacl.Ecc.C96_sm2_order: Classical.choice, Quot.sound, propext
Yacl.Ecc.C96_secp256k1_base: Classical.choice, Quot.sound, propext
Yacl.Ecc.C96_sm2_base: Classical.choice, Quot.sound, propext
Yacl.Ecc.Mont.C97_ladder: Classical.choice, Quot.sound, propext
Yacl.Ecc.Mont.C97_ladder_any: Classical.choice, Quot.sound, propext
Yacl.Ecc.Mont.C97_dh: Classical.choice, Quot.sound, propext
Yacl.Ecc.Mont.C97_membership: Classical.choice, Quot.sound, propext
Yacl.Ecc.Mont.C97_order: Classical.choice, Quot.sound, propext
Yacl.Ecc.Mont.C97_one_violated: Classical.choice, Quot.sound, propext
Yacl.Ecc.Mont.C97_negate_violated: Classical.choice, Quot.sound, propext
Yacl.Softspoken.C98_softspoken: Classical.choice, Quot.sound, propext
Yacl.Softspoken.C98_compact_violated: Classical.choice, Quot.sound, propext
Yacl.Ferret.C99_ferret: Classical.choice, Quot.sound, propext
Yacl.Ferret.C99_choices: Classical.choice, Quot.sound, propext
Yacl.Ferret.noise_regular: Classical.choice, Quot.sound, propext
Yacl.Ferret.C99_cheetah_violated: Classical.choice, Quot.sound, propext
Yacl.OtKernel.C100_kernel: Classical.choice, Quot.sound, propext
Yacl.OtKernel.C100_reuse_violated: Classical.choice, Quot.sound, propext
Yacl.OtKernel.C100_leak_violated: Classical.choice, Quot.sound, propext
Yacl.CrHash.C101_batch_partial: Quot.sound, propext
Yacl.CrHash.C101_orthomorphism: Quot.sound, propext
Yacl.CrHash.C101_single_violated: Quot.sound, propext
Yacl.CrHash.C101_mismatch_violated: Quot.sound, propext
Yacl.CrHash.C101_truncated_violated: Quot.sound, propext
Yacl.BlockCipher.C102_stream: Classical.choice, Quot.sound, propext
Yacl.BlockCipher.C102_reset: Quot.sound, propext
Yacl.BlockCipher.C102_ecb: Classical.choice, Quot.sound, propext
Yacl.BlockCipher.C102_rp: Classical.choice, Quot.sound, propext
Yacl.BlockCipher.C102_rp_ecb: Classical.choice, Quot.sound, propext
Yacl.BlockCipher.C102_const_violated: Classical.choice, Quot.sound, propext
Yacl.BlockCipher.C102_rp_violated: Classical.choice, Quot.sound, propext
Yacl.BlockCipher.C103_mte: Classical.choice, Quot.sound, propext
Yacl.BlockCipher.C103_gcm: Quot.sound, propext
Yacl.BlockCipher.C103_gcm_sizes: Quot.sound, propext
Yacl.BlockCipher.C103_sm_env: Classical.choice, Quot.sound, propext
Yacl.BlockCipher.C103_rsa_env: Quot.sound, propext
Yacl.BlockCipher.C103_empty_violated: Classical.choice, Quot.sound, propext
Yacl.BlockCipher.C103_aad_violated: Classical.choice, Quot.sound, propext
Yacl.BlockCipher.C103_macsize_violated: none
Yacl.Ecc.H2C.C104_expand: Quot.sound, propext
Yacl.Ecc.H2C.C104_field: Quot.sound, propext
Yacl.Ecc.H2C.C104_sswu: Classical.choice, Quot.sound, propext
Yacl.Ecc.H2C.C104_hash_to_curve: Classical.choice, Quot.sound, propext
Yacl.Ecc.H2C.C104_encode_to_curve: Classical.choice, Quot.sound, propext
Yacl.Ecc.H2C.C104_nist: Classical.choice, Quot.sound, propext
Yacl.Ecc.H2C.C104_scalar_p256: Quot.sound, propext
Yacl.Ecc.H2C.C104_scalar_violated: Quot.sound, propext
Yacl.Ecc.H2C.C104_elligator: Classical.choice, Quot.sound, propext
Yacl.Ecc.H2C.C104_point_add: Classical.choice, Quot.sound, propext
Yacl.Ecc.H2C.C104_point_dbl: Classical.choice, Quot.sound, propext
Yacl.Ecc.H2C.C104_cofactor: Classical.choice, Quot.sound, propext
Yacl.Ecc.H2C.C104_hash_25519_partial: Classical.choice, Quot.sound, propext
Yacl.Ecc.H2C.C104_encode_25519_partial: Classical.choice, Quot.sound, propext
Yacl.Ecc.H2C.C104_25519_partial: Classical.choice, Quot.sound, propext
Yacl.Ecc.H2C.C104_25519_violated: Classical.choice, Quot.sound, propext
Yacl.Ecc.H2C.sswu_unique: Classical.choice, Quot.sound, propext
Yacl.Ecc.H2C.elligator_unique: Classical.choice, Quot.sound, propext
Yacl.Sse.C105_conjunction_partial: Classical.choice, Quot.sound, propext
Yacl.Sse.C105_boolean_partial: Classical.choice, Quot.sound, propext
Yacl.Sse.C105_complete: Classical.choice, Quot.sound, propext
Yacl.Sse.C105_hundred: Classical.choice, Quot.sound, propext
Yacl.Sse.C105_empty: Classical.choice, Quot.sound, propext
Yacl.Sse.C105_setup_throws: Classical.choice, Quot.sound, propext
Yacl.Sse.C105_iv_violated: Quot.sound, propext
Yacl.Sse.C106_evaluate_partial: Classical.choice, Quot.sound, propext
Yacl.Sse.C106_chains_partial: Classical.choice, Quot.sound, propext
Yacl.Sse.C106_precedence_violated: Classical.choice, Quot.sound, propext
Yacl.Sse.C106_order_violated: Classical.choice, Quot.sound, propext
Yacl.Sse.C106_syntax_violated: Classical.choice, Quot.sound, propext
Yacl.Sse.C107_keys: Classical.choice, Quot.sound, propext
Yacl.Sse.C107_xset: Classical.choice, Quot.sound, propext
Yacl.Sse.C107_tset_partial: Classical.choice, Quot.sound, propext
Yacl.Sse.C107_search_violated: Classical.choice, Quot.sound, propext
Yacl.Sse.C107_iv_violated: Classical.choice, Quot.sound, propext
Yacl.Spi.C108_snake: Quot.sound, propext
Yacl.Spi.C108_letters: Classical.choice, Quot.sound, propext
Yacl.Spi.C108_args: Classical.choice, Quot.sound, propext
Yacl.Spi.C108_args_type: propext
Yacl.Spi.C108_pick: Classical.choice, Quot.sound, propext
Yacl.Spi.C108_best: Classical.choice, Quot.sound, propext
Yacl.Spi.C108_named: Classical.choice, Quot.sound, propext
Yacl.Spi.C108_list: Classical.choice, Quot.sound, propext
Yacl.Spi.C108_conflict: propext
Yacl.Spi.C108_negative_violated: Classical.choice, Quot.sound, propext
Yacl.BigInt.C109_table: Quot.sound, propext
Yacl.BigInt.C109_pow: Classical.choice, Quot.sound, propext
Yacl.BigInt.Gmp.C109_gmp_new: Classical.choice, Quot.sound, propext
Yacl.BigInt.Gmp.C109_gmp_roundtrip: Classical.choice, Quot.sound, propext
Yacl.BigInt.Gmp.C109_gmp_mul: Classical.choice, Quot.sound, propext
Yacl.BigInt.Gmp.C109_gmp_pow: Classical.choice, Quot.sound, propext
Yacl.BigInt.Lib.C109_tom_pow: Classical.choice, Quot.sound, propext
Yacl.BigInt.Lib.C109_ossl_pow: Classical.choice, Quot.sound, propext
Yacl.BigInt.Lib.C109_unit_violated: Quot.sound, propext
Yacl.BigInt.Back.C110_to_bytes: Classical.choice, Quot.sound, propext
Yacl.BigInt.Back.C110_to_bytes_mpint: Classical.choice, Quot.sound, propext
Yacl.BigInt.Back.C110_serialize_same: Classical.choice, Quot.sound, propext
Yacl.BigInt.Back.C110_deserialize_same: Classical.choice, Quot.sound, propext
Yacl.BigInt.Back.C110_roundtrip: Classical.choice, Quot.sound, propext
Yacl.BigInt.Back.C110_bitwise: Classical.choice, Quot.sound, propext
Yacl.BigInt.Back.C110_gmp_division: Classical.choice, Quot.sound, propext
Yacl.BigInt.Back.C110_remainder: Classical.choice, Quot.sound, propext
Yacl.BigInt.Back.C110_division_partial: Classical.choice, Quot.sound, propext
Yacl.BigInt.Back.C110_division_violated: none
Yacl.BigInt.Back.C110_words: Classical.choice, Quot.sound, propext
Yacl.BigInt.Back.C110_mod_ops: propext
Yacl.BigInt.Back.C110_negative_modulus_violated: none
Yacl.BigInt.Back.C110_lcm_partial: Classical.choice, Quot.sound, propext
Yacl.BigInt.Back.C110_lcm_violated: none
Yacl.BigInt.Back.C110_bits: Classical.choice, Quot.sound, propext
Yacl.BigInt.Back.C110_shift_partial: propext
Yacl.BigInt.Back.C110_shift_violated: propext
Yacl.BigInt.Back.C110_get_partial: Classical.choice, Quot.sound, propext
Yacl.BigInt.Back.C110_gmp_random_violated: Classical.choice, Quot.sound, propext
Yacl.Drbg.Gm.C111_derive_violated: Classical.choice, Quot.sound, propext
Yacl.Drbg.Gm.C111_truncated_violated: Classical.choice, Quot.sound, propext
Yacl.Drbg.Gm.C111_no_entropy_violated: Classical.choice, Quot.sound, propext
Yacl.Drbg.Gm.C111_first_block_violated: Classical.choice, Quot.sound, propext
Yacl.Drbg.Gm.C111_reseed_violated: Classical.choice, Quot.sound, propext
Yacl.Drbg.Gm.C111_runs_dry_violated: Classical.choice, Quot.sound, propext
Yacl.Drbg.Gm.C111_long_requests: propext
Yacl.Drbg.Gm.C111_additional_violated: Classical.choice, Quot.sound, propext
Yacl.Drbg.Gm.C111_source_sizes_partial: Quot.sound, propext
Yacl.Drbg.Gm.C111_source_sizes_violated: propext
Yacl.Drbg.Gm.C111_provider_seed_violated: propext
Yacl.Drbg.Gm.C111_provider_generate_violated: Quot.sound, propext
Yacl.Rand.C112_bits: Classical.choice, Quot.sound, propext
Yacl.Rand.C112_bits_too_long: Quot.sound, propext
Yacl.Rand.C112_bits_all: Classical.choice, Quot.sound, propext
Yacl.Rand.C112_seed: Classical.choice, Quot.sound, propext
Yacl.Rand.C112_seed_violated: Classical.choice, Quot.sound, propext
Yacl.Rand.C112_below: Classical.choice, Quot.sound, propext
Yacl.Rand.C112_in_range: Classical.choice, Quot.sound, propext
Yacl.Rand.C112_shuffle_perm: Quot.sound, propext
Yacl.Rand.C112_shuffle_uniform: Classical.choice, Quot.sound, propext
Yacl.Rand.C112_shuffle_words: Classical.choice, Quot.sound, propext
Yacl.Rand.C112_shuffle_fresh: Classical.choice, Quot.sound, propext
Yacl.Rand.C112_shuffle_empty: propext
Yacl.Rand.C112_replay: Quot.sound, propext
Yacl.Rand.C112_get_seed_violated: none
Yacl.Link.Blackbox.C113_topic_match: none
Yacl.Link.Blackbox.C113_topic_distinct_partial: propext
Yacl.Link.Blackbox.C113_topic_distinct_violated: Classical.choice, Quot.sound, propext
Yacl.Link.Blackbox.C113_queue_partial: propext
Yacl.Link.Blackbox.C113_queue_violated: Classical.choice, Quot.sound, propext
Yacl.Link.Blackbox.C113_send: Classical.choice, Quot.sound, propext
Yacl.Link.Blackbox.C113_receive: Classical.choice, Quot.sound, propext
Yacl.Link.Blackbox.C113_stop_violated: propext
Yacl.Link.Blackbox.C113_stop_partial: propext
Yacl.Link.Blackbox.C113_options: Classical.choice, Quot.sound, propext
Yacl.Link.Blackbox.C113_descriptor_violated: none
Yacl.Link.Blackbox.C113_env: Classical.choice, Quot.sound, propext
Yacl.Link.Blackbox.C113_env_agree: Classical.choice, Quot.sound, propext
Yacl.Link.Blackbox.C113_env_violated: Classical.choice, Quot.sound, propext
Yacl.Kernel.BaseOt.C114_correct: Classical.choice, Quot.sound, propext
Yacl.Kernel.BaseOt.C114_choices_hidden: Quot.sound, propext
Yacl.Kernel.BaseOt.C114_separated: Quot.sound, propext
Yacl.Kernel.BaseOt.C114_oracle: Quot.sound, propext
Yacl.Kernel.BaseOt.C114_length: propext
Yacl.Kernel.BaseOt.C114_platforms_violated: Quot.sound, propext
Yacl.Bp.R1cs.C115_linear: Quot.sound, propext
Yacl.Bp.R1cs.C115_eval: Quot.sound, propext
Yacl.Bp.R1cs.C115_gates: Classical.choice, Quot.sound, propext
Yacl.Bp.R1cs.C115_stable: Classical.choice, Quot.sound, propext
Yacl.Bp.R1cs.C115_same_circuit: Classical.choice, Quot.sound, propext
Yacl.Bp.R1cs.C115_flatten: Classical.choice, Quot.sound, propext
Yacl.Bp.R1cs.C115_honest_verdict: Classical.choice, Quot.sound, propext
Yacl.Bp.R1cs.C115_complete_partial: Classical.choice, Quot.sound, propext
Yacl.Bp.R1cs.C115_unsatisfied: Classical.choice, Quot.sound, propext
Yacl.Bp.R1cs.C115_multiply: Classical.choice, Quot.sound, propext
Yacl.Bp.R1cs.C115_hiding_violated: propext
Yacl.Bp.R1cs.C115_sound: Classical.choice, Quot.sound, propext
Yacl.Bp.R1cs.C115_sound_inputs: Classical.choice, Quot.sound, propext
Yacl.Bp.R1cs.C115_verify_iff: Classical.choice, Quot.sound, propext
Yacl.Bp.Bytes.C116_int_bytes: Classical.choice, Quot.sound, propext
Yacl.Bp.Bytes.C116_ipp_roundtrip: Classical.choice, Quot.sound, propext
Yacl.Bp.Bytes.C116_ipp_negative_violated: Classical.choice, Quot.sound, propext
Yacl.Bp.Bytes.C116_reads_inside: Quot.sound, propext
Yacl.Bp.Bytes.C116_range_roundtrip: Classical.choice, Quot.sound, propext
Yacl.Bp.Bytes.C116_r1cs_write: Quot.sound, propext
Yacl.Bp.Bytes.C116_r1cs_write_violated: Classical.choice, Quot.sound, propext
Yacl.Bp.Bytes.C116_r1cs_read: Classical.choice, Quot.sound, propext
Yacl.Bp.Bytes.C116_r1cs_scalar_violated: Classical.choice, Quot.sound, propext
Yacl.Bp.Bytes.C116_unique_violated: Classical.choice, Quot.sound, propext
Yacl.Silver.C117_construct: Classical.choice, Quot.sound, propext
Yacl.Silver.C117_inplace: Classical.choice, Quot.sound, propext
Yacl.Silver.C117_copy: Classical.choice, Quot.sound, propext
Yacl.Silver.C117_correlated: Classical.choice, Quot.sound, propext
Yacl.Silver.C117_kernel: Classical.choice, Quot.sound, propext
Yacl.Silver.C117_two: Quot.sound, propext
Yacl.Silver.C117_truncated_violated: Classical.choice, Quot.sound, propext
Yacl.SvoleKernel.C118_roles: none
Yacl.SvoleKernel.C118_multithread: Classical.choice, Quot.sound, propext
Yacl.SvoleKernel.C118_silver_partial: Classical.choice, Quot.sound, propext
Yacl.SvoleKernel.C118_streaming_partial: Classical.choice, Quot.sound, propext
Yacl.SvoleKernel.C118_streaming_violated: Classical.choice, Quot.sound, propext
Yacl.SvoleKernel.C118_streaming_witness_violated: Quot.sound, propext
Yacl.SvoleKernel.C118_swallowed_violated: Classical.choice, Quot.sound, propext
Yacl.OtMock.C119_same_calls: Classical.choice, Quot.sound, propext
Yacl.OtMock.C119_rots: Classical.choice, Quot.sound, propext
Yacl.OtMock.C119_cots: Classical.choice, Quot.sound, propext
Yacl.OtMock.C119_compact: Classical.choice, Quot.sound, propext
Yacl.OtMock.C119_makers: none
Yacl.OtMock.C119_zero_delta_violated: Quot.sound, propext
Verif.Aes.C120_set_encrypt_key: Classical.choice, Quot.sound, propext
Verif.Aes.C120_opt_key_schedule: Classical.choice, Quot.sound, propext
Verif.Aes.C120_encrypt: Classical.choice, Quot.sound, propext
Verif.Aes.C120_decrypt_partial: Classical.choice, Quot.sound, propext
Verif.Aes.C120_decrypt_violated: Quot.sound, propext
Verif.Aes.C120_para_enc: Classical.choice, Quot.sound, propext
Verif.Aes.C120_cast: Classical.choice, Quot.sound, propext
Verif.Ecc.Openssl.C121_value_semantics_partial: Classical.choice, Quot.sound, propext
Verif.Ecc.Openssl.C121_pure_programs_partial: Classical.choice, Quot.sound, propext
Verif.Ecc.Openssl.C121_serialize_roundtrip: Classical.choice, Quot.sound, propext
Verif.Ecc.Openssl.C121_affine_roundtrip: Classical.choice, Quot.sound, propext
Verif.Ecc.Openssl.C121_hash_point: propext
Verif.Ecc.Openssl.C121_hash_to_curve: Quot.sound, propext
Verif.Ecc.Openssl.C121_generator_violated: Quot.sound, propext
Verif.Ecc.Openssl.C121_copy_violated: Quot.sound, propext
Verif.Ecc.Openssl.C121_cofactor_violated: Classical.choice, Quot.sound, propext
Verif.Ecc.Openssl.C121_deserialize_violated: Classical.choice, Quot.sound, propext
Verif.Ecc.Openssl.C121_infinity_violated: Classical.choice, Quot.sound, propext
Verif.Ecc.Openssl.C121_hash_violated: propext
Verif.Ecc.Openssl.C121_shake_violated: Quot.sound, propext
Verif.Ecc.Ed25519.C122_programs_partial: Classical.choice, Quot.sound, propext
Verif.Ecc.Ed25519.C122_equal: Classical.choice, Quot.sound, propext
Verif.Ecc.Ed25519.C122_queries: Classical.choice, Quot.sound, propext
Verif.Ecc.Ed25519.C122_decompress_partial: Classical.choice, Quot.sound, propext
Verif.Ecc.Ed25519.C122_copy_partial: Classical.choice, Quot.sound, propext
Verif.Ecc.Ed25519.C122_order_two_violated: Classical.choice, Quot.sound, propext
Verif.Ecc.Ed25519.C122_cofactor_violated: Classical.choice, Quot.sound, propext
Verif.Ecc.Ed25519.C122_off_curve_violated: Classical.choice, Quot.sound, propext
Verif.Ecc.Ed25519.C122_coordinates_violated: Classical.choice, Quot.sound, propext
Verif.Ecc.Ed25519.C122_sign_violated: Classical.choice, Quot.sound, propext
Verif.Ecc.Ed25519.C122_deserialize_violated: Quot.sound, propext
Verif.Ecc.Names.C123_lookup: Quot.sound, propext
Verif.Ecc.Names.C123_build: Quot.sound, propext
Verif.Ecc.Names.C123_case: none
Verif.Ecc.Names.C123_create: Quot.sound, propext
Verif.Ecc.Names.C123_table: Quot.sound, propext
Verif.Ecc.Names.C123_nids: Quot.sound, propext
Verif.Ecc.Names.C123_forms: none
Verif.Ecc.Names.C123_reachable: Quot.sound, propext
Verif.Ecc.Names.C123_openssl_partial: Quot.sound, propext
Verif.Ecc.Names.C123_openssl_violated: Quot.sound, propext
Verif.Item.C124_unary: Classical.choice, Quot.sound, propext
Verif.Item.C124_predicate: Classical.choice, Quot.sound, propext
Verif.Item.C124_binary: Classical.choice, Quot.sound, propext
Verif.Item.C124_unary_inplace: Classical.choice, Quot.sound, propext
Verif.Item.C124_binary_inplace_partial: Classical.choice, Quot.sound, propext
Verif.Item.C124_equal: Quot.sound, propext
Verif.Item.C124_is_all: Quot.sound, propext
Verif.Item.C124_sub_item: Quot.sound, propext
Verif.Item.C124_resize: Classical.choice, Quot.sound, propext
Verif.Item.C124_overlap_violated: Classical.choice, Quot.sound, propext
Verif.Item.C124_half_done_violated: Classical.choice, Quot.sound, propext
Verif.Item.C124_type_violated: Quot.sound, propext
Verif.Item.C124_foreign: Quot.sound, propext
Verif.Item.C124_read_only: none
Verif.GfLib.C125_prime: Classical.choice, Quot.sound, propext
Verif.GfLib.C125_prime_neg_partial: Classical.choice, Quot.sound, propext
Verif.GfLib.C125_prime_orders: Classical.choice, Quot.sound, propext
Verif.GfLib.C125_binary_partial: Classical.choice, Quot.sound, propext
Verif.GfLib.C125_binary_element: Classical.choice, Quot.sound, propext
Verif.GfLib.C125_factories_partial: Quot.sound, propext
Verif.GfLib.C125_mcl_partial: Quot.sound, propext
Verif.GfLib.C125_release_neg_violated: Quot.sound, propext
Verif.GfLib.C125_pow64_violated: Classical.choice, Quot.sound, propext
Verif.GfLib.C125_inv128_violated: Classical.choice, Quot.sound, propext
Verif.GfLib.C125_mul_order_violated: Classical.choice, Quot.sound, propext
Verif.GfLib.C125_binary_serialize_violated: Quot.sound, propext
Verif.GfLib.C125_binary_degree_violated: propext
Verif.GfLib.C125_mcl_modulus_violated: Quot.sound, propext
Yacl.Tpre.C126_owner: Classical.choice, Quot.sound, propext
Yacl.Tpre.C126_requester: Classical.choice, Quot.sound, propext
Yacl.Tpre.C126_authentic: Classical.choice, Quot.sound, propext
Yacl.Tpre.C126_empty_violated: Classical.choice, Quot.sound, propext
Yacl.Vss.C127_vss_hides_partial: Classical.choice, Quot.sound, propext
Yacl.Tpre.C127_rekey_hides_partial: Classical.choice, Quot.sound, propext
Yacl.Vss.C127_zero_point_violated: Classical.choice, Quot.sound, propext
Yacl.HashObj.C128_ssl: Quot.sound, propext
Yacl.HashObj.C128_xof: Quot.sound, propext
Yacl.HashObj.C128_xof_prefix: Quot.sound, propext
Yacl.HashObj.C128_blake3: Quot.sound, propext
Yacl.HashObj.C128_hmac_partial: Quot.sound, propext
Yacl.HashObj.C128_hmac_empty_violated: Quot.sound, propext
Yacl.HashObj.C128_oneshot: Quot.sound, propext
Yacl.HashObj.C128_low128: Quot.sound, propext
Yacl.BigInt.Front.C129_one_library: Quot.sound, propext
Yacl.BigInt.Front.C129_same_outputs: Classical.choice, Quot.sound, propext
Yacl.BigInt.Front.C129_mixed: propext
Yacl.BigInt.Front.C129_default: Classical.choice, Quot.sound, propext
Yacl.BigInt.Front.C129_default_stays: Classical.choice, Quot.sound, propext
Yacl.BigInt.Front.C129_default_violated: propext
Yacl.Link.Brpc.C130_pack: propext
Yacl.Link.Brpc.C130_dispatch: Quot.sound, propext
Yacl.Link.Brpc.C130_isolation: Classical.choice, Quot.sound, propext
Yacl.Link.Brpc.C130_send_request: Quot.sound, propext
Yacl.Link.Brpc.C130_send_loop: Classical.choice, Quot.sound, propext
Yacl.Link.Brpc.C130_sent_is_seen: Classical.choice, Quot.sound, propext
Yacl.Link.Brpc.C130_exactly_once: Classical.choice, Quot.sound, propext
Yacl.Link.Brpc.C130_options: Classical.choice, Quot.sound, propext
Yacl.Link.Brpc.C130_spoof_violated: Quot.sound, propext
Yacl.Link.Brpc.C130_exception_violated: Quot.sound, propext
Yacl.Link.Brpc.C130_stale_chunk_violated: Quot.sound, propext
Yacl.Link.Brpc.C130_options_violated: Classical.choice, Quot.sound, propext
Yacl.Pkey.C131_encrypt: propext
Yacl.Pkey.C131_sign: Quot.sound, propext
Yacl.Pkey.C131_keys: Quot.sound, propext
Yacl.Pkey.C131_cert_partial: Quot.sound, propext
Yacl.Pkey.C131_der_file_violated: propext
Yacl.Pkey.C131_cert_violated: Quot.sound, propext
Yacl.Pkey.C131_cert_subject_violated: propext
Yacl.Pqc.C132_names: Quot.sound, propext
Yacl.Pqc.C132_kem: Quot.sound, propext
Yacl.Pqc.C132_sig_partial: Quot.sound, propext
Yacl.Pqc.C132_sign_key_size_violated: Quot.sound, propext
Yacl.Ecc.Sodium.C133_programs: Classical.choice, Quot.sound, propext
Yacl.Ecc.Sodium.C133_observers: Classical.choice, Quot.sound, propext
Yacl.Ecc.Sodium.C133_bytes: Quot.sound, propext
Yacl.Ecc.Sodium.C133_invalid: Quot.sound, propext
Yacl.Ecc.Sodium.C133_hash: Classical.choice, Quot.sound, propext
Yacl.Ecc.Sodium.C133_x_agree: Classical.choice, Quot.sound, propext
Yacl.Ecc.Sodium.C133_x_bytes: Quot.sound, propext
Yacl.Ecc.Sodium.C133_x_hash: Classical.choice, Quot.sound, propext
Yacl.Ecc.Sodium.C133_x_inplace_partial: propext
Yacl.Ecc.Sodium.C133_mul_invalid_violated: Quot.sound, propext
Yacl.Ecc.Sodium.C133_trailing_violated: Quot.sound, propext
Yacl.Ecc.Sodium.C133_domain_violated: Classical.choice, Quot.sound, propext
Yacl.Ecc.Sodium.C133_ro_not_rfc_violated: Classical.choice, Quot.sound, propext
Yacl.Ecc.Sodium.C133_x_inplace_violated: Classical.choice, Quot.sound, propext
Yacl.Ecc.Sodium.C133_x_mul_violated: Classical.choice, Quot.sound, propext
Yacl.Ecc.Sodium.C133_x_tag_violated: Classical.choice, Quot.sound, propext
Verif.Ecc.Mcl.C134_value_semantics_partial: Classical.choice, Quot.sound, propext
Verif.Ecc.Mcl.C134_pure_programs_partial: Classical.choice, Quot.sound, propext
Verif.Ecc.Mcl.C134_bytes: Classical.choice, Quot.sound, propext
Verif.Ecc.Mcl.C134_long_buffer_infinity: Classical.choice, Quot.sound, propext
Verif.Ecc.Mcl.C134_hash_partial: Quot.sound, propext
Verif.Ecc.Mcl.C134_hash_throws: propext
Verif.Ecc.Mcl.C134_hash_point: Classical.choice, Quot.sound, propext
Verif.Ecc.Mcl.C134_generator_violated: Classical.choice, Quot.sound, propext
Verif.Ecc.Mcl.C134_affine_wrap_violated: Classical.choice, Quot.sound, propext
Verif.Ecc.Mcl.C134_long_buffer_violated: Classical.choice, Quot.sound, propext
Verif.Ecc.Mcl.C134_malformed_violated: Classical.choice, Quot.sound, propext
Verif.Ecc.Mcl.C134_hash_sm_violated: propext
Verif.Ecc.Mcl.C134_hash_sswu_violated: propext
Verif.Ecc.FourQ.C135_programs_partial: Classical.choice, Quot.sound, propext
Verif.Ecc.FourQ.C135_observers_partial: Classical.choice, Quot.sound, propext
Verif.Ecc.FourQ.C135_bytes: Classical.choice, Quot.sound, propext
Verif.Ecc.FourQ.C135_hash: Quot.sound, propext
Verif.Ecc.FourQ.C135_order_two_violated: Classical.choice, Quot.sound, propext
Verif.Ecc.FourQ.C135_sign_violated: Classical.choice, Quot.sound, propext
Verif.Ecc.FourQ.C135_short_input_violated: Quot.sound, propext
Verif.Ecc.FourQ.C135_mul_invalid_violated: Classical.choice, Quot.sound, propext
Verif.Ecc.Pairing.C136_programs_partial: Classical.choice, Quot.sound, propext
Verif.Ecc.Pairing.C136_exponents_partial: Classical.choice, Quot.sound, propext
Verif.Ecc.Pairing.C136_equation_partial: Classical.choice, Quot.sound, propext
Verif.Ecc.Pairing.C136_signature_partial: Classical.choice, Quot.sound, propext
Verif.Ecc.Pairing.C136_multi: Classical.choice, Quot.sound, propext
Verif.Ecc.Pairing.C136_generator_violated: Classical.choice, Quot.sound, propext
Verif.Ecc.Pairing.C136_create_violated: Classical.choice, Quot.sound, propext
Verif.Ecc.Pairing.C136_confusion_violated: Quot.sound, propext
Verif.Ecc.Pairing.C136_dst_violated: Quot.sound, propext
Yacl.Link.Desc.C137_message: Classical.choice, Quot.sound, propext
Yacl.Link.Desc.C137_empty_violated: Classical.choice, Quot.sound, propext
Yacl.Link.Desc.C137_empty_partial: Classical.choice, Quot.sound, propext
Yacl.Link.Desc.C137_unreachable: Classical.choice, Quot.sound, propext
Yacl.Link.Desc.C137_brpc_partial: Classical.choice, Quot.sound, propext
Yacl.Link.Desc.C137_brpc_accepts: Classical.choice, Quot.sound, propext
Yacl.Link.Desc.C137_chunks_violated: Classical.choice, Quot.sound, propext
Yacl.Link.Desc.C137_ciphers_violated: Classical.choice, Quot.sound, propext
Yacl.Link.Desc.C137_blackbox_default_violated: Classical.choice, Quot.sound, propext
Yacl.Link.Desc.C137_blackbox_partial: Classical.choice, Quot.sound, propext
Yacl.Link.Desc.C138_answer: Classical.choice, Quot.sound, propext
Yacl.Link.Desc.C138_connected: Classical.choice, Quot.sound, propext
Yacl.Link.Desc.C138_same_request: Classical.choice, Quot.sound, propext
Yacl.Link.Desc.C138_first: Classical.choice, Quot.sound, propext
Yacl.Link.Desc.C138_hash_violated: Quot.sound, propext
Yacl.Link.Desc.C138_timeout_violated: Classical.choice, Quot.sound, propext
Yacl.Link.Desc.C138_link_type_violated: Classical.choice, Quot.sound, propext
Yacl.Link.Desc.C138_settings_violated: Classical.choice, Quot.sound, propext
Yacl.Bp.Transcript.C139_binding_partial: Classical.choice, Quot.sound, propext
Yacl.Bp.Transcript.C139_number: Classical.choice, Quot.sound, propext
Yacl.Bp.Transcript.C139_domains: Classical.choice, Quot.sound, propext
Yacl.Bp.Transcript.C139_long_label_violated: Classical.choice, Quot.sound, propext
Yacl.Bp.Transcript.C139_challenge_confusion_violated: Classical.choice, Quot.sound, propext
Yacl.Bits.C140_deposit: Classical.choice, Quot.sound, propext
Yacl.Bits.C140_extract: Classical.choice, Quot.sound, propext
Yacl.Bits.C140_portable: Classical.choice, Quot.sound, propext
Yacl.Bits.C140_extract_deposit: Classical.choice, Quot.sound, propext
Yacl.Bits.C140_deposit_extract: Classical.choice, Quot.sound, propext
Yacl.Bits.C140_weight: Classical.choice, Quot.sound, propext
Yacl.Bits.C140_distance: Classical.choice, Quot.sound, propext
Yacl.SecParam.C141_crc: Classical.choice, Quot.sound, propext
Yacl.SecParam.C141_names: Classical.choice, Quot.sound, propext
Yacl.SecParam.C141_declare: Classical.choice, Quot.sound, propext
Yacl.SecParam.C141_collision_violated: Classical.choice, Quot.sound, propext
Yacl.SecParam.C141_global_partial: Classical.choice, Quot.sound, propext
Yacl.SecParam.C141_enforce_partial: Classical.choice, Quot.sound, propext
Yacl.SecParam.C141_int: propext
Yacl.SecParam.C141_global_violated: Classical.choice, Quot.sound, propext
Yacl.SecParam.C141_folded_violated: Classical.choice, Quot.sound, propext
Yacl.SecParam.C141_limit: Classical.choice, Quot.sound, propext
Yacl.SecParam.C141_counter_violated: Classical.choice, Quot.sound, propext
Yacl.NoiseWeight.C142_weight_partial: Classical.choice, Quot.sound, propext
Yacl.NoiseWeight.C142_offered: Classical.choice, Quot.sound, propext
Yacl.NoiseWeight.C142_reaches_violated: Classical.choice, Quot.sound, propext
Yacl.NoiseWeight.C142_small_violated: Classical.choice, Quot.sound, propext
Yacl.Timer.C143_count: Classical.choice, Quot.sound, propext
Yacl.Timer.C143_still: Quot.sound, propext
Yacl.Timer.C143_uninitialised: none
Yacl.Scripts.C144_sessions: Classical.choice, Quot.sound, propext
Yacl.Scripts.C144_reads: Classical.choice, Quot.sound, propext
Yacl.Scripts.C144_iknp_agree: Classical.choice, Quot.sound, propext
Yacl.Scripts.C144_mal_agree: Classical.choice, Quot.sound, propext
Yacl.Scripts.C144_ss_check_partial: Classical.choice, Quot.sound, propext
Yacl.Scripts.C144_gilboa_violated: Classical.choice, Quot.sound, propext
Yacl.Scripts.C144_silent_violated: Classical.choice, Quot.sound, propext
Yacl.Scripts.C144_two_parties: Classical.choice, Quot.sound, propext
Yacl.Scripts.C145_no_deadlock: Classical.choice, Quot.sound, propext
Yacl.Scripts.C145_ends: Classical.choice, Quot.sound, propext
Yacl.Scripts.C145_no_mismatch: Classical.choice, Quot.sound, propext
Yacl.Scripts.C145_chunks: Quot.sound, propext
Yacl.Scripts.C145_stream_no_deadlock: Classical.choice, Quot.sound, propext
Yacl.Scripts.C145_stream_ends: Classical.choice, Quot.sound, propext
Yacl.Scripts.C145_stream_no_mismatch: Classical.choice, Quot.sound, propext
Yacl.Scripts.C145_stream_order: Quot.sound, propext
Yacl.Scripts.C145_steps: Classical.choice, Quot.sound, propext
Yacl.ByteView.C146_eq_partial: propext
Yacl.ByteView.C146_null_violated: Quot.sound, propext
Yacl.ByteView.C146_frame: propext
Yacl.ByteView.C146_container: Quot.sound, propext
Yacl.ByteView.C146_raw: Quot.sound, propext
Yacl.ByteView.C146_cstr: Quot.sound, propext
Yacl.ByteView.C146_literal_violated: Quot.sound, propext
Yacl.ByteView.C146_string_view: none
Yacl.ByteView.C146_alias: Quot.sound, propext
Yacl.Cuda.C147_pipeline: Classical.choice, Quot.sound, propext
Yacl.Cuda.C147_ends: Quot.sound, propext
Yacl.Cuda.C147_race_free: Classical.choice, Quot.sound, propext
Yacl.Cuda.C147_once: Quot.sound, propext
Yacl.Cuda.C147_slots_violated: Quot.sound, propext
Yacl.Cuda.C147_overflow_violated: Quot.sound, propext
Yacl.Cuda.C147_hang_violated: propext
Yacl.Cuda.C148_mul: Classical.choice, Quot.sound, propext
Yacl.Cuda.C148_sqr: Classical.choice, Quot.sound, propext
Yacl.Cuda.C148_add: Classical.choice, Quot.sound, propext
Yacl.Cuda.C148_sub: Classical.choice, Quot.sound, propext
Yacl.Cuda.C148_neg: Classical.choice, Quot.sound, propext
Yacl.Cuda.C148_halve: Classical.choice, Quot.sound, propext
Yacl.Cuda.C148_equal: Classical.choice, Quot.sound, propext
Yacl.Cuda.C148_zero: Classical.choice, Quot.sound, propext
Yacl.Cuda.C148_toMont: Classical.choice, Quot.sound, propext
Yacl.Cuda.C148_fromMont: Classical.choice, Quot.sound, propext
Yacl.Cuda.C148_double: Classical.choice, Quot.sound, propext
Yacl.Cuda.C148_point_add: Classical.choice, Quot.sound, propext
Yacl.Cuda.C148_negate: Classical.choice, Quot.sound, propext
Yacl.Cuda.C148_point_sub: Classical.choice, Quot.sound, propext
Yacl.Cuda.C148_lift: Classical.choice, Quot.sound, propext
Yacl.Cuda.C148_mixed: Classical.choice, Quot.sound, propext
Yacl.Cuda.C148_point_equal: Classical.choice, Quot.sound, propext
Yacl.Cuda.C148_generator: Classical.choice, Quot.sound, propext
Yacl.Cuda.C149_wnaf: Classical.choice, Quot.sound, propext
Yacl.Cuda.C149_var: Classical.choice, Quot.sound, propext
Yacl.Cuda.C149_fixed: Classical.choice, Quot.sound, propext
Yacl.Cuda.C149_fixed_host: Classical.choice, Quot.sound, propext
Yacl.Cuda.C150_inv: Classical.choice, Quot.sound, propext
Yacl.Cuda.C150_sqrt: Classical.choice, Quot.sound, propext
Yacl.Cuda.C150_affine: Classical.choice, Quot.sound, propext
Yacl.Cuda.C150_disjoint: Classical.choice, Quot.sound, propext
Yacl.Cuda.C150_scan: Classical.choice, Quot.sound, propext
Yacl.Cuda.C150_batch: Classical.choice, Quot.sound, propext
Yacl.Cuda.C151_launch: Classical.choice, Quot.sound, propext
Yacl.Cuda.C151_invalid: propext
Yacl.Cuda.C151_mul: Classical.choice, Quot.sound, propext
Yacl.Cuda.C151_mul_same: Classical.choice, Quot.sound, propext
Yacl.Cuda.C151_add: Classical.choice, Quot.sound, propext
Yacl.Cuda.C151_double: Classical.choice, Quot.sound, propext
Yacl.Cuda.C151_base: Classical.choice, Quot.sound, propext
Yacl.Cuda.C151_negate: Classical.choice, Quot.sound, propext
Yacl.Cuda.C151_on_curve: Classical.choice, Quot.sound, propext
Yacl.Cuda.C151_hash: Classical.choice, Quot.sound, propext
Yacl.Cuda.C151_hash_unique: Classical.choice, Quot.sound, propext
Yacl.Cuda.C151_hash_mul_partial: Classical.choice, Quot.sound, propext
Yacl.Cuda.C151_blocks_violated: Classical.choice, Quot.sound, propext
Yacl.Cuda.C151_digest_offset_violated: Classical.choice, Quot.sound, propext
Yacl.Cuda.C151_sm3_shift_violated: Classical.choice, Quot.sound, propext
Yacl.Cuda.Mem.C152_count: Classical.choice, Quot.sound, propext
Yacl.Cuda.Mem.C152_memory: Classical.choice, Quot.sound, propext
Yacl.Cuda.Mem.C152_call: Classical.choice, Quot.sound, propext
Yacl.Cuda.Mem.C152_no_leak: Classical.choice, Quot.sound, propext
Yacl.Cuda.Mem.C152_idle: Classical.choice, Quot.sound, propext
Yacl.Cuda.Mem.C152_clean_end: Classical.choice, Quot.sound, propext
Yacl.Cuda.Mem.C152_reuse: Classical.choice, Quot.sound, propext
Yacl.Cuda.Mem.C152_in_flight: Classical.choice, Quot.sound, propext
Yacl.Cuda.Mem.C152_in_flight_violated: Quot.sound, propext
Yacl.Cuda.Mem.C152_registry_violated: Classical.choice, Quot.sound, propext
Yacl.Cuda.Mem.C152_table_copy_failed: Quot.sound, propext
Yacl.Cuda.Sm3.C153_sm3: Classical.choice, Quot.sound, propext
Yacl.Cuda.Sm3.C153_unique: Quot.sound, propext
Yacl.Cuda.Sm3.C153_iff: Classical.choice, Quot.sound, propext
Yacl.Cuda.C153_hash_to_curve: Classical.choice, Quot.sound, propext
Yacl.Cuda.C153_chain: Classical.choice, Quot.sound, propext
