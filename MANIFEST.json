{
 "claims": [
  {
   "property": "C01",
   "status": "proved",
   "theorems": [
    "Yacl.SegmentTree.C01_segment_tree_is_exact_set",
    "Yacl.SegmentTree.C01_max_id_violated"
   ],
   "note": "For ids below 2^64-1; at id 2^64-1 the one-past-the-end bound wraps and the property fails (C01_max_id_violated)."
  },
  {
   "property": "C02",
   "status": "proved",
   "theorems": [
    "Yacl.SegmentTree.C02_one_segment_means_all_arrived",
    "Yacl.SegmentTree.C02_all_arrived_is_one_segment"
   ],
   "note": "Both directions."
  },
  {
   "property": "C03",
   "status": "proved",
   "theorems": [
    "Yacl.Channel.C03_wire_key_roundtrip"
   ],
   "note": ""
  },
  {
   "property": "C04",
   "status": "proved",
   "theorems": [
    "Yacl.Channel.C04_exactly_once_delivery",
    "Yacl.Channel.C04_acks_exactly_once",
    "Yacl.Channel.C04_key_reuse_loses_message"
   ],
   "note": "Under the documented hypothesis that keys are not reused; C04_key_reuse_loses_message shows it is needed."
  },
  {
   "property": "C05",
   "status": "proved",
   "theorems": [
    "Yacl.Channel.C05_reassembly_exact"
   ],
   "note": ""
  },
  {
   "property": "C06",
   "status": "proved",
   "theorems": [
    "Yacl.Channel.C06_chunks_cover_message"
   ],
   "note": ""
  },
  {
   "property": "C07",
   "status": "partial",
   "theorems": [
    "Yacl.Channel.C07_no_out_of_bounds_partial",
    "Yacl.Channel.C07_inconsistent_total_out_of_bounds_violated",
    "Yacl.Channel.C07_offset_wraps_out_of_bounds_violated",
    "Yacl.Channel.C07_overlapping_chunks_leak_uninitialised"
   ],
   "note": "The full property is false of the code (witnesses proved); safe when all chunks of a message announce the same total and offset+size does not wrap."
  },
  {
   "property": "C08",
   "status": "proved",
   "theorems": [
    "Yacl.Channel.Sender.C08_throttle_window"
   ],
   "note": ""
  },
  {
   "property": "C09",
   "status": "proved",
   "theorems": [
    "Yacl.Channel.Close.C09_close_loses_nothing",
    "Yacl.Channel.Close.C09_close_loses_nothing_right"
   ],
   "note": "Transport that never gives up on a request."
  },
  {
   "property": "C10",
   "status": "proved",
   "theorems": [
    "Yacl.Channel.Close.C10_shutdown_progress",
    "Yacl.Channel.Close.C10_no_livelock",
    "Yacl.Channel.Close.C10_shutdown_terminates"
   ],
   "note": "Transport that never gives up on a request."
  },
  {
   "property": "C11",
   "status": "proved",
   "theorems": [
    "Yacl.Channel.Sender.C11_retry_policy",
    "Yacl.Channel.Sender.C11_success_iff"
   ],
   "note": ""
  },
  {
   "property": "C12",
   "status": "partial",
   "theorems": [
    "Yacl.Channel.Sender.C12_retry_options_partial",
    "Yacl.Channel.Sender.C12_retry_increment_violated"
   ],
   "note": "Full statement is false of the code; the other fields are proved."
  },
  {
   "property": "C13",
   "status": "partial",
   "theorems": [
    "Yacl.Channel.Sender.C13_sync_send_partial",
    "Yacl.Channel.Sender.C13_sync_send_hides_failure_violated",
    "Yacl.Channel.Sender.C13_chunk_failure_lost_violated",
    "Yacl.Channel.Sender.C13_parallel_chunks_bounded"
   ],
   "note": "Full statement is false of the code."
  },
  {
   "property": "C14",
   "status": "partial",
   "theorems": [
    "Yacl.Link.C14_message_ids_distinct_partial",
    "Yacl.Link.C14_p2p_counter_violated"
   ],
   "note": "Proved for all histories of fewer than 2^64 ids in which the signed int P2P counter does not overflow; the 2^31-th message in one direction is undefined behaviour (proved)."
  },
  {
   "property": "C15",
   "status": "partial",
   "theorems": [
    "Yacl.Link.C15_child_id_differs_from_parent",
    "Yacl.Link.C15_children_distinct_partial",
    "Yacl.Link.C15_spawn_violated",
    "Yacl.Link.C15_grandchild_violated"
   ],
   "note": "Full claim is false: Spawn() then Spawn(\"0\") collide. Proved when explicit ids are distinct and not decimal numbers."
  },
  {
   "property": "C16",
   "status": "partial",
   "theorems": [
    "Yacl.Link.C16_neighbours_are_ranks",
    "Yacl.Link.C16_neighbours_inverse_partial",
    "Yacl.Link.C16_neighbours_inverse_pow2",
    "Yacl.Link.C16_large_stride_violated"
   ],
   "note": "Full claim is false for strides larger than the ring when the world size is not a power of two; proved for strides up to the world size, and for all strides when it is a power of two."
  },
  {
   "property": "C17",
   "status": "proved",
   "theorems": [
    "Yacl.Link.C17_barrier_waits_for_everybody"
   ],
   "note": "Any world size below 2^62, any list of collective calls around the barrier, every schedule."
  },
  {
   "property": "C18",
   "status": "proved",
   "theorems": [
    "Yacl.Link.C18_broadcast_delivers_root_data"
   ],
   "note": "As C17."
  },
  {
   "property": "C19",
   "status": "proved",
   "theorems": [
    "Yacl.Link.C19_allgather_in_rank_order",
    "Yacl.Link.C19_gather_on_root_only",
    "Yacl.Link.C19_scatter_gives_ith_input"
   ],
   "note": "Single-buffer forms; the vector forms (array-of-buffers serialisation) are not modelled here."
  },
  {
   "property": "C20",
   "status": "proved",
   "theorems": [
    "Yacl.Link.C20_no_deadlock",
    "Yacl.Link.C20_every_step_counts",
    "Yacl.Link.C20_can_finish",
    "Yacl.Link.C20_no_message_left"
   ],
   "note": "Progress, termination and absence of left-over messages."
  },
  {
   "property": "C21",
   "status": "proved",
   "theorems": [
    "Yacl.Cuckoo.C21_every_item_placed_once",
    "Yacl.Cuckoo.C21_zero_hash_functions_ub",
    "Yacl.Cuckoo.C21_zero_bins_ub"
   ],
   "note": "For announced input counts up to 2^56 (the width of the packed item index) and num_hash below 2^62. Findings: num_hash = 0 or an empty bin table is undefined behaviour."
  },
  {
   "property": "C22",
   "status": "proved",
   "theorems": [
    "Yacl.Parallel.C22_every_index_exactly_once",
    "Yacl.Parallel.C22_int64_wrap_violated"
   ],
   "note": "For ranges within +-2^61; at the very end of the int64_t range the last chunk wraps (violated, proved)."
  },
  {
   "property": "C23",
   "status": "proved",
   "theorems": [
    "Yacl.Parallel.C23_reduce_equals_sequential",
    "Yacl.Parallel.C23_thread_count_race_violated"
   ],
   "note": "For a constant thread count and ranges within +-2^61; a concurrent set_num_threads breaks it (proved)."
  },
  {
   "property": "C24",
   "status": "proved",
   "theorems": [
    "Yacl.ThreadPool.C24_fifo_exactly_once",
    "Yacl.ThreadPool.C24_destructor_drains",
    "Yacl.ThreadPool.C24_submit_after_stop_refused",
    "Yacl.ThreadPool.C24_progress",
    "Yacl.ThreadPool.C24_internal_steps_terminate"
   ],
   "note": "Includes absence of lost wake-ups; tasks are assumed to terminate."
  },
  {
   "property": "C25",
   "status": "proved",
   "theorems": [
    "Yacl.Int128.C25_make_uint128_value",
    "Yacl.Int128.C25_make_int128_value",
    "Yacl.Int128.C25_uint128_round_trip",
    "Yacl.Int128.C25_int128_round_trip",
    "Yacl.Int128.C25_bit_width",
    "Yacl.Int128.C25_limits",
    "Yacl.Int128.C25_abs"
   ],
   "note": "All 64-bit halves and 128-bit values."
  },
  {
   "property": "C26",
   "status": "proved",
   "theorems": [
    "Yacl.Msgpack.C26_round_trip",
    "Yacl.Msgpack.C26_injective",
    "Yacl.Msgpack.C26_serialize_total",
    "Yacl.Msgpack.C26_item_round_trip",
    "Yacl.Msgpack.C26_no_silent_narrowing"
   ],
   "note": "Every tuple of the supported item kinds; msgpack-c's encoding is modelled from the format specification; floats, maps and nil are not modelled."
  },
  {
   "property": "C27",
   "status": "proved",
   "theorems": [
    "Yacl.Msgpack.C27_predicted_size",
    "Yacl.Msgpack.C27_fixed_buffer",
    "Yacl.Msgpack.C27_head_sizes",
    "Yacl.Msgpack.C27_item_size"
   ],
   "note": "For element serializers that write exactly the size they announce."
  },
  {
   "property": "C28",
   "status": "proved",
   "theorems": [
    "Yacl.Matrix.C28_naive_transposes",
    "Yacl.Matrix.C28_eklundh_transposes",
    "Yacl.Matrix.C28_sse_transposes",
    "Yacl.Matrix.C28_dispatch_transposes",
    "Yacl.Matrix.C28_involution",
    "Yacl.Matrix.C28_eklundh1024_transposes",
    "Yacl.Matrix.C28_sse1024_transposes",
    "Yacl.Matrix.C28_dispatch1024_transposes",
    "Yacl.Matrix.C28_avx_transposes",
    "Yacl.Matrix.C28_dispatch_all_transposes",
    "Yacl.Matrix.C28_alignment_violated"
   ],
   "note": "Naive, Eklundh, SSE2 and AVX2 variants and the dispatch. The AVX2 variant (what the default x86 build uses) needs a 32-byte aligned array; the argument type guarantees 16 only, see C28_alignment_violated."
  },
  {
   "property": "C29",
   "status": "partial",
   "theorems": [
    "Yacl.Circuit.C29_exec",
    "Yacl.Circuit.C29_value_unique",
    "Yacl.Circuit.C29_mand_refused",
    "Yacl.Circuit.C29_bytes_partial",
    "Yacl.Circuit.C29_span_partial",
    "Yacl.Circuit.C29_bytes_violated",
    "Yacl.Circuit.C29_span_violated"
   ],
   "note": "Exec is proved for every well-formed circuit. The code itself breaks the property in Finalize: bytes when the outputs do not fill whole bytes, spans when output widths are not a palindrome (witnesses *_violated)."
  },
  {
   "property": "C30",
   "status": "partial",
   "theorems": [
    "Yacl.Circuit.C30_bytes_reuse_partial",
    "Yacl.Circuit.C30_span_ignores_inputs",
    "Yacl.Circuit.C30_span_violated"
   ],
   "note": "Holds for the bytes interface (outputs filling whole bytes); false for the span interface, where a second SetupInputs is ignored (violated theorems)."
  },
  {
   "property": "C31",
   "status": "proved",
   "theorems": [
    "Yacl.Circuit.C31_sha256_input"
   ],
   "note": "All messages, with the FIPS 180-4 block as specification."
  },
  {
   "property": "C32",
   "status": "partial",
   "theorems": [
    "Yacl.Kv.C32_leveldb_last_write",
    "Yacl.Kv.C32_memory_first_write",
    "Yacl.Kv.C32_memory_overwrite_violated",
    "Yacl.Kv.C32_memory_single_write_partial",
    "Yacl.Kv.C32_index_store",
    "Yacl.Kv.C32_count",
    "Yacl.Kv.C32_get_buffer"
   ],
   "note": "Full for the LevelDB store (leveldb itself trusted). The memory store keeps the first value on overwrite: violation proved; what holds (keys written at most once) proved as partial."
  },
  {
   "property": "C33",
   "status": "proved",
   "theorems": [
    "Yacl.Csv.C33_roundtrip",
    "Yacl.Csv.C33_header",
    "Yacl.Csv.C33_column_reader",
    "Yacl.Csv.readBack_str",
    "Yacl.Csv.C33_delimiter_in_value_violated",
    "Yacl.Csv.C33_column_reader_empty_violated"
   ],
   "note": "Writer to row reader for all fitting batches, all read sizes, any selection and order of features; the column reader on any well-formed file. Float printing/parsing is an arbitrary codec: a float reads back as parse(print v). The two _violated theorems show that the delimiter-free hypothesis is needed and that the column reader cannot read a file without rows."
  },
  {
   "property": "C34",
   "status": "partial",
   "theorems": [
    "Yacl.Csv.C34_seek_then_read_partial",
    "Yacl.Csv.C34_sequential_partial",
    "Yacl.Csv.C34_seek_past_end",
    "Yacl.Csv.C34_spawn",
    "Yacl.Csv.C34_after_bad_row_violated",
    "Yacl.Csv.C34_count_lines_empty_violated"
   ],
   "note": "All histories of Next/Seek/Spawn on files whose rows are well formed. After a malformed row the row index and cache are wrong: violation proved."
  },
  {
   "property": "C35",
   "status": "partial",
   "theorems": [
    "Yacl.OtStore.C35_access",
    "Yacl.OtStore.C35_nextSlice",
    "Yacl.OtStore.C35_windows",
    "Yacl.OtStore.C35_independent",
    "Yacl.OtStore.C35_slice",
    "Yacl.OtStore.C35_sender_rot",
    "Yacl.OtStore.C35_sender_cot",
    "Yacl.OtStore.C35_copies",
    "Yacl.OtStore.C35_slice_of_slice_violated",
    "Yacl.OtStore.C35_resetSlice_violated",
    "Yacl.OtStore.C35_huge_request_violated"
   ],
   "note": "Proved for every history of NextSlice, Slice, ResetSlice, reads and writes. The code breaks the claim for Slice or ResetSlice applied to a slice (absolute coordinates) and for requests of 2^63 or more from a normal-mode sender; negations proved."
  },
  {
   "property": "C36",
   "status": "partial",
   "theorems": [
    "Yacl.OtStore.C36_copy_partial",
    "Yacl.OtStore.C36_fresh",
    "Yacl.OtStore.C36_copy_violated"
   ],
   "note": "Holds for fresh stores and slices; violated once NextSlice has been called on the object (wrong blocks, or a read past the end)."
  },
  {
   "property": "C37",
   "status": "proved",
   "theorems": [
    "Yacl.OtExt.C37_iknp"
   ],
   "note": "PRG, hash and base OT are arbitrary; the transposes are the modelled ones of C28, chosen independently by the parties."
  },
  {
   "property": "C38",
   "status": "proved",
   "theorems": [
    "Yacl.OtExt.C38_kos_complete"
   ],
   "note": "Completeness and correctness; soundness is C74, hiding is C75."
  },
  {
   "property": "C39",
   "status": "proved",
   "theorems": [
    "Yacl.Ggm.C39_sgrr",
    "Yacl.Ggm.C39_sgrr_fixed"
   ],
   "note": "n up to 2^31 (the code shifts a 32-bit one); permutations and hashes arbitrary"
  },
  {
   "property": "C40",
   "status": "proved",
   "theorems": [
    "Yacl.Ggm.C40_gywz",
    "Yacl.Ggm.C40_gywz_fixed",
    "Yacl.Ggm.C40_gywz_ferret"
   ],
   "note": "n up to 2^31; hash arbitrary"
  },
  {
   "property": "C41",
   "status": "proved",
   "theorems": [
    "Yacl.Kkrt.C41_kkrt",
    "Yacl.Kkrt.C41_online"
   ],
   "note": "generator, code and oracle arbitrary; both the one-shot functions and the offline/online objects under any history of calls"
  },
  {
   "property": "C42",
   "status": "partial",
   "theorems": [
    "Yacl.MpVole.C42_mp_vole_partial",
    "Yacl.MpVole.C42_mp_vole_fixed_partial",
    "Yacl.MpVole.C42_check_violated",
    "Yacl.MpVole.C42_once",
    "Yacl.MpVole.C42_resetup_violated"
   ],
   "note": "Proved for every parameter set except the malicious check with a single block and point 0 or 1, where honest parties are rejected (violation proved)."
  },
  {
   "property": "C43",
   "status": "partial",
   "theorems": [
    "Yacl.Code.C43_encode_partial",
    "Yacl.Code.C43_deviation_partial",
    "Yacl.Code.C43_correlation_partial",
    "Yacl.Code.C43_exacc_partial",
    "Yacl.Code.C43_accumulate",
    "Yacl.Code.C43_large_dimension_violated"
   ],
   "note": "Proved for 1 <= k < 2^31 (all dimensions the type's signed comparison supports); for k >= 2^31 the claim is false (witness). The random permutation is an arbitrary function."
  },
  {
   "property": "C44",
   "status": "proved",
   "theorems": [
    "Yacl.Dpf.C44_point_function",
    "Yacl.Dpf.C44_refused"
   ],
   "note": "All M, N <= 128; generators arbitrary."
  },
  {
   "property": "C45",
   "status": "partial",
   "theorems": [
    "Yacl.Dpf.C45_evalAll_partial",
    "Yacl.Dpf.C45_wide_violated"
   ],
   "note": "All domains with a termination level below 32; at 32 and above the code shifts a 32-bit value by its width (undefined). The floating-point formula for the termination level is not modelled: any level is allowed."
  },
  {
   "property": "C46",
   "status": "proved",
   "theorems": [
    "Yacl.Dcf.C46_comparison"
   ],
   "note": "All M, N <= 128; generators arbitrary."
  },
  {
   "property": "C47",
   "status": "partial",
   "theorems": [
    "Yacl.Pprf.C47_punctured_partial",
    "Yacl.Pprf.C47_contents",
    "Yacl.Pprf.C47_reuse_violated"
   ],
   "note": "Holds for M < 64 and a fresh key object. A reused key object keeps old seeds (violated). M = 64 always throws. That a seed differs from the value at the punctured point is a cryptographic statement and is not claimed."
  },
  {
   "property": "C48",
   "status": "proved",
   "theorems": [
    "Yacl.Vss.C48_recover",
    "Yacl.Vss.C48_share"
   ],
   "note": "All primes, thresholds (1 <= t < 2^31), secrets, tapes and share selections; libtommath modular operations by contract"
  },
  {
   "property": "C49",
   "status": "proved",
   "theorems": [
    "Yacl.Vss.C49_verify_iff",
    "Yacl.Vss.C49_complete",
    "Yacl.Vss.C49_binding"
   ],
   "note": "Abstract commutative group with generator of the given order"
  },
  {
   "property": "C50",
   "status": "proved",
   "theorems": [
    "Yacl.Sumcheck.C50_sumcheck",
    "Yacl.Sumcheck.C50_constant",
    "Yacl.Sumcheck.C50_soundness"
   ],
   "note": "Exact acceptance condition for the honest prover, the zero-variable case, and soundness against every prover strategy (at most k*p^(k-1) challenge vectors accept a wrong claim)."
  },
  {
   "property": "C51",
   "status": "partial",
   "theorems": [
    "Yacl.Sumcheck.C51_zero_iff",
    "Yacl.Sumcheck.C51_zero_complete",
    "Yacl.Sumcheck.C51_zero_soundness",
    "Yacl.Sumcheck.C51_one_iff_partial",
    "Yacl.Sumcheck.C51_one_complete_partial",
    "Yacl.Sumcheck.C51_one_soundness_partial",
    "Yacl.Sumcheck.C51_one_violated"
   ],
   "note": "Zero check: exact condition, completeness and soundness. One check: the full statement is false when alpha = 1 is drawn and the table is at least as long as the modulus (C51_one_violated); proved whenever alpha is not 1 or the table is shorter than the modulus. Tables of 32 or more variables shift out of range in the code."
  },
  {
   "property": "C52",
   "status": "proved",
   "theorems": [
    "Yacl.Tpre.C52_delegator",
    "Yacl.Tpre.C52_check_iff",
    "Yacl.Tpre.C52_delegatee",
    "Yacl.Tpre.C52_rekey_iff",
    "Yacl.Tpre.C52_fragment_proof"
   ],
   "note": "Abstract group; hashes, serialisation and KDF arbitrary; throws exactly when two hash points coincide or the Diffie-Hellman hash is 0 mod order"
  },
  {
   "property": "C53",
   "status": "partial",
   "theorems": [
    "Yacl.TSet.C53_first_hundred",
    "Yacl.TSet.C53_retrieve_partial",
    "Yacl.TSet.C53_absent",
    "Yacl.TSet.C53_violated"
   ],
   "note": "Full statement violated: only the first 100 entries of a keyword are returned. Proved for up to 100 entries without label collisions."
  },
  {
   "property": "C54",
   "status": "partial",
   "theorems": [
    "Yacl.Prg.C54_stream",
    "Yacl.Prg.C54_bool_partial",
    "Yacl.Prg.C54_bool_violated"
   ],
   "note": "Proved for every element type but bool; for bool the first 7*BATCH_SIZE values are false (negation proved) and the rest is the stream. Fewer than 2^64 blocks."
  },
  {
   "property": "C55",
   "status": "partial",
   "theorems": [
    "Yacl.Prg.C55_partial",
    "Yacl.Prg.C55_fill",
    "Yacl.Prg.C55_violated"
   ],
   "note": "SetSeed keeps cached values; holds when the cache is used up and for Fill."
  },
  {
   "property": "C56",
   "status": "partial",
   "theorems": [
    "Yacl.Prg.C56_prefix",
    "Yacl.Prg.C56_continue_partial",
    "Yacl.Prg.C56_ctr_violated",
    "Yacl.Prg.C56_ctr_disjoint",
    "Yacl.Prg.C56_wrap_violated"
   ],
   "note": "Prefix property in all modes; continuation only in ECB mode; CTR does not continue but never reuses cipher inputs."
  },
  {
   "property": "C57",
   "status": "partial",
   "theorems": [
    "Yacl.Prg.C57_narrow",
    "Yacl.Prg.C57_wide_partial",
    "Yacl.Prg.C57_wide_violated",
    "Yacl.Prg.C57_fill",
    "Yacl.Prg.C57_ltN"
   ],
   "note": "Exact for 8 and 32 bits; the 64- and 128-bit versions can return p and drop bits (negation proved)."
  },
  {
   "property": "C58",
   "status": "partial",
   "theorems": [
    "Yacl.SyncDrbg.C58_fill_partial",
    "Yacl.SyncDrbg.C58_refused",
    "Yacl.SyncDrbg.C58_violated"
   ],
   "note": "Violated when the generator asks for a reseed: that batch is not regenerated and keeps the old bytes. Holds for runs without a reseed."
  },
  {
   "property": "C59",
   "status": "proved",
   "theorems": [
    "Yacl.Gf.C59_mul64",
    "Yacl.Gf.C59_mul128",
    "Yacl.Gf.C59_inner64",
    "Yacl.Gf.C59_inner128",
    "Yacl.Gf.C59_sizes",
    "Yacl.Gf.C59_ring64",
    "Yacl.Gf.C59_ring128",
    "Yacl.Gf.C59_irreducible64",
    "Yacl.Gf.C59_irreducible128",
    "Yacl.Gf.C59_inverse64",
    "Yacl.Gf.C59_no_zero_divisors",
    "Yacl.Gf.C59_pack64"
   ],
   "note": "The intrinsics are modelled from the Intel manual. Irreducibility of both moduli is proved (Rabin's test evaluated by the kernel), so both structures are fields."
  },
  {
   "property": "C60",
   "status": "proved",
   "theorems": [
    "Yacl.Gadget.C60_log2Floor",
    "Yacl.Gadget.C60_log2Ceil",
    "Yacl.Gadget.C60_divCeil",
    "Yacl.Gadget.C60_roundUpTo",
    "Yacl.Gadget.C60_roundUpTo_wraps"
   ],
   "note": "Division by zero is excluded by hypothesis."
  },
  {
   "property": "C61",
   "status": "partial",
   "theorems": [
    "Yacl.Mpfss.C61_param",
    "Yacl.Mpfss.C61_choices",
    "Yacl.Mpfss.C61_genIndexes",
    "Yacl.Mpfss.C61_setIndexes_partial",
    "Yacl.Mpfss.C61_setIndexes_violated"
   ],
   "note": "SetIndexes does not install the last index and writes out of bounds on fresh parameters: violation proved."
  },
  {
   "property": "C62",
   "status": "partial",
   "theorems": [
    "Yacl.ChannelMem.C62_subsequence",
    "Yacl.ChannelMem.C62_exact_partial",
    "Yacl.ChannelMem.C62_isolated",
    "Yacl.ChannelMem.C62_finish_once",
    "Yacl.ChannelMem.C62_finish",
    "Yacl.ChannelMem.C62_violated"
   ],
   "note": "Violated when a key is reused before its message was read: the second message is dropped. Proved when keys do not overlap."
  },
  {
   "property": "C63",
   "status": "proved",
   "theorems": [
    "Yacl.Link.C63_contexts_do_not_interfere"
   ],
   "note": ""
  },
  {
   "property": "C64",
   "status": "proved",
   "theorems": [
    "Yacl.Link.C64_p2p_messages_pair_up"
   ],
   "note": ""
  },
  {
   "property": "C65",
   "status": "proved",
   "theorems": [
    "Yacl.Link.C65_subworld_consistent"
   ],
   "note": ""
  },
  {
   "property": "C66",
   "status": "proved",
   "theorems": [
    "Yacl.Cuckoo.C66_min_colliding_hash"
   ],
   "note": ""
  },
  {
   "property": "C67",
   "status": "proved",
   "theorems": [
    "Yacl.Parallel.C67_exceptions_propagate"
   ],
   "note": ""
  },
  {
   "property": "C68",
   "status": "proved",
   "theorems": [
    "Yacl.Parallel.C68_grain_and_threads_respected"
   ],
   "note": ""
  },
  {
   "property": "C69",
   "status": "partial",
   "theorems": [
    "Yacl.Buf.C69_resize",
    "Yacl.Buf.C69_reserve",
    "Yacl.Buf.C69_copy",
    "Yacl.Buf.C69_construct_copy",
    "Yacl.Buf.C69_adopt",
    "Yacl.Buf.C69_move",
    "Yacl.Buf.C69_store",
    "Yacl.Buf.C69_equal",
    "Yacl.Buf.C69_negative_resize_violated"
   ],
   "note": "Proved for all histories with non-negative sizes; the code accepts resize(-1) and then reports a negative size (violated theorem)."
  },
  {
   "property": "C70",
   "status": "partial",
   "theorems": [
    "Yacl.Buf.C70_freed_once_by_right_deleter",
    "Yacl.Buf.C70_owned_memory_is_live",
    "Yacl.Buf.C70_no_leak",
    "Yacl.Buf.C70_deleter_called_with_null_violated"
   ],
   "note": "Proved for all histories; finding: after release() the deleter is called once more with a null pointer."
  },
  {
   "property": "C71",
   "status": "partial",
   "theorems": [
    "Yacl.Circuit.C71_read_back",
    "Yacl.Circuit.C71_files_differ",
    "Yacl.Circuit.C71_arity",
    "Yacl.Circuit.C71_truncated_violated",
    "Yacl.Circuit.C71_truncated_line_refused",
    "Yacl.Circuit.C71_short_line_violated",
    "Yacl.Circuit.C71_count_wraps_violated"
   ],
   "note": "Round trip and arity proved for all circuits/files; refusal of truncated or malformed files is false of the code (violated theorems)."
  },
  {
   "property": "C72",
   "status": "partial",
   "theorems": [
    "Yacl.OtStore.C72_steal_violated"
   ],
   "note": "The code violates it for every store: StealBlkBuf always throws and loses the blocks."
  },
  {
   "property": "C73",
   "status": "partial",
   "theorems": [
    "Yacl.Gf.C73_universalHash",
    "Yacl.Gf.C73_coef_partial",
    "Yacl.Gf.C73_coef_violated"
   ],
   "note": "ExtractHashCoef is wrong when the last index is 0 (throws) or 1 (weight 0); negation proved."
  },
  {
   "property": "C74",
   "status": "proved",
   "theorems": [
    "Yacl.OtExt.C74_kos_sound"
   ],
   "note": "Per pair of columns; the union over all columns and the reduction to OT security are not modelled."
  },
  {
   "property": "C75",
   "status": "partial",
   "theorems": [
    "Yacl.Prg.C75_violated",
    "Yacl.Prg.C75_mask_zero",
    "Yacl.OtExt.C75_hides_partial",
    "Yacl.OtExt.C75_good"
   ],
   "note": "False of the code: the masking choices are constantly zero, so the check message shows the choices. Proved: with random masking choices the check message would hide them for every challenge that is not degenerate, and (choice counts divisible by 64) which challenges are degenerate."
  },
  {
   "property": "C76",
   "status": "proved",
   "theorems": [
    "Yacl.Prg.C76_disjoint"
   ],
   "note": "Fewer than 2^64 blocks drawn in total."
  },
  {
   "property": "C77",
   "status": "proved",
   "theorems": [
    "Yacl.Ggm.C77_check_binding"
   ],
   "note": "hash collisions appear as an explicit alternative"
  },
  {
   "property": "C78",
   "status": "proved",
   "theorems": [
    "Yacl.Mpfss.C78_mpfss",
    "Yacl.Mpfss.C78_mpfss_fixed",
    "Yacl.Mpfss.C78_mpfss_xor"
   ],
   "note": "Blocks of at most 2^31 elements (2^30 with fixed index), the range in which Log2Ceil and the 32-bit index arithmetic of the code are exact."
  },
  {
   "property": "C79",
   "status": "proved",
   "theorems": [
    "Yacl.SilentVole.C79_ot2vole"
   ],
   "note": "Primitives: field arithmetic of C59."
  },
  {
   "property": "C80",
   "status": "partial",
   "theorems": [
    "Yacl.SilentVole.C80_silent_partial",
    "Yacl.SilentVole.C80_zero_partial",
    "Yacl.SilentVole.C80_dirty_violated",
    "Yacl.SilentVole.C80_silver_partial"
   ],
   "note": "Ideal OT extension; expand-accumulate and Silver codes, sizes up to 2^30, malicious mode with noise weight >= 2. With expand-accumulate codes false for buffers that are not zero (C80_dirty_violated); with Silver codes the old contents do not matter."
  },
  {
   "property": "C81",
   "status": "proved",
   "theorems": [
    "Yacl.Kdf.C81_kdf",
    "Yacl.Kdf.C81_edge"
   ],
   "note": "SM3 is an arbitrary function to 32 bytes"
  },
  {
   "property": "C82",
   "status": "proved",
   "theorems": [
    "Yacl.Sumcheck.C82_evaluate",
    "Yacl.Sumcheck.C82_corner"
   ],
   "note": "Evaluate equals the explicit multilinear extension; corners return entries."
  },
  {
   "property": "C83",
   "status": "proved",
   "theorems": [
    "Yacl.Sumcheck.C83_matmat",
    "Yacl.Sumcheck.C83_matvec",
    "Yacl.Sumcheck.C83_refused"
   ],
   "note": "Inner dimension 2^n with 1 <= n < 31 (1 << logN on int is undefined beyond; n = 0 is refused by the code)."
  },
  {
   "property": "C84",
   "status": "proved",
   "theorems": [
    "Yacl.Sumcheck.C84_iff",
    "Yacl.Sumcheck.C84_complete",
    "Yacl.Sumcheck.C84_soundness",
    "Yacl.Sumcheck.C84_characteristic"
   ],
   "note": "Honest prover: the code's verifier takes the helper and quotient tables from the prover without relating them to the inputs, so nothing is claimed against a dishonest prover. Multiplicities count modulo the prime (C84_characteristic)."
  },
  {
   "property": "C85",
   "status": "proved",
   "theorems": [
    "Yacl.SyncDrbg.C85_roundtrip",
    "Yacl.SyncDrbg.C85_sync",
    "Yacl.SyncDrbg.C85_stuck",
    "Yacl.SyncDrbg.C85_agree"
   ],
   "note": "Generator library and entropy source are arbitrary functions."
  },
  {
   "property": "C86",
   "status": "proved",
   "theorems": [
    "Yacl.Bitset.C86_bitset_refines",
    "Yacl.Bitset.C86_canonical"
   ],
   "note": "positions and lengths as natural numbers; a failed assert (release: out-of-range access) is none; data() writing through the raw block pointer is outside the model"
  },
  {
   "property": "C87",
   "status": "proved",
   "theorems": [
    "Yacl.Bitset.C87_queries",
    "Yacl.Bitset.C87_compare",
    "Yacl.Bitset.C87_strings"
   ],
   "note": "popcount and trailing-zero builtins are modelled by the portable loops; iteration modelled for a callback that always continues"
  },
  {
   "property": "C88",
   "status": "proved",
   "theorems": [
    "Yacl.MPInt.C88_bit_count",
    "Yacl.MPInt.C88_word_bits",
    "Yacl.MPInt.C88_mag_bytes",
    "Yacl.MPInt.C88_mag_bytes_new",
    "Yacl.MPInt.C88_from_mag",
    "Yacl.MPInt.C88_mag_roundtrip",
    "Yacl.MPInt.C88_to_bytes",
    "Yacl.MPInt.C88_bits",
    "Yacl.MPInt.C88_serialize",
    "Yacl.MPInt.C88_deserialize",
    "Yacl.MPInt.C88_serialize_roundtrip",
    "Yacl.MPInt.C88_serialize_injective",
    "Yacl.MPInt.C88_set",
    "Yacl.MPInt.C88_get",
    "Yacl.MPInt.C88_set_get",
    "Yacl.MPInt.C88_rand_bits",
    "Yacl.MPInt.C88_custom_pow"
   ],
   "note": "digit width is a parameter; 32-bit int bit indices (numbers of 2^28 bytes and more) and the undefined negation in Get<int128_t> of the minimum are outside the model; libtommath's mp_grow, mp_clamp and mp_zero appear with their documented meaning"
  },
  {
   "property": "C89",
   "status": "partial",
   "theorems": [
    "Yacl.MPInt.Arith.C89_div_partial",
    "Yacl.MPInt.Arith.C89_div_violated",
    "Yacl.MPInt.Arith.C89_div_mod_partial",
    "Yacl.MPInt.Arith.C89_div_word",
    "Yacl.MPInt.Arith.C89_mod_word",
    "Yacl.MPInt.Arith.C89_mod_digit_partial",
    "Yacl.MPInt.Arith.C89_mod_digit_violated"
   ],
   "note": "the quotient is 0 instead of -1 when 0<|a|<|b| with opposite signs, and Mod(mp_digit) ignores the sign; outside these cases the property is proved; libtommath's mp_div, mp_mod, mp_div_d, mp_mod_d appear with their documented meaning"
  },
  {
   "property": "C90",
   "status": "proved",
   "theorems": [
    "Yacl.MPInt.Arith.C90_safe_prime",
    "Yacl.MPInt.Arith.C90_no_wrap",
    "Yacl.MPInt.Arith.C90_run",
    "Yacl.MPInt.Arith.C90_random_lt"
   ],
   "note": "truth of mp_prime_is_prime (Miller-Rabin and Baillie-PSW in libtommath) on the returned q is a hypothesis; termination is probabilistic and not claimed"
  },
  {
   "property": "C91",
   "status": "partial",
   "theorems": [
    "Yacl.Bp.C91_verify_iff",
    "Yacl.Bp.C91_complete_partial",
    "Yacl.Bp.C91_identity_throws",
    "Yacl.Bp.C91_sound",
    "Yacl.Bp.C91_zero_violated"
   ],
   "note": "Completeness holds when no L or R is the identity; otherwise Verify throws (C91_identity_throws, C91_zero_violated). Soundness is for provers answering four challenges per round and generators without a linear relation; Fiat-Shamir itself is not modelled as a random oracle."
  },
  {
   "property": "C92",
   "status": "partial",
   "theorems": [
    "Yacl.Bp.C92_honest_verdict",
    "Yacl.Bp.C92_complete_partial",
    "Yacl.Bp.C92_too_large",
    "Yacl.Bp.C92_delta",
    "Yacl.Bp.C92_sound",
    "Yacl.Bp.C92_verify_iff"
   ],
   "note": "Completeness excludes proofs with an identity point, on which the verifier throws. Soundness is the rewinding statement (answers to enough challenges), not a probability."
  },
  {
   "property": "C93",
   "status": "partial",
   "theorems": [
    "Yacl.Oprf.C93_output_partial",
    "Yacl.Oprf.C93_blind",
    "Yacl.Oprf.C93_refresh_violated",
    "Yacl.Oprf.C93_hiding",
    "Yacl.Oprf.C93_framing"
   ],
   "note": "Full for histories that clear before refreshing; false otherwise, shown for all keys and inputs by C93_refresh_violated."
  },
  {
   "property": "C94",
   "status": "proved",
   "theorems": [
    "Yacl.Oprf.C94_composites",
    "Yacl.Oprf.C94_verify_iff",
    "Yacl.Oprf.C94_complete",
    "Yacl.Oprf.C94_output",
    "Yacl.Oprf.C94_reject",
    "Yacl.Oprf.C94_one_challenge",
    "Yacl.Oprf.C94_sound",
    "Yacl.Oprf.C94_weights",
    "Yacl.Oprf.C94_malleable",
    "Yacl.Oprf.C94_range",
    "Yacl.Oprf.C94_framing"
   ],
   "note": "Soundness as special soundness (two answers to the same announcements) and as a bound on the bad weights."
  },
  {
   "property": "C95",
   "status": "partial",
   "theorems": [
    "Yacl.Oprf.C95_suite",
    "Yacl.Oprf.C95_suite_conv",
    "Yacl.Oprf.C95_separation",
    "Yacl.Oprf.C95_roundtrip_violated",
    "Yacl.Oprf.C95_derive_partial",
    "Yacl.Oprf.C95_derive_long",
    "Yacl.Oprf.C95_derive_inj"
   ],
   "note": "The round trip is false for every configuration; derivation is characterised exactly, with undefined behaviour instead of the retry."
  },
  {
   "property": "C96",
   "status": "partial",
   "theorems": [
    "Yacl.Ecc.C96_add",
    "Yacl.Ecc.C96_membership",
    "Yacl.Ecc.C96_equal",
    "Yacl.Ecc.C96_negate",
    "Yacl.Ecc.C96_negate_violated",
    "Yacl.Ecc.C96_mul",
    "Yacl.Ecc.C96_mul_some",
    "Yacl.Ecc.C96_derived",
    "Yacl.Ecc.C96_div",
    "Yacl.Ecc.C96_predefined",
    "Yacl.Ecc.C96_secp256k1_order",
    "Yacl.Ecc.C96_sm2_order",
    "Yacl.Ecc.C96_secp256k1_base",
    "Yacl.Ecc.C96_sm2_base"
   ],
   "note": "All operations refine the group law; for the predefined curves secp256k1 and sm2 the field size and order are proved prime and the order is that of the generator, so base multiplication is proved without hypotheses. Partial because negating a point with y = 0 gives (x, p), which is not the reduced representation (C96_negate_violated), and doubling a point of order two throws; the remaining theorems cover every point killed by an odd group order."
  },
  {
   "property": "C97",
   "status": "partial",
   "theorems": [
    "Yacl.Ecc.Mont.C97_ladder",
    "Yacl.Ecc.Mont.C97_ladder_any",
    "Yacl.Ecc.Mont.C97_dh",
    "Yacl.Ecc.Mont.C97_membership",
    "Yacl.Ecc.Mont.C97_order",
    "Yacl.Ecc.Mont.C97_one_violated",
    "Yacl.Ecc.Mont.C97_negate_violated"
   ],
   "note": "Ladder, Diffie-Hellman, membership and order proved, for curve25519 without hypotheses. Partial because the EcGroup contract of Mul and Negate does not hold for this group (C97_one_violated, C97_negate_violated)."
  },
  {
   "property": "C98",
   "status": "partial",
   "theorems": [
    "Yacl.Softspoken.C98_softspoken",
    "Yacl.Softspoken.C98_compact_violated"
   ],
   "note": "Correctness proved in full for 1 <= k <= 31. Secrecy of the choices is refuted for compact mode: base OT 0 is overwritten by constant blocks, so the first message of tree 0 is in clear and the masked choices can be unmasked by anyone. Computational secrecy in normal mode and what a malicious receiver can do are not modelled."
  },
  {
   "property": "C99",
   "status": "partial",
   "theorems": [
    "Yacl.Ferret.C99_ferret",
    "Yacl.Ferret.C99_choices",
    "Yacl.Ferret.noise_regular",
    "Yacl.Ferret.C99_cheetah_violated"
   ],
   "note": "Correctness proved for parameters with t | n and (malicious mode) full trees and at least two trees per batch; choice structure for single-batch calls. The cheetah variant violates the independence of noise and secret."
  },
  {
   "property": "C100",
   "status": "partial",
   "theorems": [
    "Yacl.OtKernel.C100_kernel",
    "Yacl.OtKernel.C100_reuse_violated",
    "Yacl.OtKernel.C100_leak_violated"
   ],
   "note": "Correctness over all histories proved (random OT calls below 2^32). Hiding is violated: proved attacks."
  },
  {
   "property": "C101",
   "status": "partial",
   "theorems": [
    "Yacl.CrHash.C101_batch_partial",
    "Yacl.CrHash.C101_orthomorphism",
    "Yacl.CrHash.C101_single_violated",
    "Yacl.CrHash.C101_mismatch_violated",
    "Yacl.CrHash.C101_truncated_violated"
   ],
   "note": "Batch versions proved (new-vector version below 2^32 blocks). CcrHash_128 of a single block ignores the high half: proved collisions."
  },
  {
   "property": "C102",
   "status": "partial",
   "theorems": [
    "Yacl.BlockCipher.C102_stream",
    "Yacl.BlockCipher.C102_reset",
    "Yacl.BlockCipher.C102_ecb",
    "Yacl.BlockCipher.C102_rp",
    "Yacl.BlockCipher.C102_rp_ecb",
    "Yacl.BlockCipher.C102_const_violated",
    "Yacl.BlockCipher.C102_rp_violated"
   ],
   "note": "Stream round trip, sizes, reset and permutation proved for all ciphers, modes and histories. Violated as proved: const Encrypt has state in CBC and CTR; the default (CBC) random permutation on many blocks is not block by block. The block cipher itself is an arbitrary invertible function; EVP internals are modelled, not read."
  },
  {
   "property": "C103",
   "status": "partial",
   "theorems": [
    "Yacl.BlockCipher.C103_mte",
    "Yacl.BlockCipher.C103_gcm",
    "Yacl.BlockCipher.C103_gcm_sizes",
    "Yacl.BlockCipher.C103_sm_env",
    "Yacl.BlockCipher.C103_rsa_env",
    "Yacl.BlockCipher.C103_empty_violated",
    "Yacl.BlockCipher.C103_aad_violated",
    "Yacl.BlockCipher.C103_macsize_violated"
   ],
   "note": "Acceptance characterised exactly and round trips proved. Violated as proved: SM4-MTE cannot decrypt the empty message; additional data ignored for SM4-MTE; GetMacSize for AES-256-GCM. Unforgeability of the MAC is a computational claim and not modelled."
  },
  {
   "property": "C104",
   "status": "partial",
   "theorems": [
    "Yacl.Ecc.H2C.C104_expand",
    "Yacl.Ecc.H2C.C104_field",
    "Yacl.Ecc.H2C.C104_sswu",
    "Yacl.Ecc.H2C.C104_hash_to_curve",
    "Yacl.Ecc.H2C.C104_encode_to_curve",
    "Yacl.Ecc.H2C.C104_nist",
    "Yacl.Ecc.H2C.C104_scalar_p256",
    "Yacl.Ecc.H2C.C104_scalar_violated",
    "Yacl.Ecc.H2C.C104_elligator",
    "Yacl.Ecc.H2C.C104_point_add",
    "Yacl.Ecc.H2C.C104_point_dbl",
    "Yacl.Ecc.H2C.C104_cofactor",
    "Yacl.Ecc.H2C.C104_hash_25519_partial",
    "Yacl.Ecc.H2C.C104_encode_25519_partial",
    "Yacl.Ecc.H2C.C104_25519_partial",
    "Yacl.Ecc.H2C.C104_25519_violated",
    "Yacl.Ecc.H2C.sswu_unique",
    "Yacl.Ecc.H2C.elligator_unique"
   ],
   "note": "Proved for P-256, P-384 and P-521 HashToCurve/EncodeToCurve (total and equal to the RFC), HashToScalar of P-256. Violated: HashToScalar of P-384/P-521 throws always; Curve25519 HashToCurve throws when the mapped points share an x coordinate or eight times the sum is infinity (exact characterisation proved). Ristretto255 (libsodium) is not modelled."
  },
  {
   "property": "C105",
   "status": "partial",
   "theorems": [
    "Yacl.Sse.C105_conjunction_partial",
    "Yacl.Sse.C105_boolean_partial",
    "Yacl.Sse.C105_complete",
    "Yacl.Sse.C105_hundred",
    "Yacl.Sse.C105_empty",
    "Yacl.Sse.C105_setup_throws",
    "Yacl.Sse.C105_iv_violated"
   ],
   "note": "Only the first hundred records of the first keyword are seen (proved); expressions are read as in C106; hash collisions are excluded by hypothesis except in C105_complete."
  },
  {
   "property": "C106",
   "status": "partial",
   "theorems": [
    "Yacl.Sse.C106_evaluate_partial",
    "Yacl.Sse.C106_chains_partial",
    "Yacl.Sse.C106_precedence_violated",
    "Yacl.Sse.C106_order_violated",
    "Yacl.Sse.C106_syntax_violated"
   ],
   "note": "The code reads every operator as applying to all that follows; the usual precedence, ten or more keywords and parentheses are violated with witnesses."
  },
  {
   "property": "C107",
   "status": "partial",
   "theorems": [
    "Yacl.Sse.C107_keys",
    "Yacl.Sse.C107_xset",
    "Yacl.Sse.C107_tset_partial",
    "Yacl.Sse.C107_search_violated",
    "Yacl.Sse.C107_iv_violated"
   ],
   "note": "False of the code: labels and IVs are not saved; proved that every search on a loaded database returns nothing."
  },
  {
   "property": "C108",
   "status": "partial",
   "theorems": [
    "Yacl.Spi.C108_snake",
    "Yacl.Spi.C108_letters",
    "Yacl.Spi.C108_args",
    "Yacl.Spi.C108_args_type",
    "Yacl.Spi.C108_pick",
    "Yacl.Spi.C108_best",
    "Yacl.Spi.C108_named",
    "Yacl.Spi.C108_list",
    "Yacl.Spi.C108_conflict",
    "Yacl.Spi.C108_negative_violated"
   ],
   "note": "Fails for negative priorities: the priority map is keyed by uint64_t, so a negative priority wraps to the front (proved with a witness). Proved for priorities that are not negative."
  },
  {
   "property": "C109",
   "status": "partial",
   "theorems": [
    "Yacl.BigInt.C109_table",
    "Yacl.BigInt.C109_pow",
    "Yacl.BigInt.Gmp.C109_gmp_new",
    "Yacl.BigInt.Gmp.C109_gmp_roundtrip",
    "Yacl.BigInt.Gmp.C109_gmp_mul",
    "Yacl.BigInt.Gmp.C109_gmp_pow",
    "Yacl.BigInt.Lib.C109_tom_pow",
    "Yacl.BigInt.Lib.C109_ossl_pow",
    "Yacl.BigInt.Lib.C109_unit_violated"
   ],
   "note": "Units of 32 bits and more are not refused (shift undefined, proved). The reductions of libtommath and OpenSSL are third-party code, taken by their documented contract; the GMP one is modelled limb by limb. MontgomeryReduceComba (not compiled) is not modelled."
  },
  {
   "property": "C110",
   "status": "partial",
   "theorems": [
    "Yacl.BigInt.Back.C110_to_bytes",
    "Yacl.BigInt.Back.C110_to_bytes_mpint",
    "Yacl.BigInt.Back.C110_serialize_same",
    "Yacl.BigInt.Back.C110_deserialize_same",
    "Yacl.BigInt.Back.C110_roundtrip",
    "Yacl.BigInt.Back.C110_bitwise",
    "Yacl.BigInt.Back.C110_gmp_division",
    "Yacl.BigInt.Back.C110_remainder",
    "Yacl.BigInt.Back.C110_division_partial",
    "Yacl.BigInt.Back.C110_division_violated",
    "Yacl.BigInt.Back.C110_words",
    "Yacl.BigInt.Back.C110_mod_ops",
    "Yacl.BigInt.Back.C110_negative_modulus_violated",
    "Yacl.BigInt.Back.C110_lcm_partial",
    "Yacl.BigInt.Back.C110_lcm_violated",
    "Yacl.BigInt.Back.C110_bits",
    "Yacl.BigInt.Back.C110_shift_partial",
    "Yacl.BigInt.Back.C110_shift_violated",
    "Yacl.BigInt.Back.C110_get_partial",
    "Yacl.BigInt.Back.C110_gmp_random_violated"
   ],
   "note": "Bytes, serialised form, bits and remainders agree for all inputs. False of the code and shown so: OpenSSL/MPInt quotient strictly between -1 and 0, negative modulus, Lcm(0,0), right shift of negatives, Get of the least value (undefined), GMP random numbers identical in every thread and run."
  },
  {
   "property": "C111",
   "status": "partial",
   "theorems": [
    "Yacl.Drbg.Gm.C111_derive_violated",
    "Yacl.Drbg.Gm.C111_truncated_violated",
    "Yacl.Drbg.Gm.C111_no_entropy_violated",
    "Yacl.Drbg.Gm.C111_first_block_violated",
    "Yacl.Drbg.Gm.C111_reseed_violated",
    "Yacl.Drbg.Gm.C111_runs_dry_violated",
    "Yacl.Drbg.Gm.C111_long_requests",
    "Yacl.Drbg.Gm.C111_additional_violated",
    "Yacl.Drbg.Gm.C111_source_sizes_partial",
    "Yacl.Drbg.Gm.C111_source_sizes_violated",
    "Yacl.Drbg.Gm.C111_provider_seed_violated",
    "Yacl.Drbg.Gm.C111_provider_generate_violated"
   ],
   "note": "The code violates the property: theorems prove that outputs do not depend on the entropy, that ReSeed always throws, that exactly 1024 requests succeed, and that the provider's seed ignores the entropy source. What holds: request sizes and the number of bytes the sources return."
  },
  {
   "property": "C112",
   "status": "partial",
   "theorems": [
    "Yacl.Rand.C112_bits",
    "Yacl.Rand.C112_bits_too_long",
    "Yacl.Rand.C112_bits_all",
    "Yacl.Rand.C112_seed",
    "Yacl.Rand.C112_seed_violated",
    "Yacl.Rand.C112_below",
    "Yacl.Rand.C112_in_range",
    "Yacl.Rand.C112_shuffle_perm",
    "Yacl.Rand.C112_shuffle_uniform",
    "Yacl.Rand.C112_shuffle_words",
    "Yacl.Rand.C112_shuffle_fresh",
    "Yacl.Rand.C112_shuffle_empty",
    "Yacl.Rand.C112_replay",
    "Yacl.Rand.C112_get_seed_violated"
   ],
   "note": "All parts proved for the code as it is, except that RandSeed never sets the upper 64 bits and YaclReplayUrbg::GetSeed returns half the seed, both proved as violations. The generator is an arbitrary source of bytes; RandLtN for signed bounds below 1 is not modelled."
  },
  {
   "property": "C113",
   "status": "partial",
   "theorems": [
    "Yacl.Link.Blackbox.C113_topic_match",
    "Yacl.Link.Blackbox.C113_topic_distinct_partial",
    "Yacl.Link.Blackbox.C113_topic_distinct_violated",
    "Yacl.Link.Blackbox.C113_queue_partial",
    "Yacl.Link.Blackbox.C113_queue_violated",
    "Yacl.Link.Blackbox.C113_send",
    "Yacl.Link.Blackbox.C113_receive",
    "Yacl.Link.Blackbox.C113_stop_violated",
    "Yacl.Link.Blackbox.C113_stop_partial",
    "Yacl.Link.Blackbox.C113_options",
    "Yacl.Link.Blackbox.C113_descriptor_violated",
    "Yacl.Link.Blackbox.C113_env",
    "Yacl.Link.Blackbox.C113_env_agree",
    "Yacl.Link.Blackbox.C113_env_violated"
   ],
   "note": "Proved: matching topics, queue order and exactly-once delivery when pop answers arrive, send loop outcomes, receive decision, option checks, ranks from the environment for every permutation. Violated (with witnesses): topics with hyphens collide, a lost pop answer loses the message, Stop before the thread has started never returns, two descriptor flags are ignored, '=' in a value is refused."
  },
  {
   "property": "C114",
   "status": "partial",
   "theorems": [
    "Yacl.Kernel.BaseOt.C114_correct",
    "Yacl.Kernel.BaseOt.C114_choices_hidden",
    "Yacl.Kernel.BaseOt.C114_separated",
    "Yacl.Kernel.BaseOt.C114_oracle",
    "Yacl.Kernel.BaseOt.C114_length",
    "Yacl.Kernel.BaseOt.C114_platforms_violated"
   ],
   "note": "Correctness, hiding, separation of oracle queries and refusal of wrong lengths proved for each implementation; the claim across implementations is false unless four divides the number of transfers (C114_platforms_violated). Curve arithmetic and packing of the external library are contracts."
  },
  {
   "property": "C115",
   "status": "partial",
   "theorems": [
    "Yacl.Bp.R1cs.C115_linear",
    "Yacl.Bp.R1cs.C115_eval",
    "Yacl.Bp.R1cs.C115_gates",
    "Yacl.Bp.R1cs.C115_stable",
    "Yacl.Bp.R1cs.C115_same_circuit",
    "Yacl.Bp.R1cs.C115_flatten",
    "Yacl.Bp.R1cs.C115_honest_verdict",
    "Yacl.Bp.R1cs.C115_complete_partial",
    "Yacl.Bp.R1cs.C115_unsatisfied",
    "Yacl.Bp.R1cs.C115_multiply",
    "Yacl.Bp.R1cs.C115_hiding_violated",
    "Yacl.Bp.R1cs.C115_sound",
    "Yacl.Bp.R1cs.C115_sound_inputs",
    "Yacl.Bp.R1cs.C115_verify_iff"
   ],
   "note": "Circuit agreement, gates, stability, flattening, Multiply and the verdict on honestly computed proofs are proved for all gadgets. Soundness (C115_sound, with C115_verify_iff tying it to Verify) is the rewinding statement: a prover that answers enough challenges has committed to values satisfying gates and constraints; it is no probability, and generators are assumed without linear relation. Completeness assumes that no point L, R of the inner product argument is the identity (the verifier's transcript rejects it), which the code does not prevent. Hiding is violated: e_blinding is not reduced modulo the order."
  },
  {
   "property": "C116",
   "status": "partial",
   "theorems": [
    "Yacl.Bp.Bytes.C116_int_bytes",
    "Yacl.Bp.Bytes.C116_ipp_roundtrip",
    "Yacl.Bp.Bytes.C116_ipp_negative_violated",
    "Yacl.Bp.Bytes.C116_reads_inside",
    "Yacl.Bp.Bytes.C116_range_roundtrip",
    "Yacl.Bp.Bytes.C116_r1cs_write",
    "Yacl.Bp.Bytes.C116_r1cs_write_violated",
    "Yacl.Bp.Bytes.C116_r1cs_read",
    "Yacl.Bp.Bytes.C116_r1cs_scalar_violated",
    "Yacl.Bp.Bytes.C116_unique_violated"
   ],
   "note": "Inner product and range proofs round trip (reduced scalars, points of the announced length); reading is safe for all byte strings. Violated: R1CSProof::ToBytes sizes its buffer with SerializedSize, which leaves out the length fields InnerProductProof::ToBytes writes, so it writes behind the buffer for practically every proof; e_blinding is cut to 256 bits; a negative final scalar (empty circuit) is not read back; encodings are not unique."
  },
  {
   "property": "C117",
   "status": "partial",
   "theorems": [
    "Yacl.Silver.C117_construct",
    "Yacl.Silver.C117_inplace",
    "Yacl.Silver.C117_copy",
    "Yacl.Silver.C117_correlated",
    "Yacl.Silver.C117_kernel",
    "Yacl.Silver.C117_two",
    "Yacl.Silver.C117_truncated_violated"
   ],
   "note": "For n < 2^31, since n_ and m_ are 32-bit. For n >= 2^32 the constructor silently builds a code of length n mod 2^32 (C117_truncated_violated). The floating-point start positions of the left matrix are arbitrary."
  },
  {
   "property": "C118",
   "status": "partial",
   "theorems": [
    "Yacl.SvoleKernel.C118_roles",
    "Yacl.SvoleKernel.C118_multithread",
    "Yacl.SvoleKernel.C118_silver_partial",
    "Yacl.SvoleKernel.C118_streaming_partial",
    "Yacl.SvoleKernel.C118_streaming_violated",
    "Yacl.SvoleKernel.C118_streaming_witness_violated",
    "Yacl.SvoleKernel.C118_swallowed_violated"
   ],
   "note": "Multi-threaded evaluation is proved for every schedule. Streaming with more than one step is false of the code: the sender writes every step to the place of the last one. A failed session goes unnoticed because the futures are dropped. The Silver instance takes the delta-correlated OTs of the set-up as a hypothesis, as C80 does; one common delta for all sessions is the kernel's."
  },
  {
   "property": "C119",
   "status": "partial",
   "theorems": [
    "Yacl.OtMock.C119_same_calls",
    "Yacl.OtMock.C119_rots",
    "Yacl.OtMock.C119_cots",
    "Yacl.OtMock.C119_compact",
    "Yacl.OtMock.C119_makers",
    "Yacl.OtMock.C119_zero_delta_violated"
   ],
   "note": "Full for nonzero delta and numbers below 2^62 per call. With delta 0 a compact sender store reads wrong blocks, also outside its buffer, so the property is false there."
  },
  {
   "property": "C120",
   "status": "partial",
   "theorems": [
    "Verif.Aes.C120_set_encrypt_key",
    "Verif.Aes.C120_opt_key_schedule",
    "Verif.Aes.C120_encrypt",
    "Verif.Aes.C120_decrypt_partial",
    "Verif.Aes.C120_decrypt_violated",
    "Verif.Aes.C120_para_enc",
    "Verif.Aes.C120_cast"
   ],
   "note": "Full for key schedules, encryption and batched encryption. Decryption holds below 2^32 blocks; from 2^32 on the code violates it, because the block count parameter is a 32-bit unsigned: proved in C120_decrypt_violated."
  },
  {
   "property": "C121",
   "status": "partial",
   "theorems": [
    "Verif.Ecc.Openssl.C121_value_semantics_partial",
    "Verif.Ecc.Openssl.C121_pure_programs_partial",
    "Verif.Ecc.Openssl.C121_serialize_roundtrip",
    "Verif.Ecc.Openssl.C121_affine_roundtrip",
    "Verif.Ecc.Openssl.C121_hash_point",
    "Verif.Ecc.Openssl.C121_hash_to_curve",
    "Verif.Ecc.Openssl.C121_generator_violated",
    "Verif.Ecc.Openssl.C121_copy_violated",
    "Verif.Ecc.Openssl.C121_cofactor_violated",
    "Verif.Ecc.Openssl.C121_deserialize_violated",
    "Verif.Ecc.Openssl.C121_infinity_violated",
    "Verif.Ecc.Openssl.C121_hash_violated",
    "Verif.Ecc.Openssl.C121_shake_violated"
   ],
   "note": "OpenSSL is a parameter with its documented contract. The value semantics holds for programs that update in place only points of their own and for curves with cofactor 1; it is refuted for in-place updates of the shared generator or of a copied EcPoint, and MulDoubleBase is wrong outside the subgroup on cofactor curves. Deserializing an empty buffer reads out of bounds, the affine form of infinity does not convert back, HashPoint throws for x = 0, and the SHA3 strategy never uses SHAKE256. The SSWU strategies are covered elsewhere."
  },
  {
   "property": "C122",
   "status": "partial",
   "theorems": [
    "Verif.Ecc.Ed25519.C122_programs_partial",
    "Verif.Ecc.Ed25519.C122_equal",
    "Verif.Ecc.Ed25519.C122_queries",
    "Verif.Ecc.Ed25519.C122_decompress_partial",
    "Verif.Ecc.Ed25519.C122_copy_partial",
    "Verif.Ecc.Ed25519.C122_order_two_violated",
    "Verif.Ecc.Ed25519.C122_cofactor_violated",
    "Verif.Ecc.Ed25519.C122_off_curve_violated",
    "Verif.Ecc.Ed25519.C122_coordinates_violated",
    "Verif.Ecc.Ed25519.C122_sign_violated",
    "Verif.Ecc.Ed25519.C122_deserialize_violated"
   ],
   "note": "The libraries' point functions are assumed to do what they document. The code deviates: IsInfinity tests x = 0, so (0,-1) counts as infinity and any (0,y) passes CopyPoint; scalars are reduced modulo n for points outside the subgroup; coordinates lose their sign and bit 255; the encoding of y = -1 with sign bit is accepted; libsodium's DeserializePoint ignores failure and neither backend checks the buffer size."
  },
  {
   "property": "C123",
   "status": "partial",
   "theorems": [
    "Verif.Ecc.Names.C123_lookup",
    "Verif.Ecc.Names.C123_build",
    "Verif.Ecc.Names.C123_case",
    "Verif.Ecc.Names.C123_create",
    "Verif.Ecc.Names.C123_table",
    "Verif.Ecc.Names.C123_nids",
    "Verif.Ecc.Names.C123_forms",
    "Verif.Ecc.Names.C123_reachable",
    "Verif.Ecc.Names.C123_openssl_partial",
    "Verif.Ecc.Names.C123_openssl_violated"
   ],
   "note": "OpenSSL's ipsec3, ipsec4 and c2pnb176v1 are in the library's table but no name leads to them (two keys contain capitals and are compared with lower-case names, the third is no predefined curve). That the libraries themselves do not fail is assumed."
  },
  {
   "property": "C124",
   "status": "partial",
   "theorems": [
    "Verif.Item.C124_unary",
    "Verif.Item.C124_predicate",
    "Verif.Item.C124_binary",
    "Verif.Item.C124_unary_inplace",
    "Verif.Item.C124_binary_inplace_partial",
    "Verif.Item.C124_equal",
    "Verif.Item.C124_is_all",
    "Verif.Item.C124_sub_item",
    "Verif.Item.C124_resize",
    "Verif.Item.C124_overlap_violated",
    "Verif.Item.C124_half_done_violated",
    "Verif.Item.C124_type_violated",
    "Verif.Item.C124_foreign",
    "Verif.Item.C124_read_only"
   ],
   "note": "False for the code in three places: in-place calls with shifted overlapping operands depend on the schedule, an in-place call that throws leaves a half-done destination, and a scalar destination of another type is a null pointer."
  },
  {
   "property": "C125",
   "status": "partial",
   "theorems": [
    "Verif.GfLib.C125_prime",
    "Verif.GfLib.C125_prime_neg_partial",
    "Verif.GfLib.C125_prime_orders",
    "Verif.GfLib.C125_binary_partial",
    "Verif.GfLib.C125_binary_element",
    "Verif.GfLib.C125_factories_partial",
    "Verif.GfLib.C125_mcl_partial",
    "Verif.GfLib.C125_release_neg_violated",
    "Verif.GfLib.C125_pow64_violated",
    "Verif.GfLib.C125_inv128_violated",
    "Verif.GfLib.C125_mul_order_violated",
    "Verif.GfLib.C125_binary_serialize_violated",
    "Verif.GfLib.C125_binary_degree_violated",
    "Verif.GfLib.C125_mcl_modulus_violated"
   ],
   "note": "False for the code: 64-bit Pow always returns 1, 128-bit Pow/Inv/Div always throw, binary fields cannot serialize items and report a wrong multiplicative order, the binary factory accepts degrees it cannot create, a second mcl field changes the modulus of the first, Neg in release builds leaves the field for numbers outside of it."
  },
  {
   "property": "C126",
   "status": "partial",
   "theorems": [
    "Yacl.Tpre.C126_owner",
    "Yacl.Tpre.C126_requester",
    "Yacl.Tpre.C126_authentic",
    "Yacl.Tpre.C126_empty_violated"
   ],
   "note": "Proved for non-empty messages; the empty message is encrypted but refused on decryption (C126_empty_violated). Hashes, KDF, SM4 and HMAC are arbitrary functions; the group is any group of prime order."
  },
  {
   "property": "C127",
   "status": "partial",
   "theorems": [
    "Yacl.Vss.C127_vss_hides_partial",
    "Yacl.Tpre.C127_rekey_hides_partial",
    "Yacl.Vss.C127_zero_point_violated"
   ],
   "note": "Proved when none of the points concerned is 0 modulo the prime. CreateShare can draw the point 0, whose share is the secret (C127_zero_point_violated)."
  },
  {
   "property": "C128",
   "status": "partial",
   "theorems": [
    "Yacl.HashObj.C128_ssl",
    "Yacl.HashObj.C128_xof",
    "Yacl.HashObj.C128_xof_prefix",
    "Yacl.HashObj.C128_blake3",
    "Yacl.HashObj.C128_hmac_partial",
    "Yacl.HashObj.C128_hmac_empty_violated",
    "Yacl.HashObj.C128_oneshot",
    "Yacl.HashObj.C128_low128"
   ],
   "note": "The digests, streams and OpenSSL/BLAKE3 contexts are a contract, not read from source. Hmac with the empty key throws, because the data pointer of an empty vector is null, which OpenSSL takes as 'keep the key'."
  },
  {
   "property": "C129",
   "status": "partial",
   "theorems": [
    "Yacl.BigInt.Front.C129_one_library",
    "Yacl.BigInt.Front.C129_same_outputs",
    "Yacl.BigInt.Front.C129_mixed",
    "Yacl.BigInt.Front.C129_default",
    "Yacl.BigInt.Front.C129_default_stays",
    "Yacl.BigInt.Front.C129_default_violated"
   ],
   "note": "False for libraries that are not the default one: RandomExactBits(bits, &r) turns r into a number of the default library and CreateMontgomerySpace refuses the modulus. The theorem for one library therefore asks that these calls are used with the default library only."
  },
  {
   "property": "C130",
   "status": "partial",
   "theorems": [
    "Yacl.Link.Brpc.C130_pack",
    "Yacl.Link.Brpc.C130_dispatch",
    "Yacl.Link.Brpc.C130_isolation",
    "Yacl.Link.Brpc.C130_send_request",
    "Yacl.Link.Brpc.C130_send_loop",
    "Yacl.Link.Brpc.C130_sent_is_seen",
    "Yacl.Link.Brpc.C130_exactly_once",
    "Yacl.Link.Brpc.C130_options",
    "Yacl.Link.Brpc.C130_spoof_violated",
    "Yacl.Link.Brpc.C130_exception_violated",
    "Yacl.Link.Brpc.C130_stale_chunk_violated",
    "Yacl.Link.Brpc.C130_options_violated"
   ],
   "note": "Proved for all histories. Violated: the rank in a request is believed, so anyone reaching the port can speak for any rank; a bad chunk makes an exception leave the service function; a chunk repeated after completion stays and without sequence ids corrupts a later message under the same key; the h2 window is one process-wide flag and SetMaxBytesPerChunk keeps 32 bits. brpc, TLS and sockets are not modelled."
  },
  {
   "property": "C131",
   "status": "partial",
   "theorems": [
    "Yacl.Pkey.C131_encrypt",
    "Yacl.Pkey.C131_sign",
    "Yacl.Pkey.C131_keys",
    "Yacl.Pkey.C131_cert_partial",
    "Yacl.Pkey.C131_der_file_violated",
    "Yacl.Pkey.C131_cert_violated",
    "Yacl.Pkey.C131_cert_subject_violated"
   ],
   "note": "Relative to a contract of OpenSSL. Violated: the DER file exports write PEM; validity of 49711 days or more wraps to less than a day; certificates carry version number 3 (v4); subject values are cut at zero bytes; a public key that does not belong to the signing key is certified."
  },
  {
   "property": "C132",
   "status": "partial",
   "theorems": [
    "Yacl.Pqc.C132_names",
    "Yacl.Pqc.C132_kem",
    "Yacl.Pqc.C132_sig_partial",
    "Yacl.Pqc.C132_sign_key_size_violated"
   ],
   "note": "Relative to a contract of liboqs. Violated: Sig::Sign does not check the size of the secret key, so a short key is read out of bounds and a long one is cut silently."
  },
  {
   "property": "C133",
   "status": "partial",
   "theorems": [
    "Yacl.Ecc.Sodium.C133_programs",
    "Yacl.Ecc.Sodium.C133_observers",
    "Yacl.Ecc.Sodium.C133_bytes",
    "Yacl.Ecc.Sodium.C133_invalid",
    "Yacl.Ecc.Sodium.C133_hash",
    "Yacl.Ecc.Sodium.C133_x_agree",
    "Yacl.Ecc.Sodium.C133_x_bytes",
    "Yacl.Ecc.Sodium.C133_x_hash",
    "Yacl.Ecc.Sodium.C133_x_inplace_partial",
    "Yacl.Ecc.Sodium.C133_mul_invalid_violated",
    "Yacl.Ecc.Sodium.C133_trailing_violated",
    "Yacl.Ecc.Sodium.C133_domain_violated",
    "Yacl.Ecc.Sodium.C133_ro_not_rfc_violated",
    "Yacl.Ecc.Sodium.C133_x_inplace_violated",
    "Yacl.Ecc.Sodium.C133_x_mul_violated",
    "Yacl.Ecc.Sodium.C133_x_tag_violated"
   ],
   "note": "libsodium's functions are a parameter with their documented contract. False parts are proved false: Mul answers the neutral element for bytes that encode no point, parsing ignores trailing bytes, tags do not separate domains without a named strategy, the RO strategy is not the RFC 9380 suite of that name, X25519 MulInplace does not reduce the scalar, X25519 scalars are clamped so Mul is no scalar multiple, X25519 hashing ignores the tag."
  },
  {
   "property": "C134",
   "status": "partial",
   "theorems": [
    "Verif.Ecc.Mcl.C134_value_semantics_partial",
    "Verif.Ecc.Mcl.C134_pure_programs_partial",
    "Verif.Ecc.Mcl.C134_bytes",
    "Verif.Ecc.Mcl.C134_long_buffer_infinity",
    "Verif.Ecc.Mcl.C134_hash_partial",
    "Verif.Ecc.Mcl.C134_hash_throws",
    "Verif.Ecc.Mcl.C134_hash_point",
    "Verif.Ecc.Mcl.C134_generator_violated",
    "Verif.Ecc.Mcl.C134_affine_wrap_violated",
    "Verif.Ecc.Mcl.C134_long_buffer_violated",
    "Verif.Ecc.Mcl.C134_malformed_violated",
    "Verif.Ecc.Mcl.C134_hash_sm_violated",
    "Verif.Ecc.Mcl.C134_hash_sswu_violated"
   ],
   "note": "Value semantics under the in-place discipline, round trips for exact buffers and hashing are proved; the code violates the rest: GetGenerator hands out a shared object, coordinates wrap modulo 256^size, a longer buffer loses the top byte of the last coordinate, malformed bytes are accepted, SM3 hashing on secp384r1 is constant, SSWU hashes are of another type and curve."
  },
  {
   "property": "C135",
   "status": "partial",
   "theorems": [
    "Verif.Ecc.FourQ.C135_programs_partial",
    "Verif.Ecc.FourQ.C135_observers_partial",
    "Verif.Ecc.FourQ.C135_bytes",
    "Verif.Ecc.FourQ.C135_hash",
    "Verif.Ecc.FourQ.C135_order_two_violated",
    "Verif.Ecc.FourQ.C135_sign_violated",
    "Verif.Ecc.FourQ.C135_short_input_violated",
    "Verif.Ecc.FourQ.C135_mul_invalid_violated"
   ],
   "note": "Proved for all programs on the subgroup of order n. The full claim fails: (0,-1) is taken for the neutral element, negative coordinates are accepted, fewer than 32 bytes are read out of bounds, the failure of ecc_mul is ignored."
  },
  {
   "property": "C136",
   "status": "partial",
   "theorems": [
    "Verif.Ecc.Pairing.C136_programs_partial",
    "Verif.Ecc.Pairing.C136_exponents_partial",
    "Verif.Ecc.Pairing.C136_equation_partial",
    "Verif.Ecc.Pairing.C136_signature_partial",
    "Verif.Ecc.Pairing.C136_multi",
    "Verif.Ecc.Pairing.C136_generator_violated",
    "Verif.Ecc.Pairing.C136_create_violated",
    "Verif.Ecc.Pairing.C136_confusion_violated",
    "Verif.Ecc.Pairing.C136_dst_violated"
   ],
   "note": "Partial: fails for programs that update GetGenerator()'s point in place (it is shared, and rewritten by every Create), points of the wrong group are not detected, and the domain separation tag is ignored. Proved for programs that update in place only points they made. libmcl's pairing is a parameter with bilinearity, non-degeneracy and prime order as contract."
  },
  {
   "property": "C137",
   "status": "partial",
   "theorems": [
    "Yacl.Link.Desc.C137_message",
    "Yacl.Link.Desc.C137_empty_violated",
    "Yacl.Link.Desc.C137_empty_partial",
    "Yacl.Link.Desc.C137_unreachable",
    "Yacl.Link.Desc.C137_brpc_partial",
    "Yacl.Link.Desc.C137_brpc_accepts",
    "Yacl.Link.Desc.C137_chunks_violated",
    "Yacl.Link.Desc.C137_ciphers_violated",
    "Yacl.Link.Desc.C137_blackbox_default_violated",
    "Yacl.Link.Desc.C137_blackbox_partial"
   ],
   "note": "The code violates the full claim: chunk_parallel_send_size and the client's cipher suites are dropped by both factories; a black-box link refuses the default protocol and ignores exit_if_async_error and disable_msg_seq_id; an empty message is not the default description (retry policy). Everything else is proved, for all descriptions. Not modelled: brpc's own interpretation of these settings."
  },
  {
   "property": "C138",
   "status": "partial",
   "theorems": [
    "Yacl.Link.Desc.C138_answer",
    "Yacl.Link.Desc.C138_connected",
    "Yacl.Link.Desc.C138_same_request",
    "Yacl.Link.Desc.C138_first",
    "Yacl.Link.Desc.C138_hash_violated",
    "Yacl.Link.Desc.C138_timeout_violated",
    "Yacl.Link.Desc.C138_link_type_violated",
    "Yacl.Link.Desc.C138_settings_violated"
   ],
   "note": "The code violates the full claim: ContextDescHasher hashes settings that operator== ignores, so parties with equal descriptions but, e.g., different receive timeouts end up in different sessions. Proved instead: connected iff equal and equal hash codes, over all histories and hash functions. The table lookup is that of libstdc++ (hash codes are cached and compared)."
  },
  {
   "property": "C139",
   "status": "partial",
   "theorems": [
    "Yacl.Bp.Transcript.C139_binding_partial",
    "Yacl.Bp.Transcript.C139_number",
    "Yacl.Bp.Transcript.C139_domains",
    "Yacl.Bp.Transcript.C139_long_label_violated",
    "Yacl.Bp.Transcript.C139_challenge_confusion_violated"
   ],
   "note": "Proved for labels shorter than 99 bytes (all labels in the code base are); with labels of 99 bytes, or 256 and more, the code violates the claim. SHA-256 is a parameter with 32-byte outputs."
  },
  {
   "property": "C140",
   "status": "proved",
   "theorems": [
    "Yacl.Bits.C140_deposit",
    "Yacl.Bits.C140_extract",
    "Yacl.Bits.C140_portable",
    "Yacl.Bits.C140_extract_deposit",
    "Yacl.Bits.C140_deposit_extract",
    "Yacl.Bits.C140_weight",
    "Yacl.Bits.C140_distance"
   ],
   "note": "The instructions _pdep_u64 and _pext_u64 are taken to do what the processor manual says (hypotheses of C140_portable); __builtin_clzl and popcount are modelled by their definitions."
  },
  {
   "property": "C141",
   "status": "partial",
   "theorems": [
    "Yacl.SecParam.C141_crc",
    "Yacl.SecParam.C141_names",
    "Yacl.SecParam.C141_declare",
    "Yacl.SecParam.C141_collision_violated",
    "Yacl.SecParam.C141_global_partial",
    "Yacl.SecParam.C141_enforce_partial",
    "Yacl.SecParam.C141_int",
    "Yacl.SecParam.C141_global_violated",
    "Yacl.SecParam.C141_folded_violated",
    "Yacl.SecParam.C141_limit",
    "Yacl.SecParam.C141_counter_violated"
   ],
   "note": "Enforcement only sees the modules of units that have asked so far; of exactly 256 modules the last does not count; an undeclared name with the hash of a declared one is taken for it; units that number modules differently break the one definition rule (modelled as the linker keeping one function). Data races on the static members are not modelled."
  },
  {
   "property": "C142",
   "status": "partial",
   "theorems": [
    "Yacl.NoiseWeight.C142_weight_partial",
    "Yacl.NoiseWeight.C142_offered",
    "Yacl.NoiseWeight.C142_reaches_violated",
    "Yacl.NoiseWeight.C142_small_violated"
   ],
   "note": "Truncation can lose the last noise position: ratio 0.15 at 128 bits misses the level (the ratios offered reach it). Very small ratios pass the check and are converted out of range. Rounding of double is not modelled."
  },
  {
   "property": "C143",
   "status": "proved",
   "theorems": [
    "Yacl.Timer.C143_count",
    "Yacl.Timer.C143_still",
    "Yacl.Timer.C143_uninitialised"
   ],
   "note": "Microseconds as natural numbers; the double holding them is exact below 2^53 microseconds."
  },
  {
   "property": "C144",
   "status": "partial",
   "theorems": [
    "Yacl.Scripts.C144_sessions",
    "Yacl.Scripts.C144_reads",
    "Yacl.Scripts.C144_iknp_agree",
    "Yacl.Scripts.C144_mal_agree",
    "Yacl.Scripts.C144_ss_check_partial",
    "Yacl.Scripts.C144_gilboa_violated",
    "Yacl.Scripts.C144_silent_violated",
    "Yacl.Scripts.C144_two_parties"
   ],
   "note": "Proved: sessions of any calls are safe under every schedule, each party reads exactly what the other sent, the protocols pair up only with two parties, and parties that disagree are caught out. Violated: GilboaVoleSend/Recv and SilentVoleSender/Receiver with mal = true pass the flag as the second constructor argument of SoftspokenOtExtSender/Receiver, which is the step, so the OT extension runs without its consistency check. Argument ENFORCEs are taken to pass."
  },
  {
   "property": "C145",
   "status": "proved",
   "theorems": [
    "Yacl.Scripts.C145_no_deadlock",
    "Yacl.Scripts.C145_ends",
    "Yacl.Scripts.C145_no_mismatch",
    "Yacl.Scripts.C145_chunks",
    "Yacl.Scripts.C145_stream_no_deadlock",
    "Yacl.Scripts.C145_stream_ends",
    "Yacl.Scripts.C145_stream_no_mismatch",
    "Yacl.Scripts.C145_stream_order",
    "Yacl.Scripts.C145_steps"
   ],
   "note": "Also for eval_streaming, where the parties can be in different steps. The message scripts of the protocols are those of C144."
  },
  {
   "property": "C146",
   "status": "partial",
   "theorems": [
    "Yacl.ByteView.C146_eq_partial",
    "Yacl.ByteView.C146_null_violated",
    "Yacl.ByteView.C146_frame",
    "Yacl.ByteView.C146_container",
    "Yacl.ByteView.C146_raw",
    "Yacl.ByteView.C146_cstr",
    "Yacl.ByteView.C146_literal_violated",
    "Yacl.ByteView.C146_string_view",
    "Yacl.ByteView.C146_alias"
   ],
   "note": "Two empty views of which one is null are compared by memcmp with a null pointer (undefined); a literal or char array with a zero byte is cut there, because the array constructor can never be chosen."
  },
  {
   "property": "C147",
   "status": "partial",
   "theorems": [
    "Yacl.Cuda.C147_pipeline",
    "Yacl.Cuda.C147_ends",
    "Yacl.Cuda.C147_race_free",
    "Yacl.Cuda.C147_once",
    "Yacl.Cuda.C147_slots_violated",
    "Yacl.Cuda.C147_overflow_violated",
    "Yacl.Cuda.C147_hang_violated"
   ],
   "note": "The answer is right under every schedule. False of the code: the slots are thread_local, so the GPU thread sees slots of its own that were never constructed, its calls are refused and everything is computed again (formally undefined behaviour); the number of chunks overflows int32 for the largest accepted batches. The GPU function is a parameter that agrees with the CPU when it succeeds."
  },
  {
   "property": "C148",
   "status": "proved",
   "theorems": [
    "Yacl.Cuda.C148_mul",
    "Yacl.Cuda.C148_sqr",
    "Yacl.Cuda.C148_add",
    "Yacl.Cuda.C148_sub",
    "Yacl.Cuda.C148_neg",
    "Yacl.Cuda.C148_halve",
    "Yacl.Cuda.C148_equal",
    "Yacl.Cuda.C148_zero",
    "Yacl.Cuda.C148_toMont",
    "Yacl.Cuda.C148_fromMont",
    "Yacl.Cuda.C148_double",
    "Yacl.Cuda.C148_point_add",
    "Yacl.Cuda.C148_negate",
    "Yacl.Cuda.C148_point_sub",
    "Yacl.Cuda.C148_lift",
    "Yacl.Cuda.C148_mixed",
    "Yacl.Cuda.C148_point_equal",
    "Yacl.Cuda.C148_generator"
   ],
   "note": "limb-level model of the field, squaring with its shared products included; the mixed addition needs a finite second operand, which the table of the fixed-base multiplication always supplies"
  },
  {
   "property": "C149",
   "status": "proved",
   "theorems": [
    "Yacl.Cuda.C149_wnaf",
    "Yacl.Cuda.C149_var",
    "Yacl.Cuda.C149_fixed",
    "Yacl.Cuda.C149_fixed_host"
   ],
   "note": "host table built with the group of the curve (the CPU backend is OpenSSL)"
  },
  {
   "property": "C150",
   "status": "proved",
   "theorems": [
    "Yacl.Cuda.C150_inv",
    "Yacl.Cuda.C150_sqrt",
    "Yacl.Cuda.C150_affine",
    "Yacl.Cuda.C150_disjoint",
    "Yacl.Cuda.C150_scan",
    "Yacl.Cuda.C150_batch"
   ],
   "note": "block of 2^m threads for every m (the code uses 256); a thread's part of a phase is one step, which loses no interleaving because the parts touch disjoint entries (C150_disjoint)"
  },
  {
   "property": "C151",
   "status": "partial",
   "theorems": [
    "Yacl.Cuda.C151_launch",
    "Yacl.Cuda.C151_invalid",
    "Yacl.Cuda.C151_mul",
    "Yacl.Cuda.C151_mul_same",
    "Yacl.Cuda.C151_add",
    "Yacl.Cuda.C151_double",
    "Yacl.Cuda.C151_base",
    "Yacl.Cuda.C151_negate",
    "Yacl.Cuda.C151_on_curve",
    "Yacl.Cuda.C151_hash",
    "Yacl.Cuda.C151_hash_unique",
    "Yacl.Cuda.C151_hash_mul_partial",
    "Yacl.Cuda.C151_blocks_violated",
    "Yacl.Cuda.C151_digest_offset_violated",
    "Yacl.Cuda.C151_sm3_shift_violated"
   ],
   "note": "the claim fails of the code for counts above 2^31 - 256 (the number of blocks overflows int) and, for hashing, above 2^26 (the digest offset overflows int); proved below these limits. The inputs are assumed to be points of the curve, which the caller does not check. SM3 is abstract; its rotation by zero shifts by the width of the word"
  },
  {
   "property": "C152",
   "status": "proved",
   "theorems": [
    "Yacl.Cuda.Mem.C152_count",
    "Yacl.Cuda.Mem.C152_memory",
    "Yacl.Cuda.Mem.C152_call",
    "Yacl.Cuda.Mem.C152_no_leak",
    "Yacl.Cuda.Mem.C152_idle",
    "Yacl.Cuda.Mem.C152_clean_end",
    "Yacl.Cuda.Mem.C152_reuse",
    "Yacl.Cuda.Mem.C152_in_flight",
    "Yacl.Cuda.Mem.C152_in_flight_violated",
    "Yacl.Cuda.Mem.C152_registry_violated",
    "Yacl.Cuda.Mem.C152_table_copy_failed"
   ],
   "note": "Every operation is atomic except a batch call, which may be interleaved with operations of other threads after it has got its buffers (C152_in_flight). The wrappers take no lock, so destroying the last group during a call frees its buffers (C152_in_flight_violated): the condition that a group exists is needed. Callbacks of ended threads are never removed (C152_registry_violated). Callers that pass their own stream, and callbacks registered by others, are not modelled."
  },
  {
   "property": "C153",
   "status": "proved",
   "theorems": [
    "Yacl.Cuda.Sm3.C153_sm3",
    "Yacl.Cuda.Sm3.C153_unique",
    "Yacl.Cuda.Sm3.C153_iff",
    "Yacl.Cuda.C153_hash_to_curve",
    "Yacl.Cuda.C153_chain"
   ],
   "note": "The right shift by 32 in rotl32 with count 0 (rounds 0 and 32) is undefined in C++ (C151_sm3_shift_violated); the model takes the result of the device instruction, which is 0. The model is also checked against the example of the standard for the message abc."
  }
 ]
}
