{
 "claims": [
  {
   "property": "C01",
   "status": "proved",
   "theorems": [
    "StackModel.stack_lifo"
   ],
   "note": ""
  },
  {
   "property": "C02",
   "status": "proved",
   "theorems": [
    "StackModel.stack_overflow_safe"
   ],
   "note": "Also: stack_overflow_pop_wrong / stack_underflow_wraps document what happens to the lost items."
  },
  {
   "property": "C03",
   "status": "proved",
   "theorems": [
    "QueueModel.queue_fifo"
   ],
   "note": ""
  },
  {
   "property": "C04",
   "status": "partial",
   "theorems": [
    "QueueModel.queue_accepts_items_partial",
    "QueueModel.queue_not_full_loses_items"
   ],
   "note": "False of the code as documented: slots are not reclaimed until clear(). Negation proved; partial theorem under total-enqueued-since-clear <= max_size."
  },
  {
   "property": "C05",
   "status": "proved",
   "theorems": [
    "QueueModel.queue_clear_fresh"
   ],
   "note": ""
  },
  {
   "property": "C06",
   "status": "proved",
   "theorems": [
    "Bgpq.delete_mins_returns_smallest",
    "Bgpq.bgpq_refines",
    "Bgpq.bgpq_refines_unstable"
   ],
   "note": ""
  },
  {
   "property": "C07",
   "status": "proved",
   "theorems": [
    "Bgpq.bgpq_conserves",
    "Bgpq.room_of_free_block",
    "Bgpq.bgpq_refines_unstable"
   ],
   "note": ""
  },
  {
   "property": "C08",
   "status": "proved",
   "theorems": [
    "Bgpq.bgpq_size_correct",
    "Bgpq.bgpq_refines_unstable"
   ],
   "note": ""
  },
  {
   "property": "C09",
   "status": "proved",
   "theorems": [
    "Bgpq.drain_sorted"
   ],
   "note": ""
  },
  {
   "property": "C10",
   "status": "proved",
   "theorems": [
    "Bgpq.overflow_keeps_best",
    "Bgpq.bgpq_refines_unstable"
   ],
   "note": ""
  },
  {
   "property": "C100",
   "status": "proved",
   "theorems": [
    "HashModel.pair_differs",
    "HashModel.second_hash_determined",
    "HashModel.pair_tells_what_one_tells",
    "HashModel.pair_detects_single_word",
    "HashModel.word_for_hash",
    "HashModel.twin_exists",
    "HashModel.pair_tells_apart_false",
    "HashModel.class_table_hashes",
    "HashModel.item_table_hashes",
    "HashModel.class_dedupe_exact",
    "HashModel.class_index_exact",
    "HashModel.approx_loses_twins",
    "Dedupe.approx_one_per_pair"
   ],
   "note": "Finding: instances with the same first hash never differ in the second: pair_tells_apart_false (for every seed and mode), second_hash_determined, twin_exists. Consequence for C23: for items hashed by hash_pair the sentinel pair never occurs, so Guard is needed only for colliding items of classes whose words can be all ones (or of more than 8 words)."
  },
  {
   "property": "C101",
   "status": "proved",
   "theorems": [
    "Bgpq.merge_buffer_conserves",
    "Bgpq.merge_buffer_then_delete",
    "Bgpq.merge_buffer_min_false"
   ],
   "note": "Finding: the order is broken by blocks with keys below the front batch: merge_buffer_min_false (for every such queue and block); merge_buffer_then_delete: kept in all histories in which the blocks are not below it. Blocks that are not sorted or not of batch_size are not covered (the merge backends presuppose sorted blocks). Documentation: the docstring promises five arrays, the code returns (queue, keys, values, flag)."
  },
  {
   "property": "C102",
   "status": "proved",
   "theorems": [
    "Agg.packed_select",
    "Agg.packed_append",
    "Agg.unpacked_select",
    "Agg.unpacked_append",
    "Agg.unpacked_wf",
    "Agg.repack_iff",
    "Agg.repack_full",
    "Agg.packed_alias",
    "Agg.packed_default_zeros"
   ],
   "note": "Re-packing: repack_iff (exactly when the unused bits are zero), repack_full (always, for classes without unused bits), negation packed_alias (for every class with unused bits). packed_default_zeros: Packed.default() unpacks to zeros, so it is not default().packed when a fill value is not 0 (example). For records that were packed, equality of packed records is C39."
  },
  {
   "property": "C103",
   "status": "proved",
   "theorems": [
    "SoA.concat_groups",
    "SoA.concat_empty",
    "SoA.stack_concat",
    "SoA.concat_single_groups",
    "SoA.concat_accumulate_false"
   ],
   "note": "Batches: proved in full for the non-negative axes (negative axes: C46). Single records: negation concat_accumulate_false, for every class; concat_single_groups is what remains true."
  },
  {
   "property": "C104",
   "status": "partial",
   "theorems": [
    "HashTable.masks_inserted",
    "HashTable.masks_unique_partial",
    "HashTable.unique_means_new_false"
   ],
   "note": "inserted: proved without exception. unique: proved under the guard of C23, which for dataclass instances of at most 8 words comes down to finite keys (C109); the documented meaning is false of every stored item (unique_means_new_false)."
  },
  {
   "property": "C105",
   "status": "proved",
   "theorems": [
    "Desc.getitem_sound",
    "Desc.getitem_valid",
    "Desc.getitem_too_deep",
    "Desc.set_keeps",
    "Desc.set_valid",
    "Desc.set_sound",
    "Desc.move_valid",
    "Desc.cast_invalid",
    "Desc.set_all_or_nothing_false",
    "Desc.getitem_total_false",
    "Desc.set_drops_unchecked",
    "Desc.set_never_raises"
   ],
   "note": "Soundness without exception; totality for entrywise validators. Findings: set_all_or_nothing_false (torn record), getitem_total_false (batch-wide validators), cast_invalid (every dtype-changing function). set_drops_unchecked: whatever validator cannot run (bool of a tracer under jit) makes the nested instance silently keep its old value."
  },
  {
   "property": "C106",
   "status": "proved",
   "theorems": [
    "WhereTypes.conv_exact",
    "WhereTypes.where_same_types",
    "WhereTypes.where_no_broadcast_types",
    "WhereTypes.where_raw_types",
    "WhereTypes.where_raw_keeps_iff",
    "WhereTypes.where_raw_entries",
    "WhereTypes.where_python",
    "WhereTypes.array_where_keeps",
    "WhereTypes.update_types",
    "WhereTypes.where_scalar_false"
   ],
   "note": "Finding: the documentation is wrong for scalars (where_scalar_false, where_python against array_where_keeps). Trusted: the promotion table of JAX without x64 (`Dt.promote`, `Dt.weak`); float conversions are parameters."
  },
  {
   "property": "C107",
   "status": "proved",
   "theorems": [
    "SetValue.set_instance",
    "SetValue.set_array",
    "SetValue.set_foreign",
    "SetValue.set_junk",
    "SetValue.set_nested",
    "SetValue.put_foreign"
   ],
   "note": "Classes without validate=True (C105). Trusted: JAX raises TypeError for at[].set of something that is not an array. Finding: set_foreign and put_foreign, a value of the wrong class is dropped silently, and a stack or queue counts what it did not store."
  },
  {
   "property": "C108",
   "status": "proved",
   "theorems": [
    "DtypeMix.compare_by_value",
    "DtypeMix.same_dtypes",
    "DtypeMix.scalar_fields",
    "DtypeMix.negative_hash_differs",
    "DtypeMix.misfit_never_found",
    "DtypeMix.mixed_dtypes_stored_twice",
    "DtypeMix.unsigned_equals_negative",
    "DtypeMix.batches_same_dtypes",
    "DtypeMix.batches_behave"
   ],
   "note": "Single items; batches for dtypes that stay the same (batches_same_dtypes, batches_behave). Without x64, XTRUCTURE_HASH_AGG_MODE=raw; bucket_size 1..255 and fewer than 2^31 slots for the positive parts. Trusted: JAX's promotion table and that .at[].set converts to the dtype of the array (a FutureWarning at most). Finding: mixed_dtypes_stored_twice, misfit_never_found, unsigned_equals_negative."
  },
  {
   "property": "C109",
   "status": "proved",
   "theorems": [
    "ClassTable.masks_exact",
    "ClassTable.default_table_is_a_set",
    "ClassTable.class_search_misses_nothing",
    "ClassTable.class_search_reopen_best",
    "ClassTable.guardFor_iff",
    "ClassTable.hashers_hashed",
    "ClassTable.infinite_key_loses_item",
    "Dedupe.dedupe_exact_partial"
   ],
   "note": "Where no kernel is used (CPU, or buckets of more than 32 slots) max_probes must be large enough for the batch (C22). Finding: infinite_key_loses_item, with the real hash functions and seed 42."
  },
  {
   "property": "C11",
   "status": "partial",
   "theorems": [
    "Bgpq.overflow_drops_worst_partial",
    "Bgpq.overflow_drops_worst_false"
   ],
   "note": "False of the code: an overfull queue can drop better items than it keeps. Negation proved with a concrete reachable history; partial theorem bounds the damage to batch_size-1 kept items."
  },
  {
   "property": "C110",
   "status": "proved",
   "theorems": [
    "StoreTypes.at_set_keeps_dtypes",
    "StoreTypes.at_set_converts",
    "StoreTypes.set_leaf",
    "StoreTypes.around_id",
    "StoreTypes.typed_stack_lifo",
    "StoreTypes.typed_queue_fifo",
    "StoreTypes.push_float_damages",
    "StoreTypes.push_float_damages_ex",
    "StoreTypes.value_dtypes_accepted",
    "StoreTypes.accepted_not_lossy",
    "StoreTypes.mixed_values_stored"
   ],
   "note": "Trusted: a.at[i].set(v) of JAX promotes both arrays to their common dtype, scatters and converts back (newer versions warn if the value cannot be cast safely). Weak types, complex, 8-bit floats, x64 and the GPU key-value merge kernels are not modelled. Finding: push_float_damages."
  },
  {
   "property": "C111",
   "status": "partial",
   "theorems": [
    "Pipeline.unique_insert",
    "Pipeline.masked_best",
    "Pipeline.where_one",
    "Pipeline.documented_filter_partial",
    "Pipeline.documented_filter_vector_false"
   ],
   "note": "(1) proved. (2) is false for classes with vector fields: documented_filter_vector_false shows that the documented line raises, or mixes the fields of records if the vectors are as long as the batch; documented_filter_partial proves it for classes of scalar fields (nested ones too). Items of more than 4 words: unique_mask then compares hashes (C42), so the conclusion holds only without collisions."
  },
  {
   "property": "C112",
   "status": "proved",
   "theorems": [
    "MixedTable.fits_agrees",
    "MixedTable.insert_agree",
    "MixedTable.lookup_agree",
    "MixedTable.lookupParallel_agree",
    "MixedTable.parallelInsert_agree",
    "MixedTable.mixed_history",
    "MixedTable.mixed_lookup",
    "MixedTable.narrow_negative_lost",
    "MixedTable.out_of_range_never_found",
    "MixedTable.float_insert_loses_other"
   ],
   "note": "Trusted: promotion table and integer conversions of JAX. Raw hashing (XTRUCTURE_HASH_AGG_MODE raw, the default); float fields of given items only in the last example, where the effect on the other slots and the comparison (float 0.5 equals no stored integer) are given as parameters, not derived."
  },
  {
   "property": "C113",
   "status": "proved",
   "theorems": [
    "UnusedHelpers.next_on_path",
    "UnusedHelpers.next_at_target",
    "UnusedHelpers.first_occurrence",
    "UnusedHelpers.first_occurrence_sentinel_false"
   ],
   "note": "Trusted: lax.clz, a shift by 32 or more gives 0, jnp.unique with return_index gives the first position of every run of a stable sort."
  },
  {
   "property": "C12",
   "status": "proved",
   "theorems": [
    "Bgpq.make_batched_pads"
   ],
   "note": ""
  },
  {
   "property": "C13",
   "status": "proved",
   "theorems": [
    "MergeModel.merge_backends_agree"
   ],
   "note": ""
  },
  {
   "property": "C14",
   "status": "proved",
   "theorems": [
    "MergeModel.partition_correct"
   ],
   "note": ""
  },
  {
   "property": "C15",
   "status": "proved",
   "theorems": [
    "MergeModel.merge_sort_split_correct",
    "MergeModel.merge_kv_eq",
    "MergeModel.restore_pack_row",
    "MergeModel.pack_row_widths",
    "MergeModel.auto_pow2_untouched"
   ],
   "note": "merge_kv_eq: the GPU key-value kernel agrees for n,m >= 1 (it has no special case for an empty input)."
  },
  {
   "property": "C16",
   "status": "proved",
   "theorems": [
    "HashTable.inserted_is_found",
    "HashTable.insert_then_found",
    "HashTable.parallel_inserted_is_found"
   ],
   "note": "For bucket_size 1..255, fewer than 2^31 slots, default max_probes (or any max_probes >= number of slots)."
  },
  {
   "property": "C17",
   "status": "proved",
   "theorems": [
    "HashTable.lookup_exact"
   ],
   "note": ""
  },
  {
   "property": "C18",
   "status": "proved",
   "theorems": [
    "HashTable.stored_once",
    "HashTable.size_counts_inserted"
   ],
   "note": ""
  },
  {
   "property": "C19",
   "status": "proved",
   "theorems": [
    "HashTable.indices_stable"
   ],
   "note": ""
  },
  {
   "property": "C20",
   "status": "proved",
   "theorems": [
    "HashTable.insert_reports"
   ],
   "note": ""
  },
  {
   "property": "C21",
   "status": "partial",
   "theorems": [
    "HashTable.parallel_insert_union",
    "HashTable.parallel_inserted_is_found",
    "HashTable.parallel_insert_index_partial",
    "HashTable.parallel_insert_filled",
    "HashTable.parallel_insert_scalar_false",
    "HashTable.parallel_insert_nothing_filled"
   ],
   "note": "Union, exactly-once flags and indices of inserted lanes are proved unconditionally; indices of duplicates / already present lanes need the guard of C23 (false of the code without it; for dataclass instances of at most 8 words finite keys are enough, C109)."
  },
  {
   "property": "C22",
   "status": "partial",
   "theorems": [
    "HashTable.parallel_insert_room_false",
    "HashTable.parallel_insert_places_all_partial",
    "HashTable.parallel_insert_no_overflow_partial",
    "HashTable.kernel_insert_places_all",
    "HashTable.parallel_insert_progress",
    "HashTable.parallel_insert_none_inserted",
    "HashTable.parallel_insert_retry"
   ],
   "note": "False of the code: the round budget max_probes can run out with free slots left (negation proved on a reachable table). Proved when max_probes >= new*cap*(bs+1), or when no bucket overflows; and unconditionally (default probe limit) on the GPU and TPU kernels. Also proved: every call with a free slot makes progress; a call that inserts nothing means nothing new is left or the table is full; repeating the call as often as there are new items stores them all if they fit."
  },
  {
   "property": "C23",
   "status": "partial",
   "theorems": [
    "Dedupe.dedupe_exact_partial",
    "Dedupe.dedupe_selected_distinct",
    "Dedupe.dedupe_default_sorted",
    "Dedupe.dedupe_sentinel_collision",
    "Dedupe.dedupe_sentinel_inf_key",
    "Dedupe.dedupe_approx_collision"
   ],
   "note": "False of the code without a guard (a filled row whose hash/words equal the sentinel used for unfilled rows; in mode approx, different items with equal hash pairs). Proved for all three modes under GuardFor: every row filled, or finite keys (or none), or no filled row encodes to the sentinel of its mode; no collision of hash pairs in mode approx, and in mode safe no filled row that hashes to the sentinel pair if hash pairs collide; the negations are proved on concrete inputs. C109: for dataclass instances of at most 8 words (any size in mode exact) finite keys are enough."
  },
  {
   "property": "C24",
   "status": "proved",
   "theorems": [
    "HashTable.probe_visits_all",
    "HashTable.build_cap_pow2"
   ],
   "note": ""
  },
  {
   "property": "C25",
   "status": "proved",
   "theorems": [
    "HashTable.insert_fails_only_if_full",
    "HashTable.insert_reports"
   ],
   "note": ""
  },
  {
   "property": "C26",
   "status": "proved",
   "theorems": [
    "HashTable.lookup_parallel_agrees",
    "HashTable.lookup_parallel_filled"
   ],
   "note": ""
  },
  {
   "property": "C27",
   "status": "partial",
   "theorems": [
    "HashTable.custom_max_probes_false",
    "HashTable.inserted_is_found"
   ],
   "note": "False of the code: negation proved with max_probes=1. Holds for every max_probes >= number of slots (inserted_is_found, ValidParams.probes)."
  },
  {
   "property": "C28",
   "status": "proved",
   "theorems": [
    "HashTable.triton_safe",
    "HashTable.triton_safe_always",
    "HashTable.triton_complete_schedule",
    "HashTable.triton_wait_free",
    "HashTable.kernel_insert_places_all"
   ],
   "note": "Every schedule of atomic steps, stale plain reads included; bucket_size <= 32 as the code requires."
  },
  {
   "property": "C29",
   "status": "proved",
   "theorems": [
    "HashTable.pallas_safe",
    "HashTable.kernel_insert_places_all"
   ],
   "note": "bucket_size <= 32 as the code requires."
  },
  {
   "property": "C30",
   "status": "partial",
   "theorems": [
    "HashModel.hash_eq_pair_first",
    "HashModel.hash_entry_points_agree_partial",
    "HashModel.hash_entry_points_disagree_empty"
   ],
   "note": "hash = first of hash_pair unconditionally. Streaming = concatenated for every instance with at least one word; false (proved, for every seed) when all leaves are empty and XTRUCTURE_HASH_STREAM=on: an exact characterisation."
  },
  {
   "property": "C31",
   "status": "proved",
   "theorems": [
    "HashModel.avalanche32_bijective",
    "HashModel.fingerprint_injective",
    "HashModel.hash_detects_single_word"
   ],
   "note": ""
  },
  {
   "property": "C32",
   "status": "proved",
   "theorems": [
    "HashModel.uint32ed_injective",
    "HashModel.wordsAll_injective",
    "HashModel.class_lookup_exact",
    "HashModel.words_of_bytes",
    "HashModel.bytes_injective"
   ],
   "note": "classHasher instantiates the hash-table model with the real hash functions."
  },
  {
   "property": "C33",
   "status": "proved",
   "theorems": [
    "Bitpack.bitpack_roundtrip_exact",
    "Bitpack.bitpack_roundtrip"
   ],
   "note": ""
  },
  {
   "property": "C34",
   "status": "proved",
   "theorems": [
    "Bitpack.packed_length_exact",
    "Bitpack.packed_length_aligned"
   ],
   "note": ""
  },
  {
   "property": "C35",
   "status": "proved",
   "theorems": [
    "Bitpack.bitpack_roundtrip"
   ],
   "note": ""
  },
  {
   "property": "C36",
   "status": "proved",
   "theorems": [
    "Bitpack.set_unpacked_spec",
    "Bitpack.from_unpacked_spec",
    "Bitpack.packRow_eq_toUint8",
    "Bitpack.set_unpacked_bad_shape",
    "Bitpack.from_unpacked_bad_shape"
   ],
   "note": "Non-empty intrinsic shapes, fewer than 2^32 bits per item."
  },
  {
   "property": "C37",
   "status": "proved",
   "theorems": [
    "Agg.aggregate_roundtrip",
    "Agg.aggregate_roundtrip_exact"
   ],
   "note": "At most 2^32 bits per item (bit positions are uint32)."
  },
  {
   "property": "C38",
   "status": "proved",
   "theorems": [
    "Agg.aggregate_layout"
   ],
   "note": ""
  },
  {
   "property": "C39",
   "status": "proved",
   "theorems": [
    "Agg.packed_eq_iff",
    "Agg.packed_eq_iff_exact"
   ],
   "note": ""
  },
  {
   "property": "C40",
   "status": "partial",
   "theorems": [
    "Agg.unpack_field_spec_partial",
    "Agg.unpack_field_slice_partial",
    "Agg.unpack_field_all",
    "Agg.slice_selects",
    "Agg.slice_in_range",
    "Agg.slice_complete",
    "Agg.unpack_field_negative_index_false",
    "Agg.unpack_field_slice_clamp_false",
    "Agg.unpack_field_exact",
    "Agg.unpack_field_first_negative",
    "Agg.unpack_field_reads_next",
    "Agg.unpack_field_tail_slice_length",
    "Agg.slice_down",
    "Agg.unpack_field_reversed_empty"
   ],
   "note": "Proved for indices=None, lists of in-range indices and slices with 0 <= start, stop <= nvalues, step > 0; slice_down: with a negative step and explicit ends inside the field the indices are Python's. False of the code for slice(None, None, -1), which selects nothing (unpack_field_reversed_empty), for negative indices and slice ends beyond the field (negations proved, for all classes: unpack_field_first_negative, unpack_field_reads_next, unpack_field_tail_slice_length). unpack_field_exact says what comes back for every index: the bits of the record at bit_offset + bits*i."
  },
  {
   "property": "C41",
   "status": "proved",
   "theorems": [
    "Bitpack.pack_kernels_agree"
   ],
   "note": "Every tile size, table, initial buffer and program order."
  },
  {
   "property": "C42",
   "status": "partial",
   "theorems": [
    "Unique.unique_mask_spec_partial",
    "Unique.unique_mask_exact_partial",
    "Unique.unique_mask_sound",
    "Unique.noCollision_small",
    "Unique.exists_rep",
    "Unique.wide_flip_collide",
    "Unique.unique_mask_drops_distinct",
    "Unique.unique_mask_sentinel_false",
    "Unique.unique_mask_iff",
    "Unique.unique_mask_exact_iff"
   ],
   "note": "Exact for up to 4 words of identity per element with a unique_key, without filled mask, or with all filled entries ahead of the unfilled ones (a batch padded at its end); unique_mask_iff says what is marked in every other case; soundness for any width. For wider elements the hash used to group can collide and drop a distinct element (negation proved on a concrete input); without a key an unfilled entry ahead of an all-ones row drops it (negation proved)."
  },
  {
   "property": "C43",
   "status": "partial",
   "theorems": [
    "Unique.unique_inverse_partial",
    "Unique.unique_index_spec",
    "Unique.unique_jit_spec"
   ],
   "note": "Inverse proved for valid (filled) entries, without hash collision and without an all-ones row behind an unfilled entry, as in C42; for unfilled entries it is meaningless."
  },
  {
   "property": "C44",
   "status": "partial",
   "theorems": [
    "Unique.packed_keys_separate_partial",
    "Unique.packed_tail_ignored_false",
    "Unique.packed_small_raises"
   ],
   "note": "Proved for packed classes without tail bytes; with tail bytes the tail is ignored and distinct items are merged (negation proved); packed classes of at most 16 bits raise."
  },
  {
   "property": "C45",
   "status": "partial",
   "theorems": [
    "Update.update_first_true_wins",
    "Update.update_tuple_partial",
    "Update.update_tuple_out_of_range_false"
   ],
   "note": "Proved for one index array (any integers) and for tuples of in-range indices. Out-of-range tuple indices are clipped, not dropped (negation proved)."
  },
  {
   "property": "C46",
   "status": "partial",
   "theorems": [
    "SoA.getitem_records",
    "SoA.getitem_int",
    "SoA.getitem_array",
    "SoA.getitem_slice",
    "SoA.getitem_mask",
    "SoA.at_set_records",
    "SoA.at_set_int",
    "SoA.at_set_misfit_silent",
    "SoA.at_set_scalar",
    "SoA.at_set_misfit",
    "SoA.set_as_condition_misfit",
    "SoA.concat_raises",
    "SoA.pad_single_const",
    "SoA.where_raw",
    "SoA.where_raw_records_partial",
    "SoA.concat_records",
    "SoA.concat_positions",
    "SoA.concat_single",
    "SoA.concat_split",
    "SoA.concat_negative_axis_false",
    "SoA.stack_records",
    "SoA.stack_negative_axis_false",
    "SoA.take_records",
    "SoA.take_negative_axis_false",
    "SoA.split_sections_records",
    "SoA.split_points_records",
    "SoA.pad_records",
    "SoA.pad_const_records",
    "SoA.pad_single",
    "SoA.pad_negative_raises",
    "SoA.normalizePad_spec",
    "SoA.where_records_partial",
    "SoA.where_scalar",
    "SoA.where_batch_condition_false",
    "SoA.where_no_broadcast_records",
    "SoA.where_no_broadcast_raises",
    "SoA.update_records",
    "SoA.getitem_mask_records",
    "SoA.getitem_arrays",
    "SoA.at_set_mask"
   ],
   "note": "Proved for every class, batch shape and content with axes counted from the front, values that fit the selection and, for where, conditions with a trailing 1 per intrinsic axis (or scalar). False of the code otherwise, each with a proved counterexample: negative axes of concat/stack/take act on intrinsic axes, a batch-shaped where condition mixes records, at[].set with a misfitting value silently does nothing."
  },
  {
   "property": "C47",
   "status": "partial",
   "theorems": [
    "SoA.inferShape_spec",
    "SoA.reshape_records",
    "SoA.reshape_keeps_size",
    "SoA.flatten_records",
    "SoA.flatten_reshape",
    "SoA.transpose_records",
    "SoA.transpose_default",
    "SoA.swapaxes_records",
    "SoA.transpose_negative_axes_raise",
    "SoA.swapaxes_unstructured"
   ],
   "note": "Everything proved for every class and shape, except transpose with negative axes, which raises for fields with intrinsic axes (proved on a concrete class) where numpy on records would accept them."
  },
  {
   "property": "C48",
   "status": "partial",
   "theorems": [
    "SoA.batch_shape_iff",
    "SoA.batchShape_of_conf",
    "SoA.conf_unique",
    "SoA.batch_shape_unstructured",
    "SoA.batch_shape_disagree",
    "SoA.derived_of_conf",
    "SoA.default_conf",
    "SoA.empty_nested_unstructured",
    "SoA.nested_unstructured_raises"
   ],
   "note": "Proved for classes in which every nested class has a field; disagreement is reported as -1 when no nested field has an intrinsic shape. Without these hypotheses the code reports -1 for a well-shaped instance, or raises (both proved on concrete classes)."
  },
  {
   "property": "C49",
   "status": "partial",
   "theorems": [
    "Io.save_load_partial",
    "Io.save_load_exact",
    "Io.save_other",
    "Io.load_other_class",
    "Io.save_without_suffix",
    "Io.truncated_false",
    "Io.reserved_names_false",
    "Io.dtype_false"
   ],
   "note": "Proved for every class nested to any depth, every instance whose arrays fit their fields, packed or not, and every path ending in .npz; save_load_exact says exactly what comes back otherwise (values modulo 2^bits). False of the code without these hypotheses: a path without .npz is written elsewhere, oversize values are truncated, reserved field names and ml_dtypes fields are lost (each proved)."
  },
  {
   "property": "C50",
   "status": "partial",
   "theorems": [
    "SoA.eq_extensional_partial",
    "SoA.eq_iff_same_partial",
    "SoA.eq_records",
    "SoA.ne_not_eq",
    "SoA.eq_incompatible",
    "SoA.eq_other_class",
    "SoA.eq_raises",
    "SoA.eq_broadcast_false",
    "SoA.eq_nan_false",
    "SoA.eq_ne_methods",
    "SoA.eq_methods_partial"
   ],
   "note": "Proved for instances of equal field shapes (every class, nesting and contents); eq_records says what the code computes for any two batch shapes. In general the claim is false of the code because shapes are broadcast: one record equals a batch of copies of it, an empty batch equals a batch of one (eq_broadcast_false), and NaN entries differ from themselves."
  },
  {
   "property": "C51",
   "status": "proved",
   "theorems": [
    "Pytree.flatten_unflatten",
    "Pytree.flatten_unflatten_exact",
    "Pytree.flatten_children",
    "Pytree.tree_map_spec",
    "Pytree.tree_map_total",
    "Pytree.unflatten_flatten",
    "Pytree.flatten_same",
    "Pytree.flattenWithKeys_eq",
    "Pytree.flatten_raises",
    "Pytree.aux_eq_iff",
    "Pytree.replace_spec",
    "Pytree.from_tuple_false",
    "Pytree.extra_attribute_lost",
    "Pytree.to_tuple_spec"
   ],
   "note": "One level of flattening; JAX recurses into nested nodes. Attributes that are not declared fields are lost (extra_attribute_lost); from_tuple raises for every class with two fields (from_tuple_false)."
  },
  {
   "property": "C52",
   "status": "partial",
   "theorems": [
    "SoA.flip_records",
    "SoA.flip_flip",
    "SoA.roll_records",
    "SoA.roll_one",
    "SoA.rot90_records",
    "SoA.repeat_all_records",
    "SoA.repeat_each_records",
    "SoA.repeat_each_one",
    "SoA.expand_dims_records",
    "SoA.squeeze_records",
    "SoA.squeeze_none_records_partial",
    "SoA.moveaxis_records",
    "SoA.take_along_axis_records",
    "SoA.broadcast_to_records_partial",
    "SoA.tile_records_partial",
    "SoA.tile_line",
    "SoA.broadcast_arrays_records",
    "SoA.atleast_id",
    "SoA.vstack_records_partial",
    "SoA.hstack_records_partial",
    "SoA.dstack_records_partial",
    "SoA.column_stack_records_partial",
    "SoA.intrinsic_axes_touched",
    "SoA.small_batches_false",
    "SoA.atleast_small",
    "SoA.stacks_of_singles",
    "SoA.stacks_of_vectors",
    "SoA.dstack_of_matrices",
    "SoA.hstack_of_vectors"
   ],
   "note": "Proved for every class and content with batch axes counted from the front. False of the code otherwise (each proved on a concrete instance): without an axis or with a negative axis the functions act on intrinsic axes; tile and broadcast_to apply one argument to fields of different rank; the stack functions and atleast_nd need batches of 2 (dstack: 3) axes."
  },
  {
   "property": "C53",
   "status": "proved",
   "theorems": [
    "SoA.compare_records",
    "SoA.allclose_eq",
    "SoA.allclose_empty",
    "SoA.eq_records",
    "SoA.full_like_records",
    "SoA.astype_records"
   ],
   "note": "The comparison of two entries, the conversion of one and the fill constant are parameters (dtypes and floating point are not modelled). allclose_eq reduces allclose to the == of C50 with closeness in place of equality, whose meaning is eq_records."
  },
  {
   "property": "C54",
   "status": "proved",
   "theorems": [
    "Desc.validated_constructor",
    "Desc.validated_deep",
    "Desc.default_validates",
    "Desc.default_spec",
    "Desc.validation_batches_false",
    "Desc.validation_nested_false",
    "Desc.validation_nested_shape_false",
    "Desc.tree_map_unvalidated"
   ],
   "note": "Validators of nested fields and subclasses are not modelled. Not guaranteed by the code (proved): agreement of batch shapes between fields, contents of nested instances of non-validating classes, results of tree_map."
  },
  {
   "property": "C55",
   "status": "proved",
   "theorems": [
    "Desc.init_raises_iff",
    "Desc.made_facts",
    "Desc.default_fill_spec",
    "Desc.default_spec",
    "Desc.clone_spec",
    "Desc.clone_id",
    "Desc.with_shape_spec",
    "Desc.broadcast_spec",
    "Desc.broadcast_default",
    "Desc.packed_tensor_storage",
    "Desc.clone_dtype_fill_false",
    "Desc.packed_tensor_dtype",
    "Desc.packed_tensor_spelling"
   ],
   "note": "A clone with another dtype keeps the fill value of the old one (clone_dtype_fill_false)."
  },
  {
   "property": "C56",
   "status": "partial",
   "theorems": [
    "Desc.auto_policy_partial",
    "Desc.aggregate_policy_partial",
    "Desc.field_off_policy",
    "Desc.policy_conflicts",
    "Desc.packable_wf",
    "Desc.auto_diverges",
    "Desc.view_class"
   ],
   "note": "Proved unless a class in the tree has fields but no primitive field at any depth; for such a class automatic mode recurses for ever (auto_diverges)."
  },
  {
   "property": "C57",
   "status": "partial",
   "theorems": [
    "Desc.random_spec_partial",
    "Desc.random_keys",
    "Desc.random_bits_false"
   ],
   "note": "The generator is a parameter with the documented ranges. Entries are values of the dtype, not of the declared number of bits (random_bits_false). No user validators."
  },
  {
   "property": "C58",
   "status": "proved",
   "theorems": [
    "Desc.as_original_roundtrip",
    "Desc.as_original_iff",
    "Desc.as_original_sign_false"
   ],
   "note": "At most 2^32 bits per item; float fields not modelled."
  },
  {
   "property": "C59",
   "status": "partial",
   "theorems": [
    "Cache.metadata_current_partial",
    "Cache.metadata_complete",
    "Cache.shape_of_fit",
    "Cache.dtype_of_fields",
    "Cache.shape_is_batch_shape",
    "Cache.tree_map_drops_caches",
    "Cache.stale_after_assignment",
    "Cache.stale_through_nested",
    "Cache.stale_copied"
   ],
   "note": "Proved for every history whose field assignments keep shape and dtype or are to instances that are not (part of) an instance whose metadata were read. Otherwise false of the code: the caches are never invalidated (stale_* theorems)."
  },
  {
   "property": "C60",
   "status": "partial",
   "theorems": [
    "SoA.iter_records_partial",
    "SoA.iter_never_stops",
    "SoA.iter_single"
   ],
   "note": "The records come first and in order; the iteration never ends on a non-empty batch because indexing clamps (proved: the last record is repeated for ever), and a single record with a scalar field, whose len is 1, yields nothing. Assumes that JAX clamps an out-of-range static index and raises IndexError for too many indices."
  },
  {
   "property": "C61",
   "status": "proved",
   "theorems": [
    "SoA.set_get",
    "SoA.set_get_other",
    "SoA.get_set",
    "SoA.set_set",
    "SoA.set_comm",
    "SoA.stack_of_records",
    "SoA.stack_getitem",
    "SoA.split_concat",
    "SoA.concat_split",
    "SoA.reshape_back",
    "SoA.reshape_reshape",
    "SoA.flatten_back",
    "SoA.transpose_back",
    "SoA.transpose_twice",
    "SoA.swapaxes_twice",
    "SoA.moveaxis_back",
    "SoA.roll_roll",
    "SoA.roll_back",
    "SoA.flip_flip",
    "SoA.rot90_back",
    "SoA.squeeze_expand",
    "SoA.pad_crop",
    "SoA.slice_getitem",
    "SoA.gather_gather",
    "SoA.where_same"
   ],
   "note": "Batch axes counted from the front (negative ones also for swapaxes); classes whose nested classes have fields."
  },
  {
   "property": "C62",
   "status": "proved",
   "theorems": [
    "HashTable.contents_are_offered",
    "HashTable.histories_confluent",
    "HashTable.order_irrelevant",
    "HashTable.order_matters_when_full"
   ],
   "note": "'Every offered item fits' is made precise by: no more distinct keys than slots, exact in-batch dedupe (C23) and a back-end that finds a free slot when there is one (C22: always for single inserts and complete kernels, for XLA batches if max_probes is large enough)."
  },
  {
   "property": "C63",
   "status": "proved",
   "theorems": [
    "Bgpq.delete_mins_determined",
    "Bgpq.histories_agree",
    "Bgpq.insertAll_contents",
    "Bgpq.drain_order_irrelevant",
    "Bgpq.tie_order_observable",
    "Bgpq.order_matters_when_overfull"
   ],
   "note": "total_size and batch_size positive, max_size + batch_size at most 2^32."
  },
  {
   "property": "C64",
   "status": "partial",
   "theorems": [
    "HashTable.internalCap_spec",
    "HashTable.slots_ge_capacity",
    "HashTable.table_holds_capacity",
    "HashTable.single_inserts_hold",
    "HashTable.capacity_multiplier_one_false",
    "Bgpq.maxSize_spec",
    "Bgpq.queue_holds_total"
   ],
   "note": "Proved for hash_size_multiplier >= 2 (the default); false with multiplier 1 (negation proved: capacity 11 with buckets of 8 makes 8 slots). Batches under the conditions of C62."
  },
  {
   "property": "C65",
   "status": "proved",
   "theorems": [
    "SoA.getitem_tuple",
    "SoA.shown_spec",
    "SoA.str_line",
    "SoA.str_grid",
    "SoA.str_single"
   ],
   "note": "The text of a record and the layout by rich are not modelled. Classes whose nested classes have fields."
  },
  {
   "property": "C66",
   "status": "partial",
   "theorems": [
    "Bgpq.padding_keys",
    "Bgpq.returned_values_known",
    "Bgpq.padding_values_first_partial",
    "Bgpq.padding_values_false"
   ],
   "note": "Keys and provenance of values proved for every history; the default padding values only before the first deletion: afterwards the padding shows values of deleted items (padding_values_false), against docs/bgpq.md."
  },
  {
   "property": "C67",
   "status": "proved",
   "theorems": [
    "SoA.fieldsOf_recordsOf",
    "SoA.recordsOf_fieldsOf",
    "SoA.conf_fieldsOf",
    "SoA.scalar_getitem",
    "SoA.scalar_flip",
    "SoA.scalar_roll",
    "SoA.scalar_rot90",
    "SoA.scalar_repeat",
    "SoA.scalar_squeeze",
    "SoA.scalar_expandDims",
    "SoA.scalar_moveaxis",
    "SoA.scalar_transpose",
    "SoA.scalar_swapaxes",
    "SoA.scalar_broadcastTo",
    "SoA.scalar_tile",
    "SoA.scalar_atleast1d",
    "SoA.scalar_atleast2d",
    "SoA.scalar_atleast3d",
    "SoA.scalar_take",
    "SoA.scalar_takeAlongAxis",
    "SoA.scalar_split",
    "SoA.scalar_stack",
    "SoA.scalar_concat",
    "SoA.scalar_vstack",
    "SoA.scalar_hstack",
    "SoA.scalar_dstack",
    "SoA.scalar_columnStack",
    "SoA.scalar_where",
    "SoA.scalar_needed"
   ],
   "note": "recordsOf / fieldsOf convert between an instance and the array of its records (inverse to each other). stack and concat: two or more instances; single records are stacked by concat. take and take_along_axis put the fill record where an index is out of range. Classes with intrinsic shapes: C46, C47, C52 (scalar_needed)."
  },
  {
   "property": "C68",
   "status": "proved",
   "theorems": [
    "SoA.pad_mode_records",
    "SoA.pad_mode_single",
    "SoA.pad_mode_empty_raises",
    "SoA.pad_mode_negative_raises",
    "NArr.padFrom_eq",
    "NArr.continues_padFrom"
   ],
   "note": "`Continues` says how each mode continues a row and determines the continuation (padFrom_eq, continues_padFrom). reflect_type even. The statistical modes (mean, maximum, \u2026) and linear_ramp are not modelled. Classes whose nested classes have fields."
  },
  {
   "property": "C69",
   "status": "partial",
   "theorems": [
    "SoA.scalar_block",
    "SoA.block_grid_records_partial",
    "SoA.block_vector_false",
    "SoA.block_mixed_classes",
    "SoA.block_eq_treeMapN"
   ],
   "note": "Proved for classes of scalar fields (nested to any depth). False of the code for a class with a vector field (block_vector_false: jnp.block joins the last, intrinsic axes) and blocks of different classes with the same number of fields are mixed by position (block_mixed_classes). tree_transpose is modelled as comparing the total number of leaves only. Tuples in the nesting are not modelled."
  },
  {
   "property": "C70",
   "status": "partial",
   "theorems": [
    "Unique.legacy_mask_iff",
    "Unique.legacy_mask_spec_partial",
    "Unique.legacy_agrees_partial",
    "Unique.legacy_inverse",
    "Unique.legacy_index",
    "Unique.legacy_inf_key_false"
   ],
   "note": "The exact characterisation legacy_mask_iff has no hypotheses. The agreement with unique_mask's specification fails for filled entries whose key is +inf when both key and filled are given (legacy_inf_key_false): the legacy version marks them."
  },
  {
   "property": "C71",
   "status": "partial",
   "theorems": [
    "Bgpq.bgpq_conserves",
    "Bgpq.bgpq_size_correct",
    "Bgpq.negInf_least",
    "Bgpq.neg_inf_keys_false",
    "Bgpq.neg_inf_not_counted"
   ],
   "note": "Proved for finite keys (bgpq_conserves, bgpq_size_correct, every history). False for -inf: isfinite takes it for padding, so such items are not counted, and a block with them can push finite items out of the queue (neg_inf_keys_false, a queue at 20% of its capacity)."
  },
  {
   "property": "C72",
   "status": "partial",
   "theorems": [
    "HashTable.insertAll_found_partial",
    "HashTable.full_bucket_reads_empty",
    "HashTable.bucket_size_256_false"
   ],
   "note": "Proved for bucket sizes up to 255 (insertAll_found_partial, from C16). False for 256: the fill level is cast to uint8, so a full bucket reads as empty; bucket_size_256_false: for every hash function and every 256 different items, all are reported inserted and afterwards no lookup finds anything."
  },
  {
   "property": "C73",
   "status": "partial",
   "theorems": [
    "HashModel.equal_hash_equal_partial",
    "HashModel.neg_zero_hash_false",
    "HashModel.instEq_refl_iff",
    "HashModel.nan_never_found",
    "HashModel.neg_zero_not_found"
   ],
   "note": "Proved for instances without float zeros (all classes without float fields). False with them: for every NaN-free instance with a float zero, negating it gives an equal instance whose hash differs for every seed (neg_zero_hash_false); in a table -0.0 is not found where 0.0 is stored. Instances with NaN equal nothing, are never found, and can be inserted again and again (nan_never_found)."
  },
  {
   "property": "C74",
   "status": "partial",
   "theorems": [
    "Bitpack.set_unpacked_unknown",
    "Bitpack.from_unpacked_unknown_partial",
    "Bitpack.from_unpacked_unknown_false"
   ],
   "note": "Proved for set_unpacked, and for from_unpacked when some field is not given. False when all fields are given: further arguments are dropped (from_unpacked_unknown_false, for every class and argument set)."
  },
  {
   "property": "C75",
   "status": "proved",
   "theorems": [
    "Xnp.list_empty",
    "Xnp.list_mixed",
    "Xnp.list_arrays",
    "Xnp.list_insts",
    "Xnp.list_classes",
    "Xnp.list_functions_dispatch",
    "Xnp.public_concat_records",
    "Xnp.public_stack_records",
    "Xnp.where_dispatch",
    "Xnp.update_dispatch",
    "Xnp.list_like_arrays",
    "Xnp.where_arrays"
   ],
   "note": "An exact characterisation of success (list_functions_dispatch); the record theorems of C46 are carried over to the public functions. The functions update_on_condition calls are parameters (C45 has their semantics)."
  },
  {
   "property": "C76",
   "status": "partial",
   "theorems": [
    "Xnp.public_take_records",
    "Xnp.take_default_scalar_partial",
    "Xnp.concat_default_scalar_partial",
    "Xnp.take_default_entry",
    "Xnp.axis_none_false",
    "Xnp.take_arrays_default"
   ],
   "note": "Proved for classes whose fields are all scalars, and with an explicit axis. False for a class with a vector field: each field is flattened with its intrinsic axes, so index v selects component v mod m of record v div m (take_default_entry); a counterexample is axis_none_false."
  },
  {
   "property": "C77",
   "status": "proved",
   "theorems": [
    "ClsDecl.declare_ok_iff",
    "ClsDecl.attr_spec",
    "ClsDecl.construct_ok_iff",
    "ClsDecl.construct_read",
    "ClsDecl.member_read",
    "ClsDecl.own_kept_iff",
    "ClsDecl.default_ok",
    "ClsDecl.field_names_false"
   ],
   "note": "Exact: which names can be declared (declare_ok_iff), which classes can be constructed (construct_ok_iff), what an attribute is (attr_spec, member_read), which members of the class body are kept (own_kept_iff). Finding that not all names work: field_names_false (names with a leading underscore, batch; fields called like a property; shadowed and overwritten members)."
  },
  {
   "property": "C78",
   "status": "partial",
   "theorems": [
    "ClsDecl.subclass_spec",
    "ClsDecl.subclass_partial",
    "ClsDecl.subclass_default_false"
   ],
   "note": "Proved: instances built from all fields read back and index all fields. False otherwise, for every subclass that adds a field: get_field_descriptors finds the cache of the base class, so default() raises (subclass_default_false), and shape, dtype, random, validation and packing use the descriptors of the base (subclass_spec)."
  },
  {
   "property": "C79",
   "status": "proved",
   "theorems": [
    "ClsDecl.annotated_same",
    "ClsDecl.declare_congr",
    "ClsDecl.no_descriptor_raises"
   ],
   "note": "For a class without a decorated base the last clause; with one the annotations' descriptors are not read at all (C78). Annotations that are strings (postponed evaluation) are annotations without a descriptor."
  },
  {
   "property": "C80",
   "status": "proved",
   "theorems": [
    "TypeOps.can_cast_dtype",
    "TypeOps.can_cast_instance",
    "TypeOps.can_cast_no_fields",
    "TypeOps.can_cast_scalar_type_raises",
    "TypeOps.can_cast_other_class",
    "TypeOps.can_cast_bad_rule",
    "TypeOps.result_type_fields",
    "TypeOps.result_type_defined",
    "TypeOps.result_type_mixed_raises"
   ],
   "note": "can_cast_scalar_type_raises is a finding: the attribute dtype of a numpy scalar type is a descriptor object, so it is mistaken for an instance."
  },
  {
   "property": "C81",
   "status": "partial",
   "theorems": [
    "Bgpq.bgpq_refines_nan",
    "Bgpq.nan_kernel_false"
   ],
   "note": "Proved for queues whose merges are done by sorting (the backend on CPU and TPU). False for the merge kernels (GPU): they compare with <=, emit a NaN before smaller keys, and the merged array is not sorted (nan_kernel_false)."
  },
  {
   "property": "C82",
   "status": "proved",
   "theorems": [
    "Bgpq.queue_settings",
    "Bgpq.settings_raise",
    "Bgpq.accepts_iff",
    "Bgpq.resolve_ok_iff",
    "Bgpq.no_settings_accepted",
    "Bgpq.bad_word_refused",
    "Bgpq.kv_batch_one",
    "Bgpq.restore_pack_val"
   ],
   "note": "A Triton kernel on another device than a GPU is taken to raise, and so is the key-value kernel on an empty array (batch_size 1 has an empty buffer: kv_batch_one). Kept traces and settings that change between calls: C99."
  },
  {
   "property": "C83",
   "status": "proved",
   "theorems": [
    "HashTable.table_is_a_set",
    "HashTable.settings_agree",
    "HashTable.BehavesAll.unique",
    "HashTable.select_ok_iff",
    "HashTable.no_settings_accepted",
    "Dedupe.dedupe_any_sort",
    "HashTable.probe_limit_matters",
    "HashTable.approx_matters",
    "HashTable.bad_words_refused",
    "Dedupe.sort_matters_without_guard",
    "Dedupe.guard_iff"
   ],
   "note": "The exceptions of the statement are necessary: probe_limit_matters, approx_matters, sort_matters_without_guard (and C22, C23, C62). Empty batches are left out (parallel_insert raises on them). Kept traces and settings that change between calls: C99; a Triton kernel that does not compile for the given warps or stages is not modelled."
  },
  {
   "property": "C84",
   "status": "partial",
   "theorems": [
    "HashTable.nan_keys_table",
    "Dedupe.dedupe_nan_keys",
    "HashTable.nan_keys_others_stored_partial",
    "HashTable.nan_key_item_lost",
    "HashTable.nan_keys_lose_item",
    "HashTable.nan_keys_all_stored_false",
    "Dedupe.dedupe_int_keys_partial",
    "Dedupe.int_keys_cheapest_false",
    "Dedupe.roundInt_mono",
    "Dedupe.roundInt_exact",
    "Dedupe.roundNat_near",
    "Dedupe.dedupeN_eq",
    "Dedupe.int_keys_finite",
    "Dedupe.int_keys_guard_exact"
   ],
   "note": "The full claim is false of the code: nan_keys_all_stored_false, int_keys_cheapest_false. Proved: everything that holds for all keys (nan_keys_table), the exact fate of items with and without NaN keys (dedupe_nan_keys, nan_key_item_lost), and what is left of 'cheapest' for integer keys (dedupe_int_keys_partial, exact up to 2^p). 'Stored while there is room' is stated for the Triton and Pallas backends; the XLA path has its own round limit (C17). Guard excludes the sentinel case of C23; integer keys are finite, so in mode exact nothing is asked of the items (int_keys_guard_exact). dedupeN_eq: without NaN the model is that of C23."
  },
  {
   "property": "C85",
   "status": "partial",
   "theorems": [
    "HashModel.hash_settings_accepted",
    "HashModel.pack_settings_accepted",
    "HashModel.packed_settings_agree",
    "HashModel.plain_settings_agree_partial",
    "HashModel.stream_setting_shows_empty",
    "HashModel.words_tell_instances_apart",
    "HashModel.agg_settings_agree_partial",
    "HashModel.table_settings_agree",
    "HashModel.packed_hash_needs_range",
    "HashModel.packed_hash_of_batch_false",
    "HashModel.mixed_modes_false",
    "HashModel.leaf_fits"
   ],
   "note": "The full claim is false of the code: stream_setting_shows_empty, packed_hash_needs_range, packed_hash_of_batch_false, mixed_modes_false. Proved for everything else: all classes with some data, single instances with values that fit their bits. Not modelled: float leaves with bits; the caching of traced functions."
  },
  {
   "property": "C86",
   "status": "proved",
   "theorems": [
    "Desc.schema_fields",
    "Desc.schema_sizes",
    "Desc.schema_bits",
    "Desc.unpack_field_named",
    "Desc.unpack_field_errors"
   ],
   "note": "Field names without dots (every identifier). The mode and the class name in the dictionary are left out; dtypes stand for their names; conversion to float dtypes is not modelled. unpack_field with indices: C40."
  },
  {
   "property": "C87",
   "status": "partial",
   "theorems": [
    "Unique.unique_call_partial",
    "Unique.unique_nan_key",
    "Unique.unique_nan_row",
    "Unique.unique_filled_one",
    "Unique.unique_batch_len",
    "Unique.unique_raises",
    "Unique.unique_uint32",
    "Unique.batch_len_false",
    "Unique.integer_key_false",
    "Unique.float_rows_false",
    "Unique.legacy_nan_key",
    "Unique.legacy_nan_false",
    "Unique.placeholder_greatest"
   ],
   "note": "As in C42 the hash must not identify distinct entries and, without key, no valid entry behind an unfilled one may equal the placeholder. Full claim false of the code: float key_fn values in more than 4 columns lose their fraction before hashing (float_rows_false), an integer key raises (integer_key_false; NumPy's reading of jnp.array(inf, dtype=int)), and a batch_len other than the batch length regroups the values (batch_len_false)."
  },
  {
   "property": "C88",
   "status": "proved",
   "theorems": [
    "Records.record_stack_lifo",
    "Records.record_stack_overflow_safe",
    "Records.record_queue_fifo",
    "Records.record_queue_clear",
    "Records.record_push_axes",
    "Records.record_table_refines",
    "Records.record_table_insert_read",
    "Records.record_table_parallel_read",
    "Bgpq.run_mapV",
    "Bgpq.bgpq_fields_together"
   ],
   "note": "Capacity at least 1 and below 2^31. HashTable: the items of C16-C27 are the records up to ==; read-back needs == to tell the records apart (not so for 0.0 and -0.0). BGPQ: the run on records, projected to any field, is the run on that field (naturality in the values), which is what the field-wise code computes."
  },
  {
   "property": "C89",
   "status": "partial",
   "theorems": [
    "Xnp.take_clip_records",
    "Xnp.take_wrap_records",
    "Xnp.take_fill_records",
    "Xnp.take_default_is_fill",
    "Xnp.take_empty_axis",
    "Xnp.along_mode_records_partial",
    "Xnp.along_mode_raises",
    "Xnp.along_none_raises",
    "Xnp.along_mode_false",
    "Xnp.take_empty_axis_no_indices",
    "Xnp.along_mode_none"
   ],
   "note": "The claim for take is proved in full (explicit fill_value; the dtype-dependent default fill value is not modelled). For take_along_axis it is false of the code: naming mode or fill_value makes the call raise for every class with a field that is not a scalar (along_mode_raises, along_mode_false), and axis=None raises without them; proved for classes of scalar fields and index arrays of the batch rank."
  },
  {
   "property": "C90",
   "status": "proved",
   "theorems": [
    "Io.interrupted_save",
    "Io.save_history",
    "Io.interrupted_save_loses"
   ],
   "note": "Classes and instances as in C49. Finding: the code truncates the file before writing, so an interrupted save loses the old contents (interrupted_save_loses)."
  },
  {
   "property": "C91",
   "status": "proved",
   "theorems": [
    "Io.load_evolved",
    "Io.load_evolved_raises",
    "Io.load_fewer_fields",
    "Io.load_added_field",
    "Io.load_changed_dtype",
    "Io.load_dtype_false"
   ],
   "note": "Classes without fields named npy or __xtructure_bitpack__ (such names make the keys ambiguous: example in IoEvolve). Finding: load_dtype_false, an array not written in packed form keeps the dtype it was saved with."
  },
  {
   "property": "C92",
   "status": "proved",
   "theorems": [
    "Bgpq.any_blocks_ordered",
    "Bgpq.any_blocks_size",
    "Bgpq.any_blocks_drain",
    "Bgpq.long_blocks_conserve",
    "Bgpq.long_blocks_exceed_max_size",
    "Bgpq.short_block_loss",
    "Bgpq.short_block_loses_one",
    "Bgpq.short_then_full_loses_one",
    "Bgpq.long_block_size_false"
   ],
   "note": "Findings: short_block_loss gives the exact number of items lost to short blocks, short_block_loses_one and short_then_full_loses_one show that in every documented state with an empty buffer a short block loses an item and that a short block makes a later full block lose one; long_block_size_false refutes size for long blocks (it undercounts between deletes), long_blocks_exceed_max_size shows that long blocks are not limited by max_size."
  },
  {
   "property": "C93",
   "status": "proved",
   "theorems": [
    "Bgpq.key_dtype_accepted",
    "Bgpq.default_queue_accepts",
    "Bgpq.f32_queue_accepts",
    "Bgpq.insertConv_eq",
    "Bgpq.converted_keys_stored",
    "Bgpq.toF16_mono",
    "Bgpq.toF16_exact",
    "Bgpq.toF16_inf",
    "Bgpq.large_int_keys_lost",
    "Bgpq.int_key_order_false",
    "Bgpq.join_laws"
   ],
   "note": "float8, complex and weakly typed keys are not modelled. Findings: integer keys of 65520 or more become inf in a default queue and their items vanish (large_int_keys_lost, every reachable state with room); different integers above 2048 can become the same key (int_key_order_false)."
  },
  {
   "property": "C94",
   "status": "proved",
   "theorems": [
    "StackModel.stack_debt",
    "StackModel.stack_underflow_swallows",
    "QueueModel.queue_debt",
    "QueueModel.queue_underflow_swallows"
   ],
   "note": "Finding: after any history without debt, asking for m >= 1 items too many makes size 2^32 - m and the next m items put in vanish (stack_underflow_swallows, queue_underflow_swallows). The items returned by the over-asking call itself are left unspecified (they are clamped reads of stale slots)."
  },
  {
   "property": "C95",
   "status": "proved",
   "theorems": [
    "Search.search_refines",
    "Search.search_visits_once",
    "Search.search_misses_nothing",
    "SearchSpec.trace_once",
    "SearchSpec.trace_nodup"
   ],
   "note": "Finite keys (no -inf/NaN, see C71, C81); batches of the queue's batch_size; table parameters as in C16. When the queue is too small C10/C11 apply; when parallel_insert can miss items C22 applies."
  },
  {
   "property": "C96",
   "status": "proved",
   "theorems": [
    "SearchCost.search_reopen_refines",
    "SearchCost.search_reopen_best",
    "SearchCost.search_reopen_monotone",
    "SearchCostSpec.trace_best",
    "SearchCostSpec.trace_monotone",
    "SearchCostSpec.trace_generated"
   ],
   "note": "Finite keys (no -inf/NaN, see C71, C81); batches of the queue's batch_size; exact de-duplication as in C23 (Guard, any mode)."
  },
  {
   "property": "C97",
   "status": "proved",
   "theorems": [
    "DescSpell.bracket_spec",
    "DescSpell.bracket_raises_iff",
    "DescSpell.bracket_int_false",
    "DescSpell.decorate_accepts",
    "DescSpell.tuple_spelling",
    "DescSpell.tuple_batchShape",
    "DescSpell.default_int",
    "DescSpell.int_spelling_false",
    "DescSpell.list_spelling_false",
    "DescSpell.wide_validate_false",
    "DescSpell.int_spelling_differs",
    "DescSpell.derived_shapes",
    "DescSpell.default_dtypes"
   ],
   "note": "Proved: bracket syntax, acceptance, tuples with dtypes that JAX keeps behave as C54-C57 say whichever way the dtypes are written. What happens with integer shapes, list shapes and 64-bit dtypes under validate=True (findings) is proved for all classes and instances."
  },
  {
   "property": "C98",
   "status": "proved",
   "theorems": [
    "Methods.method_is_function",
    "Methods.reshape_spellings",
    "Methods.stacking_methods_false",
    "Methods.stacking_differs",
    "Methods.block_method"
   ],
   "note": "Finding: no call of the methods vstack, hstack, dstack and column_stack returns (stacking_methods_false)."
  },
  {
   "property": "C99",
   "status": "proved",
   "theorems": [
    "Bgpq.items_settings",
    "Bgpq.process_settings",
    "Bgpq.sortQueues_run",
    "Bgpq.trace_kept",
    "Bgpq.kept_of_ok",
    "Bgpq.later_settings_ignored",
    "Bgpq.accepted_never_raises",
    "Bgpq.first_call_raises_iff",
    "Bgpq.changed_settings",
    "HashTable.table_changing_settings",
    "HashTable.kept_settings",
    "HashTable.changed_settings"
   ],
   "note": "Two levels of kept traces for the queue (merge_sort_split and merge_buffer inside insert and delete_mins). Finding: an insert refused because of the buffer setting still fixes the strategy of the other merges for later calls (Bgpq.changed_settings); results are not affected. For the table the key under which traces are kept is a parameter."
  }
 ]
}