# Axioms of each theorem

Output of `#print axioms` for every theorem named in MANIFEST.json, grouped by the set of axioms.

## `propext` (18 theorems)

- C07: `STL.UH.C07_merge_defect`
- C09: `STL.Vec.C09_no_leak`, `STL.Vec.C09_exceptions`, `STL.Vec.C09_only_length_error`
- C20: `STL.Utf.C20_utf8_utf16_header_repeats`
- C26: `STL.DL.C26_stably_sorted_unique`
- C30: `STL.Var.C30_becomes_valueless`, `STL.Var.C30_valueless`
- C33: `STL.Str.C33_no_leak`
- C43: `STL.AWait.C43_calls`, `STL.AWait.C43_notify_one_repeats`
- C44: `STL.Barrier.C44_wait_two_phases`
- C45: `STL.PoolRes.C45_zero_size_defect`, `STL.PoolRes.C45_zero_size_ub`, `STL.PoolRes.C45_overalign_defect`
- C47: `STL.Future.ex_terminate`, `STL.Future.ex_use_after_free`
- C54: `STL.Utc.C54_known`

## `Quot.sound` (1 theorems)

- C26: `STL.DL.C26_strong_guarantee`

## `Quot.sound`, `propext` (36 theorems)

- C03: `STL.C03_is_heap_until`, `STL.C03_is_heap`
- C04: `STL.C04_lower_bound`, `STL.C04_upper_bound`, `STL.C04_partition_point`, `STL.C04_equal_range`, `STL.C04_binary_search`
- C05: `STL.RBT.C05_strong_guarantee`
- C07: `STL.UH.C07_strong_guarantee`
- C09: `STL.Vec.C09_push_back`
- C12: `STL.Chrono.C12_weekday`
- C14: `STL.Int128.C14_unsigned_add`, `STL.Int128.C14_unsigned_sub`, `STL.Int128.C14_unsigned_shr`, `STL.Int128.C14_ofBuiltin`, `STL.Int128.C14_div_schar_min`
- C23: `STL.Rnd.C23_shuffle_positions`, `STL.Rnd.C23_ranges_sample`
- C30: `STL.Var.C30_threw`, `STL.Var.C30_visit_index`, `STL.Var.C30_raw_get`, `STL.Var.C30_discriminator`
- C33: `STL.Str.C33_bad_alloc`
- C35: `STL.C35_search`, `STL.C35_boyer_moore_too_long`, `STL.C35_string_find_ch`, `STL.C35_string_find_of`
- C36: `STL.C36_pop_empty`
- C43: `STL.AWait.C43_return`, `STL.AWait.C43_same_wait`, `STL.AWait.C43_at_most_one`
- C47: `STL.Future.ex_deadlock`
- C54: `STL.Utc.C54_tai_gps`
- C55: `STL.Hms.C55_twelve_hours`, `STL.Hms.C55_twenty_four_hours`, `STL.Hms.C55_outside_day`

## `Classical.choice`, `Quot.sound`, `propext` (403 theorems)

- C01: `STL.C01_sort`, `STL.C01_sort_subrange`
- C02: `STL.C02_stable_sort`, `STL.C02_inplace_merge`
- C03: `STL.C03_make_heap`, `STL.C03_push_heap`, `STL.C03_pop_heap`, `STL.C03_sort_heap`
- C04: `STL.C04_sorted_partitioned`
- C05: `STL.RBT.C05_history`, `STL.RBT.C05_sorted`, `STL.RBT.C05_iterators_stay`
- C06: `STL.RBT.C06_height`, `STL.RBT.C05_history`
- C07: `STL.UH.C07_history`, `STL.UH.C07_rehash`, `STL.UH.C07_references`, `STL.UH.C07_load_factor`, `STL.UH.C07_merge`, `STL.UH.C07_merge_all`
- C08: `STL.Deque.C08_history`, `STL.Deque.C08_length`, `STL.Deque.C08_addresses`, `STL.Deque.C08_no_overflow`, `STL.Deque.C08_destroy`
- C09: `STL.Vec.C09_history`
- C10: `STL.Charconv.C10_from_chars`
- C11: `STL.Charconv.C11_to_chars`, `STL.Charconv.C11_roundtrip`, `STL.Charconv.C11_to_string`
- C12: `STL.Chrono.C12_last_day`, `STL.Chrono.C12_last_weekday`, `STL.Chrono.C12_ymwd_ok`, `STL.Chrono.C12_ok_iff`, `STL.Chrono.C12_epoch`, `STL.Chrono.C12_civil_from_days`, `STL.Chrono.C12_days_from_civil`, `STL.Chrono.C12_calculate_weekday`, `STL.Chrono.C12_weekday_plus`, `STL.Chrono.C12_weekday_diff`, `STL.Chrono.C12_month_plus`, `STL.Chrono.C12_month_diff`, `STL.Chrono.C12_year_month_plus`, `STL.Chrono.C12_ymwd_roundtrip`
- C13: `STL.Duration.C13_duration_cast`, `STL.Duration.C13_compare`, `STL.Duration.C13_floor`, `STL.Duration.C13_ceil`, `STL.Duration.C13_round`, `STL.Duration.C13_abs`, `STL.Duration.C13_finer_roundtrip`
- C14: `STL.Int128.C14_signed_add`, `STL.Int128.C14_signed_sub`, `STL.Int128.C14_signed_neg`, `STL.Int128.C14_inc_dec`, `STL.Int128.C14_unsigned_mul`, `STL.Int128.C14_signed_mul`, `STL.Int128.C14_bitwise`, `STL.Int128.C14_shl`, `STL.Int128.C14_signed_shr`, `STL.Int128.C14_compare`, `STL.Int128.C14_unsigned_div`, `STL.Int128.C14_unsigned_mod`, `STL.Int128.C14_div_ceil`, `STL.Int128.C14_signed_div`, `STL.Int128.C14_signed_div_exact`, `STL.Int128.C14_signed_mod`, `STL.Int128.C14_signed_div_builtin`
- C15: `STL.Bits.C15_countl_zero`, `STL.Bits.C15_countr_zero`, `STL.Bits.C15_countl_one`, `STL.Bits.C15_countr_one`, `STL.Bits.C15_popcount`, `STL.Bits.C15_has_single_bit`, `STL.Bits.C15_has_single_bit_popcnt`, `STL.Bits.C15_bit_width`, `STL.Bits.C15_bit_ceil`, `STL.Bits.C15_bit_floor`, `STL.Bits.C15_rotl`, `STL.Bits.C15_rotr`, `STL.Bits.C15_rot_roundtrip`, `STL.Bits.C15_byteswap`
- C16: `STL.Num.C16_gcd`, `STL.Num.C16_gcd_wide`, `STL.Num.C16_gcd_checked`, `STL.Num.C16_lcm`, `STL.Num.C16_lcm_checked`, `STL.Num.C16_midpoint`, `STL.Num.C16_midpoint_ptr`, `STL.Num.C16_cmp`, `STL.Num.C16_in_range`
- C17: `STL.SharedPtr.C17_safety`, `STL.SharedPtr.C17_no_leak`, `STL.SharedPtr.C17_lock`
- C18: `STL.Semaphore.C18_semaphore_accounting`, `STL.Semaphore.C18_semaphore_no_lost_wakeup`, `STL.Semaphore.C18_semaphore_progress`, `STL.Semaphore.C18_semaphore_result`, `STL.Latch.C18_latch_accounting`, `STL.Latch.C18_latch_try_wait`, `STL.Latch.C18_latch_no_lost_wakeup`, `STL.Latch.C18_latch_progress`, `STL.BinSem.C18_binary_semaphore_accounting`, `STL.BinSem.C18_binary_semaphore_result`, `STL.BinSem.C18_binary_semaphore_no_lost_wakeup`, `STL.BinSem.C18_binary_semaphore_progress`
- C19: `STL.Path.root_decomposition`, `STL.Path.filename_parent`, `STL.Path.stem_extension`, `STL.Path.replace_extension`, `STL.Path.append_correct`, `STL.Path.lexically_normal_correct`, `STL.Path.lexically_normal_root`, `STL.Path.lexically_normal_normal`, `STL.Path.lexically_normal_idempotent`, `STL.Path.lexically_normal_hidden_drive`, `STL.Path.lexically_normal_hidden_device`
- C20: `STL.Utf.C20_utf32_to_wide`, `STL.Utf.C20_wide_to_utf32`, `STL.Utf.C20_utf32_roundtrip`, `STL.Utf.C20_format_utf8`, `STL.Utf.C20_format_utf16`, `STL.Utf.C20_format_utf8_roundtrip`, `STL.Utf.C20_format_utf16_roundtrip`, `STL.Utf.C20_format_usv`, `STL.Utf.C20_format_utf32`, `STL.Utf.C20_utf8_in`, `STL.Utf.C20_utf8_out`, `STL.Utf.C20_utf8_roundtrip`, `STL.Utf.C20_utf8_in_header`, `STL.Utf.C20_utf8_out_header`, `STL.Utf.C20_utf8_roundtrip_header`, `STL.Utf.C20_utf8_roundtrip_noheader`, `STL.Utf.C20_utf8_header_lost`, `STL.Utf.C20_utf16_in`, `STL.Utf.C20_utf16_out`, `STL.Utf.C20_utf16_roundtrip`, `STL.Utf.C20_utf16_in_header`, `STL.Utf.C20_utf16_out_header`, `STL.Utf.C20_utf16_roundtrip_header`, `STL.Utf.C20_utf16_header_lost`, `STL.Utf.C20_utf8_utf16_out`, `STL.Utf.C20_utf8_utf16_in`, `STL.Utf.C20_utf8_utf16_roundtrip`, `STL.Utf.C20_utf8_utf16_in_header`, `STL.Utf.C20_utf8_oneshot`, `STL.Utf.C20_utf16_oneshot`
- C21: `STL.Pmr.C21_blocks`, `STL.Pmr.C21_allocate`, `STL.Pmr.C21_release`, `STL.Pmr.C21_growth`
- C22: `STL.Bset.C22_default`, `STL.Bset.C22_of_ullong`, `STL.Bset.C22_and`, `STL.Bset.C22_or`, `STL.Bset.C22_xor`, `STL.Bset.C22_shl`, `STL.Bset.C22_shr`, `STL.Bset.C22_set_all`, `STL.Bset.C22_reset_all`, `STL.Bset.C22_flip_all`, `STL.Bset.C22_compl`, `STL.Bset.C22_set`, `STL.Bset.C22_reset`, `STL.Bset.C22_flip`, `STL.Bset.C22_test`, `STL.Bset.C22_any`, `STL.Bset.C22_none`, `STL.Bset.C22_all`, `STL.Bset.C22_eq`, `STL.Bset.C22_count`, `STL.Bset.C22_to_ullong`, `STL.Bset.C22_to_ulong`, `STL.Bset.C22_to_string`, `STL.Bset.C22_of_string`, `STL.Bset.C22_string_roundtrip`
- C23: `STL.Rnd.C23_generator`, `STL.Rnd.C23_uniform_int`, `STL.Rnd.C23_shuffle`, `STL.Rnd.C23_shuffle_perm`, `STL.Rnd.C23_sample`, `STL.Rnd.C23_sample_input`, `STL.Rnd.C23_sample_positions`
- C24: `STL.Mds.C24_layout_left`, `STL.Mds.C24_layout_right`, `STL.Mds.C24_strides_left`, `STL.Mds.C24_strides_right`, `STL.Mds.C24_layout_stride`, `STL.Mds.C24_is_exhaustive`, `STL.Mds.C24_exhaustive_iff`, `STL.Mds.C24_exhaustive_zero`, `STL.Mds.C24_stride_check`, `STL.Mds.C24_extents_dynamic`, `STL.Mds.C24_extents_all`
- C25: `STL.BigInt.C25_shift_left`, `STL.BigInt.C25_add`, `STL.BigInt.C25_multiply_word`, `STL.BigInt.C25_multiply`, `STL.BigInt.C25_multiply_power_of_ten`, `STL.BigInt.C25_less`, `STL.BigInt.C25_bit_scan_reverse`, `STL.BigInt.C25_divide`
- C26: `STL.DL.C26_history`, `STL.DL.C26_links`, `STL.DL.C26_identity`, `STL.DL.C26_sort_completes`
- C27: `STL.next_permutation_correct`, `STL.prev_permutation_correct`, `STL.prev_permutation_inverts_next`, `STL.next_permutation_inverts_prev`, `STL.next_permutation_enumerates`
- C28: `STL.Par.C28_chunks`, `STL.Par.C28_chunk_count`, `STL.Par.C28_forward`, `STL.Par.C28_forward_to`, `STL.Par.C28_random`, `STL.Par.C28_backward`, `STL.Par.ForEach.C28_for_each`, `STL.Par.ForEach.C28_for_each_terminates`
- C29: `STL.StopToken.C29_request_stop`, `STL.StopToken.C29_at_most_once`, `STL.StopToken.C29_invoked`, `STL.StopToken.C29_destroyed`, `STL.StopToken.C29_safe`, `STL.StopToken.C29_no_lost_wakeup`
- C30: `STL.Var.C30_history`, `STL.Var.C30_never_valueless`, `STL.Var.C30_order`
- C31: `STL.C31_reverse`, `STL.C31_rotate`, `STL.C31_remove_if`, `STL.C31_unique`, `STL.C31_shift_left`, `STL.C31_shift_right`, `STL.C31_partition`, `STL.C31_stable_partition`
- C32: `STL.C32_merge`, `STL.C32_set_union`, `STL.C32_set_intersection`, `STL.C32_set_difference`, `STL.C32_set_symmetric_difference`, `STL.C32_includes`
- C33: `STL.Str.C33_history`, `STL.Str.C33_edit`, `STL.Str.C33_replace_defect`, `STL.Str.C33_assign_char_defect`
- C34: `STL.C34_partial_sort`, `STL.C34_nth_element`, `STL.C34_nth_element_eq_sort`, `STL.C34_nth_element_end`
- C35: `STL.C35_find_end`, `STL.C35_search_n`, `STL.C35_boyer_moore`, `STL.C35_boyer_moore_flat`, `STL.C35_string_find`
- C36: `STL.C36_priority_queue_history`, `STL.C36_pop_removes_top`
- C37: `STL.Ratio.C37_ratio`, `STL.Ratio.C37_add`, `STL.Ratio.C37_subtract`, `STL.Ratio.C37_multiply`, `STL.Ratio.C37_divide`, `STL.Ratio.C37_equal`, `STL.Ratio.C37_less`
- C38: `STL.FloatConv.C38_float`, `STL.FloatConv.C38_double`, `STL.FloatConv.C38_invalid`, `STL.FloatConv.C38_infinity`, `STL.FloatConv.C38_nan_paren`, `STL.FloatConv.C38_nan`
- C39: `STL.Par.Find.A.C39_find_atomic`, `STL.Par.Find.B.C39_find_chunk`, `STL.Par.AllOf.C39_all_of`
- C40: `STL.Par.Scan.C40_scan`, `STL.Par.Scan.C40_scan_terminates`, `STL.Par.ScanOther.C40_exclusive_other_type`, `STL.Par.ScanOther.C40_inclusive_other_type`
- C41: `STL.Path.C41_iterate`, `STL.Path.C41_compare`, `STL.Path.C41_order`, `STL.Path.C41_hash`
- C42: `STL.Par.PSort.C42_safe`, `STL.Par.PSort.C42_sorted`, `STL.Par.PSort.C42_exclusive`, `STL.Par.PSort.C42_memory`, `STL.Par.PSort.C42_unlock`
- C43: `STL.AWait.C43_safe`, `STL.AWait.C43_notify_all`, `STL.AWait.C43_all_return`, `STL.AWait.C43_notify_one`, `STL.AWait.C43_only`, `STL.AWait.C43_no_deadlock`, `STL.AWait.C43_wait_returns`, `STL.AWait.C43_notify_returns`
- C44: `STL.Barrier.C44_safe`, `STL.Barrier.C44_calls`, `STL.Barrier.C44_completion`, `STL.Barrier.C44_function`, `STL.Barrier.C44_no_early`, `STL.Barrier.C44_no_lost`, `STL.Barrier.C44_quiescent`
- C45: `STL.PoolRes.C45_blocks`, `STL.PoolRes.C45_allocate`, `STL.PoolRes.C45_deallocate`, `STL.PoolRes.C45_release`, `STL.PoolRes.C45_options`, `STL.PoolRes.C45_upstream`, `STL.PoolRes.C45_spare`, `STL.PoolRes.C45_single_block_chunks_stay`
- C46: `STL.AtomicSp.C46_safe`, `STL.AtomicSp.C46_linearizable`, `STL.AtomicSp.C46_order`, `STL.AtomicSp.C46_results`, `STL.AtomicSp.C46_owners`, `STL.AtomicSp.C46_no_lost`, `STL.AtomicSp.C46_release`, `STL.AtomicSp.C46_quiescent`
- C47: `STL.Future.C47_safe`, `STL.Future.C47_freed`, `STL.Future.C47_once`, `STL.Future.C47_set`, `STL.Future.C47_call`, `STL.Future.C47_get`, `STL.Future.C47_agree`, `STL.Future.C47_wait`, `STL.Future.C47_stable`, `STL.Future.C47_broken`, `STL.Future.C47_deferred`, `STL.Future.C47_unique`, `STL.Future.C47_progress`
- C48: `STL.Locks.Timed.C48_timed_exclusive`, `STL.Locks.Timed.C48_timed_refused`, `STL.Locks.Timed.C48_timed_progress`, `STL.Locks.Shared.C48_shared_exclusive`, `STL.Locks.Shared.C48_shared_refused`, `STL.Locks.Shared.C48_shared_writer_first`, `STL.Locks.Shared.C48_shared_progress`, `STL.Locks.Multi.C48_lock_all_or_none`, `STL.Locks.Multi.C48_lock_waits_empty`, `STL.Locks.Multi.C48_lock_no_deadlock`, `STL.Locks.Multi.C48_lock_frame`, `STL.Locks.Multi.C48_try_lock_index`, `STL.Locks.Multi.C48_lock_solo`, `STL.Locks.Timed.ex_late`
- C49: `STL.VAlg.C49_find`, `STL.VAlg.C49_find_last`, `STL.VAlg.C49_find_last_pos`, `STL.VAlg.C49_adjacent_find`, `STL.VAlg.C49_search_n`, `STL.VAlg.C49_count`, `STL.VAlg.C49_mismatch`
- C50: `STL.VWrite.C50_remove`, `STL.VWrite.C50_remove_copy`, `STL.VWrite.C50_unique`, `STL.VWrite.C50_unique_copy`, `STL.VWrite.C50_replace`, `STL.VWrite.C50_replace_copy`, `STL.VWrite.C50_reverse`, `STL.VWrite.C50_reverse_copy`, `STL.VWrite.C50_swap_ranges`
- C51: `STL.Engines.C51_lcg_next`, `STL.Engines.C51_lcg_discard`, `STL.Engines.C51_lcg_seed`, `STL.Engines.C51_lcg_seed_seq`, `STL.Engines.C51_lcg_range`, `STL.Engines.C51_swc`, `STL.Engines.C51_swc_seed_seq`, `STL.Engines.C51_swc_next`, `STL.Engines.C51_swc_restore`, `STL.Engines.C51_swc_equal`, `STL.Engines.C51_mt`, `STL.Engines.C51_mt_seed_seq`, `STL.Engines.C51_mt_next`, `STL.Engines.C51_mt_restore`, `STL.Engines.C51_mt_equal`
- C52: `STL.Adaptors.C52_seed_seq`, `STL.Adaptors.C52_seed_seq_words`, `STL.Adaptors.C52_discard_block`, `STL.Adaptors.C52_independent_bits`, `STL.Adaptors.C52_independent_bits_range`, `STL.Adaptors.C52_canonical`, `STL.Adaptors.C52_canonical_range`, `STL.Adaptors.C52_canonical_uniform`
- C53: `STL.VBool.C53_copy`, `STL.VBool.C53_fill`, `STL.VBool.C53_history`, `STL.VBool.C53_equality`, `STL.VBool.C53_order`, `STL.VBool.C53_find`, `STL.VBool.C53_count`
- C54: `STL.Utc.C54_info`, `STL.Utc.C54_from_sys`, `STL.Utc.C54_leap_to_sys`, `STL.Utc.C54_roundtrip`, `STL.Utc.C54_monotone`, `STL.Utc.C54_roundtrip_utc`, `STL.Utc.C54_file_to_utc`, `STL.Utc.C54_file_roundtrip`, `STL.Utc.C54_file_roundtrip_utc`, `STL.Utc.C54_generate`
- C55: `STL.Hms.C55_fractional_width`, `STL.Hms.C55_fields`, `STL.Hms.C55_to_duration`
