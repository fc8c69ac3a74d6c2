{
 "claims": [
  {
   "property": "C01",
   "status": "proved",
   "theorems": [
    "STL.C01_sort",
    "STL.C01_sort_subrange"
   ],
   "note": ""
  },
  {
   "property": "C02",
   "status": "proved",
   "theorems": [
    "STL.C02_stable_sort",
    "STL.C02_inplace_merge"
   ],
   "note": "any strict weak order, any sub-range, any temporary-buffer capacity and content; exceptions thrown by the predicate and the destruction of buffer elements are not modelled"
  },
  {
   "property": "C03",
   "status": "proved",
   "theorems": [
    "STL.C03_make_heap",
    "STL.C03_push_heap",
    "STL.C03_pop_heap",
    "STL.C03_sort_heap",
    "STL.C03_is_heap_until",
    "STL.C03_is_heap"
   ],
   "note": ""
  },
  {
   "property": "C04",
   "status": "proved",
   "theorems": [
    "STL.C04_lower_bound",
    "STL.C04_upper_bound",
    "STL.C04_partition_point",
    "STL.C04_equal_range",
    "STL.C04_binary_search",
    "STL.C04_sorted_partitioned"
   ],
   "note": ""
  },
  {
   "property": "C05",
   "status": "proved",
   "theorems": [
    "STL.RBT.C05_history",
    "STL.RBT.C05_sorted",
    "STL.RBT.C05_strong_guarantee",
    "STL.RBT.C05_iterators_stay"
   ],
   "note": "any number of set/map/multiset/multimap objects sharing one heap; insert/emplace with and without hint, erase by position, range and key, clear, merge, swap, all lookups, iterator steps, allocation failure; comparator assumed not to throw; node handles and copy construction not modelled"
  },
  {
   "property": "C06",
   "status": "proved",
   "theorems": [
    "STL.RBT.C06_height",
    "STL.RBT.C05_history"
   ],
   "note": "height bound for every reachable tree; C05_history also runs every loop with fuel 2*log2(size+1)+3"
  },
  {
   "property": "C07",
   "status": "proved",
   "theorems": [
    "STL.UH.C07_history",
    "STL.UH.C07_rehash",
    "STL.UH.C07_references",
    "STL.UH.C07_strong_guarantee",
    "STL.UH.C07_load_factor",
    "STL.UH.C07_merge",
    "STL.UH.C07_merge_all",
    "STL.UH.C07_merge_defect"
   ],
   "note": "All histories of one container (unique and multi, arbitrary hash, equality and load-factor arithmetic, failing allocations, hash or equality throwing in any rehash), including the bucket interface, hints and node handles, and merge of two containers after any two histories. merge is correct only if both containers have the same hash function; the last theorem shows that the code corrupts the source otherwise. Not modelled: copy, move, swap, local iterators beyond begin(n)/end(n), iterator debugging, hash or equality throwing outside of a rehash."
  },
  {
   "property": "C08",
   "status": "proved",
   "theorems": [
    "STL.Deque.C08_history",
    "STL.Deque.C08_length",
    "STL.Deque.C08_addresses",
    "STL.Deque.C08_no_overflow",
    "STL.Deque.C08_destroy"
   ],
   "note": "pushes, pops, assignment, insert of one/n/range, erase, resize, clear, shrink_to_fit, with every allocation and constructor allowed to throw; every block size that is a power of two"
  },
  {
   "property": "C09",
   "status": "proved",
   "theorems": [
    "STL.Vec.C09_history",
    "STL.Vec.C09_no_leak",
    "STL.Vec.C09_exceptions",
    "STL.Vec.C09_only_length_error",
    "STL.Vec.C09_push_back"
   ],
   "note": "All histories of any number of vectors (32 operations, adaptive clients), an element type whose special members may throw at any point, an allocator that may fail or give more than asked for; arguments that are elements of the vector itself; exception guarantees; no undefined behaviour, no leak, no double destruction. Not modelled: vector<bool>, unequal allocators, iterator debugging, the memcpy branches separately."
  },
  {
   "property": "C10",
   "status": "proved",
   "theorems": [
    "STL.Charconv.C10_from_chars"
   ],
   "note": "every width >= 8 bits, signed and unsigned"
  },
  {
   "property": "C11",
   "status": "proved",
   "theorems": [
    "STL.Charconv.C11_to_chars",
    "STL.Charconv.C11_roundtrip",
    "STL.Charconv.C11_to_string"
   ],
   "note": "both the 64-bit and 32-bit code paths; to_string for widths up to 64 bits"
  },
  {
   "property": "C12",
   "status": "proved",
   "theorems": [
    "STL.Chrono.C12_last_day",
    "STL.Chrono.C12_last_weekday",
    "STL.Chrono.C12_ymwd_ok",
    "STL.Chrono.C12_ok_iff",
    "STL.Chrono.C12_epoch",
    "STL.Chrono.C12_civil_from_days",
    "STL.Chrono.C12_days_from_civil",
    "STL.Chrono.C12_weekday",
    "STL.Chrono.C12_calculate_weekday",
    "STL.Chrono.C12_weekday_plus",
    "STL.Chrono.C12_weekday_diff",
    "STL.Chrono.C12_month_plus",
    "STL.Chrono.C12_month_diff",
    "STL.Chrono.C12_year_month_plus",
    "STL.Chrono.C12_ymwd_roundtrip"
   ],
   "note": "the whole range of chrono::year; int overflow is checked; month+months excludes INT_MIN, where the code overflows"
  },
  {
   "property": "C13",
   "status": "proved",
   "theorems": [
    "STL.Duration.C13_duration_cast",
    "STL.Duration.C13_compare",
    "STL.Duration.C13_floor",
    "STL.Duration.C13_ceil",
    "STL.Duration.C13_round",
    "STL.Duration.C13_abs",
    "STL.Duration.C13_finer_roundtrip"
   ],
   "note": "all periods, signed integer representations of 32 to 64 bits, all counts whose neighbours are representable in the common type"
  },
  {
   "property": "C14",
   "status": "proved",
   "theorems": [
    "STL.Int128.C14_unsigned_add",
    "STL.Int128.C14_signed_add",
    "STL.Int128.C14_unsigned_sub",
    "STL.Int128.C14_signed_sub",
    "STL.Int128.C14_signed_neg",
    "STL.Int128.C14_inc_dec",
    "STL.Int128.C14_unsigned_mul",
    "STL.Int128.C14_signed_mul",
    "STL.Int128.C14_bitwise",
    "STL.Int128.C14_shl",
    "STL.Int128.C14_unsigned_shr",
    "STL.Int128.C14_signed_shr",
    "STL.Int128.C14_compare",
    "STL.Int128.C14_ofBuiltin",
    "STL.Int128.C14_unsigned_div",
    "STL.Int128.C14_unsigned_mod",
    "STL.Int128.C14_div_ceil",
    "STL.Int128.C14_signed_div",
    "STL.Int128.C14_signed_div_exact",
    "STL.Int128.C14_signed_mod",
    "STL.Int128.C14_signed_div_builtin",
    "STL.Int128.C14_div_schar_min"
   ],
   "note": "All operands and all configurations of intrinsics (intrinsics by their documented meaning); mixed-type division by the smallest value of a narrow signed type is shown to return a wrong quotient."
  },
  {
   "property": "C15",
   "status": "proved",
   "theorems": [
    "STL.Bits.C15_countl_zero",
    "STL.Bits.C15_countr_zero",
    "STL.Bits.C15_countl_one",
    "STL.Bits.C15_countr_one",
    "STL.Bits.C15_popcount",
    "STL.Bits.C15_has_single_bit",
    "STL.Bits.C15_has_single_bit_popcnt",
    "STL.Bits.C15_bit_width",
    "STL.Bits.C15_bit_ceil",
    "STL.Bits.C15_bit_floor",
    "STL.Bits.C15_rotl",
    "STL.Bits.C15_rotr",
    "STL.Bits.C15_rot_roundtrip",
    "STL.Bits.C15_byteswap"
   ],
   "note": "All operands of 8, 16, 32 and 64 bits; the portable code and every use of a compiler intrinsic (intrinsics are given by their documented meaning)."
  },
  {
   "property": "C16",
   "status": "proved",
   "theorems": [
    "STL.Num.C16_gcd",
    "STL.Num.C16_gcd_wide",
    "STL.Num.C16_gcd_checked",
    "STL.Num.C16_lcm",
    "STL.Num.C16_lcm_checked",
    "STL.Num.C16_midpoint",
    "STL.Num.C16_midpoint_ptr",
    "STL.Num.C16_cmp",
    "STL.Num.C16_in_range"
   ],
   "note": "Integer types of 8 to 64 bits with promotion and the usual arithmetic conversions; midpoint of floating-point values is not modelled."
  },
  {
   "property": "C17",
   "status": "proved",
   "theorems": [
    "STL.SharedPtr.C17_safety",
    "STL.SharedPtr.C17_no_leak",
    "STL.SharedPtr.C17_lock"
   ],
   "note": "any finite set of threads, sequentially consistent interleavings of the atomic operations; fewer than 2^32-1 handles at a time"
  },
  {
   "property": "C18",
   "status": "proved",
   "theorems": [
    "STL.Semaphore.C18_semaphore_accounting",
    "STL.Semaphore.C18_semaphore_no_lost_wakeup",
    "STL.Semaphore.C18_semaphore_progress",
    "STL.Semaphore.C18_semaphore_result",
    "STL.Latch.C18_latch_accounting",
    "STL.Latch.C18_latch_try_wait",
    "STL.Latch.C18_latch_no_lost_wakeup",
    "STL.Latch.C18_latch_progress",
    "STL.BinSem.C18_binary_semaphore_accounting",
    "STL.BinSem.C18_binary_semaphore_result",
    "STL.BinSem.C18_binary_semaphore_no_lost_wakeup",
    "STL.BinSem.C18_binary_semaphore_progress"
   ],
   "note": "any finite set of threads, sequentially consistent interleavings; the primary counting_semaphore, its specialization for max 1 (binary_semaphore) and latch"
  },
  {
   "property": "C19",
   "status": "proved",
   "theorems": [
    "STL.Path.root_decomposition",
    "STL.Path.filename_parent",
    "STL.Path.stem_extension",
    "STL.Path.replace_extension",
    "STL.Path.append_correct",
    "STL.Path.lexically_normal_correct",
    "STL.Path.lexically_normal_root",
    "STL.Path.lexically_normal_normal",
    "STL.Path.lexically_normal_idempotent",
    "STL.Path.lexically_normal_hidden_drive",
    "STL.Path.lexically_normal_hidden_device"
   ],
   "note": "All texts of 16-bit code units; reading outside the text is an error outcome and excluded. The last two theorems show that the hypothesis on hidden root-names is needed. Self-append (p /= p) is not modelled."
  },
  {
   "property": "C20",
   "status": "proved",
   "theorems": [
    "STL.Utf.C20_utf32_to_wide",
    "STL.Utf.C20_wide_to_utf32",
    "STL.Utf.C20_utf32_roundtrip",
    "STL.Utf.C20_format_utf8",
    "STL.Utf.C20_format_utf16",
    "STL.Utf.C20_format_utf8_roundtrip",
    "STL.Utf.C20_format_utf16_roundtrip",
    "STL.Utf.C20_format_usv",
    "STL.Utf.C20_format_utf32",
    "STL.Utf.C20_utf8_in",
    "STL.Utf.C20_utf8_out",
    "STL.Utf.C20_utf8_roundtrip",
    "STL.Utf.C20_utf8_in_header",
    "STL.Utf.C20_utf8_out_header",
    "STL.Utf.C20_utf8_roundtrip_header",
    "STL.Utf.C20_utf8_roundtrip_noheader",
    "STL.Utf.C20_utf8_header_lost",
    "STL.Utf.C20_utf16_in",
    "STL.Utf.C20_utf16_out",
    "STL.Utf.C20_utf16_roundtrip",
    "STL.Utf.C20_utf16_in_header",
    "STL.Utf.C20_utf16_out_header",
    "STL.Utf.C20_utf16_roundtrip_header",
    "STL.Utf.C20_utf16_header_lost",
    "STL.Utf.C20_utf8_utf16_out",
    "STL.Utf.C20_utf8_utf16_in",
    "STL.Utf.C20_utf8_utf16_roundtrip",
    "STL.Utf.C20_utf8_utf16_in_header",
    "STL.Utf.C20_utf8_utf16_header_repeats",
    "STL.Utf.C20_utf8_oneshot",
    "STL.Utf.C20_utf16_oneshot"
   ],
   "note": "All texts, all splits of the input and all output sizes for the decoders of <format>, the UTF-32/UTF-16 conversion of <filesystem> and the three facets of <codecvt> in all configurations. What each decoder accepts is stated exactly (the facets accept overlong forms and surrogates, as implemented); the defects found are theorems of their own."
  },
  {
   "property": "C21",
   "status": "proved",
   "theorems": [
    "STL.Pmr.C21_blocks",
    "STL.Pmr.C21_allocate",
    "STL.Pmr.C21_release",
    "STL.Pmr.C21_growth"
   ],
   "note": "All histories of allocate, deallocate, release and foreign writes to memory the resource does not own or has handed out; arbitrary upstream addresses."
  },
  {
   "property": "C22",
   "status": "proved",
   "theorems": [
    "STL.Bset.C22_default",
    "STL.Bset.C22_of_ullong",
    "STL.Bset.C22_and",
    "STL.Bset.C22_or",
    "STL.Bset.C22_xor",
    "STL.Bset.C22_shl",
    "STL.Bset.C22_shr",
    "STL.Bset.C22_set_all",
    "STL.Bset.C22_reset_all",
    "STL.Bset.C22_flip_all",
    "STL.Bset.C22_compl",
    "STL.Bset.C22_set",
    "STL.Bset.C22_reset",
    "STL.Bset.C22_flip",
    "STL.Bset.C22_test",
    "STL.Bset.C22_any",
    "STL.Bset.C22_none",
    "STL.Bset.C22_all",
    "STL.Bset.C22_eq",
    "STL.Bset.C22_count",
    "STL.Bset.C22_to_ullong",
    "STL.Bset.C22_to_ulong",
    "STL.Bset.C22_to_string",
    "STL.Bset.C22_of_string",
    "STL.Bset.C22_string_roundtrip"
   ],
   "note": "Every N, content and position; non-vectorized string conversions; stream insertion and extraction not modelled."
  },
  {
   "property": "C23",
   "status": "proved",
   "theorems": [
    "STL.Rnd.C23_generator",
    "STL.Rnd.C23_uniform_int",
    "STL.Rnd.C23_shuffle",
    "STL.Rnd.C23_shuffle_positions",
    "STL.Rnd.C23_shuffle_perm",
    "STL.Rnd.C23_sample",
    "STL.Rnd.C23_sample_input",
    "STL.Rnd.C23_ranges_sample",
    "STL.Rnd.C23_sample_positions"
   ],
   "note": "every engine range and every result type of up to 64 bits; unbiasedness is stated by counting engine sequences of each length; shuffle, sample (selection and reservoir) and ranges::sample are covered as well"
  },
  {
   "property": "C24",
   "status": "proved",
   "theorems": [
    "STL.Mds.C24_layout_left",
    "STL.Mds.C24_layout_right",
    "STL.Mds.C24_strides_left",
    "STL.Mds.C24_strides_right",
    "STL.Mds.C24_layout_stride",
    "STL.Mds.C24_is_exhaustive",
    "STL.Mds.C24_exhaustive_iff",
    "STL.Mds.C24_exhaustive_zero",
    "STL.Mds.C24_stride_check",
    "STL.Mds.C24_extents_dynamic",
    "STL.Mds.C24_extents_all"
   ],
   "note": "Any rank, any integer index type with int promotion and signed overflow as UB. Zero extents with index types narrower than int are excluded for required_span_size (the product may overflow int there). mdspan/accessors, submdspan and the converting constructors are not modelled."
  },
  {
   "property": "C25",
   "status": "proved",
   "theorems": [
    "STL.BigInt.C25_shift_left",
    "STL.BigInt.C25_add",
    "STL.BigInt.C25_multiply_word",
    "STL.BigInt.C25_multiply",
    "STL.BigInt.C25_multiply_power_of_ten",
    "STL.BigInt.C25_less",
    "STL.BigInt.C25_bit_scan_reverse",
    "STL.BigInt.C25_divide"
   ],
   "note": "All operands; reading an unused (possibly uninitialized) word or writing outside the array is an error outcome and excluded; the table of powers of ten is checked in full."
  },
  {
   "property": "C26",
   "status": "proved",
   "theorems": [
    "STL.DL.C26_history",
    "STL.DL.C26_links",
    "STL.DL.C26_identity",
    "STL.DL.C26_strong_guarantee",
    "STL.DL.C26_sort_completes",
    "STL.DL.C26_stably_sorted_unique"
   ],
   "note": "any number of list objects sharing one heap, 34 operations, allocation failure at any point, predicates and comparators that may throw at any call; element assignment does not throw, allocators are equal"
  },
  {
   "property": "C27",
   "status": "proved",
   "theorems": [
    "STL.next_permutation_correct",
    "STL.prev_permutation_correct",
    "STL.prev_permutation_inverts_next",
    "STL.next_permutation_inverts_prev",
    "STL.next_permutation_enumerates"
   ],
   "note": "any strict weak order, duplicates allowed, any sub-range"
  },
  {
   "property": "C28",
   "status": "proved",
   "theorems": [
    "STL.Par.C28_chunks",
    "STL.Par.C28_chunk_count",
    "STL.Par.C28_forward",
    "STL.Par.C28_forward_to",
    "STL.Par.C28_random",
    "STL.Par.C28_backward",
    "STL.Par.ForEach.C28_for_each",
    "STL.Par.ForEach.C28_for_each_terminates"
   ],
   "note": "Partition arithmetic for all iterator categories, and for_each with any number of threads and any interleaving of atomic steps, including termination. Fewer than 2^63 elements."
  },
  {
   "property": "C29",
   "status": "proved",
   "theorems": [
    "STL.StopToken.C29_request_stop",
    "STL.StopToken.C29_at_most_once",
    "STL.StopToken.C29_invoked",
    "STL.StopToken.C29_destroyed",
    "STL.StopToken.C29_safe",
    "STL.StopToken.C29_no_lost_wakeup"
   ],
   "note": "any finite set of threads and callbacks, re-entrant callbacks, sequentially consistent interleavings; lifetime of the stop state itself not modelled"
  },
  {
   "property": "C30",
   "status": "proved",
   "theorems": [
    "STL.Var.C30_history",
    "STL.Var.C30_threw",
    "STL.Var.C30_becomes_valueless",
    "STL.Var.C30_valueless",
    "STL.Var.C30_never_valueless",
    "STL.Var.C30_order",
    "STL.Var.C30_visit_index",
    "STL.Var.C30_raw_get",
    "STL.Var.C30_discriminator"
   ],
   "note": "All histories of any number of variants (18 operations, adaptive clients), any list of fewer than 2^31 alternatives with any combination of traits, every operation of a contained object that is not noexcept may throw and leave any value. Not modelled: constant evaluation, arguments that are parts of the assigned variant, the order of the visitor template machinery beyond the index computation."
  },
  {
   "property": "C31",
   "status": "proved",
   "theorems": [
    "STL.C31_reverse",
    "STL.C31_rotate",
    "STL.C31_remove_if",
    "STL.C31_unique",
    "STL.C31_shift_left",
    "STL.C31_shift_right",
    "STL.C31_partition",
    "STL.C31_stable_partition"
   ],
   "note": "non-vectorized code paths"
  },
  {
   "property": "C32",
   "status": "proved",
   "theorems": [
    "STL.C32_merge",
    "STL.C32_set_union",
    "STL.C32_set_intersection",
    "STL.C32_set_difference",
    "STL.C32_set_symmetric_difference",
    "STL.C32_includes"
   ],
   "note": "non-vectorized code paths; every strict weak order and all sorted inputs"
  },
  {
   "property": "C33",
   "status": "proved",
   "theorems": [
    "STL.Str.C33_history",
    "STL.Str.C33_no_leak",
    "STL.Str.C33_bad_alloc",
    "STL.Str.C33_edit",
    "STL.Str.C33_replace_defect",
    "STL.Str.C33_assign_char_defect"
   ],
   "note": "All histories of any number of strings (41 operations, adaptive clients), any character type with or without a small buffer, an allocator that may fail or give more than asked for; sources inside the modified string. Two inputs are excluded by preconditions that the standard does not have; the last two theorems show that the code has undefined behaviour for each of them. Not modelled: unequal allocators, constant evaluation."
  },
  {
   "property": "C34",
   "status": "proved",
   "theorems": [
    "STL.C34_partial_sort",
    "STL.C34_nth_element",
    "STL.C34_nth_element_eq_sort",
    "STL.C34_nth_element_end"
   ],
   "note": ""
  },
  {
   "property": "C35",
   "status": "proved",
   "theorems": [
    "STL.C35_search",
    "STL.C35_find_end",
    "STL.C35_search_n",
    "STL.C35_boyer_moore",
    "STL.C35_boyer_moore_too_long",
    "STL.C35_boyer_moore_flat",
    "STL.C35_string_find",
    "STL.C35_string_find_ch",
    "STL.C35_string_find_of"
   ],
   "note": "non-vectorized code paths; the hash table of the general-mode delta_1 is modelled as an association list"
  },
  {
   "property": "C36",
   "status": "proved",
   "theorems": [
    "STL.C36_priority_queue_history",
    "STL.C36_pop_removes_top",
    "STL.C36_pop_empty"
   ],
   "note": ""
  },
  {
   "property": "C37",
   "status": "proved",
   "theorems": [
    "STL.Ratio.C37_ratio",
    "STL.Ratio.C37_add",
    "STL.Ratio.C37_subtract",
    "STL.Ratio.C37_multiply",
    "STL.Ratio.C37_divide",
    "STL.Ratio.C37_equal",
    "STL.Ratio.C37_less"
   ],
   "note": "All template arguments of intmax_t; ill-formed instantiations are an error outcome."
  },
  {
   "property": "C38",
   "status": "proved",
   "theorems": [
    "STL.FloatConv.C38_float",
    "STL.FloatConv.C38_double",
    "STL.FloatConv.C38_invalid",
    "STL.FloatConv.C38_infinity",
    "STL.FloatConv.C38_nan_paren",
    "STL.FloatConv.C38_nan"
   ],
   "note": "The whole of from_chars for float and double (long double has the representation of double): scanning, exponent, decimal and hexadecimal conversion, rounding, assembling. 64-bit ptrdiff_t; input shorter than 2^57 characters."
  },
  {
   "property": "C39",
   "status": "proved",
   "theorems": [
    "STL.Par.Find.A.C39_find_atomic",
    "STL.Par.Find.B.C39_find_chunk",
    "STL.Par.AllOf.C39_all_of"
   ],
   "note": "Both result collectors (atomic iterator; chunk number with mutex) and the all_of family. The sequential search of one chunk is one step (elements are constant)."
  },
  {
   "property": "C40",
   "status": "proved",
   "theorems": [
    "STL.Par.Scan.C40_scan",
    "STL.Par.Scan.C40_scan_terminates",
    "STL.Par.ScanOther.C40_exclusive_other_type",
    "STL.Par.ScanOther.C40_inclusive_other_type"
   ],
   "note": "For an intermediate type equal to the value type of the destination. For another type the code is defective (it reads an element that was never constructed); the last two theorems show this for every chunk."
  },
  {
   "property": "C41",
   "status": "proved",
   "theorems": [
    "STL.Path.C41_iterate",
    "STL.Path.C41_compare",
    "STL.Path.C41_order",
    "STL.Path.C41_hash"
   ],
   "note": "All texts of 16-bit units. The root-name decomposition is that of C19. Not modelled: iterators of a path that is modified, the stashing reference of operator* (the element is part of the iterator)."
  },
  {
   "property": "C42",
   "status": "proved",
   "theorems": [
    "STL.Par.PSort.C42_safe",
    "STL.Par.PSort.C42_sorted",
    "STL.Par.PSort.C42_exclusive",
    "STL.Par.PSort.C42_memory",
    "STL.Par.PSort.C42_unlock"
   ],
   "note": "Any finite set of threads, at most as many as queues; sequentially consistent interleavings of the atomic operations, of the three words of each speculative read and of the owner's writes. The work on one item (partition, insertion sort, heap sort or the serial fallback, all those of C01) is two transitions. Not proved: that every fair schedule terminates. Not modelled: a throwing operator new inside of a growth (the code terminates then, against its own comment)."
  },
  {
   "property": "C43",
   "status": "proved",
   "theorems": [
    "STL.AWait.C43_safe",
    "STL.AWait.C43_return",
    "STL.AWait.C43_calls",
    "STL.AWait.C43_same_wait",
    "STL.AWait.C43_notify_all",
    "STL.AWait.C43_all_return",
    "STL.AWait.C43_notify_one",
    "STL.AWait.C43_at_most_one",
    "STL.AWait.C43_only",
    "STL.AWait.C43_no_deadlock",
    "STL.AWait.C43_wait_returns",
    "STL.AWait.C43_notify_returns",
    "STL.AWait.C43_notify_one_repeats"
   ],
   "note": "Any set of threads, sequentially consistent interleavings of the accesses. SRWLOCK and CONDITION_VARIABLE are axiomatised by their documentation (mutual exclusion; atomic release and sleep; WakeAllConditionVariable wakes the threads asleep on it; spurious wake-ups). The last theorem shows a limit of the code: two notify_one calls may both notify the same thread while another one sleeps on. Not modelled: WaitOnAddress (1, 2, 4, 8 bytes), timeouts, padding bits."
  },
  {
   "property": "C44",
   "status": "proved",
   "theorems": [
    "STL.Barrier.C44_safe",
    "STL.Barrier.C44_calls",
    "STL.Barrier.C44_completion",
    "STL.Barrier.C44_function",
    "STL.Barrier.C44_no_early",
    "STL.Barrier.C44_no_lost",
    "STL.Barrier.C44_quiescent",
    "STL.Barrier.C44_wait_two_phases"
   ],
   "note": "Any finite set of threads, any expected count, sequentially consistent interleavings. The last theorem shows a limit of the code: phases are told apart by one bit, so wait with a token of the preceding phase, which the standard allows, may sleep if the current phase ends before its first load. Not modelled: the address in the token, the destructor, a precondition violated by the caller."
  },
  {
   "property": "C45",
   "status": "proved",
   "theorems": [
    "STL.PoolRes.C45_blocks",
    "STL.PoolRes.C45_allocate",
    "STL.PoolRes.C45_deallocate",
    "STL.PoolRes.C45_release",
    "STL.PoolRes.C45_options",
    "STL.PoolRes.C45_upstream",
    "STL.PoolRes.C45_spare",
    "STL.PoolRes.C45_single_block_chunks_stay",
    "STL.PoolRes.C45_zero_size_defect",
    "STL.PoolRes.C45_zero_size_ub",
    "STL.PoolRes.C45_overalign_defect"
   ],
   "note": "Memory is a function from addresses to 64-bit words; the links of the free lists, chunk headers and chunk pointers are read from and written to it. The last theorems exhibit limits of the code: chunks of one block stay until release, requests of size 0 with alignment at most 8 lead to undefined behaviour, as do alignments of 2^62 and more. Not modelled: synchronized_pool_resource (the same under a mutex), the vector of pools in memory (only its buffer), a wrap of the chunk counter at 2^64."
  },
  {
   "property": "C46",
   "status": "proved",
   "theorems": [
    "STL.AtomicSp.C46_safe",
    "STL.AtomicSp.C46_linearizable",
    "STL.AtomicSp.C46_order",
    "STL.AtomicSp.C46_results",
    "STL.AtomicSp.C46_owners",
    "STL.AtomicSp.C46_no_lost",
    "STL.AtomicSp.C46_release",
    "STL.AtomicSp.C46_quiescent"
   ],
   "note": "One atomic object, any finite set of threads, sequentially consistent interleavings of the accesses to the word with the lock bits, the pointer and the counts. WaitOnAddress compares and sleeps atomically. Not modelled: atomic<weak_ptr> (the same code with weak counts), wrapping counts and the single steps of destruction (C17), notify_one/notify_all on the atomic object (a sleep in wait may end at any time, it has a timeout)."
  },
  {
   "property": "C47",
   "status": "proved",
   "theorems": [
    "STL.Future.C47_safe",
    "STL.Future.C47_freed",
    "STL.Future.C47_once",
    "STL.Future.C47_set",
    "STL.Future.C47_call",
    "STL.Future.C47_get",
    "STL.Future.C47_agree",
    "STL.Future.C47_wait",
    "STL.Future.C47_stable",
    "STL.Future.C47_broken",
    "STL.Future.C47_deferred",
    "STL.Future.C47_unique",
    "STL.Future.C47_progress",
    "STL.Future.ex_terminate",
    "STL.Future.ex_use_after_free",
    "STL.Future.ex_deadlock"
   ],
   "note": "Any finite set of threads, sequentially consistent interleavings of the accesses to the shared state. The result type is default constructible. The last three theorems show what the code does outside of the rule, which the standard does not have: a promise destroyed between set_value_at_thread_exit and the end of the thread calls terminate, or leads to a use after free; a second set_value in that thread throws system_error and not promise_already_satisfied. Not modelled: async with launch::async (a packaged task in the thread pool), reset, moves of the provider, allocators, a result whose copy throws."
  },
  {
   "property": "C48",
   "status": "proved",
   "theorems": [
    "STL.Locks.Timed.C48_timed_exclusive",
    "STL.Locks.Timed.C48_timed_refused",
    "STL.Locks.Timed.C48_timed_progress",
    "STL.Locks.Shared.C48_shared_exclusive",
    "STL.Locks.Shared.C48_shared_refused",
    "STL.Locks.Shared.C48_shared_writer_first",
    "STL.Locks.Shared.C48_shared_progress",
    "STL.Locks.Multi.C48_lock_all_or_none",
    "STL.Locks.Multi.C48_lock_waits_empty",
    "STL.Locks.Multi.C48_lock_no_deadlock",
    "STL.Locks.Multi.C48_lock_frame",
    "STL.Locks.Multi.C48_try_lock_index",
    "STL.Locks.Multi.C48_lock_solo",
    "STL.Locks.Timed.ex_late"
   ],
   "note": "Any finite set of threads, sequentially consistent interleavings. Trusted: the inner mutex (SRWLOCK) and the condition variable of Windows. The clock is not modelled: a timed sleep may end at any time. ex_late shows a limit of the code: a timed waiter whose timer ends early sleeps again without a look at the mutex. The forms of lock and try_lock for two mutexes are covered by the general ones, which make the same calls. Not modelled: mutex, recursive_mutex and shared_mutex themselves (calls of the system), lock_guard, unique_lock and shared_lock (one flag), the time points."
  },
  {
   "property": "C49",
   "status": "proved",
   "theorems": [
    "STL.VAlg.C49_find",
    "STL.VAlg.C49_find_last",
    "STL.VAlg.C49_find_last_pos",
    "STL.VAlg.C49_adjacent_find",
    "STL.VAlg.C49_search_n",
    "STL.VAlg.C49_count",
    "STL.VAlg.C49_mismatch"
   ],
   "note": "The x64 paths (AVX2, SSE4.2, scalar); the intrinsics are modelled after their documentation on lists of lanes, masks are numbers with one bit per byte. Not modelled: ARM64 and 32-bit processes, the dispatch from the headers."
  },
  {
   "property": "C50",
   "status": "proved",
   "theorems": [
    "STL.VWrite.C50_remove",
    "STL.VWrite.C50_remove_copy",
    "STL.VWrite.C50_unique",
    "STL.VWrite.C50_unique_copy",
    "STL.VWrite.C50_replace",
    "STL.VWrite.C50_replace_copy",
    "STL.VWrite.C50_reverse",
    "STL.VWrite.C50_reverse_copy",
    "STL.VWrite.C50_swap_ranges"
   ],
   "note": "The x64 paths (AVX2, SSE4.2, scalar); elements are lists of bytes, the intrinsics (shuffles of bytes and of groups of bytes, masked loads and stores) are modelled after their documentation. Source and destination of the _copy algorithms do not overlap (a precondition of the standard). Not modelled: ARM64 and 32-bit processes, the dispatch from the headers."
  },
  {
   "property": "C51",
   "status": "proved",
   "theorems": [
    "STL.Engines.C51_lcg_next",
    "STL.Engines.C51_lcg_discard",
    "STL.Engines.C51_lcg_seed",
    "STL.Engines.C51_lcg_seed_seq",
    "STL.Engines.C51_lcg_range",
    "STL.Engines.C51_swc",
    "STL.Engines.C51_swc_seed_seq",
    "STL.Engines.C51_swc_next",
    "STL.Engines.C51_swc_restore",
    "STL.Engines.C51_swc_equal",
    "STL.Engines.C51_mt",
    "STL.Engines.C51_mt_seed_seq",
    "STL.Engines.C51_mt_next",
    "STL.Engines.C51_mt_restore",
    "STL.Engines.C51_mt_equal"
   ],
   "note": "Not stated, because the code differs from the standard there: seeding a linear congruential engine with m = 2^32 in a 64-bit type from a seed sequence (the code asks for 5 words, the standard for 4), and seeding subtract_with_carry_engine from a seed sequence where the type needs more 32-bit words than the word size does (the code draws more). lcg range needs c != 0 or a coprime to m (otherwise 0 is reached, in the standard too). The model takes 16-bit products as wrapping and a shift by the full width as 0; failing stream extraction and formatting of numbers are not modelled."
  },
  {
   "property": "C52",
   "status": "proved",
   "theorems": [
    "STL.Adaptors.C52_seed_seq",
    "STL.Adaptors.C52_seed_seq_words",
    "STL.Adaptors.C52_discard_block",
    "STL.Adaptors.C52_independent_bits",
    "STL.Adaptors.C52_independent_bits_range",
    "STL.Adaptors.C52_canonical",
    "STL.Adaptors.C52_canonical_range",
    "STL.Adaptors.C52_canonical_uniform"
   ],
   "note": "Left out because the code is wrong there (shown in Props.lean): independent_bits_engine on an engine with exactly three values and at least three bits shifts by size_t(0) - 1 (undefined behaviour, ibe_three), and discard_block_engine with block size INT_MAX overflows its int counter (dbe_intmax). The multiplication of generate_canonical by 2^-d is taken as exact (the integer has at most digits bits). shuffle_order_engine is not modelled (it computes the index in double)."
  },
  {
   "property": "C53",
   "status": "proved",
   "theorems": [
    "STL.VBool.C53_copy",
    "STL.VBool.C53_fill",
    "STL.VBool.C53_history",
    "STL.VBool.C53_equality",
    "STL.VBool.C53_order",
    "STL.VBool.C53_find",
    "STL.VBool.C53_count"
   ],
   "note": "The words are held in a vector whose own behaviour is C09. Copies whose destination starts inside the source are a precondition violation of std::copy and are left out."
  },
  {
   "property": "C54",
   "status": "proved",
   "theorems": [
    "STL.Utc.C54_info",
    "STL.Utc.C54_from_sys",
    "STL.Utc.C54_leap_to_sys",
    "STL.Utc.C54_roundtrip",
    "STL.Utc.C54_monotone",
    "STL.Utc.C54_tai_gps",
    "STL.Utc.C54_roundtrip_utc",
    "STL.Utc.C54_file_to_utc",
    "STL.Utc.C54_file_roundtrip",
    "STL.Utc.C54_file_roundtrip_utc",
    "STL.Utc.C54_generate",
    "STL.Utc.C54_known"
   ],
   "note": "Leap seconds are assumed further apart than their number (they are months apart); the known table and a table with a removed second are shown to satisfy this. Floating-point representations and overflow are left out."
  },
  {
   "property": "C55",
   "status": "proved",
   "theorems": [
    "STL.Hms.C55_fractional_width",
    "STL.Hms.C55_fields",
    "STL.Hms.C55_to_duration",
    "STL.Hms.C55_twelve_hours",
    "STL.Hms.C55_twenty_four_hours",
    "STL.Hms.C55_outside_day"
   ],
   "note": "Integral representations whose length times the denominator fits into intmax_t (otherwise the casts themselves overflow, C13)."
  }
 ]
}
