{"id": "C01", "title": "sort yields a sorted permutation for every input and every strict weak order", "statement": "For every finite sequence and every comparator that is a strict weak ordering, std::sort terminates, never reads or writes outside [first,last), never reads a moved-from element, and leaves [first,last) holding a permutation of its original elements in which no element is ordered before its predecessor.", "quantifier": "all element types, all sequence lengths and contents (including many duplicates), all strict weak orderings, all values of the introsort depth budget", "why_tests_cant": "tests sample a few sequences and comparators; the unguarded inner loop of insertion sort, the three-way partition and the heap-sort fallback are reached only by particular shapes of input of unbounded size", "anchors": ["stl/inc/algorithm:_Sort_unchecked", "stl/inc/algorithm:_Partition_by_pivot_unchecked", "stl/inc/algorithm:_Insertion_sort_unchecked", "stl/inc/algorithm:_Guess_median_unchecked", "stl/inc/__msvc_heap_algorithms.hpp:_Make_heap_unchecked"]}
{"id": "C02", "title": "stable_sort is a stable sort whatever temporary buffer it gets", "statement": "For every finite sequence, every strict weak ordering and every amount of temporary storage actually obtained (including none), std::stable_sort terminates with a sorted permutation of the input in which equivalent elements keep their original relative order.", "quantifier": "all sequences, comparators and temporary-buffer capacities", "why_tests_cant": "the buffer capacity is chosen by the allocator at run time, and the merge-sort, buffered-merge and rotate-based in-place merge paths combine in ways depending on length and capacity", "anchors": ["stl/inc/algorithm:_Stable_sort_unchecked", "stl/inc/algorithm:_Buffered_merge_sort_unchecked", "stl/inc/algorithm:_Buffered_inplace_merge_unchecked", "stl/inc/algorithm:_Insertion_sort_isort_max_chunks"]}
{"id": "C03", "title": "heap algorithms establish and preserve the heap property and the multiset of elements", "statement": "make_heap turns any range into a heap; push_heap extends a heap by one element; pop_heap moves a maximal element to the back and leaves a heap in front; sort_heap turns a heap into a sorted range; each one permutes the range, stays inside it and never reads a moved-from element.", "quantifier": "all ranges, lengths and strict weak orderings", "why_tests_cant": "heap shape depends on parity of the length and on the comparison results along a path; exhaustive tests cover only tiny lengths", "anchors": ["stl/inc/__msvc_heap_algorithms.hpp:_Push_heap_by_index", "stl/inc/__msvc_heap_algorithms.hpp:_Pop_heap_hole_by_index", "stl/inc/__msvc_heap_algorithms.hpp:_Make_heap_unchecked", "stl/inc/algorithm:_Sort_heap_unchecked"]}
{"id": "C04", "title": "binary searches return the exact partition points", "statement": "On a range partitioned with respect to the value, lower_bound returns the first position whose element is not less than the value, upper_bound the first position whose element the value is less than, equal_range both, binary_search tells whether an equivalent element exists, and partition_point returns the first element failing the predicate; none of them reads outside the range.", "quantifier": "all partitioned ranges of any length, all values, heterogeneous comparators", "why_tests_cant": "off-by-one errors in halving show only at particular lengths and positions; lengths are unbounded", "anchors": ["stl/inc/xutility:lower_bound", "stl/inc/algorithm:upper_bound", "stl/inc/algorithm:equal_range", "stl/inc/algorithm:binary_search", "stl/inc/algorithm:partition_point"]}
{"id": "C05", "title": "set/map behave as an ordered collection over every history", "statement": "After any sequence of insert / erase / find / lower_bound operations, a std::set or std::map contains exactly the keys of the mathematical ordered collection obtained by the same operations, iterates them in strictly increasing order, and reports insertion success, find and erase counts accordingly; multiset/multimap keep all duplicates with equal keys in insertion order.", "quantifier": "all operation histories, key types and strict weak orderings", "why_tests_cant": "the tree shape depends on the whole history; rebalancing cases on erase are reached only by particular histories", "anchors": ["stl/inc/xtree:_Insert_node", "stl/inc/xtree:_Extract", "stl/inc/xtree:_Find_lower_bound", "stl/inc/xtree:_Lrotate", "stl/inc/xtree:_Rrotate"]}
{"id": "C06", "title": "set/map stay balanced: every reachable tree has logarithmic height", "statement": "After any sequence of insertions and erasures the path length from the root to any element is at most 2*log2(size+1), so lookup performs a logarithmic number of comparisons.", "quantifier": "all histories of insertions and erasures", "why_tests_cant": "a balance violation does not change any returned value, only complexity, and arises from specific recolour/rotate histories", "anchors": ["stl/inc/xtree:_Insert_node", "stl/inc/xtree:_Extract"]}
{"id": "C07", "title": "unordered containers behave as a finite map over every history including rehash", "statement": "After any sequence of insert / erase / find / rehash operations on an unordered_set/unordered_map the container holds exactly the elements of the abstract finite map; each bucket range delimits precisely the elements whose hash falls in that bucket, and rehash (growth) loses, duplicates or reorders no equivalent element.", "quantifier": "all histories, hash functions (including constant ones) and key equalities compatible with the hash", "why_tests_cant": "bucket/list threading errors show up only under specific collision patterns and growth points", "anchors": ["stl/inc/xhash:_Forced_rehash", "stl/inc/xhash:_Insert_new_node_before", "stl/inc/xhash:_Find_last", "stl/inc/xhash:_Unchecked_erase"]}
{"id": "C08", "title": "deque behaves as a double-ended sequence over every history of pushes and pops", "statement": "After any sequence of push_back, push_front, pop_back, pop_front and element reads, a std::deque holds the same sequence as a mathematical list under the same operations; no live element is overwritten or moved by map growth and indexing always reaches the right block.", "quantifier": "all operation histories, all block sizes (powers of two) and map sizes", "why_tests_cant": "wrap-around of the circular block map combined with growth needs specific offsets modulo map size", "anchors": ["stl/inc/deque:_Growmap", "stl/inc/deque:_Getblock", "stl/inc/deque:_Emplace_back_internal", "stl/inc/deque:pop_front"]}
{"id": "C09", "title": "vector behaves as a sequence and grows geometrically without exceeding max_size", "statement": "After any history of push_back, insert, erase, resize, reserve, pop_back and clear a std::vector holds the sequence a mathematical list would hold, size never exceeds capacity, reallocation capacity is at least the needed size, at least 1.5 times the old capacity unless clipped to max_size, and length_error is raised exactly when the needed size exceeds max_size.", "quantifier": "all histories, all capacities up to max_size", "why_tests_cant": "capacity arithmetic near max_size is unreachable in tests, and histories are unbounded", "anchors": ["stl/inc/vector:_Calculate_growth", "stl/inc/vector:_Emplace_reallocate", "stl/inc/vector:erase", "stl/inc/vector:_Resize_reallocate"]}
{"id": "C10", "title": "from_chars parses exactly the maximal digit prefix and detects overflow exactly", "statement": "For every character sequence and base 2..36, integer from_chars consumes the optional minus (signed only) and the longest run of valid digits, yields the mathematical value when it is representable in the type, reports result_out_of_range exactly when it is not (leaving the output unchanged and still consuming the whole digit run), and invalid_argument exactly when there is no digit.", "quantifier": "all character sequences of any length, all bases, all integer widths, signed and unsigned", "why_tests_cant": "overflow boundaries for every base and width and arbitrarily long digit strings cannot be enumerated", "anchors": ["stl/inc/charconv:from_chars_result", "stl/inc/charconv:_Integer_from_chars"]}
{"id": "C11", "title": "to_chars writes the canonical representation and round-trips through from_chars", "statement": "For every integer value of every width and every base 2..36, to_chars writes the unique digit string without leading zeros (with minus sign if negative) when the buffer is large enough and otherwise reports value_too_large writing nothing past the end; parsing the result with from_chars gives the value back and consumes everything.", "quantifier": "all values, widths, bases and buffer sizes", "why_tests_cant": "2^64 values times 35 bases times buffer sizes", "anchors": ["stl/inc/charconv:_Integer_to_chars"]}
{"id": "C12", "title": "sys_days <-> year_month_day conversion is the proleptic Gregorian calendar", "statement": "Converting a day count to year_month_day and back is the identity; converting a valid date to a day count and back is the identity; consecutive day counts give consecutive valid calendar dates, with 1970-01-01 at 0; weekday of a day count advances cyclically with 1970-01-01 a Thursday; year_month_day_last and year_month_weekday_last are the last day and the last such weekday of the month, and year_month_weekday is ok exactly if the month has that many.", "quantifier": "all day counts and all valid dates representable by std::chrono::year", "why_tests_cant": "tests sample dates; the conversion is intricate multiply-shift arithmetic that must hold on 24 million days", "anchors": ["stl/inc/chrono:_Civil_from_days", "stl/inc/chrono:_Days_from_civil", "stl/inc/chrono:_Last_day", "stl/inc/chrono:is_leap"]}
{"id": "C13", "title": "duration rounding: floor, ceil, round and abs meet their defining inequalities", "statement": "For every pair of periods and every count, chrono::floor returns the greatest representable target duration not greater than the argument, ceil the least not less, round the nearest with ties to even, and duration_cast truncates toward zero; converting to a finer period and back is the identity.", "quantifier": "all integer tick counts (absent overflow) and all period ratios", "why_tests_cant": "sign and tie cases for every ratio form an infinite family", "anchors": ["stl/inc/__msvc_chrono.hpp:duration_cast", "stl/inc/__msvc_chrono.hpp:floor", "stl/inc/__msvc_chrono.hpp:ceil", "stl/inc/__msvc_chrono.hpp:round"]}
{"id": "C14", "title": "128-bit integer arithmetic is exact", "statement": "For all 128-bit operands, +, -, *, /, %, <<, >> and comparisons of the internal 128-bit unsigned and signed integer types return the mathematical result modulo 2^128 (for division and remainder the exact truncated quotient and remainder for every non-zero divisor).", "quantifier": "all pairs of 128-bit values", "why_tests_cant": "2^256 operand pairs; the multiword division correction steps are reached with probability about 2^-32 or less", "anchors": ["stl/inc/__msvc_int128.hpp:_Knuth_4_3_1_D", "stl/inc/__msvc_int128.hpp:_UMul128", "stl/inc/__msvc_int128.hpp:_UDiv128"]}
{"id": "C15", "title": "bit operations compute their defining functions on every word", "statement": "countl_zero, countr_zero, countl_one, countr_one, popcount, has_single_bit, bit_ceil, bit_floor, bit_width, rotl, rotr and byteswap return the value given by their mathematical definition for every operand of every unsigned width and, for rotations, every shift amount including negative and oversized ones.", "quantifier": "all values of all unsigned widths, all int shift counts", "why_tests_cant": "2^64 operands and 2^32 shift counts", "anchors": ["stl/inc/bit:rotl", "stl/inc/bit:bit_ceil", "stl/inc/__msvc_bit_utils.hpp:_Popcount_fallback", "stl/inc/__msvc_bit_utils.hpp:_Countl_zero_fallback", "stl/inc/bit:byteswap"]}
{"id": "C16", "title": "gcd, lcm, midpoint, cmp_* and in_range are exact, with no intermediate overflow", "statement": "std::gcd and std::lcm return the mathematical gcd/lcm of the absolute values of arguments of any two integer types whenever the result is representable in their common type (and the debug check of lcm accepts exactly the representable results); std::midpoint(a,b) returns (a+b)/2 rounded towards a for every pair of integers of a type and for every pair of pointers into one array; cmp_equal, cmp_less and friends compare the mathematical values of integers of any two types, and in_range<R>(v) holds exactly when v is a value of R. None of them has undefined behaviour.", "quantifier": "all pairs of integers of all pairs of integer types of 8 to 64 bits; all pointer pairs into an array", "why_tests_cant": "2^128 operand pairs per pair of types, including the extremes where naive code overflows", "anchors": ["stl/inc/numeric:gcd", "stl/inc/numeric:lcm", "stl/inc/numeric:midpoint", "stl/inc/numeric:_Abs_u", "stl/inc/utility:cmp_less", "stl/inc/utility:in_range", "stl/inc/utility:_In_range", "stl/inc/xutility:_Mul_overflow"]}
{"id": "C17", "title": "shared_ptr/weak_ptr: the object is destroyed exactly once, after the last owner, under every interleaving", "statement": "For any number of threads copying, destroying and locking shared_ptr/weak_ptr handles to one control block in any interleaving of their atomic steps, the managed object is destroyed exactly once and only when no shared_ptr owns it, the control block is freed exactly once and only when no handle refers to it, weak_ptr::lock succeeds only while the object is alive and then keeps it alive, and no freed control block is touched.", "quantifier": "all thread counts, programs of copy/release/lock operations, and interleavings", "why_tests_cant": "races have unbounded schedules; a test run explores a handful", "anchors": ["stl/inc/memory:_Incref_nz", "stl/inc/memory:_Decref", "stl/inc/memory:_Decwref", "stl/inc/memory:_Ref_count_base"]}
{"id": "C18", "title": "counting_semaphore and latch account exactly under every interleaving", "statement": "Under every interleaving, the number of successful acquires of a counting_semaphore never exceeds the initial count plus releases, the counter never goes negative, an available token is never lost; latch::wait returns only after the count reached zero, and try_wait is true exactly then.", "quantifier": "all thread counts, operation programs and interleavings", "why_tests_cant": "unbounded schedules", "anchors": ["stl/inc/semaphore:counting_semaphore", "stl/inc/latch:latch"]}
{"id": "C19", "title": "filesystem::path decomposition and normalisation laws", "statement": "For every path text: root_name, root_directory and relative_path concatenate back to the path text; filename/parent_path, stem/extension split the text without loss; replace_extension changes only the extension; /= and / follow [fs.path.append]; lexically_normal returns a normalization of the path as defined by [fs.path.generic]/6, and for every path that has a root-name, or none of whose filenames looks like one, it is idempotent and keeps the root (for other paths it need not: removing ./ from ./c:. exposes a drive).", "quantifier": "all path strings over the native character set", "why_tests_cant": "path strings are unbounded and drive/UNC/ADS special cases interact", "anchors": ["stl/inc/filesystem:_Find_root_name_end", "stl/inc/filesystem:lexically_normal", "stl/inc/filesystem:_Find_extension", "stl/inc/filesystem:_Find_filename"]}
{"id": "C20", "title": "UTF-8/UTF-16 conversions round-trip and reject ill-formed input", "statement": "Encoding any sequence of Unicode scalar values with the code-conversion facets and decoding the result returns the sequence; decoding accepts only well-formed input as documented and never reads past the end, reporting partial for a truncated sequence.", "quantifier": "all code point sequences and all byte sequences", "why_tests_cant": "infinitely many byte strings and split points", "anchors": ["stl/inc/codecvt:codecvt_utf8", "stl/inc/format:_Decode_utf"]}
{"id": "C21", "title": "monotonic_buffer_resource never hands out overlapping or misaligned memory", "statement": "For every history of allocate calls with arbitrary sizes and alignments, every block returned since the last release() is aligned as requested, lies wholly inside a buffer owned by the resource, and is disjoint from every other block handed out; release() returns each upstream buffer exactly once with the size and alignment it was obtained with.", "quantifier": "all histories of allocate/release, all sizes and power-of-two alignments, all upstream addresses", "why_tests_cant": "overlap arises from arithmetic on arbitrary addresses and growth history", "anchors": ["stl/inc/memory_resource:monotonic_buffer_resource", "stl/inc/xmemory:align"]}
{"id": "C22", "title": "bitset behaves as a sequence of N independent bits", "statement": "For every N, bitset<N> operations (set, reset, flip, shifts, and/or/xor, count, any/all/none, to_string, to_ullong) compute the pointwise result on N independent bits, with to_ullong throwing exactly when a bit above the range is set.", "quantifier": "all N, all bit patterns, all shift amounts", "why_tests_cant": "N is unbounded and word-boundary effects depend on N modulo the word size", "anchors": ["stl/inc/bitset:bitset", "stl/inc/bitset:_Trim"]}
{"id": "C23", "title": "uniform_int_distribution is in range and exactly unbiased given a uniform engine", "statement": "The integer generator behind uniform_int_distribution, shuffle and sample returns only values in the requested range, and among the engine outputs it accepts every value in range has exactly the same number of preimages, for every range size and every engine range. Consequently shuffle makes every rearrangement equally likely, and sample makes every selection of min(count, n) elements equally likely.", "quantifier": "all range sizes, all engine widths and all engine outputs", "why_tests_cant": "statistical tests cannot detect a bias of 2^-64", "anchors": ["stl/inc/algorithm:_Rng_from_urng_v2", "stl/inc/algorithm:sample", "stl/inc/algorithm:_Sample_selection_unchecked", "stl/inc/algorithm:_Sample_reservoir_unchecked", "stl/inc/algorithm:_Random_shuffle1", "stl/inc/random:uniform_int_distribution"]}
{"id": "C24", "title": "mdspan layout mappings are injective and within required_span_size", "statement": "For layout_left, layout_right and layout_stride (with strides meeting the documented precondition) every multidimensional index inside the extents maps to an offset below required_span_size(), distinct indices map to distinct offsets, and for exhaustive mappings every offset is hit.", "quantifier": "all ranks and extents, all strides meeting the precondition", "why_tests_cant": "rank and extents are unbounded", "anchors": ["stl/inc/mdspan:layout_left", "stl/inc/mdspan:layout_right", "stl/inc/mdspan:layout_stride"]}
{"id": "C25", "title": "multiprecision arithmetic behind floating-point from_chars is exact", "statement": "The big-integer operations used to parse floating-point text (shift left, add, multiply by a word, multiply, multiply by a power of ten, compare, bit scan, divide) return the mathematical result, or report overflow exactly when the result does not fit in the fixed capacity of 3680 bits (multiplication of two numbers of more than 32 bits each reports overflow exactly when the product needs more than 3648 bits).", "quantifier": "all big-integer operands", "why_tests_cant": "operands of more than a thousand bits; the quotient-correction paths are rare", "anchors": ["stl/inc/charconv:_Big_integer_flt", "stl/inc/charconv:_Shift_left", "stl/inc/charconv:_Multiply", "stl/inc/charconv:_Divide"]}
{"id": "C26", "title": "list operations splice, merge, sort, unique, reverse and remove preserve exactly the right nodes", "statement": "For every list contents, std::list::sort is a stable sort, merge of two sorted lists is the stable merge leaving the argument empty, splice moves exactly the given nodes, reverse reverses, and the forward and backward links of every list stay mutually inverse with size equal to the number of nodes.", "quantifier": "all list contents, lengths, positions and comparators", "why_tests_cant": "pointer surgery is correct only if it is for all shapes, including adjacent and self-splices", "anchors": ["stl/inc/list:_Sort", "stl/inc/list:_Unchecked_splice", "stl/inc/list:merge", "stl/inc/list:reverse"]}
{"id": "C27", "title": "next_permutation/prev_permutation enumerate permutations in lexicographic order", "statement": "next_permutation replaces the range by the lexicographically next permutation and returns true, or, if it is the last, by the sorted range and returns false; prev_permutation is its inverse.", "quantifier": "all ranges (with duplicates) and strict total preorders", "why_tests_cant": "ranges are unbounded", "anchors": ["stl/inc/algorithm:next_permutation", "stl/inc/algorithm:prev_permutation"]}
{"id": "C28", "title": "parallel algorithm partitioning covers every element exactly once", "statement": "For every element count, worker count and interleaving, the chunks handed out to the workers of a parallel algorithm are disjoint, contiguous and cover the range exactly once.", "quantifier": "all counts, thread numbers and schedules", "why_tests_cant": "chunk arithmetic and dynamic claiming depend on hardware concurrency and schedule", "anchors": ["stl/inc/execution:_Static_partition_team"]}
{"id": "C29", "title": "stop_token callbacks run at most once, and never after deregistration returns", "statement": "Under every interleaving of request_stop, callback registration and callback destruction, exactly one request_stop call returns true, each registered callback is invoked at most once, a callback registered before stop was requested and not destroyed is invoked, and after the callback destructor returns the callback is not running on another thread.", "quantifier": "all numbers of threads and callbacks, all interleavings", "why_tests_cant": "unbounded schedules", "anchors": ["stl/inc/stop_token:_Stop_state", "stl/inc/stop_token:_Stop_callback_base", "stl/inc/stop_token:_Request_stop"]}
{"id": "C30", "title": "variant holds exactly one object or is valueless after an exception, in every history", "statement": "For every history of constructions, assignments, emplace, swap, get, visit, comparisons and destructions of any number of variants, in which every operation of a contained object that is not noexcept may throw: no undefined behaviour; constructions minus destructions of contained objects equals one if the variant holds a value and zero otherwise; index(), get, get_if, visit, hash and the comparisons answer for the live alternative; the exception guarantees of each operation hold; a variant is valueless only after an exception of a contained object, and never if all alternatives move without exceptions and emplace is not used with a throwing construction; visit of any number of variants selects the right function.", "quantifier": "all histories, all throwing patterns, all lists of alternatives and their traits, all numbers of visited variants", "why_tests_cant": "exception points combine with histories and with the traits of the alternatives", "anchors": ["stl/inc/variant:valueless_by_exception", "stl/inc/variant:_Reset", "stl/inc/variant:_Variant_assign_visitor", "stl/inc/variant:swap", "stl/inc/variant:_Variant_visit_index1", "stl/inc/variant:_Variant_raw_get", "stl/inc/xsmf_control.h:_Non_trivial_move_assign"]}
{"id": "C31", "title": "in-place reordering algorithms compute their specification", "statement": "remove_if keeps exactly the elements failing the predicate in order; unique keeps the first of each run; partition puts all satisfying elements first; stable_partition also keeps relative order; rotate swaps the two halves; reverse reverses - for all ranges, without leaving the range.", "quantifier": "all ranges, predicates, split points", "why_tests_cant": "ranges are unbounded", "anchors": ["stl/inc/algorithm:partition", "stl/inc/algorithm:unique", "stl/inc/algorithm:stable_partition", "stl/inc/xutility:reverse", "stl/inc/xutility:rotate", "stl/inc/algorithm:remove_if"]}
{"id": "C32", "title": "merge and sorted-set algorithms compute multiset operations stably", "statement": "On sorted inputs merge, set_union, set_intersection, set_difference, set_symmetric_difference and includes produce the sorted result with the multiplicities m+n, max, min, max(m-n,0), |m-n| and containment respectively.", "quantifier": "all pairs of sorted ranges and strict weak orderings", "why_tests_cant": "ranges are unbounded and tie handling depends on interleaving of equal runs", "anchors": ["stl/inc/algorithm:set_union", "stl/inc/algorithm:set_intersection", "stl/inc/algorithm:set_difference", "stl/inc/algorithm:set_symmetric_difference", "stl/inc/algorithm:includes", "stl/inc/algorithm:merge"]}
{"id": "C33", "title": "string mutations with small-buffer/heap switching behave as on a sequence", "statement": "After any history of append, insert, erase, replace, resize, reserve, shrink_to_fit and assign a std::string holds the mathematical character sequence, size<=capacity, the buffer is null-terminated, the small-buffer/heap mode agrees with the capacity, and length_error is raised exactly when the result would exceed max_size.", "quantifier": "all histories and character contents", "why_tests_cant": "mode switches depend on history and capacity arithmetic near max_size is untestable", "anchors": ["stl/inc/xstring:_Calculate_growth", "stl/inc/xstring:_Large_mode_engaged", "stl/inc/xstring:append", "stl/inc/xstring:replace"]}
{"id": "C34", "title": "nth_element and partial_sort select and order the right elements", "statement": "After nth_element the nth position holds the element a full sort would put there (up to equivalence), nothing before it is greater and nothing after is smaller; after partial_sort the prefix is the sorted sequence of the smallest elements; both permute the range.", "quantifier": "all ranges, positions, comparators", "why_tests_cant": "ranges are unbounded", "anchors": ["stl/inc/algorithm:nth_element", "stl/inc/algorithm:partial_sort"]}
{"id": "C35", "title": "searchers find the first occurrence", "statement": "search, string find/rfind/find_first_of family, and the Boyer-Moore and Boyer-Moore-Horspool searchers return the first (last) match position or the not-found value for every haystack and needle.", "quantifier": "all haystacks, needles and start positions", "why_tests_cant": "infinite pairs; skip-table errors show on special repetitive patterns only", "anchors": ["stl/inc/functional:boyer_moore_searcher", "stl/inc/xutility:search", "stl/inc/__msvc_string_view.hpp:_Traits_find"]}
{"id": "C36", "title": "priority_queue behaves as a bag with a maximal top over every history", "statement": "After any history of push, push_range, pop and top that never pops or reads an empty queue, a std::priority_queue holds exactly the multiset of pushed minus popped elements, top is an element no other element is greater than, and pop removes exactly that element.", "quantifier": "all histories, element types and strict weak orderings", "why_tests_cant": "the internal array order depends on the whole history; tests cover only short ones", "anchors": ["stl/inc/queue:priority_queue", "stl/inc/queue:push_range", "stl/inc/__msvc_heap_algorithms.hpp:_Pop_heap_unchecked"]}
{"id": "C37", "title": "Compile-time rational arithmetic is exact", "statement": "For all ratio types, ratio<N,D> has coprime members num and den with den positive and num/den = N/D; ratio_add, ratio_subtract, ratio_multiply and ratio_divide give exactly the mathematical result in that normal form whenever they compile, ratio_multiply and ratio_divide compile whenever the reduced result is representable, and ratio_equal and ratio_less compare the exact values of all ratios, even where the cross products exceed 64 bits.", "quantifier": "all numerators and denominators of intmax_t", "why_tests_cant": "2^256 pairs of ratios; each test is one instantiation", "anchors": ["stl/inc/ratio:ratio", "stl/inc/ratio:_Gcd", "stl/inc/ratio:_Safe_mult", "stl/inc/ratio:_Safe_add", "stl/inc/ratio:ratio_multiply", "stl/inc/ratio:_Big_multiply", "stl/inc/ratio:_Ratio_less"]}
{"id": "C38", "title": "Floating-point from_chars is correctly rounded", "statement": "For every character sequence and chars_format, from_chars for float and double consumes exactly the longest literal of the required form (no leading plus, no 0x) at the start, and stores the float or double nearest to the exact value of that literal, ties to even, with its sign; result_out_of_range is reported exactly when a nonzero literal rounds to zero or infinity; inf, infinity, nan and nan(...) are recognised in any case; if nothing matches, invalid_argument is reported, nothing is consumed and nothing is stored. No undefined behaviour and no dependence on uninitialized memory.", "quantifier": "all inputs of fewer than 2^57 characters, all four formats, float and double", "why_tests_cant": "the inputs are unbounded (768 significant digits are kept, any number may follow), hard cases lie arbitrarily close to midpoints between floats", "anchors": ["stl/inc/charconv:_Floating_from_chars", "stl/inc/charconv:_Ordinary_floating_from_chars", "stl/inc/charconv:_Convert_decimal_string_to_floating_type", "stl/inc/charconv:_Convert_hexadecimal_string_to_floating_type", "stl/inc/charconv:_Assemble_floating_point_value", "stl/inc/charconv:_Right_shift_with_rounding", "stl/inc/charconv:_Nan_from_chars", "stl/inc/charconv:_Infinity_from_chars"]}
{"id": "C39", "title": "Parallel searches return the sequential answer under every schedule", "statement": "Under every interleaving of any number of threads, and with any spurious failures of weak compare-exchanges, parallel find, find_if and find_if_not return the position of the first matching element (the end if there is none), and parallel all_of, any_of and none_of return the sequential answer; no thread waits for ever on another.", "quantifier": "all element counts, chunk counts, thread counts, predicates and interleavings", "why_tests_cant": "a match in an early chunk may be published after any number of later ones; the schedules are unbounded", "anchors": ["stl/inc/execution:_Static_partitioned_find3", "stl/inc/execution:_Parallel_choose_min_result", "stl/inc/execution:_Parallel_choose_min_chunk", "stl/inc/execution:_Static_partitioned_all_of_family2"]}
{"id": "C40", "title": "Parallel scans compute the sequential result under every schedule", "statement": "For every associative operation and every interleaving of any number of threads, parallel inclusive_scan, exclusive_scan, transform_inclusive_scan and transform_exclusive_scan whose intermediate type is the value type of the destination store exactly what the sequential algorithm stores, in place too; no intermediate sum is read before it was constructed, the threads never deadlock, and the number of steps is bounded.", "quantifier": "all element counts, chunk counts, thread counts, values, associative operations and interleavings", "why_tests_cant": "which chunks look back over which others depends on the schedule", "anchors": ["stl/inc/execution:_Scan_decoupled_lookback", "stl/inc/execution:_Get_lookback_sum", "stl/inc/execution:_Static_partitioned_exclusive_scan3", "stl/inc/execution:_Static_partitioned_inclusive_scan3", "stl/inc/execution:_Exclusive_scan_per_chunk", "stl/inc/execution:_Inclusive_scan_per_chunk"]}
{"id": "C41", "title": "Path iteration yields the elements of the path, and path comparison is a total order consistent with the hash", "statement": "Incrementing from begin() visits the root-name, the root-directory and the filenames of the path (and an empty element for a trailing separator) and then equals end(); decrementing from end() visits the same elements backwards. compare() has the sign given by the lexicographic comparison of root-names, presence of a root-directory and elements; it is antisymmetric and transitive, is zero exactly for paths that have the same root-name, root-directory and elements, and paths that compare equal have the same hash_value.", "quantifier": "all path texts", "why_tests_cant": "root forms, repeated and mixed separators and trailing separators combine without bound", "anchors": ["stl/inc/filesystem:_Path_iterator", "stl/inc/filesystem:path::begin", "stl/inc/filesystem:path::compare", "stl/inc/filesystem:hash_value"]}
{"id": "C42", "title": "The parallel sort sorts, under every schedule of the threads that steal work from each other", "statement": "While sort(execution::par, first, last, pred) runs, no two threads ever work on the same element, no thread touches an element outside of the range, a queue that does not exist or a buffer that has been given back, whatever the interleaving of the threads, whichever buffer growths are refused and wherever a weak compare-exchange fails spuriously. When it returns, the range is a sorted permutation of what it was, and every buffer of every queue is given back exactly once. A thread that waits for the lock of a queue waits for a thread that is at most three steps from releasing it.", "quantifier": "all sequences, all strict weak orderings, all numbers of threads and all interleavings", "why_tests_cant": "an element lost or sorted twice in the work-stealing deque needs one particular interleaving of a push, a pop and several thefts around a growth of the buffer", "anchors": ["stl/inc/execution:_Work_stealing_deque", "stl/inc/execution:_Circular_buffer", "stl/inc/execution:_Work_stealing_membership", "stl/inc/execution:_Work_stealing_team", "stl/inc/execution:_Process_sort_work_item", "stl/inc/execution:_Process_sort_queue", "stl/inc/execution:_Sort_operation", "stl/inc/execution:sort"]}
{"id": "C43", "title": "Waiting on an atomic object loses no notification", "statement": "For atomic objects that wait through the table of the library (all sizes that are not directly waitable): if the object holds a value other than v when notify_all ends and from then on, no thread sleeps in wait(v) on it then or later, whether it slept before or was about to, and once no thread can go on, all these waits have returned; if a thread sleeps in a wait on the object when notify_one ends, another wait on it is awake and does not sleep again while the value differs from its own. wait(v) returns only after it has seen another value; a notification wakes no wait on a different object; notify_one wakes at most one thread; no thread deadlocks, no execution touches the context of a wait that has returned, and a notification that has the lock ends within a bounded number of its own steps.", "quantifier": "all numbers of threads, objects and addresses (including those that collide in the table), all interleavings, all spurious wake-ups", "why_tests_cant": "a lost wake-up needs a store and a notification between the comparison and the sleep of a waiter", "anchors": ["stl/src/atomic_wait.cpp:__std_atomic_wait_indirect", "stl/src/atomic_wait.cpp:__std_atomic_notify_one_indirect", "stl/src/atomic_wait.cpp:__std_atomic_notify_all_indirect", "stl/src/atomic_wait.cpp:_Guarded_wait_context", "stl/src/atomic_wait.cpp:_Atomic_wait_table_entry", "stl/inc/atomic:_Atomic_storage"]}
{"id": "C44", "title": "A barrier lets nobody pass before all have arrived, and runs its completion function once per phase", "statement": "For every interleaving of calls of arrive, wait, arrive_and_wait and arrive_and_drop that respect the preconditions: a phase ends only after exactly its expected number of arrivals and after exactly one call of the completion function, made after the last arrival; wait with a token of a phase, and arrive_and_wait, return only after that phase has ended; the expected count of the next phase is the initial count less the number of arrive_and_drop calls; no internal check fails; no wake-up is lost and no thread deadlocks, provided that no phase ends while a thread still waits for the end of the phase before it.", "quantifier": "all expected counts, all numbers of threads, all interleavings, all spurious wake-ups", "why_tests_cant": "phases overlap: late waiters of one phase run together with early arrivals of the next", "anchors": ["stl/inc/barrier:barrier", "stl/inc/barrier:arrive", "stl/inc/barrier:wait", "stl/inc/barrier:arrive_and_wait", "stl/inc/barrier:arrive_and_drop", "stl/inc/barrier:_Completion", "stl/inc/barrier:_Arrival_token"]}
{"id": "C45", "title": "unsynchronized_pool_resource hands out disjoint, aligned blocks and gives everything back", "statement": "After any history of allocate, deallocate (of blocks handed out, with the size and alignment they were asked for with), release and writes of the user into the blocks handed out, for any pool_options and any conforming upstream resource: the blocks handed out and not given back are not null, aligned as asked for, pairwise disjoint, and lie in memory held from upstream; neither allocate nor deallocate writes into a block that is still handed out; nothing is given back to upstream twice or with another size or alignment; allocate throws only bad_alloc, when upstream refuses or the size is within 40 bytes of SIZE_MAX; release gives everything back. A chunk holds at most max_blocks_per_chunk blocks, and once every block has been deallocated at most one spare chunk per block size is held.", "quantifier": "all histories, all options, all sizes and alignments (but for the two kinds of requests for which the code is wrong), all upstream resources, all contents of the blocks", "why_tests_cant": "the free lists are threaded through the blocks of the user; a broken link shows only after a particular history", "anchors": ["stl/inc/memory_resource:unsynchronized_pool_resource", "stl/inc/memory_resource:_Allocate", "stl/inc/memory_resource:_Deallocate", "stl/inc/memory_resource:_Increase_capacity", "stl/inc/memory_resource:_Find_pool", "stl/inc/memory_resource:_Allocate_oversized", "stl/inc/memory_resource:_Setup_options"]}
{"id": "C46", "title": "atomic<shared_ptr> operations are atomic, and count references exactly", "statement": "Under every interleaving of store, load, exchange, compare_exchange_weak/strong and wait on an atomic<shared_ptr<T>> with creation, copying and destruction of shared_ptr objects by any number of threads: the operations take effect one at a time in some order that respects the order of non-overlapping calls, each returning what the sequential specification says (wait returns only after it has seen another value); no control block is used after it was freed; what a shared_ptr or the atomic object owns exists; once no operation is in progress the use count of every object is its number of owners, and it has been destroyed exactly if it has none. No thread waits for ever for the lock: a thread that holds it releases it and notifies within five steps of its own, and no wake-up is lost.", "quantifier": "all numbers of threads, objects and operations, all interleavings, spurious failures of weak compare-exchange and spurious wake-ups, reuse of addresses", "why_tests_cant": "a reference lost or counted twice, or a lost wake-up, needs one particular interleaving", "anchors": ["stl/inc/atomic:_Locked_pointer", "stl/inc/atomic:_Lock_and_load", "stl/inc/atomic:_Store_and_unlock", "stl/inc/memory:_Atomic_ptr_base", "stl/inc/memory:compare_exchange_strong", "stl/inc/atomic:_Atomic_wait_direct"]}
{"id": "C47", "title": "A future gives the one result that its provider stored, and nobody waits for ever", "statement": "For a promise, a packaged_task or a deferred function of async, with its future and any number of shared_future objects, under every interleaving of set_value, set_exception (also .._at_thread_exit), calls of the task, destruction of the provider, get, wait, wait_for, share, copies and destructions by any number of threads: at most one call that provides a result succeeds, every other one throws; the result never changes afterwards; get returns it (or throws it) only when the state is ready, and all calls of get agree; a provider destroyed without a result stores broken_promise, and nothing else does; a deferred function is called at most once, and exactly once before its result is used; no wake-up is lost: a waiting thread sleeps on only while there is no result and the provider exists, or until the thread that called .._at_thread_exit ends; the shared state is freed exactly once, when nothing refers to it any more, and is not used afterwards. One rule for the program: it does not destroy the provider while it is used, or before the end of a thread that has called an .._at_thread_exit function.", "quantifier": "all three kinds of provider, all numbers of threads and objects, all interleavings, spurious wake-ups and timeouts", "why_tests_cant": "lost wake-ups, double results and early frees need one particular interleaving", "anchors": ["stl/inc/future:_Associated_state", "stl/inc/future:_State_manager", "stl/inc/future:promise", "stl/inc/future:packaged_task", "stl/inc/future:_Deferred_async_state", "stl/inc/future:future", "stl/inc/future:shared_future", "stl/src/xnotify.cpp:_Cnd_do_broadcast_at_thread_exit"]}
{"id": "C48", "title": "Mutexes exclude, count and hand over; lock of several mutexes takes all or none and does not deadlock", "statement": "For timed_mutex and recursive_timed_mutex: no two threads own the mutex, a thread owns it as often as it has locked and not unlocked it (recursive: at most UINT_MAX times); an operation is refused only because another thread owns the mutex, or the count is at its limit. For shared_timed_mutex: an exclusive owner excludes every other owner, at most UINT_MAX threads share; a refusal has a reason; while a writer owns or waits for the readers to go, nobody newly gets shared ownership. For both: no wake-up is lost: a thread sleeps on only while another thread owns the mutex, or its timer runs. For std::lock, std::try_lock (and scoped_lock) with any number of mutexes: on normal return all are owned, on a failure index or an exception none is; while waiting for one mutex the call holds none of the others, so that threads which lock the same mutexes in any orders do not deadlock; a call that is left alone ends in a bounded number of steps.", "quantifier": "all numbers of threads and mutexes, all interleavings, all orders of arguments, spurious wake-ups, timeouts, exceptions of a member at each point", "why_tests_cant": "lost wake-ups, double ownership and deadlocks need one particular interleaving", "anchors": ["stl/inc/mutex:timed_mutex", "stl/inc/mutex:recursive_timed_mutex", "stl/inc/mutex:condition_variable", "stl/inc/mutex:lock", "stl/inc/mutex:try_lock", "stl/inc/mutex:_Lock_attempt", "stl/inc/mutex:_Try_lock_range", "stl/inc/mutex:scoped_lock", "stl/inc/shared_mutex:shared_timed_mutex"]}
{"id": "C49", "title": "The vectorised algorithms return what the element-by-element algorithms return, and read only inside the range", "statement": "find, find of a different element, find_last, the position of the last element, adjacent_find, search_n, count and mismatch on contiguous ranges of elements of 1, 2, 4 or 8 bytes, on a CPU with AVX2, with SSE4.2 only or with neither: the call ends, does not read a byte outside of the range (also with masked loads of the tail), and returns the first (last) position that the plain loop would return, the end if there is none; for count the exact number, although the counters in the registers have 8, 16 or 32 bits.", "quantifier": "all ranges of every length, all values, all element sizes, all counts for search_n, all three kinds of CPU", "why_tests_cant": "chunk boundaries, tails and counters that could wrap need particular lengths (for count of 4-byte elements more than 16 GB), and a machine has only one kind of CPU", "anchors": ["stl/src/vector_algorithms.cpp:_Find_impl", "stl/src/vector_algorithms.cpp:_Find_last_impl", "stl/src/vector_algorithms.cpp:_Adjacent_find_impl", "stl/src/vector_algorithms.cpp:_Search_n_impl", "stl/src/vector_algorithms.cpp:_Count_impl", "stl/src/vector_algorithms.cpp:_Mismatch_impl"]}
{"id": "C50", "title": "The vectorised algorithms that write have exactly the effect of the element-by-element algorithms, and write only inside the range", "statement": "remove, remove_copy, unique, unique_copy, replace, replace_copy, reverse, reverse_copy and swap_ranges on contiguous ranges of elements of 1, 2, 4 or 8 bytes, on a CPU with AVX2, with SSE4.2 only or with neither: the call ends, reads and writes no byte outside of the ranges (also with masked stores, and although a whole register is stored when only a few elements are kept), the elements afterwards are those of the plain algorithm, bytes behind the result of a _copy algorithm keep their values even if the destination has exactly the room that is needed, and the returned pointer is behind the last kept element.", "quantifier": "all ranges of every length, all values, all element sizes, all three kinds of CPU, all old contents of destination and buffer", "why_tests_cant": "chunk boundaries, full buffers, each of the 256 shuffles of a register and runs across registers need particular lengths and patterns, and a machine has only one kind of CPU", "anchors": ["stl/src/vector_algorithms.cpp:_Remove_impl", "stl/src/vector_algorithms.cpp:_Remove_copy_impl", "stl/src/vector_algorithms.cpp:_Unique_impl", "stl/src/vector_algorithms.cpp:_Unique_copy_impl", "stl/src/vector_algorithms.cpp:_Make_tables", "stl/src/vector_algorithms.cpp:_Replace_copy_impl", "stl/src/vector_algorithms.cpp:__std_replace_4", "stl/src/vector_algorithms.cpp:_Reverse_impl", "stl/src/vector_algorithms.cpp:_Reverse_copy_impl", "stl/src/vector_algorithms.cpp:__std_swap_ranges_trivially_swappable_noalias"]}
{"id": "C51", "title": "Random number engines produce exactly the sequence the standard defines", "statement": "linear_congruential_engine, subtract_with_carry_engine and mersenne_twister_engine, for all their template parameters: after construction from a value or a seed sequence, the k-th call returns the k-th member of the sequence that the recurrence in the standard defines, and stays between min() and max(). discard(n) of a linear congruential engine (also the fast path for minstd_rand) leaves the state that n calls leave. Writing the state of an engine out and reading it into another gives an equal engine that goes on with the same sequence; two engines compare equal exactly if the saved states are equal. No call reads or writes outside of the ring buffer.", "quantifier": "all template parameters, seeds, seed sequences, numbers of calls, old contents of the engine", "why_tests_cant": "the state is refilled in parts with wrap-around at three places, and a test looks at a few parameters and positions only; equal states are stored in different ways depending on the history", "anchors": ["stl/inc/random:_Next_linear_congruential_value", "stl/inc/random:linear_congruential_engine", "stl/inc/random:_Circ_buf", "stl/inc/random:subtract_with_carry_engine", "stl/inc/random:mersenne_twister_engine"]}
{"id": "C52", "title": "Seed sequences, engine adaptors and generate_canonical compute exactly what the standard defines", "statement": "seed_seq::generate writes, for all seeds and all lengths, the words that the algorithm of the standard gives, independent of the old contents and of the width of the elements. discard_block_engine<E,P,R> gives the first R of each P values of E. independent_bits_engine gives the w bits that the standard defines for every base engine, using up exactly the same values, and never waits for a value that the engine cannot give. generate_canonical takes the values in groups of the least sufficient size, rejects exactly the groups that the standard rejects, and returns a number in [0,1) such that every representable result is equally likely.", "quantifier": "all seeds, lengths, template parameters, ranges of the base engine, sequences of values of the base engine", "why_tests_cant": "the choice of parameters depends on the range of the engine, with wrap-around when the range is the whole type; bias cannot be seen by running", "anchors": ["stl/inc/random:seed_seq", "stl/inc/random:discard_block_engine", "stl/inc/random:independent_bits_engine", "stl/inc/random:_Generate_canonical_params", "stl/inc/random:generate_canonical"]}
{"id": "C53", "title": "vector<bool> behaves as a sequence of bits", "statement": "vector<bool>, which packs its elements into words, behaves under every history of insertions, erasures, resizes, assignments, flips and element writes as a plain sequence of Booleans: the same sizes, the same elements, the same length_error throws; it compares equal exactly when the sequences are equal. Copying a range of bits (std::copy on its iterators, overlapping to the left or apart) moves exactly those bits for every alignment of source and destination, changes no other bit, never touches a word outside and never shifts by the width of a word or more, at run time and in constant evaluation; filling sets exactly the bits of the range; finding and counting a value and ordering two vectors give what the elements give.", "quantifier": "all memories, ranges, alignments, lengths, histories of operations", "why_tests_cant": "there are 32 x 32 combinations of bit offsets times lengths times overlaps, each taking one of seven code paths; stray bits past the end are invisible until a later operation uncovers them", "anchors": ["stl/inc/vector:_Copy_vbool", "stl/inc/vector:_Fill_vbool", "stl/inc/vector:_Find_vbool", "stl/inc/vector:_Count_vbool", "stl/inc/vector:_Insert_x", "stl/inc/vector:_Trim", "stl/inc/vector:_Vbase_compare_three_way", "stl/inc/vector:vector<bool, _Alloc>"]}
{"id": "C54", "title": "Conversions between UTC, system, TAI, GPS and file time count leap seconds right", "statement": "For every table of leap seconds (inserted or removed, known or future) get_leap_second_info gives the sum of exactly the leap seconds that have begun and recognises exactly the inserted seconds; utc_clock::from_sys adds exactly the leap seconds that took effect; every tick within an inserted second converts to the last tick of system time before it; from_sys then to_sys is the identity except in a removed second; to_sys never turns a later time into an earlier one; to_sys then from_sys is the identity outside of inserted seconds; tai_clock, gps_clock and file_clock convert to utc_clock and back without loss (file_clock outside of inserted seconds), from the right epochs. The table itself is the 27 historic leap seconds followed by all entries of the registry, with accumulated counts.", "quantifier": "all tables of leap seconds, all times, all integral resolutions of a second or finer", "why_tests_cant": "no negative leap second has occurred, the code for them runs only on future data; errors show in single seconds next to one of the entries", "anchors": ["stl/inc/chrono:get_leap_second_info", "stl/inc/chrono:utc_clock", "stl/inc/chrono:leap_second", "stl/inc/chrono:_Tzdb_generate_leap_seconds", "stl/inc/chrono:tai_clock", "stl/inc/chrono:gps_clock", "stl/inc/chrono:_File_time_clock"]}
{"id": "C55", "title": "hh_mm_ss splits every duration exactly", "statement": "For every duration and every period hh_mm_ss splits the absolute value exactly: hours, minutes below 60, seconds below 60 and the digits of the fraction, with the sign apart, also for periods so fine that an hour cannot be expressed in them; fractional_width is the least number of decimal digits that expresses the period (6 if more than 18 would be needed); to_duration gives the duration back, truncated toward zero to that precision. is_am, is_pm, make12 and make24 convert between the clocks of 12 and 24 hours without loss.", "quantifier": "all counts, all periods num/den, all hours", "why_tests_cant": "every period is a separate template instantiation with its own width and its own underflow branches", "anchors": ["stl/inc/chrono:hh_mm_ss", "stl/inc/chrono:_Remove_duration_part", "stl/inc/chrono:_Duration_cast_underflow_to_zero", "stl/inc/chrono:make12", "stl/inc/chrono:make24", "stl/inc/chrono:is_am"]}
