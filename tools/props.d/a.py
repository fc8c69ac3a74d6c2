A='stl/inc/algorithm:'
prop('C01','sort yields a sorted permutation for every input and every strict weak order',
 'For every finite sequence and every comparator that is a strict weak ordering, std::sort terminates, never reads or writes outside [first,last), never reads a moved-from element, and leaves [first,last) holding a permutation of its original elements in which no element is ordered before its predecessor.',
 'all element types, all sequence lengths and contents (including many duplicates), all strict weak orderings, all values of the introsort depth budget',
 'tests sample a few sequences and comparators; the unguarded inner loop of insertion sort, the three-way partition and the heap-sort fallback are reached only by particular shapes of input of unbounded size',
 [A+'_Sort_unchecked',A+'_Partition_by_pivot_unchecked',A+'_Insertion_sort_unchecked',A+'_Guess_median_unchecked','stl/inc/__msvc_heap_algorithms.hpp:_Make_heap_unchecked'])
prop('C02','stable_sort is a stable sort whatever temporary buffer it gets',
 'For every finite sequence, every strict weak ordering and every amount of temporary storage actually obtained (including none), std::stable_sort terminates with a sorted permutation of the input in which equivalent elements keep their original relative order.',
 'all sequences, comparators and temporary-buffer capacities',
 'the buffer capacity is chosen by the allocator at run time, and the merge-sort, buffered-merge and rotate-based in-place merge paths combine in ways depending on length and capacity',
 [A+'_Stable_sort_unchecked',A+'_Buffered_merge_sort_unchecked',A+'_Buffered_inplace_merge_unchecked',A+'_Insertion_sort_isort_max_chunks'])
prop('C03','heap algorithms establish and preserve the heap property and the multiset of elements',
 'make_heap turns any range into a heap; push_heap extends a heap by one element; pop_heap moves a maximal element to the back and leaves a heap in front; sort_heap turns a heap into a sorted range; each one permutes the range, stays inside it and never reads a moved-from element.',
 'all ranges, lengths and strict weak orderings',
 'heap shape depends on parity of the length and on the comparison results along a path; exhaustive tests cover only tiny lengths',
 ['stl/inc/__msvc_heap_algorithms.hpp:_Push_heap_by_index','stl/inc/__msvc_heap_algorithms.hpp:_Pop_heap_hole_by_index','stl/inc/__msvc_heap_algorithms.hpp:_Make_heap_unchecked',A+'_Sort_heap_unchecked'])
prop('C04','binary searches return the exact partition points',
 'On a range partitioned with respect to the value, lower_bound returns the first position whose element is not less than the value, upper_bound the first position whose element the value is less than, equal_range both, binary_search tells whether an equivalent element exists, and partition_point returns the first element failing the predicate; none of them reads outside the range.',
 'all partitioned ranges of any length, all values, heterogeneous comparators',
 'off-by-one errors in halving show only at particular lengths and positions; lengths are unbounded',
 ['stl/inc/xutility:lower_bound',A+'upper_bound',A+'equal_range',A+'binary_search',A+'partition_point'])
prop('C05','set/map behave as an ordered collection over every history',
 'After any sequence of insert / erase / find / lower_bound operations, a std::set or std::map contains exactly the keys of the mathematical ordered collection obtained by the same operations, iterates them in strictly increasing order, and reports insertion success, find and erase counts accordingly; multiset/multimap keep all duplicates with equal keys in insertion order.',
 'all operation histories, key types and strict weak orderings',
 'the tree shape depends on the whole history; rebalancing cases on erase are reached only by particular histories',
 ['stl/inc/xtree:_Insert_node','stl/inc/xtree:_Extract','stl/inc/xtree:_Find_lower_bound','stl/inc/xtree:_Lrotate','stl/inc/xtree:_Rrotate'])
prop('C06','set/map stay balanced: every reachable tree has logarithmic height',
 'After any sequence of insertions and erasures the path length from the root to any element is at most 2*log2(size+1), so lookup performs a logarithmic number of comparisons.',
 'all histories of insertions and erasures',
 'a balance violation does not change any returned value, only complexity, and arises from specific recolour/rotate histories',
 ['stl/inc/xtree:_Insert_node','stl/inc/xtree:_Extract'])
prop('C07','unordered containers behave as a finite map over every history including rehash',
 'After any sequence of insert / erase / find / rehash operations on an unordered_set/unordered_map the container holds exactly the elements of the abstract finite map; each bucket range delimits precisely the elements whose hash falls in that bucket, and rehash (growth) loses, duplicates or reorders no equivalent element.',
 'all histories, hash functions (including constant ones) and key equalities compatible with the hash',
 'bucket/list threading errors show up only under specific collision patterns and growth points',
 ['stl/inc/xhash:_Forced_rehash','stl/inc/xhash:_Insert_new_node_before','stl/inc/xhash:_Find_last','stl/inc/xhash:_Unchecked_erase'])
prop('C08','deque behaves as a double-ended sequence over every history of pushes and pops',
 'After any sequence of push_back, push_front, pop_back, pop_front and element reads, a std::deque holds the same sequence as a mathematical list under the same operations; no live element is overwritten or moved by map growth and indexing always reaches the right block.',
 'all operation histories, all block sizes (powers of two) and map sizes',
 'wrap-around of the circular block map combined with growth needs specific offsets modulo map size',
 ['stl/inc/deque:_Growmap','stl/inc/deque:_Getblock','stl/inc/deque:_Emplace_back_internal','stl/inc/deque:pop_front'])
prop('C09','vector behaves as a sequence and grows geometrically without exceeding max_size',
 'After any history of push_back, insert, erase, resize, reserve, pop_back and clear a std::vector holds the sequence a mathematical list would hold, size never exceeds capacity, reallocation capacity is at least the needed size, at least 1.5 times the old capacity unless clipped to max_size, and length_error is raised exactly when the needed size exceeds max_size.',
 'all histories, all capacities up to max_size',
 'capacity arithmetic near max_size is unreachable in tests, and histories are unbounded',
 ['stl/inc/vector:_Calculate_growth','stl/inc/vector:_Emplace_reallocate','stl/inc/vector:erase','stl/inc/vector:_Resize_reallocate'])
prop('C10','from_chars parses exactly the maximal digit prefix and detects overflow exactly',
 'For every character sequence and base 2..36, integer from_chars consumes the optional minus (signed only) and the longest run of valid digits, yields the mathematical value when it is representable in the type, reports result_out_of_range exactly when it is not (leaving the output unchanged and still consuming the whole digit run), and invalid_argument exactly when there is no digit.',
 'all character sequences of any length, all bases, all integer widths, signed and unsigned',
 'overflow boundaries for every base and width and arbitrarily long digit strings cannot be enumerated',
 ['stl/inc/charconv:from_chars_result','stl/inc/charconv:_Integer_from_chars'])
prop('C11','to_chars writes the canonical representation and round-trips through from_chars',
 'For every integer value of every width and every base 2..36, to_chars writes the unique digit string without leading zeros (with minus sign if negative) when the buffer is large enough and otherwise reports value_too_large writing nothing past the end; parsing the result with from_chars gives the value back and consumes everything.',
 'all values, widths, bases and buffer sizes',
 '2^64 values times 35 bases times buffer sizes',
 ['stl/inc/charconv:_Integer_to_chars'])
prop('C12','sys_days <-> year_month_day conversion is the proleptic Gregorian calendar',
 'Converting a day count to year_month_day and back is the identity; converting a valid date to a day count and back is the identity; consecutive day counts give consecutive valid calendar dates, with 1970-01-01 at 0; weekday of a day count advances cyclically with 1970-01-01 a Thursday; year_month_day_last and year_month_weekday_last are the last day and the last such weekday of the month, and year_month_weekday is ok exactly if the month has that many.',
 'all day counts and all valid dates representable by std::chrono::year',
 'tests sample dates; the conversion is intricate multiply-shift arithmetic that must hold on 24 million days',
 ['stl/inc/chrono:_Civil_from_days','stl/inc/chrono:_Days_from_civil','stl/inc/chrono:_Last_day','stl/inc/chrono:is_leap'])
prop('C13','duration rounding: floor, ceil, round and abs meet their defining inequalities',
 'For every pair of periods and every count, chrono::floor returns the greatest representable target duration not greater than the argument, ceil the least not less, round the nearest with ties to even, and duration_cast truncates toward zero; converting to a finer period and back is the identity.',
 'all integer tick counts (absent overflow) and all period ratios',
 'sign and tie cases for every ratio form an infinite family',
 ['stl/inc/__msvc_chrono.hpp:duration_cast','stl/inc/__msvc_chrono.hpp:floor','stl/inc/__msvc_chrono.hpp:ceil','stl/inc/__msvc_chrono.hpp:round'])
prop('C14','128-bit integer arithmetic is exact',
 'For all 128-bit operands, +, -, *, /, %, <<, >> and comparisons of the internal 128-bit unsigned and signed integer types return the mathematical result modulo 2^128 (for division and remainder the exact truncated quotient and remainder for every non-zero divisor).',
 'all pairs of 128-bit values',
 '2^256 operand pairs; the multiword division correction steps are reached with probability about 2^-32 or less',
 ['stl/inc/__msvc_int128.hpp:_Knuth_4_3_1_D','stl/inc/__msvc_int128.hpp:_UMul128','stl/inc/__msvc_int128.hpp:_UDiv128'])
prop('C15','bit operations compute their defining functions on every word',
 'countl_zero, countr_zero, countl_one, countr_one, popcount, has_single_bit, bit_ceil, bit_floor, bit_width, rotl, rotr and byteswap return the value given by their mathematical definition for every operand of every unsigned width and, for rotations, every shift amount including negative and oversized ones.',
 'all values of all unsigned widths, all int shift counts',
 '2^64 operands and 2^32 shift counts',
 ['stl/inc/bit:rotl','stl/inc/bit:bit_ceil','stl/inc/__msvc_bit_utils.hpp:_Popcount_fallback','stl/inc/__msvc_bit_utils.hpp:_Countl_zero_fallback','stl/inc/bit:byteswap'])
prop('C16','gcd, lcm, midpoint, cmp_* and in_range are exact, with no intermediate overflow',
 'std::gcd and std::lcm return the mathematical gcd/lcm of the absolute values of arguments of any two integer types whenever the result is representable in their common type (and the debug check of lcm accepts exactly the representable results); std::midpoint(a,b) returns (a+b)/2 rounded towards a for every pair of integers of a type and for every pair of pointers into one array; cmp_equal, cmp_less and friends compare the mathematical values of integers of any two types, and in_range<R>(v) holds exactly when v is a value of R. None of them has undefined behaviour.',
 'all pairs of integers of all pairs of integer types of 8 to 64 bits; all pointer pairs into an array',
 '2^128 operand pairs per pair of types, including the extremes where naive code overflows',
 ['stl/inc/numeric:gcd','stl/inc/numeric:lcm','stl/inc/numeric:midpoint','stl/inc/numeric:_Abs_u','stl/inc/utility:cmp_less','stl/inc/utility:in_range','stl/inc/utility:_In_range','stl/inc/xutility:_Mul_overflow'])
prop('C17','shared_ptr/weak_ptr: the object is destroyed exactly once, after the last owner, under every interleaving',
 'For any number of threads copying, destroying and locking shared_ptr/weak_ptr handles to one control block in any interleaving of their atomic steps, the managed object is destroyed exactly once and only when no shared_ptr owns it, the control block is freed exactly once and only when no handle refers to it, weak_ptr::lock succeeds only while the object is alive and then keeps it alive, and no freed control block is touched.',
 'all thread counts, programs of copy/release/lock operations, and interleavings',
 'races have unbounded schedules; a test run explores a handful',
 ['stl/inc/memory:_Incref_nz','stl/inc/memory:_Decref','stl/inc/memory:_Decwref','stl/inc/memory:_Ref_count_base'])
prop('C18','counting_semaphore and latch account exactly under every interleaving',
 'Under every interleaving, the number of successful acquires of a counting_semaphore never exceeds the initial count plus releases, the counter never goes negative, an available token is never lost; latch::wait returns only after the count reached zero, and try_wait is true exactly then.',
 'all thread counts, operation programs and interleavings',
 'unbounded schedules',
 ['stl/inc/semaphore:counting_semaphore','stl/inc/latch:latch'])
prop('C19','filesystem::path decomposition and normalisation laws',
 'For every path text: root_name, root_directory and relative_path concatenate back to the path text; filename/parent_path, stem/extension split the text without loss; replace_extension changes only the extension; /= and / follow [fs.path.append]; lexically_normal returns a normalization of the path as defined by [fs.path.generic]/6, and for every path that has a root-name, or none of whose filenames looks like one, it is idempotent and keeps the root (for other paths it need not: removing ./ from ./c:. exposes a drive).',
 'all path strings over the native character set',
 'path strings are unbounded and drive/UNC/ADS special cases interact',
 ['stl/inc/filesystem:_Find_root_name_end','stl/inc/filesystem:lexically_normal','stl/inc/filesystem:_Find_extension','stl/inc/filesystem:_Find_filename'])
prop('C20','UTF-8/UTF-16 conversions round-trip and reject ill-formed input',
 'Encoding any sequence of Unicode scalar values with the code-conversion facets and decoding the result returns the sequence; decoding accepts only well-formed input as documented and never reads past the end, reporting partial for a truncated sequence.',
 'all code point sequences and all byte sequences',
 'infinitely many byte strings and split points',
 ['stl/inc/codecvt:codecvt_utf8','stl/inc/format:_Decode_utf'])
prop('C21','monotonic_buffer_resource never hands out overlapping or misaligned memory',
 'For every history of allocate calls with arbitrary sizes and alignments, every block returned since the last release() is aligned as requested, lies wholly inside a buffer owned by the resource, and is disjoint from every other block handed out; release() returns each upstream buffer exactly once with the size and alignment it was obtained with.',
 'all histories of allocate/release, all sizes and power-of-two alignments, all upstream addresses',
 'overlap arises from arithmetic on arbitrary addresses and growth history',
 ['stl/inc/memory_resource:monotonic_buffer_resource','stl/inc/xmemory:align'])
prop('C22','bitset behaves as a sequence of N independent bits',
 'For every N, bitset<N> operations (set, reset, flip, shifts, and/or/xor, count, any/all/none, to_string, to_ullong) compute the pointwise result on N independent bits, with to_ullong throwing exactly when a bit above the range is set.',
 'all N, all bit patterns, all shift amounts',
 'N is unbounded and word-boundary effects depend on N modulo the word size',
 ['stl/inc/bitset:bitset','stl/inc/bitset:_Trim'])
prop('C23','uniform_int_distribution is in range and exactly unbiased given a uniform engine',
 'The integer generator behind uniform_int_distribution, shuffle and sample returns only values in the requested range, and among the engine outputs it accepts every value in range has exactly the same number of preimages, for every range size and every engine range. Consequently shuffle makes every rearrangement equally likely, and sample makes every selection of min(count, n) elements equally likely.',
 'all range sizes, all engine widths and all engine outputs',
 'statistical tests cannot detect a bias of 2^-64',
 [A+'_Rng_from_urng_v2',A+'sample',A+'_Sample_selection_unchecked',A+'_Sample_reservoir_unchecked',A+'_Random_shuffle1','stl/inc/random:uniform_int_distribution'])
prop('C24','mdspan layout mappings are injective and within required_span_size',
 'For layout_left, layout_right and layout_stride (with strides meeting the documented precondition) every multidimensional index inside the extents maps to an offset below required_span_size(), distinct indices map to distinct offsets, and for exhaustive mappings every offset is hit.',
 'all ranks and extents, all strides meeting the precondition',
 'rank and extents are unbounded',
 ['stl/inc/mdspan:layout_left','stl/inc/mdspan:layout_right','stl/inc/mdspan:layout_stride'])
prop('C25','multiprecision arithmetic behind floating-point from_chars is exact',
 'The big-integer operations used to parse floating-point text (shift left, add, multiply by a word, multiply, multiply by a power of ten, compare, bit scan, divide) return the mathematical result, or report overflow exactly when the result does not fit in the fixed capacity of 3680 bits (multiplication of two numbers of more than 32 bits each reports overflow exactly when the product needs more than 3648 bits).',
 'all big-integer operands',
 'operands of more than a thousand bits; the quotient-correction paths are rare',
 ['stl/inc/charconv:_Big_integer_flt','stl/inc/charconv:_Shift_left','stl/inc/charconv:_Multiply','stl/inc/charconv:_Divide'])
prop('C26','list operations splice, merge, sort, unique, reverse and remove preserve exactly the right nodes',
 'For every list contents, std::list::sort is a stable sort, merge of two sorted lists is the stable merge leaving the argument empty, splice moves exactly the given nodes, reverse reverses, and the forward and backward links of every list stay mutually inverse with size equal to the number of nodes.',
 'all list contents, lengths, positions and comparators',
 'pointer surgery is correct only if it is for all shapes, including adjacent and self-splices',
 ['stl/inc/list:_Sort','stl/inc/list:_Unchecked_splice','stl/inc/list:merge','stl/inc/list:reverse'])
prop('C27','next_permutation/prev_permutation enumerate permutations in lexicographic order',
 'next_permutation replaces the range by the lexicographically next permutation and returns true, or, if it is the last, by the sorted range and returns false; prev_permutation is its inverse.',
 'all ranges (with duplicates) and strict total preorders',
 'ranges are unbounded',
 [A+'next_permutation',A+'prev_permutation'])
prop('C28','parallel algorithm partitioning covers every element exactly once',
 'For every element count, worker count and interleaving, the chunks handed out to the workers of a parallel algorithm are disjoint, contiguous and cover the range exactly once.',
 'all counts, thread numbers and schedules',
 'chunk arithmetic and dynamic claiming depend on hardware concurrency and schedule',
 ['stl/inc/execution:_Static_partition_team'])
prop('C29','stop_token callbacks run at most once, and never after deregistration returns',
 'Under every interleaving of request_stop, callback registration and callback destruction, exactly one request_stop call returns true, each registered callback is invoked at most once, a callback registered before stop was requested and not destroyed is invoked, and after the callback destructor returns the callback is not running on another thread.',
 'all numbers of threads and callbacks, all interleavings',
 'unbounded schedules',
 ['stl/inc/stop_token:_Stop_state','stl/inc/stop_token:_Stop_callback_base','stl/inc/stop_token:_Request_stop'])
prop('C30','variant holds exactly one object or is valueless after an exception, in every history',
 'For every history of constructions, assignments, emplace, swap, get, visit, comparisons and destructions of any number of variants, in which every operation of a contained object that is not noexcept may throw: no undefined behaviour; constructions minus destructions of contained objects equals one if the variant holds a value and zero otherwise; index(), get, get_if, visit, hash and the comparisons answer for the live alternative; the exception guarantees of each operation hold; a variant is valueless only after an exception of a contained object, and never if all alternatives move without exceptions and emplace is not used with a throwing construction; visit of any number of variants selects the right function.',
 'all histories, all throwing patterns, all lists of alternatives and their traits, all numbers of visited variants',
 'exception points combine with histories and with the traits of the alternatives',
 ['stl/inc/variant:valueless_by_exception','stl/inc/variant:_Reset','stl/inc/variant:_Variant_assign_visitor','stl/inc/variant:swap','stl/inc/variant:_Variant_visit_index1','stl/inc/variant:_Variant_raw_get','stl/inc/xsmf_control.h:_Non_trivial_move_assign'])
prop('C31','in-place reordering algorithms compute their specification',
 'remove_if keeps exactly the elements failing the predicate in order; unique keeps the first of each run; partition puts all satisfying elements first; stable_partition also keeps relative order; rotate swaps the two halves; reverse reverses - for all ranges, without leaving the range.',
 'all ranges, predicates, split points',
 'ranges are unbounded',
 [A+'partition',A+'unique',A+'stable_partition','stl/inc/xutility:reverse','stl/inc/xutility:rotate','stl/inc/algorithm:remove_if'])
prop('C32','merge and sorted-set algorithms compute multiset operations stably',
 'On sorted inputs merge, set_union, set_intersection, set_difference, set_symmetric_difference and includes produce the sorted result with the multiplicities m+n, max, min, max(m-n,0), |m-n| and containment respectively.',
 'all pairs of sorted ranges and strict weak orderings',
 'ranges are unbounded and tie handling depends on interleaving of equal runs',
 [A+'set_union',A+'set_intersection',A+'set_difference',A+'set_symmetric_difference',A+'includes',A+'merge'])
prop('C33','string mutations with small-buffer/heap switching behave as on a sequence',
 'After any history of append, insert, erase, replace, resize, reserve, shrink_to_fit and assign a std::string holds the mathematical character sequence, size<=capacity, the buffer is null-terminated, the small-buffer/heap mode agrees with the capacity, and length_error is raised exactly when the result would exceed max_size.',
 'all histories and character contents',
 'mode switches depend on history and capacity arithmetic near max_size is untestable',
 ['stl/inc/xstring:_Calculate_growth','stl/inc/xstring:_Large_mode_engaged','stl/inc/xstring:append','stl/inc/xstring:replace'])
prop('C34','nth_element and partial_sort select and order the right elements',
 'After nth_element the nth position holds the element a full sort would put there (up to equivalence), nothing before it is greater and nothing after is smaller; after partial_sort the prefix is the sorted sequence of the smallest elements; both permute the range.',
 'all ranges, positions, comparators',
 'ranges are unbounded',
 [A+'nth_element',A+'partial_sort'])
prop('C35','searchers find the first occurrence',
 'search, string find/rfind/find_first_of family, and the Boyer-Moore and Boyer-Moore-Horspool searchers return the first (last) match position or the not-found value for every haystack and needle.',
 'all haystacks, needles and start positions',
 'infinite pairs; skip-table errors show on special repetitive patterns only',
 ['stl/inc/functional:boyer_moore_searcher','stl/inc/xutility:search','stl/inc/__msvc_string_view.hpp:_Traits_find'])
