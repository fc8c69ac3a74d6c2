prop('C36','priority_queue behaves as a bag with a maximal top over every history',
 'After any history of push, push_range, pop and top that never pops or reads an empty queue, a std::priority_queue holds exactly the multiset of pushed minus popped elements, top is an element no other element is greater than, and pop removes exactly that element.',
 'all histories, element types and strict weak orderings',
 'the internal array order depends on the whole history; tests cover only short ones',
 ['stl/inc/queue:priority_queue','stl/inc/queue:push_range','stl/inc/__msvc_heap_algorithms.hpp:_Pop_heap_unchecked'])
prop('C37','Compile-time rational arithmetic is exact',
 'For all ratio types, ratio<N,D> has coprime members num and den with den positive and num/den = N/D; ratio_add, ratio_subtract, ratio_multiply and ratio_divide give exactly the mathematical result in that normal form whenever they compile, ratio_multiply and ratio_divide compile whenever the reduced result is representable, and ratio_equal and ratio_less compare the exact values of all ratios, even where the cross products exceed 64 bits.',
 'all numerators and denominators of intmax_t',
 '2^256 pairs of ratios; each test is one instantiation',
 ['stl/inc/ratio:ratio','stl/inc/ratio:_Gcd','stl/inc/ratio:_Safe_mult','stl/inc/ratio:_Safe_add','stl/inc/ratio:ratio_multiply','stl/inc/ratio:_Big_multiply','stl/inc/ratio:_Ratio_less'])
prop('C38','Floating-point from_chars is correctly rounded',
 'For every character sequence and chars_format, from_chars for float and double consumes exactly the longest literal of the required form (no leading plus, no 0x) at the start, and stores the float or double nearest to the exact value of that literal, ties to even, with its sign; result_out_of_range is reported exactly when a nonzero literal rounds to zero or infinity; inf, infinity, nan and nan(...) are recognised in any case; if nothing matches, invalid_argument is reported, nothing is consumed and nothing is stored. No undefined behaviour and no dependence on uninitialized memory.',
 'all inputs of fewer than 2^57 characters, all four formats, float and double',
 'the inputs are unbounded (768 significant digits are kept, any number may follow), hard cases lie arbitrarily close to midpoints between floats',
 ['stl/inc/charconv:_Floating_from_chars','stl/inc/charconv:_Ordinary_floating_from_chars','stl/inc/charconv:_Convert_decimal_string_to_floating_type','stl/inc/charconv:_Convert_hexadecimal_string_to_floating_type','stl/inc/charconv:_Assemble_floating_point_value','stl/inc/charconv:_Right_shift_with_rounding','stl/inc/charconv:_Nan_from_chars','stl/inc/charconv:_Infinity_from_chars'])
prop('C39','Parallel searches return the sequential answer under every schedule',
 'Under every interleaving of any number of threads, and with any spurious failures of weak compare-exchanges, parallel find, find_if and find_if_not return the position of the first matching element (the end if there is none), and parallel all_of, any_of and none_of return the sequential answer; no thread waits for ever on another.',
 'all element counts, chunk counts, thread counts, predicates and interleavings',
 'a match in an early chunk may be published after any number of later ones; the schedules are unbounded',
 ['stl/inc/execution:_Static_partitioned_find3','stl/inc/execution:_Parallel_choose_min_result','stl/inc/execution:_Parallel_choose_min_chunk','stl/inc/execution:_Static_partitioned_all_of_family2'])
prop('C40','Parallel scans compute the sequential result under every schedule',
 'For every associative operation and every interleaving of any number of threads, parallel inclusive_scan, exclusive_scan, transform_inclusive_scan and transform_exclusive_scan whose intermediate type is the value type of the destination store exactly what the sequential algorithm stores, in place too; no intermediate sum is read before it was constructed, the threads never deadlock, and the number of steps is bounded.',
 'all element counts, chunk counts, thread counts, values, associative operations and interleavings',
 'which chunks look back over which others depends on the schedule',
 ['stl/inc/execution:_Scan_decoupled_lookback','stl/inc/execution:_Get_lookback_sum','stl/inc/execution:_Static_partitioned_exclusive_scan3','stl/inc/execution:_Static_partitioned_inclusive_scan3','stl/inc/execution:_Exclusive_scan_per_chunk','stl/inc/execution:_Inclusive_scan_per_chunk'])
prop('C41','Path iteration yields the elements of the path, and path comparison is a total order consistent with the hash',
 'Incrementing from begin() visits the root-name, the root-directory and the filenames of the path (and an empty element for a trailing separator) and then equals end(); decrementing from end() visits the same elements backwards. compare() has the sign given by the lexicographic comparison of root-names, presence of a root-directory and elements; it is antisymmetric and transitive, is zero exactly for paths that have the same root-name, root-directory and elements, and paths that compare equal have the same hash_value.',
 'all path texts',
 'root forms, repeated and mixed separators and trailing separators combine without bound',
 ['stl/inc/filesystem:_Path_iterator','stl/inc/filesystem:path::begin','stl/inc/filesystem:path::compare','stl/inc/filesystem:hash_value'])
prop('C42','The parallel sort sorts, under every schedule of the threads that steal work from each other',
 'While sort(execution::par, first, last, pred) runs, no two threads ever work on the same element, no thread touches an element outside of the range, a queue that does not exist or a buffer that has been given back, whatever the interleaving of the threads, whichever buffer growths are refused and wherever a weak compare-exchange fails spuriously. When it returns, the range is a sorted permutation of what it was, and every buffer of every queue is given back exactly once. A thread that waits for the lock of a queue waits for a thread that is at most three steps from releasing it.',
 'all sequences, all strict weak orderings, all numbers of threads and all interleavings',
 'an element lost or sorted twice in the work-stealing deque needs one particular interleaving of a push, a pop and several thefts around a growth of the buffer',
 ['stl/inc/execution:_Work_stealing_deque','stl/inc/execution:_Circular_buffer','stl/inc/execution:_Work_stealing_membership','stl/inc/execution:_Work_stealing_team','stl/inc/execution:_Process_sort_work_item','stl/inc/execution:_Process_sort_queue','stl/inc/execution:_Sort_operation','stl/inc/execution:sort'])
prop('C43','Waiting on an atomic object loses no notification',
 'For atomic objects that wait through the table of the library (all sizes that are not directly waitable): if the object holds a value other than v when notify_all ends and from then on, no thread sleeps in wait(v) on it then or later, whether it slept before or was about to, and once no thread can go on, all these waits have returned; if a thread sleeps in a wait on the object when notify_one ends, another wait on it is awake and does not sleep again while the value differs from its own. wait(v) returns only after it has seen another value; a notification wakes no wait on a different object; notify_one wakes at most one thread; no thread deadlocks, no execution touches the context of a wait that has returned, and a notification that has the lock ends within a bounded number of its own steps.',
 'all numbers of threads, objects and addresses (including those that collide in the table), all interleavings, all spurious wake-ups',
 'a lost wake-up needs a store and a notification between the comparison and the sleep of a waiter',
 ['stl/src/atomic_wait.cpp:__std_atomic_wait_indirect','stl/src/atomic_wait.cpp:__std_atomic_notify_one_indirect','stl/src/atomic_wait.cpp:__std_atomic_notify_all_indirect','stl/src/atomic_wait.cpp:_Guarded_wait_context','stl/src/atomic_wait.cpp:_Atomic_wait_table_entry','stl/inc/atomic:_Atomic_storage'])
prop('C44','A barrier lets nobody pass before all have arrived, and runs its completion function once per phase',
 'For every interleaving of calls of arrive, wait, arrive_and_wait and arrive_and_drop that respect the preconditions: a phase ends only after exactly its expected number of arrivals and after exactly one call of the completion function, made after the last arrival; wait with a token of a phase, and arrive_and_wait, return only after that phase has ended; the expected count of the next phase is the initial count less the number of arrive_and_drop calls; no internal check fails; no wake-up is lost and no thread deadlocks, provided that no phase ends while a thread still waits for the end of the phase before it.',
 'all expected counts, all numbers of threads, all interleavings, all spurious wake-ups',
 'phases overlap: late waiters of one phase run together with early arrivals of the next',
 ['stl/inc/barrier:barrier','stl/inc/barrier:arrive','stl/inc/barrier:wait','stl/inc/barrier:arrive_and_wait','stl/inc/barrier:arrive_and_drop','stl/inc/barrier:_Completion','stl/inc/barrier:_Arrival_token'])
prop('C45','unsynchronized_pool_resource hands out disjoint, aligned blocks and gives everything back',
 'After any history of allocate, deallocate (of blocks handed out, with the size and alignment they were asked for with), release and writes of the user into the blocks handed out, for any pool_options and any conforming upstream resource: the blocks handed out and not given back are not null, aligned as asked for, pairwise disjoint, and lie in memory held from upstream; neither allocate nor deallocate writes into a block that is still handed out; nothing is given back to upstream twice or with another size or alignment; allocate throws only bad_alloc, when upstream refuses or the size is within 40 bytes of SIZE_MAX; release gives everything back. A chunk holds at most max_blocks_per_chunk blocks, and once every block has been deallocated at most one spare chunk per block size is held.',
 'all histories, all options, all sizes and alignments (but for the two kinds of requests for which the code is wrong), all upstream resources, all contents of the blocks',
 'the free lists are threaded through the blocks of the user; a broken link shows only after a particular history',
 ['stl/inc/memory_resource:unsynchronized_pool_resource','stl/inc/memory_resource:_Allocate','stl/inc/memory_resource:_Deallocate','stl/inc/memory_resource:_Increase_capacity','stl/inc/memory_resource:_Find_pool','stl/inc/memory_resource:_Allocate_oversized','stl/inc/memory_resource:_Setup_options'])
prop('C46','atomic<shared_ptr> operations are atomic, and count references exactly',
 'Under every interleaving of store, load, exchange, compare_exchange_weak/strong and wait on an atomic<shared_ptr<T>> with creation, copying and destruction of shared_ptr objects by any number of threads: the operations take effect one at a time in some order that respects the order of non-overlapping calls, each returning what the sequential specification says (wait returns only after it has seen another value); no control block is used after it was freed; what a shared_ptr or the atomic object owns exists; once no operation is in progress the use count of every object is its number of owners, and it has been destroyed exactly if it has none. No thread waits for ever for the lock: a thread that holds it releases it and notifies within five steps of its own, and no wake-up is lost.',
 'all numbers of threads, objects and operations, all interleavings, spurious failures of weak compare-exchange and spurious wake-ups, reuse of addresses',
 'a reference lost or counted twice, or a lost wake-up, needs one particular interleaving',
 ['stl/inc/atomic:_Locked_pointer','stl/inc/atomic:_Lock_and_load','stl/inc/atomic:_Store_and_unlock','stl/inc/memory:_Atomic_ptr_base','stl/inc/memory:compare_exchange_strong','stl/inc/atomic:_Atomic_wait_direct'])
prop('C47','A future gives the one result that its provider stored, and nobody waits for ever',
 'For a promise, a packaged_task or a deferred function of async, with its future and any number of shared_future objects, under every interleaving of set_value, set_exception (also .._at_thread_exit), calls of the task, destruction of the provider, get, wait, wait_for, share, copies and destructions by any number of threads: at most one call that provides a result succeeds, every other one throws; the result never changes afterwards; get returns it (or throws it) only when the state is ready, and all calls of get agree; a provider destroyed without a result stores broken_promise, and nothing else does; a deferred function is called at most once, and exactly once before its result is used; no wake-up is lost: a waiting thread sleeps on only while there is no result and the provider exists, or until the thread that called .._at_thread_exit ends; the shared state is freed exactly once, when nothing refers to it any more, and is not used afterwards. One rule for the program: it does not destroy the provider while it is used, or before the end of a thread that has called an .._at_thread_exit function.',
 'all three kinds of provider, all numbers of threads and objects, all interleavings, spurious wake-ups and timeouts',
 'lost wake-ups, double results and early frees need one particular interleaving',
 ['stl/inc/future:_Associated_state','stl/inc/future:_State_manager','stl/inc/future:promise','stl/inc/future:packaged_task','stl/inc/future:_Deferred_async_state','stl/inc/future:future','stl/inc/future:shared_future','stl/src/xnotify.cpp:_Cnd_do_broadcast_at_thread_exit'])
prop('C48','Mutexes exclude, count and hand over; lock of several mutexes takes all or none and does not deadlock',
 'For timed_mutex and recursive_timed_mutex: no two threads own the mutex, a thread owns it as often as it has locked and not unlocked it (recursive: at most UINT_MAX times); an operation is refused only because another thread owns the mutex, or the count is at its limit. For shared_timed_mutex: an exclusive owner excludes every other owner, at most UINT_MAX threads share; a refusal has a reason; while a writer owns or waits for the readers to go, nobody newly gets shared ownership. For both: no wake-up is lost: a thread sleeps on only while another thread owns the mutex, or its timer runs. For std::lock, std::try_lock (and scoped_lock) with any number of mutexes: on normal return all are owned, on a failure index or an exception none is; while waiting for one mutex the call holds none of the others, so that threads which lock the same mutexes in any orders do not deadlock; a call that is left alone ends in a bounded number of steps.',
 'all numbers of threads and mutexes, all interleavings, all orders of arguments, spurious wake-ups, timeouts, exceptions of a member at each point',
 'lost wake-ups, double ownership and deadlocks need one particular interleaving',
 ['stl/inc/mutex:timed_mutex','stl/inc/mutex:recursive_timed_mutex','stl/inc/mutex:condition_variable','stl/inc/mutex:lock','stl/inc/mutex:try_lock','stl/inc/mutex:_Lock_attempt','stl/inc/mutex:_Try_lock_range','stl/inc/mutex:scoped_lock','stl/inc/shared_mutex:shared_timed_mutex'])
prop('C49','The vectorised algorithms return what the element-by-element algorithms return, and read only inside the range',
 'find, find of a different element, find_last, the position of the last element, adjacent_find, search_n, count and mismatch on contiguous ranges of elements of 1, 2, 4 or 8 bytes, on a CPU with AVX2, with SSE4.2 only or with neither: the call ends, does not read a byte outside of the range (also with masked loads of the tail), and returns the first (last) position that the plain loop would return, the end if there is none; for count the exact number, although the counters in the registers have 8, 16 or 32 bits.',
 'all ranges of every length, all values, all element sizes, all counts for search_n, all three kinds of CPU',
 'chunk boundaries, tails and counters that could wrap need particular lengths (for count of 4-byte elements more than 16 GB), and a machine has only one kind of CPU',
 ['stl/src/vector_algorithms.cpp:_Find_impl','stl/src/vector_algorithms.cpp:_Find_last_impl','stl/src/vector_algorithms.cpp:_Adjacent_find_impl','stl/src/vector_algorithms.cpp:_Search_n_impl','stl/src/vector_algorithms.cpp:_Count_impl','stl/src/vector_algorithms.cpp:_Mismatch_impl'])
prop('C50','The vectorised algorithms that write have exactly the effect of the element-by-element algorithms, and write only inside the range',
 'remove, remove_copy, unique, unique_copy, replace, replace_copy, reverse, reverse_copy and swap_ranges on contiguous ranges of elements of 1, 2, 4 or 8 bytes, on a CPU with AVX2, with SSE4.2 only or with neither: the call ends, reads and writes no byte outside of the ranges (also with masked stores, and although a whole register is stored when only a few elements are kept), the elements afterwards are those of the plain algorithm, bytes behind the result of a _copy algorithm keep their values even if the destination has exactly the room that is needed, and the returned pointer is behind the last kept element.',
 'all ranges of every length, all values, all element sizes, all three kinds of CPU, all old contents of destination and buffer',
 'chunk boundaries, full buffers, each of the 256 shuffles of a register and runs across registers need particular lengths and patterns, and a machine has only one kind of CPU',
 ['stl/src/vector_algorithms.cpp:_Remove_impl','stl/src/vector_algorithms.cpp:_Remove_copy_impl','stl/src/vector_algorithms.cpp:_Unique_impl','stl/src/vector_algorithms.cpp:_Unique_copy_impl','stl/src/vector_algorithms.cpp:_Make_tables','stl/src/vector_algorithms.cpp:_Replace_copy_impl','stl/src/vector_algorithms.cpp:__std_replace_4','stl/src/vector_algorithms.cpp:_Reverse_impl','stl/src/vector_algorithms.cpp:_Reverse_copy_impl','stl/src/vector_algorithms.cpp:__std_swap_ranges_trivially_swappable_noalias'])
prop('C51','Random number engines produce exactly the sequence the standard defines',
 'linear_congruential_engine, subtract_with_carry_engine and mersenne_twister_engine, for all their template parameters: after construction from a value or a seed sequence, the k-th call returns the k-th member of the sequence that the recurrence in the standard defines, and stays between min() and max(). discard(n) of a linear congruential engine (also the fast path for minstd_rand) leaves the state that n calls leave. Writing the state of an engine out and reading it into another gives an equal engine that goes on with the same sequence; two engines compare equal exactly if the saved states are equal. No call reads or writes outside of the ring buffer.',
 'all template parameters, seeds, seed sequences, numbers of calls, old contents of the engine',
 'the state is refilled in parts with wrap-around at three places, and a test looks at a few parameters and positions only; equal states are stored in different ways depending on the history',
 ['stl/inc/random:_Next_linear_congruential_value','stl/inc/random:linear_congruential_engine','stl/inc/random:_Circ_buf','stl/inc/random:subtract_with_carry_engine','stl/inc/random:mersenne_twister_engine'])
prop('C52','Seed sequences, engine adaptors and generate_canonical compute exactly what the standard defines',
 'seed_seq::generate writes, for all seeds and all lengths, the words that the algorithm of the standard gives, independent of the old contents and of the width of the elements. discard_block_engine<E,P,R> gives the first R of each P values of E. independent_bits_engine gives the w bits that the standard defines for every base engine, using up exactly the same values, and never waits for a value that the engine cannot give. generate_canonical takes the values in groups of the least sufficient size, rejects exactly the groups that the standard rejects, and returns a number in [0,1) such that every representable result is equally likely.',
 'all seeds, lengths, template parameters, ranges of the base engine, sequences of values of the base engine',
 'the choice of parameters depends on the range of the engine, with wrap-around when the range is the whole type; bias cannot be seen by running',
 ['stl/inc/random:seed_seq','stl/inc/random:discard_block_engine','stl/inc/random:independent_bits_engine','stl/inc/random:_Generate_canonical_params','stl/inc/random:generate_canonical'])
prop('C53','vector<bool> behaves as a sequence of bits',
 'vector<bool>, which packs its elements into words, behaves under every history of insertions, erasures, resizes, assignments, flips and element writes as a plain sequence of Booleans: the same sizes, the same elements, the same length_error throws; it compares equal exactly when the sequences are equal. Copying a range of bits (std::copy on its iterators, overlapping to the left or apart) moves exactly those bits for every alignment of source and destination, changes no other bit, never touches a word outside and never shifts by the width of a word or more, at run time and in constant evaluation; filling sets exactly the bits of the range; finding and counting a value and ordering two vectors give what the elements give.',
 'all memories, ranges, alignments, lengths, histories of operations',
 'there are 32 x 32 combinations of bit offsets times lengths times overlaps, each taking one of seven code paths; stray bits past the end are invisible until a later operation uncovers them',
 ['stl/inc/vector:_Copy_vbool','stl/inc/vector:_Fill_vbool','stl/inc/vector:_Find_vbool','stl/inc/vector:_Count_vbool','stl/inc/vector:_Insert_x','stl/inc/vector:_Trim','stl/inc/vector:_Vbase_compare_three_way','stl/inc/vector:vector<bool, _Alloc>'])
prop('C54','Conversions between UTC, system, TAI, GPS and file time count leap seconds right',
 'For every table of leap seconds (inserted or removed, known or future) get_leap_second_info gives the sum of exactly the leap seconds that have begun and recognises exactly the inserted seconds; utc_clock::from_sys adds exactly the leap seconds that took effect; every tick within an inserted second converts to the last tick of system time before it; from_sys then to_sys is the identity except in a removed second; to_sys never turns a later time into an earlier one; to_sys then from_sys is the identity outside of inserted seconds; tai_clock, gps_clock and file_clock convert to utc_clock and back without loss (file_clock outside of inserted seconds), from the right epochs. The table itself is the 27 historic leap seconds followed by all entries of the registry, with accumulated counts.',
 'all tables of leap seconds, all times, all integral resolutions of a second or finer',
 'no negative leap second has occurred, the code for them runs only on future data; errors show in single seconds next to one of the entries',
 ['stl/inc/chrono:get_leap_second_info','stl/inc/chrono:utc_clock','stl/inc/chrono:leap_second','stl/inc/chrono:_Tzdb_generate_leap_seconds','stl/inc/chrono:tai_clock','stl/inc/chrono:gps_clock','stl/inc/chrono:_File_time_clock'])
prop('C55','hh_mm_ss splits every duration exactly',
 'For every duration and every period hh_mm_ss splits the absolute value exactly: hours, minutes below 60, seconds below 60 and the digits of the fraction, with the sign apart, also for periods so fine that an hour cannot be expressed in them; fractional_width is the least number of decimal digits that expresses the period (6 if more than 18 would be needed); to_duration gives the duration back, truncated toward zero to that precision. is_am, is_pm, make12 and make24 convert between the clocks of 12 and 24 hours without loss.',
 'all counts, all periods num/den, all hours',
 'every period is a separate template instantiation with its own width and its own underflow branches',
 ['stl/inc/chrono:hh_mm_ss','stl/inc/chrono:_Remove_duration_part','stl/inc/chrono:_Duration_cast_underflow_to_zero','stl/inc/chrono:make12','stl/inc/chrono:make24','stl/inc/chrono:is_am'])
