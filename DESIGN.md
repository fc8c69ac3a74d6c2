# Formal model of microsoft/STL in Lean 4 — design

## 1. What is here

* `/verif/properties.jsonl` — the properties (generated by `tools/props.py` from `tools/props.d/*.py`, which is
  also the source of `MANIFEST.json`, so the two cannot drift).
* `/verif/lean/Verif/<Area>/Model.lean` — executable model of the code, every definition citing `/repo` lines.
* `/verif/lean/Verif/<Area>/Lemmas*.lean` — helper lemmas and invariants.
* `/verif/lean/Verif/<Area>/Props.lean` — the small independent specification, the property theorems, and
  `example`s showing that the hypotheses are met by a concrete non-trivial case.
* `/verif/seeded/LOG.jsonl` — wrong-program experiments (edits to the model, and which theorems caught them).

## 2. Modelling conventions

* **Undefined behaviour is an outcome.** Functions which can touch memory return `Except Err α` (`Verif/Base.lean`), with
  `Err.ub` for out-of-range reads/writes, reads of a moved-from object, arithmetic UB, etc. and
  `Err.exc …` for thrown C++ exceptions. Theorems say the result *is* `.ok …`, so absence of UB is part of the claim.
* **Ranges** are lists of cells `List (Option α)`: `none` is a moved-from object. Iterators are `Nat` positions.
* **Comparators** are arbitrary functions `α → α → Bool`; properties assume exactly the strict-weak-order laws.
* **Machine integers**: where wrap-around matters we use `BitVec n`/explicit `% 2^n`; where it does not, `Nat`/`Int`, with the
  simplification recorded next to the definition.
* **Loops** are structural/well-founded recursion, or take a fuel argument; in the latter case the theorem includes that
  the stated fuel suffices (the fuel-exhausted outcome is an error, never a silent default).
* **Concurrency** is an interleaving semantics: each atomic operation of the code is one step of a labelled transition
  system; properties are invariants/trace properties of all reachable states for any number of threads
  (sequentially consistent interleavings; weak-memory reorderings are not modelled).

## 3. Trusted base

* Lean 4.33.0's kernel; the axioms `propext`, `Classical.choice`, `Quot.sound` (nothing else; no `native_decide`, no
  `bv_decide`, no axioms of our own). `AXIOMS.md` lists them for every theorem of the manifest.
* The reading of the C++ source into the model. Nothing was compiled or run.
* See section 5 for what is and is not modelled.

## 4. Plan per property

| id | modelled | proof |
|----|----------|-------|
| C01 | `_Insertion_sort_unchecked`, `_Med3/_Guess_median`, `_Partition_by_pivot_unchecked`, `_Sort_unchecked`, heap fallback, over cell memory | loop invariants on a virtual list (moves = swaps), well-founded induction on range length |
| C02 | `_Stable_sort_unchecked` with buffer capacity as parameter, buffered merge, rotate-merge | each phase refines the stable merge of its halves; stability via "equal to the insertion-sort spec" uniqueness of stable sorts |
| C03 | heap algorithms | heap-with-hole invariant |
| C04 | `lower_bound` etc. | loop invariant on [first, first+count) |
| C05,C06 | red-black tree insert/erase with rotations (zipper for parent pointers) | in-order list preserved; colour/black-height invariants; height bound |
| C07 | `_Hash`: the node list in the heap of DList plus the bucket array of (first,last) pointers; every insertion, erasure, look-up, rehash, node handle operation and `merge` (`Hash/*`) | representation invariant (buckets and groups of equal keys are contiguous segments), refinement by a client-driven history to sequences of identified elements; `merge` as a relation between two histories |
| C08 | block map, offset, size; push/pop/grow | abstraction function reads offset+i; refinement to list |
| C09 | `vector` on explicit memory (buffers, raw and constructed cells), element operations and allocations that may throw at any point, histories of any number of vectors | Hoare logic with exceptions per function; refinement to a relational specification on lists, capacities and places by induction on adaptive clients |
| C10,C11 | digit loops with word arithmetic | invariant value = Nat value of digits; digits spec |
| C12 | the multiply-shift calendar code in 32-bit arithmetic | reduction to 400-year era; independent spec = successor-date recursion |
| C13 | `duration_cast`/floor/ceil/round on integer reps | omega / Int.ediv lemmas |
| C14 | word-level add/sub/mul/div (Knuth D) | Nat-valued abstraction, quotient-digit estimation lemma |
| C15,C16 | fallback bit tricks, rotl/rotr, gcd/lcm/midpoint/sat | BitVec/Nat lemmas |
| C17,C18,C29 | interleaving transition systems of atomic steps | inductive invariants (ghost ownership counts) |
| C19 | `path` parsing, decomposition, `/=`, `/`, `replace_extension`, `lexically_normal` on texts of 16-bit units with bounds-checked reads | equality with a position-free specification; normalization against the rewriting rules of [fs.path.generic]/6 |
| C20 | the decoders of `<format>`, UTF-32/UTF-16 conversion of `<filesystem>`, and `do_in`/`do_out` of `codecvt_utf8`, `codecvt_utf16`, `codecvt_utf8_utf16` (all configurations) on bounds-checked input and output ranges | each pass of a loop is characterised against an encoding specification; a run is a chain of such passes that ends for a stated reason; round trips over any split of the input and any sizes of the output windows |
| C21 | bump allocator, chunk list, upstream as parameter | disjointness invariant |
| C22 | word arrays with trim | pointwise semantics |
| C23 | rejection sampling; shuffle; sample (selection, reservoir, ranges) | counting preimages: fibres of the map from draws to results have equal size |
| C24 | layout mappings | mixed-radix induction |
| C25 | `_Big_integer_flt` ops | Nat value abstraction |
| C26 | list nodes / sort / merge / splice | permutation + link invariants |
| C27 | next/prev_permutation | lexicographic order successor |
| C28 | static partition arithmetic and chunk claiming | coverage by summation |
| C30 | `variant` as discriminator + union cell with ghost counters, a tape that decides which operations of contained objects throw; traits as parameters (`Variant/*`) | refinement by a client-driven history to a relational specification; mixed-radix induction for `visit` |
| C31,C32,C34,C35 | remaining algorithms | as C01 |
| C33 | `basic_string` on explicit memory: small buffers, allocations, the union of buffer and pointer; 41 operations including arguments that are parts of the string itself (`Str/*`) | representation invariant; refinement by a client-driven history to a relational specification (lists, capacities, allocations); two defects as theorems |
| C36 | `priority_queue` push/pop/push_range over the heap algorithms | history induction with the heap invariant of C03 |
| C37 | `<ratio>` templates as total functions with an error outcome for ill-formed instantiations | Int lemmas; `_Big_multiply`/`_Big_less` by a two-word value abstraction |
| C38 | the whole of floating-point `from_chars`, on top of the BigInt model, with uninitialized words as a parameter | rounding as a relation over rationals (`Rne`), scanning against a separate grammar with `Longest` |
| C39 | the threads of parallel `find` (both collectors) and `all_of` as a transition system | invariant: every match of a chunk handed out is either accounted for or in the hands of a thread |
| C40 | decoupled look-back as a transition system; chunk scans as loops over a destination that may be the input | ownership of chunks, published sums equal prefix sums; measure for termination; the path with another intermediate type is refuted |
| C41 | `path::iterator`, `compare`, `hash_value` function by function over 16-bit units | the iterators of a path as a chain of items equal to the specified elements; the comparison loop against the lexicographic order; equality of keys for the hash |
| C42 | `_Circular_buffer`, `_Work_stealing_deque`, `_Work_stealing_membership`, `_Work_stealing_team`, `_Process_sort_queue`, the callback and the loop of `sort`, one transition per atomic operation | an inductive invariant over all interleavings: per deque (contents of the live window, what owner and thieves know, reference counts as a sum over threads) and global (outstanding items disjoint, the sequence sorted up to the outstanding items, `_Remaining_work` = outstanding sizes + unreported sizes) |
| C43 | the wait table of `atomic_wait.cpp` (entry hash, lock, circular list of contexts, sleep, wake) and the loops of `atomic`, one transition per access, lock or sleep | inductive invariant: lock holder, linked contexts, ring shape at every point of a link or unlink, what a notification has done so far; bounded measures for the returns |
| C44 | `barrier`: one transition per atomic operation, call of the completion function or sleep; the preconditions on ghost counts | inductive invariant with sums over threads (completing threads, pending drops), phase parity for tokens, sleepers and values |
| C45 | `unsynchronized_pool_resource`: memory as words, chunks with headers after the blocks, intrusive lists, table of pools, oversized blocks | inductive invariant relating the words of the headers, free lists and block tails to ghost lists of chunks and blocks; a frame lemma per operation |
| C46 | `atomic<shared_ptr<T>>` and `_Locked_pointer`: one transition per access, lock bits in the word; ghost history appended by the exchange that unlocks | inductive invariant: sums over threads of the references held at each position, one lock holder, sleepers imply a pending notification; the history replayed by the sequential specification |
| C47 | `_Associated_state`, `promise`, `packaged_task`, deferred `async`, `future`, `shared_future`, notification at thread exit: one transition per access, lock, notification, change of the count or call of the user's function | inductive invariant: sums over threads (references, critical section, sleepers, positions before the store), what each completed operation gave; stuck states characterised |
| C48 | `timed_mutex`, `recursive_timed_mutex`, `shared_timed_mutex`: one transition per lock or unlock of the inner mutex, test with its stores, sleep, wake-up, notification; `std::lock`, `std::try_lock`: one transition per call of a member of one mutex | inductive invariants: sums and witnesses for pending notifications, what each thread holds by position; stuck states characterised; termination of a call alone by a measure |
| C49 | `vector_algorithms.cpp`: `_Find_impl`, `_Find_last_impl`, `_Adjacent_find_impl`, `_Search_n_impl`, `_Count_impl`, `_Mismatch_impl` and their tails, with loads that fail outside of the range | a mask is described by a predicate on lanes (`Msk`); loop invariants over chunks; the portions of count bound each counter; a window of two chunks for search_n |
| C50 | Elements are lists of bytes; loads, stores, masked stores and shuffles on them; the tables of `_Make_tables` are computed by the model of that function (`VWrite/Model.lean`). | One lemma says what a table row does to a register for each mask (by induction over the row, not by listing the 256 rows); then an invariant for each loop: what is written is the plain result of what was read, and what is not yet read is untouched (for `unique` also the element before). |
| C51 | The circular buffer of 2n words and the index are modelled as they are; words are bit vectors of the width of the type; every access is checked and fails outside of the buffer (`Engines/Model.lean`). The specification is the recurrence of the standard on a history of the last n words (`swcStep`, `mtStep`, `lcgModulus`, `packSpec`). | Invariant: the n words before the index (modulo 2n) are the history; each call of the engine takes one step of it, the refill of half of the buffer takes n steps. Seeding by induction over the words. |
| C52 | Words as natural numbers with explicit reductions; the base engine is a list of the values it will give, or any state machine (`Adaptors/Model.lean`). The specification is the algorithm of the standard in plain arithmetic (`Adaptors/Spec.lean`). | Simulation of each round of seed_seq; the parameters of independent_bits_engine are those of the standard modulo the width of the type, the packing loops by induction; generate_canonical: no intermediate overflows its type, retry loop by induction, uniformity by the bijection between groups and numbers in base R. |
| C53 | Memory as words of 32 bits with checked accesses and shifts (`VBool/Model.lean`, `VBool/VecModel.lean`, `VBool/Search.lean`); the reference is a list of Booleans with its operations (`VBool/Spec.lean`). | Every code path of the copy moves consecutive runs of bits; runs compose (`Moved.chain`) when the ranges do not overlap the wrong way. The container invariant (number of words; unused bits zero) is kept by every operation, histories by induction. |
| C54 | The table with its accumulated counts, the look-ups and conversions on integers (`Utc/Model.lean`); the reference sums signs over all entries that have begun (`Utc/Spec.lean`). | Both look-ups find the cut before which all entries have begun (`info_eq`), in the all-positive case after the extra decrement; sums over the cut give the counts; conversions by arithmetic on the cut. |
| C55 | Durations as a count and the numerator of a period over one denominator, the casts with their reduced ratios and the compile-time underflow tests (`Hms/Model.lean`); the reference is quotient and remainder of the length. | Each step keeps the length modulo the unit (`removePart_eq`); the underflow branches are right because such a length is less than the unit; the width by the prime factors of the denominator. |

## 5. What is modelled, and what is not

General: no templates, overload resolution, `constexpr` dispatch, allocators (except where named), debug iterators, exceptions thrown by user code
(except where named: Deque, Vec, Str, Variant, Hash, ...), vectorised paths implemented in `/repo/stl/src/*.cpp` or with intrinsics, or `volatile`. Every model function names the lines it models.

* **Sort, Search, Reorder, StableSort, SetOps, Searchers, Perm** — the non-vectorised, unchecked cores. Elements are moved, copied and swapped without throwing;
  a moved-from element may not be read. The temporary buffer of `stable_sort`/`inplace_merge`/`stable_partition` is a parameter (any capacity, also 0), with its
  elements constructed lazily as `_Uninitialized_backout` does.
* **Charconv** — integer `to_chars`/`from_chars` (all bases, all widths). Floating-point `from_chars`: see BigInt and FloatConv.
* **Chrono** — civil calendar conversions, month/year arithmetic, last days and last weekdays of months, which indexed weekdays exist. Time zones, parsing, formatting not modelled.
* **Duration** — casts and rounding of integer representations of 8–64 bits, with overflow as undefined behaviour.
* **Conc** — `shared_ptr`/`weak_ptr` counts, `latch`, `counting_semaphore`, `stop_token` and more. Sequentially consistent interleavings with one atomic operation per
  transition; weak memory orders are not modelled. Misuse is a `bad` flag of the state, so safety theorems say that it is never raised.
* **Deque** — block map, offset, size. Findings: `deque::assign(n, val)` decrements `_Assign_count` to 0 in its assignment loop and so always erases and re-creates
  the tail; `deque::insert(pos, 0, val)` move-assigns elements to themselves; the `_Myboff > _Count` branch of `_Growmap` is unreachable.
* **RBTree** — `xtree` nodes in a heap with null-able pointers, the header node, insert/erase with rotations, find/bounds; several containers can share one heap.
  The comparator does not throw; node handles and copy construction are not modelled; loops down the tree have logarithmic fuel (that it suffices is proved).
* **DList** — `list` nodes in a heap: insert/erase/splice/merge/sort/unique/remove/reverse.
* **Random** — an engine is the list of the values it will return; "unbiased" counts, for every number of engine calls, the runs which return each value; the
  128-bit product is mathematical.
* **Mdspan** — `extents`, `layout_left/right/stride`, index types with C++ integer promotion. Accessors, `submdspan` and converting constructors not modelled.
  Findings: `_Fwd_prod_of_extents` with `unsigned short` promotes to `int`, extents (65535,65535,0) overflow; `_Rev_prod_of_extents` likewise overflows when another
  extent is 0; `layout_stride`'s debug check starts `_Req_span_size` at 0; `layout_stride::required_span_size` can overflow before it meets a zero extent; the debug
  chain check `first * second` may wrap.
* **Bits** — `<bit>` fallbacks; intrinsics by their documented meaning.
* **Bitset** — every operation except stream insertion/extraction and the vectorised string paths; the array is arbitrary before the string constructor fills it.
* **Num** — `gcd`, `lcm`, `midpoint`, `cmp_*`, `in_range` for types of 8–64 bits with promotion and the usual arithmetic conversions; floating-point `midpoint` not
  modelled; saturating arithmetic does not exist at this commit. Finding: with `unsigned short` the product in `lcm` is promoted to `int` and can overflow (only if the
  result is not representable, a precondition violation).
* **Ratio** — ill-formed instantiations are an error outcome.
* **Int128** — all of `_Base128`, `_Unsigned128` and `_Signed128` except the conversions to narrower types and mixed-type wrappers that only convert and forward; words are `BitVec 64`.
  `_Knuth_4_3_1_D` is modelled on bounds-checked arrays of 32-bit digits with overflow of its `int64_t` variables as an error; both the base-2^64 and the base-2^32 long division are
  proved, for every configuration. The intrinsics are taken by their documented meaning (the same as the portable code, which is proved). Findings: `_Signed128 / (signed char) -128`
  (and `short`) negates in the narrow type and returns a wrong quotient (`C14_div_schar_min`); for `int` and wider the negation of the smallest value is signed overflow; the branch
  `_High_digit >= _Den._Word[1]` of the base-2^64 division is never taken.
* **BigInt** — `_Big_integer_flt`: every operation; a word that is not in use may be uninitialized, reading it is an error, and so is writing outside the 115 words. The temporary
  of `_Multiply` starts with arbitrary words. All 578 words of `_Large_power_data` are checked against the powers of ten in the kernel. Finding: `_Multiply` of two multi-word
  numbers reports overflow already if the product needs the 115th word (so for 2^3648 ≤ product < 2^3680, which fits).
* **FloatConv** — `from_chars` for `float` and `double`, all formats: `_Floating_from_chars`, `_Ordinary_floating_from_chars`, `_Infinity_from_chars`, `_Nan_from_chars`, both conversions, assembling and rounding. A value is a bit pattern. Specification: `Spec.lean` (grammar of literals, exact rational value, nearest pattern with ties to even; infinity stands for the first power of two out of range). Not modelled: 32-bit `ptrdiff_t`, inputs of 2^57 characters or more, `_STL_INTERNAL_CHECK`. Observation: the comment "assumes no overflow" at the second shift (`_Shift_success2`) is not true for e.g. 768 digits with exponent -330 — the shift then clears the number — but the stored result is still correct, and that is what is proved.
* **Par** — `execution`: partition arithmetic (`_Static_partition_team`, `_Static_partition_range` and the backward range), chunk claiming, `for_each`, `find` family, `all_of` family, the four scans with decoupled look-back. Interleaving of atomic operations, sequentially consistent (the code uses `seq_cst` for claiming, compare-exchange and publication; the relaxed loads of `_Complete` only read a flag). A thread-pool callback may start at any time or never. Not modelled: `_Parallelism_resources_exhausted` fallbacks, exceptions (they terminate), wake-ups of waiting threads (only the condition waited for). Defect found: when the intermediate type of a scan is not the value type of the destination, a chunk that waits for its predecessor reads `_Intermediate_result` one element off (`exclusive`) and past its end (both): `C40_exclusive_other_type`, `C40_inclusive_other_type`.
* **Pmr** — `monotonic_buffer_resource` and `std::align` on a memory of words of 4 or 8 bytes; the upstream resource is any function that returns suitably aligned memory
  disjoint from everything outstanding, or fails. Finding (not in the model): `unsynchronized_pool_resource` with alignment ≥ 2^(w-2) makes `_Next_capacity << _Log_of_size`
  wrap for the first chunk.
* **Findings in `<chrono>`**: `month + months{INT_MIN}` computes `count() - 1`, which overflows `int`.
* **Path** — `filesystem::path` on its native text (Windows rules): root parsing, decomposition, `filename/stem/extension`, `remove_filename`, `replace_extension`, `/=`, `/`,
  `lexically_normal`. The specification of normalization is the standard's list of rewriting rules on tokens, applied exhaustively. Not modelled: conversions of the source encoding,
  file-system access, aliasing (`p /= p`: `_Text.push_back` may reallocate while pointers into the same text are held). Findings: `lexically_normal` is not idempotent and changes the
  root for `./c:.` (gives `c:.`, then `c:`), and `\??\\x` becomes `\??\x`, which has a root-name; proved as theorems.
* **Utf** — `_Decode_utf` and `_Unicode_codepoint_iterator` of `<format>`, `_Convert_utf32_to_wide`/`_Convert_wide_to_utf32` of `<filesystem>`, `do_in`/`do_out` of the three facets of
  `<codecvt>` with `consume_header`, `generate_header`, `little_endian`, `_Mymax` and the width of `_Elem` as parameters. Not modelled: `do_length`, `do_unshift`, `do_encoding`, the facets
  `codecvt<char16_t, char>` and `codecvt<char32_t, char>` of `<xlocale>`, `wstring_convert`. Observations proved or visible in the statements: the header is lost for good if the first
  call of `do_out` finds too little room (`C20_utf8_header_lost`, `C20_utf16_header_lost`); `codecvt_utf8_utf16::do_in` with `consume_header` rolls the input back but not the delivered
  output, so a code can be read twice (`C20_utf8_utf16_header_repeats`); overlong forms, surrogates and first bytes FE, FF are accepted by `codecvt_utf8`; the check against `_Mymax` in
  `codecvt_utf8_utf16::do_in` ignores the last six bits of long sequences and `do_out` does not check at all; `codecvt_utf8` truncates codes above the range of a 16-bit `_Elem` when `_Mymax` is the default.
* **Hash** — `xhash` (`unordered_set/map/multiset/multimap`): `_Find_last/_Find_hint/_Find_first/_Equal_range`, `emplace` in its three forms
  with and without hint, `insert(node)`, `extract`, `erase` in all forms, `clear`, `_Forced_rehash`, `rehash`, `reserve`, the bucket
  interface and `merge`. The float arithmetic of the maximum load factor is an arbitrary pair of functions; only `C07_load_factor` assumes that
  they fit together (and exhibits such a pair). Hash and equality may throw in the middle of a rehash, not elsewhere. Not modelled: copy, move,
  swap, `operator==`, iterator debugging, wrap-around of `size_t`. Finding: `merge` uses the hash function of the target to locate the bucket
  in the source (xhash:1381,1398); with differing hash functions the source keeps dangling bucket entries (`C07_merge_defect`).
* **Vec** — modelled (vector:370-2140, xmemory:1849-2337): `_Calculate_growth`, `_Change_array`, `_Tidy`, `_Buy_raw`, `_Clear_and_reserve_geometric`,
  `_Reallocation_guard2`, `_Vaporization_guard`, `_Emplace_reallocate`, `push_back`/`emplace_back`, `emplace`/`insert`, `insert(pos, n, val)`,
  `_Append_(un)counted_range`, `_Insert_(un)counted_range`, `assign` in all forms, `_Resize`, `reserve`, `shrink_to_fit`, `pop_back`, `erase`,
  `clear`, all constructors, copy and move assignment, `swap`, `at`, and accesses through pointers. Memory is explicit: constructing over an object,
  touching a raw cell, freeing with the wrong size or with objects inside are undefined behaviour and excluded. Every construction and
  assignment that may throw consults a tape, every allocation another. Simplified: `rotate` by its specification (C03 proves it about the code);
  input ranges are lists of their elements; the constructor with one extra element of unused capacity is not distinguished. Not modelled:
  `vector<bool>`, unequal allocators, iterator debugging, address sanitizer annotations, the `memmove` branches separately from the loops.
* **Str** — modelled (xstring:388-520, 872-3249, 3309-3391): `_Calculate_growth`, `_Reallocate_for`, `_Reallocate_grow_by`, `_Become_small`, `_Eos`, `_Tidy_deallocate`,
  `_Construct` in its three strategies, `_Construct_from_iter` for input iterators, the concatenating constructors, `_Move_construct_from_substr`, `_Take_contents`, assignment, `_Append`,
  `_Assign`, `_Insert`, `_Replace` and the overloads with a count and a character, `erase`, `clear`, `pop_back`, `resize`, `resize_and_overwrite`, `reserve` (C++20, without argument and C++17), `shrink_to_fit`,
  `swap` bytewise and member by member, `at`, `operator[]`. Memory is explicit: accesses outside a buffer, `copy` of overlapping ranges, use of the inactive member
  of the union and freeing with the wrong size are undefined behaviour and excluded. Pointers passed to the operations may point into the string itself; the answer of a comparison of
  unrelated pointers is arbitrary. Not modelled: unequal allocators, constant evaluation, iterator debugging, address sanitizer annotations; the
  overloads with iterators that are not pointers construct a temporary with modelled operations; searching is in `Searchers`. Findings: `replace` with a source in the string itself that begins before the replaced part
  and ends inside of it wraps around `_Count - _Ptr_shifted_after` when the result fits (`C33_replace_defect`, e.g. `s = "12345678"; s.replace(4, 3, s.data() + 1, 4)`);
  `operator=(ch)` overflows the buffer of an empty string of characters so large that the small capacity is zero (`C33_assign_char_defect`).
* **Variant** — `_Variant_base`, `_Variant_storage`, the special member functions of xsmf_control.h with their trivial paths, `emplace`, `operator=(T&&)`, `swap` (all three strategies), `get`, `get_if`,
  `holds_alternative`, the comparisons, `hash`, `visit` (table index, cartesian product, dispatch). Alternatives are numbers with values and traits; a construction over a live object with a non-trivial destructor, access to
  an object that is not there and a failing internal check are undefined behaviour and excluded by `C30_history`. The union is flat (`C30_raw_get` shows that the unrolled recursion counts the tails right).
  Not modelled: constant evaluation, tombstones, self-referential arguments, visitors (the result of `visit` is what the visitor is invoked with).
* **Path elements** — `_Path_iterator` (`++`, `--`), `begin`, `end`, `compare`, `hash_value` (64-bit FNV-1a of the wide characters). Reads outside of the text are undefined behaviour and excluded by the theorems.
* **Parallel sort** — a transition system with about 45 program points per thread; one transition is one atomic operation, one word of the speculative read `_Val = _Stealing_segment->_Subscript(_Local_t)` (which the code says is a
  data race) or of the owner's write, one lock or unlock. Ghost fields (end of the untaken elements, their values, the element that a popping owner owns before it reads it) are written only. The work on one item is two transitions
  (read the range, write the result), with the functions of C01 in between, so that another thread working on the same elements would be visible. Sequential consistency is assumed (all operations of the code are
  `seq_cst` or under the lock, except the speculative read). `size_t` wraps at 64 bits. Not modelled: `_Throw_parallelism_resources_exhausted` from the constructors before any thread is started (the code then does what
  C01 says), `::operator new` that throws in `_Allocate_circular_buffer` (execution:537): `bad_alloc` is not caught by the handler at execution:2707 although its comment (2708) says that memory can't be acquired, and ends the program
  through `noexcept`; termination under fair schedules.
- **C43 (`AWait/`).** `Model.lean` has one transition per line of `__std_atomic_wait_indirect`, of the notifications and of the constructor and destructor of the context. The nodes of the list are the heads of the table entries and the
  contexts of the threads; reading or writing a context after its destructor is undefined behaviour of the model. The ghost field `ord` lists the contexts of an entry. The notified thread stays in the list until it has the lock
  again, hence `C43_notify_one_repeats`: two `notify_one` after one store may both notify the first of two waiters, and the second sleeps on (the standard asks that each call unblocks an eligible wait; the code for
  directly waitable sizes leaves this to `WakeByAddressSingle`). Trusted: the documented behaviour of SRW locks and condition variables. Not modelled: `WaitOnAddress`, timeouts (only `semaphore` and the like use them, C17), padding.
- **C44 (`Conc/Barrier.lean`).** The counters are integers (`max()` excludes overflow). Ghost counts (phase, arrivals, expected count, calls of the completion function, pending and completed `arrive_and_drop`) state the preconditions of the
  standard, where a begun `arrive_and_drop` holds one arrival of its phase, and the theorems. `C44_wait_two_phases` exhibits the limit of the one-bit phase: with an expected count of 1, a thread that has a token of phase 0 and calls
  `wait` in phase 1 sleeps if another thread completes phase 1 before the load in `wait`. Trusted: `WaitOnAddress` compares and sleeps atomically and is woken by `WakeByAddressAll`.
- **C45 (`PoolRes/`).** `Model.lean` follows `_Pool`, `_Chunk` and `_Oversized_header` line by line over a memory of 64-bit words: a chunk is `n` blocks followed by its header, the last word of a block in use is the address of the header,
  the first word of a free block is the link. Reading a null link or giving back to upstream what was not obtained is undefined behaviour of the model. `_Pools` is a list (its buffer is obtained from and given back to upstream).
  `UpOk` says what is asked of upstream: blocks not null, aligned, disjoint from those outstanding and from the resource object, within the address space. Foreign code may write everywhere but in what the resource keeps.
  Findings: `C45_zero_size_defect` (`allocate(0, 8)`, `deallocate`, `allocate(0, 8)`, `deallocate` reads a garbage chunk pointer, because blocks of 8 bytes have room for either the link or the pointer), `C45_overalign_defect`,
  `C45_single_block_chunks_stay`.
- **C46 (`AtomicSp/`).** `Model.lean` has one transition per access of `_Lock_and_load`, `_Store_and_unlock` and of the operations; the word is the address of the control block plus two lock bits. `Spec.apply` is the sequential
  specification; the history `log` is ghost. Linearizability is `C46_linearizable` (one history, legal, with the results that the threads got) with `C46_order` (it only grows, so calls that do not overlap keep their order) and
  `C46_results` (the `shared_ptr` objects returned have the recorded values). Addresses of freed blocks may be reused, so that ABA would show. Trusted: `WaitOnAddress` compares and sleeps atomically, `WakeByAddressAll` wakes all.
- **C47 (`Future/`).** `Model.lean` is one associated state with any number of threads; `done` (ghost) records what each completed operation gave, `calls` the calls of the user's function. The only rule (`okAct`) restricts the start of
  the destruction of the provider: no operation of the provider is in progress, no thread is registered for notification at its exit. `Inv.lean`, `Step.lean`, `Step2.lean`: main invariant (13 sums over threads); `Inv2`-`Inv4`: results of
  user functions, progress. `C47_progress` is about states in which no thread can take a step by itself. Findings, in `Examples.lean`: `ex_terminate`, `ex_terminate2` (a promise destroyed after `set_value_at_thread_exit` and
  before the thread ends calls `terminate`: the repository lists the six libc++ tests of these functions as failing), `ex_use_after_free` (the thread at its exit sets `_Ready` before it notifies and unlocks: a thread that sees
  it may free the state), `ex_deadlock` (`system_error` where the standard wants `promise_already_satisfied`), `ex_stuck_exit` (`wait_for` blocks on the mutex, beyond its timeout).
* **C48** (`Locks/Timed.lean`, `Shared.lean`, `Multi.lean`, with `..Props.lean`). Ghost state: what each thread owns (tied to its completed operations by `C48_timed_exclusive`, `C48_shared_exclusive`), the thread that has set
  `_Writing`. Programs that unlock what they do not own, or lock what they own (except the recursive mutex), are excluded by the start of an operation. `Multi` takes the mutexes as given, with spurious failures of `try_lock` and
  exceptions. `Examples.lean` has runs that meet the hypotheses, and `ex_late`: `wait_until` sleeps again after an early end of the system's timer without a test of the predicate, so that a free mutex is taken late.
- `sample` (C23): `Random/SampleModel.lean` models `_Sample_selection_unchecked`, `_Sample_reservoir_unchecked`, `sample` and `ranges::sample` on populations as lists; iterator unwrapping and the casts between difference types are not modelled. `ranges::sample` on forward ranges stops early, so its runs have different lengths; it is proved to return the same selection as `sample` on the same engine output.
- Vectorised algorithms (C49): `VAlg/Model.lean` follows the x64 paths function by function. A register is the list of its lanes, `movemask` gives `s` bits per lane, `maskload` reads only the masked bytes. A load outside of the range, or of a position that is not a multiple of the element size, has no result, so that the theorems also say that nothing outside is read. `hadd`, `sad`, `permute4x64` and the lane-wise subtraction wrap as the hardware does. Not modelled: ARM64, 32-bit processes, and the conversion of the searched value to the element type in the headers.
- **C50 (`VWrite`)**: the choice of the CPU path, all loops, tails and tables of the x64 paths. Simplified: an element is a list of bytes and loads and stores are aligned to elements (they are, since all pointers move by multiples of the element size); byte shuffles take indices modulo the register; `_Avx2_rev_tail_mask_32` is described by its effect (the last bytes of the register are loaded); the comparison of registers compares elements. Not modelled: ARM64, 32-bit processes, `noalias`, overlap of source and destination.
- **C51 (`Engines`)**: `_Next_linear_congruential_value`, `_Skip_ahead..` (minstd discard), `linear_congruential_engine`, `_Circ_buf` (`_Base`, `_At`, `_Equals`, `_Setx`), `subtract_with_carry_engine`, `mersenne_twister_engine` with seeding from values and seed sequences, saving and restoring. Simplified: streams carry the words themselves, extraction does not fail; a shift by the full width (undefined in C++, multiplied away or masked in all uses) gives 0; promotion of 16-bit words to int wraps.
- **C52 (`Adaptors`)**: `seed_seq::generate`, `discard_block_engine::operator()`, `independent_bits_engine::_Init` and `operator()`, `_Generate_canonical_params`, `generate_canonical` up to the final multiplication by a power of two. Undefined behaviour is `none`. Simplified: values of the base engine are given as offsets from its minimum; `size_t` has 64 bits; 16-bit types are not promoted to int (all intermediate values fit).
- **C53 (`VBool`)**: `_Fill_vbool`, `_Copy_vbool` (all paths), `_Find_vbool`, `_Count_vbool`, the comparisons, `_Trim`, `_Insert_x`, `_Insert_n`, `insert`, `erase`, `resize`, `clear`, `flip`, `assign`, the constructor from a count, element access. Simplified: source and destination of a copy lie in one array of words; memmove and memset are loops; little-endian bytes; the vector of words is resized without a model of its allocation; iterator debugging is off; count-zero and popcount instructions are their definitions.
- **C54 (`Utc`)**: `leap_second`, `_Tzdb_generate_leap_seconds` (the table it builds), `get_leap_second_info`, `utc_clock::to_sys`/`from_sys`, `tai_clock`, `gps_clock`, `file_clock`, the known dates. Simplified: unbounded integers; `upper_bound` is the partition point (C04); integral ticks, `P` per second; the hypothesis `Separated` (entries further apart than their number plus two seconds). `Utc/TableModel.lean` builds the table from the literals and the entries of the registry (the call that reads the registry is an argument); dates use the calendar of C12. Not modelled: floating-point ticks, the registry call and its errors.
- **C55 (`Hms`)**: `hh_mm_ss` (constructor, accessors, `to_duration`, `fractional_width`), `_Remove_duration_part`, `_Duration_cast_underflow_to_zero`, `is_am`, `is_pm`, `make12`, `make24`. Simplified: unbounded counts; `duration_cast` is the truncated quotient by the reduced ratio (C13). Not modelled: floating-point representations.
