{"id": "C01", "title": "channel: pops deliver pushes in FIFO order, none lost, none duplicated", "statement": "At every instant of every execution, the values removed by pop/try_pop (in removal order) followed by the values still buffered are exactly the values whose push/emplace/try_push/try_emplace inserted them, in insertion order.", "quantifier": "every number of threads, every sequence of channel calls per thread, every capacity, every interleaving at the granularity of lock acquisition / condition-variable wait, wake (also spurious) and notification, every element type value", "why_tests_cant": "a test runs a handful of schedules; the claim is about all interleavings, including spurious wakeups and delays between unlock and notify", "anchors": ["include/dice/template-library/channel.hpp: channel::emplace, try_emplace, pop, try_pop, close"]}
{"id": "C02", "title": "channel: the buffer never exceeds the capacity", "statement": "The number of buffered elements (inserted and not yet removed) is at most the capacity given to the constructor at every instant.", "quantifier": "every execution as in C01, every capacity including 0", "why_tests_cant": "needs all schedules of concurrent producers between the capacity test and the insertion", "anchors": ["include/dice/template-library/channel.hpp: channel::emplace, try_emplace"]}
{"id": "C03", "title": "channel: close stops insertion and lets consumers drain", "statement": "Once close() has taken effect no element is ever inserted again and no push that starts afterwards returns true; elements already buffered can still be popped; a pop returns nullopt only when the channel is closed and empty, and after a pop returned nullopt the channel is empty for ever.", "quantifier": "every execution as in C01, every moment at which close is called, repeated and concurrent closes", "why_tests_cant": "closing races with pushes that already passed the unlocked fast-path test; tests cannot enumerate those windows", "anchors": ["include/dice/template-library/channel.hpp: channel::close, closed, emplace, pop, try_pop"]}
{"id": "C04", "title": "channel: return values tell the truth", "statement": "push/emplace/try_push/try_emplace return true iff exactly this call inserted its element and false iff it inserted nothing; push returns false only if the channel is closed; try_push returns false only if the channel is closed or was full at the moment it held the lock; pop/try_pop return a value iff exactly this call removed it; try_pop returns nullopt only if the buffer was empty at the moment it held the lock.", "quantifier": "every call in every execution as in C01", "why_tests_cant": "requires relating each call's result to the shared history under all interleavings", "anchors": ["include/dice/template-library/channel.hpp: channel::emplace, try_emplace, push, try_push, pop, try_pop"]}
{"id": "C05", "title": "channel: no lost wakeups", "statement": "Whenever a consumer is asleep in pop() although an element is buffered or the channel is closed, a wakeup that will reach a waiting consumer is still pending or a woken consumer is on its way to the lock; symmetrically for producers asleep although there is room or the channel is closed. Hence no execution can get stuck with a sleeping thread whose condition holds.", "quantifier": "every execution as in C01; every element type (also one whose constructor or move throws)", "why_tests_cant": "deadlocks caused by a lost notification show up in very few schedules", "anchors": ["include/dice/template-library/channel.hpp: channel::emplace, pop, close, queue_not_empty_, queue_not_full_"]}
{"id": "C06", "title": "channel: linearizable to a bounded FIFO queue with close", "statement": "Every call takes effect atomically at one instant between its invocation and its return, and the results of all calls are those of an atomic bounded FIFO queue with a close flag processing the calls in the order of these instants; in particular values pushed by one thread are popped in the order that thread pushed them.", "quantifier": "every execution as in C01", "why_tests_cant": "linearizability quantifies over all concurrent histories", "anchors": ["include/dice/template-library/channel.hpp: channel"]}
{"id": "C07", "title": "channel: iterating yields exactly what pop would deliver until close", "statement": "A range-for loop over the channel by the only consumer visits exactly the values inserted, in insertion order, and terminates exactly when the channel is closed and drained; dereferencing never changes the channel; incrementing an iterator performs exactly one pop.", "quantifier": "every finite stream of pushes followed by close, every buffered prefix at the time of begin()", "why_tests_cant": "unbounded streams; interaction of the look-ahead buffer with draining", "anchors": ["include/dice/template-library/channel.hpp: channel::iterator, begin, end"]}
{"id": "C08", "title": "exchange_channel: pop returns the most recent unread value, each value at most once", "statement": "At every instant the channel holds either nothing or the last inserted value; every value removed was the most recently inserted one at the moment of removal; no inserted value is delivered twice; a value is dropped without delivery only if a later insertion replaced it.", "quantifier": "every number of threads, every call sequence, every interleaving, spurious wakeups included", "why_tests_cant": "overwriting races with popping in all schedules", "anchors": ["include/dice/template-library/exchange_channel.hpp: exchange_channel::emplace, pop, try_pop"]}
{"id": "C09", "title": "exchange_channel: close semantics and no lost wakeups", "statement": "After close no insertion happens; the remaining value can still be popped once; pop returns nullopt only when closed and empty; no consumer sleeps for ever while a value is available or the channel is closed.", "quantifier": "every execution as in C08, every element type (also throwing ones)", "why_tests_cant": "all schedules and all close points", "anchors": ["include/dice/template-library/exchange_channel.hpp: exchange_channel::close, emplace, pop, try_pop"]}
{"id": "C10", "title": "mutex: access to the value is mutually exclusive and the lock is released exactly when its guard goes away", "statement": "At every instant at most one live guard owns the lock; the mutex is locked iff exactly one live guard owns it; try_lock fails iff some live guard owns it; moving a guard transfers ownership; destroying or overwriting the owning guard unlocks; when all guards are gone the mutex is unlocked; a guard that was moved from gives no access to the value.", "quantifier": "every sequence of lock, try_lock, guard move construction, guard move assignment (also onto an owning guard, also self), guard destruction on any number of guards by any number of threads", "why_tests_cant": "unbounded histories of guard moves and interleavings", "anchors": ["include/dice/template-library/mutex.hpp: mutex, mutex_guard"]}
{"id": "C11", "title": "shared_mutex: many readers or one writer", "statement": "At every instant either at most one live guard owns the value exclusively and no guard owns it shared, or no guard owns it exclusively; the reader count equals the number of live shared guards; try_lock succeeds iff no guard owns anything; try_lock_shared succeeds iff no guard owns exclusively; with all guards gone the mutex is free.", "quantifier": "every history as in C10 with shared and exclusive guards", "why_tests_cant": "unbounded histories of guard moves and interleavings", "anchors": ["include/dice/template-library/shared_mutex.hpp: shared_mutex, shared_mutex_guard"]}
{"id": "C12", "title": "limit_allocator: the budget holds at every instant under concurrency", "statement": "At every instant of every concurrent execution the bytes obtained from the wrapped allocator and not yet returned to it never exceed the limit, and budget left + bytes outstanding + bytes in flight equals the initial limit; when no call is running, budget left + bytes outstanding = limit.", "quantifier": "any number of threads and allocator copies/rebinds sharing the budget, every interleaving of the individual atomic operations, spurious compare-exchange failures, every pattern of upstream failures", "why_tests_cant": "races between concurrent compare-exchange loops, refunds and upstream failures", "anchors": ["include/dice/template-library/limit_allocator.hpp: limit_allocator_control_block, limit_allocator::allocate, deallocate"]}
{"id": "C13", "title": "limit_allocator: an allocation is refused iff it does not fit, and a failed allocation costs nothing", "statement": "allocate(n) throws bad_alloc without touching the wrapped allocator iff n*sizeof(T) exceeds the remaining budget; if the wrapped allocator throws, the budget is the same as before the call; deallocate gives back exactly what allocate took; the accounting uses the true byte count n*sizeof(T) for every n.", "quantifier": "every n (full size_t range), every sizeof(T), every budget, every call history", "why_tests_cant": "the boundary is per-history; n*sizeof(T) wraps only for huge n no test passes", "anchors": ["include/dice/template-library/limit_allocator.hpp: limit_allocator::allocate, deallocate, dec, inc"]}
{"id": "C14", "title": "pool: a request is served by the smallest bucket that fits and freed to the same bucket", "statement": "For a sorted bucket list a request of n bytes is served from the smallest bucket size >= n, or from the global heap iff n exceeds all buckets; deallocate with the same n returns the block to precisely the place it came from.", "quantifier": "every nonempty sorted bucket list, every request size", "why_tests_cant": "tests use a few sizes and one bucket list", "anchors": ["include/dice/template-library/pool_allocator.hpp: pool::allocate_impl, deallocate_impl"]}
{"id": "C15", "title": "pool_allocator: live blocks are disjoint, large enough, and every release is legal", "statement": "Over every history of allocate/deallocate through any copies and rebinds of a pool_allocator, each returned block has room for n objects of T, distinct live blocks never overlap, and each deallocation hands a block to the pool or heap that issued it with the size it was issued for.", "quantifier": "every history, every n in size_t, every sizeof(T), every number of allocator copies", "why_tests_cant": "unbounded histories; wrap-around of sizeof(T)*n", "anchors": ["include/dice/template-library/pool_allocator.hpp: pool, pool_allocator::allocate, deallocate"]}
{"id": "C16", "title": "defer: scope guards run exactly when their policy says", "statement": "A guard created with Always runs exactly once when its scope is left, OnFail iff its scope is left by an exception, OnSuccess iff it is not; this also holds in scopes entered while another exception is already propagating (destructors run during unwinding), in nested scopes and with nested try/catch.", "quantifier": "every program built from scopes, guards, throws, try/catch and nested scopes inside guard bodies, of any nesting depth", "why_tests_cant": "nesting of unwinding and guards is unbounded", "anchors": ["include/dice/template-library/defer.hpp: ScopeExitGuard"]}
{"id": "C17", "title": "defer: guards of a scope run in reverse order, at most once, and a failing guard is handled as documented", "statement": "The guards of a scope run in reverse order of creation; each at most once; an empty guard never runs; an exception escaping a success guard propagates out of the scope (so the guards created before it see a failing scope), an exception escaping an Always or OnFail guard terminates the program.", "quantifier": "every program as in C16", "why_tests_cant": "unbounded nesting and all throw points", "anchors": ["include/dice/template-library/defer.hpp: ScopeExitGuard::~ScopeExitGuard"]}
{"id": "C18", "title": "flex_array: size stays within the extent and constructors accept exactly the sizes that fit", "statement": "size() never exceeds max_size(); construction from an initializer list, a range or another flex_array and resize succeed iff the number of elements is representable (equal to a static extent, at most a bounded dynamic extent) and otherwise throw length_error leaving nothing modified.", "quantifier": "every extent/max_extent mode, every element count, every history of operations", "why_tests_cant": "unbounded sizes and histories", "anchors": ["include/dice/template-library/flex_array.hpp: flex_array, detail_flex_array::flex_array_inner"]}
{"id": "C19", "title": "flex_array: contents are exactly the source elements", "statement": "After a successful construction or conversion the elements are exactly the source elements in order; converting static to dynamic and back yields an equal array; resize keeps the common prefix; every element in [begin,end) was written by the user or value-initialised.", "quantifier": "every mode, every source sequence, every history", "why_tests_cant": "unbounded sequences", "anchors": ["include/dice/template-library/flex_array.hpp: flex_array constructors, resize"]}
{"id": "C20", "title": "flex_array: comparison looks at the live elements only and is consistent", "statement": "a == b iff sizes and elements agree, a <=> b is the lexicographic order of the live elements, and ==, !=, <, <=, >, >= agree with each other; elements beyond size() never influence the result.", "quantifier": "every pair of arrays in each mode including stale tail elements", "why_tests_cant": "pairs of unbounded sequences with arbitrary dead tail content", "anchors": ["include/dice/template-library/flex_array.hpp: flex_array::operator<=>, flex_array_inner operator==, operator!=, operator<, operator<=, operator>, operator>=, operator<=>"]}
{"id": "C21", "title": "static_string: holds exactly the characters it was given", "statement": "A string constructed from a view, copy-constructed, moved or assigned has the size and all characters of its source, for every character type; a moved-from string constructed-from is empty.", "quantifier": "every string, every character width, every history of copies, moves, assignments and swaps", "why_tests_cant": "tests use char only; content must survive all histories", "anchors": ["include/dice/template-library/static_string.hpp: basic_static_string constructors, operator=, swap"]}
{"id": "C22", "title": "static_string: memory safety over every history", "statement": "Over every sequence of constructions, copies, moves, assignments, swaps and destructions, with any allocator (equal or unequal, any propagation trait) and any pattern of allocation failures, every buffer is freed exactly once, through an allocator equal to the one that allocated it and with its allocation size, and after destruction of all strings nothing is leaked.", "quantifier": "every operation history, every allocator trait combination, every failure pattern", "why_tests_cant": "unbounded histories and failure points", "anchors": ["include/dice/template-library/static_string.hpp: basic_static_string::copy_assign_from_other, operator=, ~basic_static_string, swap"]}
{"id": "C23", "title": "pointer_tag_pair: pointer and tag survive packing", "statement": "For every sufficiently aligned pointer and every tag in range, pointer() and tag() return what was stored; setters/rebuilds change only their part; from_tagged_pointer(tagged_pointer()) is the identity; every documented assertion violation is exactly a misaligned pointer or an oversized tag.", "quantifier": "every 64-bit pointer, every tag, every number of tag bits", "why_tests_cant": "2^64 pointers times tags", "anchors": ["include/dice/template-library/pointer_tag_pair.hpp: pointer_tag_pair"]}
{"id": "C24", "title": "pointer_tag_pair: equality and order are those of (pointer, tag)", "statement": "Two pairs are equal iff both pointer and tag are equal; the order is lexicographic by pointer address, then tag; swapping exchanges the pairs.", "quantifier": "all pairs of valid pairs", "why_tests_cant": "quadratic in 2^64", "anchors": ["include/dice/template-library/pointer_tag_pair.hpp: operator<=>, operator==, swap"]}
{"id": "C25", "title": "ipow: exact result or the right error", "statement": "ipow(base, exp) returns base^exp exactly iff that value is representable in the base type; otherwise it throws underflow_error if the true value is below the type's minimum and overflow_error if it is above the maximum; no intermediate overflow causes a spurious error; negative exponents give the integer part of 1/base^|exp| (0 for base 0).", "quantifier": "every base and exponent of every integer type width, signed and unsigned", "why_tests_cant": "2^128 inputs per type pair", "anchors": ["include/dice/template-library/ipow.hpp: ipow"]}
{"id": "C26", "title": "stdint literals: value preserving in range, modular otherwise", "statement": "A literal suffix returns the literal's value whenever it is representable in the target type, and otherwise the unique representable value congruent modulo 2^width.", "quantifier": "every literal value and every target type", "why_tests_cant": "2^64 literals", "anchors": ["include/dice/template-library/stdint.hpp: operator\"\"_u8 ... operator\"\"_i64"]}
{"id": "C27", "title": "variant2: the discriminant always matches the object alive in the storage", "statement": "Over every history of constructions, copies, moves, assignments, value assignments, emplaces, swaps and destructions, with exceptions thrown by any element constructor or assignment, no inactive member is ever read, assigned or destroyed, no live member is overwritten without being destroyed, and at the end every constructed element has been destroyed exactly once.", "quantifier": "every history, every pattern of throwing element operations, both alternatives, trivial and non-trivial element types", "why_tests_cant": "unbounded histories times throw points", "anchors": ["include/dice/template-library/variant2.hpp: variant2 constructors, operator=, emplace, swap, ~variant2"]}
{"id": "C28", "title": "variant2: assignments, emplace and swap have value semantics", "statement": "A successful copy/move/value assignment or emplace leaves the variant holding exactly the source alternative and value, leaves the source of a copy unchanged, and swap exchanges the two variants (also with itself); when an element operation throws, the variant keeps its alternative if it was the same alternative and otherwise is valueless.", "quantifier": "every pair of variant states including valueless, every throw pattern", "why_tests_cant": "all state pairs times throw points, in all histories", "anchors": ["include/dice/template-library/variant2.hpp: variant2::operator=, emplace, swap"]}
{"id": "C29", "title": "variant2: index, get, get_if, holds_alternative and visit agree", "statement": "get<i>/get<T>/get_if/holds_alternative/visit all see the alternative index() reports; get throws bad_variant_access iff index() differs, get_if returns null iff index() differs, visit throws iff valueless; a visitor is called exactly once with the stored value.", "quantifier": "every reachable variant state", "why_tests_cant": "all reachable states", "anchors": ["include/dice/template-library/variant2.hpp: get_impl, get_if_impl, visit_impl, index, holds_alternative"]}
{"id": "C30", "title": "variant2: equality, order and hash are consistent", "statement": "== is an equivalence and <=> a total (resp. partial, as the elements') order consistent with ==, ordering first by alternative (valueless lowest) then by value; equal variants have equal hashes and hashing never terminates the program.", "quantifier": "all pairs/triples of variant states, all element orders", "why_tests_cant": "universally quantified over element types and values", "anchors": ["include/dice/template-library/variant2.hpp: operator==, operator<=>, std::hash"]}
{"id": "C31", "title": "inplace_polymorphic: object lifetime is exact", "statement": "Over every history of construction, copy, move, assignment, emplace and destruction with exceptions thrown anywhere, at most one object lives in the storage, it is destroyed exactly once, valueless_by_exception() is true iff none lives, and get() never yields a dead object and throws iff valueless; no documented-legal call trips an assertion.", "quantifier": "every history, every throw pattern, trivially and non-trivially destructible derived classes", "why_tests_cant": "unbounded histories times throw points", "anchors": ["include/dice/template-library/inplace_polymorphic.hpp: inplace_polymorphic"]}
{"id": "C32", "title": "inplace_polymorphic: copies and assignments transfer dynamic type and value", "statement": "After a copy/move construction or assignment the target holds an object of the source's dynamic type with the source's value, or is valueless iff the source was valueless; after an exception the target is valueless; emplace<D>(args) leaves a D built from args.", "quantifier": "all pairs of states, all derived classes", "why_tests_cant": "all state pairs", "anchors": ["include/dice/template-library/inplace_polymorphic.hpp: operator=, copy_from, move_from, emplace"]}
{"id": "C33", "title": "opt_min/opt_max/opt_minmax: the first extremal present value", "statement": "The result is empty iff no argument has a value; otherwise it is a present value that no present value beats under the comparator, and among equivalent ones the first; the two-argument, variadic and range forms agree and opt_minmax is the pair of opt_min and opt_max; absent values never influence the result.", "quantifier": "every finite sequence of optionals and every strict weak order", "why_tests_cant": "unbounded sequences, all comparators", "anchors": ["include/dice/template-library/opt_minmax.hpp: opt_min, opt_max, opt_minmax, opt_min_element, opt_max_element, opt_minmax_element"]}
{"id": "C34", "title": "range: forward iteration is the arithmetic progression", "statement": "range(start, stop, step) yields exactly start, start+step, start+2*step, ... while strictly before stop (after stop for negative steps), nothing if stop lies in the wrong direction; a zero step throws.", "quantifier": "every start, stop, nonzero step", "why_tests_cant": "unbounded sequences", "anchors": ["include/dice/template-library/ranges.hpp: range_iterator::next, range"]}
{"id": "C35", "title": "range: reverse iteration is the reverse of forward iteration", "statement": "range(...).reversed() and next_back()/back() yield exactly the elements of forward iteration in reverse order, and any interleaving of next() and next_back() consumes the same sequence from both ends.", "quantifier": "every start, stop, nonzero step, every interleaving of next and next_back", "why_tests_cant": "unbounded", "anchors": ["include/dice/template-library/ranges.hpp: range_iterator::next_back, nth_back; next_to_range.hpp: reversed"]}
{"id": "C36", "title": "range: size and random access agree with iteration", "statement": "size()/remaining() is the number of elements iteration will still yield; operator[](k)/nth(k)/advance(k) give the same as k+1 resp. k single steps, also past the end.", "quantifier": "every range and every k", "why_tests_cant": "unbounded", "anchors": ["include/dice/template-library/ranges.hpp: range_iterator::remaining, nth; next_to_range.hpp: next_to_view"]}
{"id": "C37", "title": "range: iteration over fixed-width integers terminates and never overflows", "statement": "For start, stop, step of a fixed-width integer type, iterating the range performs no signed overflow and yields the same finite sequence as over the mathematical integers.", "quantifier": "every start, stop, step of every width, signed and unsigned", "why_tests_cant": "the failing inputs lie at the edge of the type", "anchors": ["include/dice/template-library/ranges.hpp: range_iterator::next, remaining"]}
{"id": "C38", "title": "next_to_iter: iterating yields exactly the sequence of next()", "statement": "Dereference/increment over an iterator wrapped by next_to_range visits exactly the values next() produces until the first nullopt, in order, each once; every begin() restarts from the original state; reverse iteration uses next_back likewise.", "quantifier": "every underlying iterator (finite or infinite)", "why_tests_cant": "arbitrary user iterators of unbounded length", "anchors": ["include/dice/template-library/next_to_range.hpp: next_to_iter_impl, next_to_range"]}
{"id": "C39", "title": "next_to_iter: peek and += n do not disturb the sequence", "statement": "peek() returns what the next increment will make current, any number of times, without changing the visited sequence; it += n equals n increments in every state, with or without a preceding peek.", "quantifier": "every history of ++, += n, peek over every underlying fused iterator whose nth(n) equals n+1 nexts", "why_tests_cant": "all interleavings of peek and advance", "anchors": ["include/dice/template-library/next_to_range.hpp: next_to_iter_impl::advance, advance_by, peek"]}
{"id": "C40", "title": "next_to_view: front, back, operator[], advance and size agree with iteration", "statement": "front() is the first, back() the last and operator[](k) the k-th value iteration visits, without changing the view; advance(k) drops exactly the first k; size() is the number of values iteration visits.", "quantifier": "every underlying iterator satisfying the iterator laws, every k", "why_tests_cant": "arbitrary user iterators", "anchors": ["include/dice/template-library/next_to_range.hpp: next_to_view"]}
{"id": "C41", "title": "all_equal, all_distinct, is_sorted_unique decide what they say", "statement": "all_equal is true iff all elements are pairwise equal; all_distinct iff no two positions hold equal elements; is_sorted_unique iff the sequence is strictly increasing; for every range category they accept.", "quantifier": "every finite sequence, every predicate (equivalence / strict order), hash compatible with equality", "why_tests_cant": "unbounded sequences", "anchors": ["include/dice/template-library/ranges.hpp: all_equal, all_distinct, all_distinct_sorted, is_sorted_unique"]}
{"id": "C42", "title": "unique and remove_element keep the right elements in order", "statement": "The unique view yields each distinct value once, in order of first occurrence; remove_element yields exactly the elements different from the given one in order; both can be iterated repeatedly with the same result.", "quantifier": "every finite sequence", "why_tests_cant": "unbounded sequences", "anchors": ["include/dice/template-library/ranges.hpp: unique_view, remove_element"]}
{"id": "C43", "title": "lexicographical_compare_three_way is the lexicographic order", "statement": "The result is the comparison of the first differing position, or of the lengths if one sequence is a prefix of the other; it is equal iff the sequences are elementwise equal; it inherits antisymmetry, transitivity and totality from the element comparison.", "quantifier": "all pairs/triples of finite sequences, every comparison category", "why_tests_cant": "unbounded sequences", "anchors": ["include/dice/template-library/ranges.hpp: lexicographical_compare_three_way"]}
{"id": "C44", "title": "type_list: structural operations obey the list laws", "statement": "take/drop/concat/nth/first/last/size/transform/filter/flatten/generate/apply are the list operations: take(n)+drop(n) is the list, sizes add up, transform and filter are pointwise and order preserving, nth is defined iff the index is in range.", "quantifier": "every type list, every index/count", "why_tests_cant": "unbounded lists", "anchors": ["include/dice/template-library/type_list.hpp: size, nth, concat, drop, take, transform, filter, flatten, generate, first, last"]}
{"id": "C45", "title": "type_list: searching operations return first matches and unique removes exactly duplicates", "statement": "find_if/position/count/contains/all_of/any_of/none_of/all_same agree with each other; position is the least matching index; unique keeps exactly the first occurrence of each type in order; all_distinct iff unique changes nothing; fold/for_each visit left to right.", "quantifier": "every type list and predicate", "why_tests_cant": "unbounded lists", "anchors": ["include/dice/template-library/type_list.hpp: find_if, position, count, contains, all_of, any_of, none_of, all_same, unique, all_distinct, fold, for_each"]}
{"id": "C46", "title": "integral sequences and templates: index arithmetic is a bijection", "statement": "make_integer_sequence<first,last> is first, first±1, ... up to but excluding last; valid_index holds exactly for its elements; the offset of an index is the position of that element; so get<ix> of an integral_template_tuple and index()/holds/emplace of an integral_template_variant refer to T<ix>, ascending and descending.", "quantifier": "every first, last, ix", "why_tests_cant": "unbounded ranges in both directions", "anchors": ["include/dice/template-library/integral_sequence.hpp: make_integer_sequence, valid_index_v, to_offset", "include/dice/template-library/integral_template_tuple.hpp: get", "include/dice/template-library/integral_template_variant.hpp: index, get, emplace"]}
{"id": "C47", "title": "standard_layout_tuple: subtuple refers to the original elements", "statement": "get<i> refers to the i-th element, distinct elements occupy disjoint storage inside the tuple, and subtuple<off,count> yields a tuple whose i-th element is the (off+i)-th element of the original (same address).", "quantifier": "every list of element types (sizes and alignments), every off/count", "why_tests_cant": "layout depends on all element alignments; tests use three types", "anchors": ["include/dice/template-library/standard_layout_tuple.hpp: standard_layout_tuple::get, subtuple"]}
{"id": "C48", "title": "switch_cases/switch_bool: the function is called once with the value", "statement": "switch_cases<min,max>(v, f, default) calls f exactly once with v if min <= v < max and default exactly once otherwise, returning its result; switch_bool calls f with exactly the given truth value.", "quantifier": "every min <= max, every v", "why_tests_cant": "unbounded ranges of cases", "anchors": ["include/dice/template-library/switch_cases.hpp: switch_cases, execute_case, switch_bool"]}
{"id": "C49", "title": "for_types/for_values/for_range visit every item once in order", "statement": "for_range<a,b> calls the function with a, a+1, ..., b-1 if a<b, with a, a-1, ..., b+1 if a>b and never if a=b; for_types/for_values call it once per item in the given order.", "quantifier": "every a, b, every list", "why_tests_cant": "unbounded", "anchors": ["include/dice/template-library/for.hpp: for_types, for_values, for_range"]}
{"id": "C50", "title": "tuple_fold/tuple_for_each visit left to right exactly once", "statement": "tuple_fold computes the left fold over the elements in index order and tuple_for_each calls the function once per element in index order.", "quantifier": "every tuple, every function with side effects", "why_tests_cant": "unbounded arity, arbitrary effects", "anchors": ["include/dice/template-library/tuple_algorithm.hpp: tuple_fold, tuple_for_each"]}
{"id": "C51", "title": "polymorphic_allocator: every call goes to the held allocator and memory returns where it came from", "statement": "allocate/deallocate/max_size are forwarded to exactly the held allocator; rebinding, copying and select_on_container_copy_construction keep the held alternative; so over any history in which a container frees with an allocator equal to the one it allocated with, each block returns to the underlying allocator that issued it.", "quantifier": "every list of allocators, every held alternative, every history of copies/rebinds/allocations", "why_tests_cant": "unbounded histories", "anchors": ["include/dice/template-library/polymorphic_allocator.hpp: polymorphic_allocator"]}
{"id": "C52", "title": "polymorphic_allocator: equality and propagation traits are safe", "statement": "Two polymorphic allocators are equal iff they hold the same alternative and the held allocators are equal; is_always_equal is claimed only if all instances really are equal; propagation is claimed only if every alternative propagates.", "quantifier": "every list of allocators with any traits", "why_tests_cant": "all trait combinations", "anchors": ["include/dice/template-library/polymorphic_allocator.hpp: operator==, is_always_equal, propagate_on_*"]}
{"id": "C53", "title": "sandbox: the reported result is what happened to the child", "statement": "The parent waits until its child has really terminated (retrying interrupted waits), reports ExitSuccess iff the function returned code 0, ExitFailure iff it returned another code, and the signal number iff it was killed by that signal; an exception escaping the function is reported as an abort.", "quantifier": "every exit code, every signal, every number of interrupted waits and stop/continue reports", "why_tests_cant": "codes are ints, interruptions unbounded", "anchors": ["include/dice/template-library/sandbox.hpp: operator+, SubProcessResult"]}
{"id": "C54", "title": "fmt_join: elements separated by the separator", "statement": "Formatting fmt_join(range, sep) writes the formatted elements in order with sep between consecutive elements, nothing before the first or after the last, and nothing for an empty range; single-character and string separators agree.", "quantifier": "every range, every separator, every element format", "why_tests_cant": "unbounded ranges", "anchors": ["include/dice/template-library/fmt_join.hpp: fmt_join, std::formatter<joiner>"]}
{"id": "C55", "title": "lazy_conditional/lazy_switch: first match wins and only the selected provider is evaluated", "statement": "lazy_switch selects the provider of the first case whose condition holds, or the default; only the selected provider's ::type is evaluated, so ill-formed unselected providers are harmless.", "quantifier": "every list of cases", "why_tests_cant": "unbounded case lists, arbitrary ill-formed providers", "anchors": ["include/dice/template-library/lazy_conditional.hpp: lazy_conditional, lazy_switch, lazy_switch_default"]}
{"id": "C56", "title": "copy_cv/copy_reference/forward_like transfer exactly the qualifiers", "statement": "copy_const/copy_volatile/copy_cv/copy_reference/copy_cvref give the target type the source's respective qualifiers, following reference collapsing; forward_like<T>(x) has const iff x or T is const, and is an lvalue reference iff T is.", "quantifier": "every source and target type shape", "why_tests_cant": "all combinations of qualifiers on arbitrary types", "anchors": ["include/dice/template-library/type_traits.hpp: copy_const, copy_cv, copy_reference, copy_cvref, like, forward_like"]}
{"id": "C57", "title": "bind_front and DICE_MEMFN pass arguments in the documented order", "statement": "bind_front<f>(a...)(b...) invokes f(a..., b...) exactly once; DICE_MEMFN(m, a...)(b...) invokes this->m(a..., b...) exactly once; bound arguments are copied from on an lvalue call (so repeated calls see the same values) and moved from only on an rvalue call.", "quantifier": "every argument list, every callee", "why_tests_cant": "unbounded arity", "anchors": ["include/dice/template-library/functional.hpp: bind_front", "include/dice/template-library/memfn.hpp: DICE_MEMFN"]}
{"id": "C58", "title": "allocators: moving an allocator leaves the source usable", "statement": "After move-constructing a pool_allocator or limit_allocator the source still equals the new allocator (as the Allocator requirements demand and as containers rely on when a moved-from container is used again), so allocating through it never dereferences null.", "quantifier": "every history of allocator copies, moves, assignments, swaps, destructions and allocations", "why_tests_cant": "unbounded histories; a test exercises one container and one order of moves", "anchors": ["include/dice/template-library/pool_allocator.hpp: pool_allocator move constructor", "include/dice/template-library/limit_allocator.hpp: limit_allocator move constructor"]}
{"id": "C59", "title": "Copies of a wrapped iterator visit the same remaining values", "statement": "However a copy of an iterator obtained from a range or generator is written (copy initialization, direct initialization, capture by value in a lambda, storing in a container), the copy dereferences to the same current value as the original and visits the same remaining values.", "quantifier": "every inner iterator, every state reached by iteration, every form of copying", "why_tests_cant": "A test copies in one syntactic form at a few positions; overload resolution between the copy constructor and a forwarding constructor depends on the constness and value category of the source expression.", "anchors": ["include/dice/template-library/next_to_range.hpp: next_to_iter_impl"]}
{"id": "C60", "title": "type_list unique: compile-time cost is polynomial", "statement": "The number of template instantiations needed to remove duplicates from a type list grows at most polynomially with the length of the list.", "quantifier": "every list length", "why_tests_cant": "Tests use lists of a few types, for which any growth is fast enough.", "anchors": ["include/dice/template-library/type_list.hpp: detail_unique::unique_impl, unique"]}
{"id": "C61", "title": "DICE_MOVE_IF_VALUE moves exactly values and non-const rvalue references", "statement": "DICE_MOVE_IF_VALUE(x) yields an rvalue referring to x iff x is declared as a non-const value or rvalue reference to non-const; in all other documented cases (lvalue references, const rvalue references) it compiles and yields a reference to x that cannot be moved from.", "quantifier": "every declared type of x", "why_tests_cant": "the tests only look at decltype of the macro for five types and never evaluate it", "anchors": ["include/dice/template-library/type_traits.hpp: DICE_MOVE_IF_VALUE"]}
{"id": "C62", "title": "is_strict_invocable_r is is_invocable_r without return type conversions", "statement": "is_strict_invocable_r_v<R, F, Args...> holds iff invoking an F with Args... is well-formed (as for std::is_invocable_r_v) and its type is exactly R.", "quantifier": "every callable, return type and list of argument types with any value category", "why_tests_cant": "arbitrary callables and argument lists", "anchors": ["include/dice/template-library/type_traits.hpp: is_strict_invocable_r"]}
{"id": "C63", "title": "exchange_channel: a loop over the channel skips only outdated values and ends with the newest", "statement": "A range-for loop by the only consumer visits a subsequence of the inserted values in insertion order, each insertion at most once; it ends exactly when a pop finds the channel closed and empty; when it has ended, the last value it visited is the last value ever inserted.", "quantifier": "every number of producer threads, every program of calls, every schedule", "why_tests_cant": "all interleavings of producers, close and the loop", "anchors": ["include/dice/template-library/exchange_channel.hpp: exchange_channel::iterator, begin, end, pop"]}
{"id": "C64", "title": "channel and exchange_channel: the buffered values are never accessed by two threads at once", "statement": "In no execution are two threads about to read or write the buffered values at the same time (no data race on the buffer), whichever member functions they call.", "quantifier": "every number of threads, every program of calls, every schedule, spurious wakeups and exceptions included", "why_tests_cant": "a data race needs a particular interleaving", "anchors": ["include/dice/template-library/channel.hpp: channel", "include/dice/template-library/exchange_channel.hpp: exchange_channel"]}
{"id": "C65", "title": "overloaded / match: one best visitor is called once", "statement": "match(variant, visitors...) compiles exactly when every alternative has one best visitor, all visitors are distinct non-final classes, and the chosen ones return the same type; it then calls exactly the best visitor for the held alternative, once, with the held value, whatever the order of the visitors, and returns or throws what that visitor does. A variant without value gives bad_variant_access and no call. A generic visitor is called exactly where no other visitor fits exactly. The caller's visitor objects are not changed.", "quantifier": "all lists of visitors, all lists of alternatives, all conversion rules with a strict better-than order, all held values", "why_tests_cant": "a test uses a few visitor sets; the claim is about every set, order and alternative", "anchors": ["include/dice/template-library/overloaded.hpp: overloaded, match"]}
{"id": "C66", "title": "format_to_ostream: stream output is the formatted text", "statement": "stream << value for a formattable value without own operator<< appends exactly the text of std::format(\"{}\", value), values one after another append their texts in order, only a beginning of the text is ever written if the formatter throws or the buffer is full, and the effect is that of inserting the formatted string.", "quantifier": "all streams (state, width, room, tie), all texts, all formatters including throwing ones, all sequences of values", "why_tests_cant": "stream states and write errors are not reached by tests on string streams", "anchors": ["include/dice/template-library/format_to_ostream.hpp: operator<<"]}
{"id": "C67", "title": "DICE_DBG is transparent", "statement": "DICE_DBG(expr) evaluates the expression exactly once, prints one line with place, text and value, and stands for the same value; for lvalues and xvalues the same object with the same value category. Exceptions of the expression or of formatting reach the caller. It can replace the expression anywhere.", "quantifier": "all expressions (with effects, throwing, of every value category), all stores, all formatters", "why_tests_cant": "the claim is about every expression it can be put around", "anchors": ["include/dice/template-library/dbg.hpp: DICE_DBG, dbg_impl"]}
{"id": "C68", "title": "offset_ptr_stl_allocator: behaves like the wrapped allocator with pointers that survive relocation", "statement": "Allocating gives a pointer to the address the wrapped allocator returned, which survives copies to other places and moving the whole region; deallocating gives exactly that address and count back to the wrapped allocator; equality, propagation and selection for copies are those of the wrapped allocator; copying and moving the allocator ends like copying and moving the wrapped one.", "quantifier": "all addresses outside of the pointer's own bytes, all displacements, all wrapped allocators, all heaps", "why_tests_cant": "pointer encodings have to be right for every pair of addresses and every relocation", "anchors": ["include/dice/template-library/polymorphic_allocator.hpp: offset_ptr_stl_allocator"]}
{"id": "C69", "title": "is_zst: exactly the types that cost nothing as [[no_unique_address]] member", "statement": "is_zst_v<T> is true exactly for the empty types, and these add nothing to a struct they are a member of with [[no_unique_address]], while all others do.", "quantifier": "all sizes and alignments of the type and of the struct it is put in, void and references", "why_tests_cant": "layout rules have to be right for all types", "anchors": ["include/dice/template-library/type_traits.hpp: is_zst, is_zst_v"]}
{"id": "C70", "title": "integral_template_variant as a value", "statement": "Copies and moves hold the same index and value as their source or throw the element's exception; assignment takes the source's index and value or throws and never leaves a third index; construction from a value and emplace hold that value under its index; equality means same index and equal value; the order is by index and then value, a strict weak order consistent with equality; equal variants have equal hashes; visit passes the held value.", "quantifier": "all sequences (ascending, descending), all element types including ones that throw on copy, move or assignment, all pairs of variants", "why_tests_cant": "exception behaviour and order depend on the element type, the direction and the position", "anchors": ["include/dice/template-library/integral_template_variant.hpp: integral_template_variant"]}
{"id": "C71", "title": "variant2 behaves like std::variant", "statement": "A program that uses variant2<T, U> behaves like the same program using std::variant<T, U>: the same operations throw, and after each of them every variant holds the same alternative with the same value or is valueless, including what exceptions and moves leave behind", "quantifier": "all programs of constructions, copies, moves, assignments, emplaces, swaps and destructions over any number of variants, all element types (trivial or not, throwing or not), all points at which element operations throw", "why_tests_cant": "the number of programs and throw points is unbounded and the two implementations differ only on histories with exceptions", "anchors": ["include/dice/template-library/variant2.hpp:variant2", "include/dice/template-library/variant2.hpp:operator=", "include/dice/template-library/variant2.hpp:emplace", "include/dice/template-library/variant2.hpp:swap", "README.md:variant2"]}
{"id": "C72", "title": "flex_array: value semantics and element access", "statement": "Copies of a flex_array have the elements of the source and leave it unchanged, or report the exception of the element or allocator; moves take over all elements; swap exchanges two arrays (also one with itself); no operation affects other arrays; iterators, reverse iterators, spans and subscripts all denote exactly the elements below size(), in order", "quantifier": "all modes, all programs over any number of arrays, all element types, all points at which elements or allocations fail", "why_tests_cant": "unbounded programs and sizes; throw points in dead elements", "anchors": ["include/dice/template-library/flex_array.hpp:flex_array(flex_array const &)", "include/dice/template-library/flex_array.hpp:operator=", "include/dice/template-library/flex_array.hpp:swap", "include/dice/template-library/flex_array.hpp:begin", "include/dice/template-library/flex_array.hpp:rbegin", "include/dice/template-library/flex_array.hpp:operator std::span", "include/dice/template-library/flex_array.hpp:operator[]"]}
{"id": "C73", "title": "static_string: access, comparison, output and allocators see exactly the contents", "statement": "Iterators, reverse iterators, subscripts, front and back denote the characters of the string in order and never read outside of it; comparison of strings with strings and views is the lexicographic order of the characters; printing writes exactly them; a string uses the allocator that the propagation traits prescribe", "quantifier": "all histories of operations, all strings, all allocator traits, all stream settings", "why_tests_cant": "unbounded strings and histories; orders are claims about all pairs", "anchors": ["include/dice/template-library/static_string.hpp:operator[]", "include/dice/template-library/static_string.hpp:begin", "include/dice/template-library/static_string.hpp:rbegin", "include/dice/template-library/static_string.hpp:front", "include/dice/template-library/static_string.hpp:back", "include/dice/template-library/static_string.hpp:operator==", "include/dice/template-library/static_string.hpp:operator<=>", "include/dice/template-library/static_string.hpp:operator<<"]}
{"id": "C74", "title": "pointer_tag_pair: any pointer convertible to T * is stored as that T *", "statement": "A pair made from a pointer that converts implicitly to T * gives back exactly that converted pointer and the tag (also a bool tag), whenever the pointer has the alignment of its type; decomposing a pair gives the pointer and the tag", "quantifier": "all pointer values, all implicit pointer conversions including those to base classes, all tags and tag widths", "why_tests_cant": "conversions and addresses are unbounded; tests use only the same type", "anchors": ["include/dice/template-library/pointer_tag_pair.hpp:pointer_tag_pair(P const, Tag const)", "include/dice/template-library/pointer_tag_pair.hpp:from_overaligned", "include/dice/template-library/pointer_tag_pair.hpp:pointer", "include/dice/template-library/pointer_tag_pair.hpp:tag", "include/dice/template-library/pointer_tag_pair.hpp:get"]}
{"id": "C75", "title": "range over any number type: the values before stop, then the end", "statement": "For every number type (floating-point, rational, user-defined): a zero step is refused; otherwise a loop over range(start, stop, step) sees start, start + step, ... as long as stop has not been met or passed, and it ends", "quantifier": "all number types with the operations used, all start, stop and step", "why_tests_cant": "number types and values are unbounded; termination is a claim about all of them", "anchors": ["include/dice/template-library/ranges.hpp:range", "include/dice/template-library/ranges.hpp:range_iterator", "include/dice/template-library/ranges.hpp:step_for"]}
{"id": "C76", "title": "variant2: access gives the held object as seen through the variant", "statement": "get and visit give a reference to the object in the variant, const if the variant is and an rvalue if the variant is one; get_if gives its address; formatting gives variant(...) around its text; comparison and hash use the operators of the held alternative and pass their exceptions on", "quantifier": "all alternatives with their qualifiers, all value categories of the variant, all elements with throwing operators or own operator&", "why_tests_cant": "types and qualifiers are unbounded; tests instantiate a few", "anchors": ["include/dice/template-library/variant2.hpp:get", "include/dice/template-library/variant2.hpp:get_if", "include/dice/template-library/variant2.hpp:visit", "include/dice/template-library/variant2.hpp:copy_cvref_t", "include/dice/template-library/variant2.hpp:std::formatter", "include/dice/template-library/variant2.hpp:std::hash"]}
{"id": "C77", "title": "Range algorithms call function objects once per element in order, and leave the range alone", "statement": "all_of, any_of, none_of, all_equal, is_sorted_unique and lexicographical_compare_three_way call the predicate, comparison or projection exactly once per element (pair) in order, and stop at the first one that decides the result; all call forms give the same result, pipelines can be reused; the elements of the range are not modified", "quantifier": "all function objects with state, all ranges, all set implementations", "why_tests_cant": "function objects with state and ranges are unbounded; tests use pure lambdas", "anchors": ["include/dice/template-library/ranges.hpp:DTL_DEFINE_SINGLE_FUNC_BASED_RANGE_ALGO", "include/dice/template-library/ranges.hpp:all_equal", "include/dice/template-library/ranges.hpp:unique", "include/dice/template-library/ranges.hpp:all_distinct", "include/dice/template-library/ranges.hpp:is_sorted_unique", "include/dice/template-library/ranges.hpp:lexicographical_compare_three_way"]}
{"id": "C78", "title": "inplace_polymorphic places every class correctly", "statement": "Every class of the list fits into an inplace_polymorphic: the object is suitably aligned, does not reach the flag behind it, and no storage beyond the largest class is used. get, * and -> give a pointer to the Base part of the held object, or throw if there is none. Lists of classes that cannot be destroyed safely are refused.", "quantifier": "all lists of classes with any sizes, power-of-two alignments and positions of the Base part, and all addresses", "why_tests_cant": "a test uses a few classes, whose Base usually comes first; placement errors corrupt memory without failing a test", "anchors": ["include/dice/template-library/inplace_polymorphic.hpp: inplace_polymorphic::storage_", "include/dice/template-library/inplace_polymorphic.hpp: get_unchecked, get, operator*, operator->"]}
{"id": "C79", "title": "Construction and members of next_to_range and next_to_view", "statement": "If the constructor of a range or view is available, it compiles. Every begin() and rbegin() starts afresh from the values the arguments had when the range was made, whether or not the iterator can be copied. Ranges, views and iterators have exactly the members the documentation lists for what the underlying iterator supports.", "quantifier": "all combinations of parameter kinds, argument kinds and capabilities of the iterator, any number of arguments, all values", "why_tests_cant": "the set of constructor signatures is unbounded, and members that fail to compile or are missing never show up in tests that do not use them", "anchors": ["include/dice/template-library/next_to_range.hpp: next_to_range", "include/dice/template-library/next_to_range.hpp: next_to_view", "include/dice/template-library/next_to_range.hpp: next_to_iter_impl"]}
{"id": "C80", "title": "Channels synchronize", "statement": "In every execution of a channel or exchange_channel that the C++ memory model permits, inserting a value happens before its removal, so what a thread did before push is visible to the thread that popped the value; the removal that makes room happens before the insertion that uses it; a push that returns false, a pop that returns nothing and a closed() that returns true are each preceded by a close() that happens before; closed() returns true if a close() happens before; and the relaxed loads of the flag never give a result that a sequentially consistent execution could not give.", "quantifier": "all programs, thread counts, capacities, schedules, values read by every load of the flag that coherence allows, and synchronization between threads outside of the channel", "why_tests_cant": "Weak memory behaviour does not show on the machine the tests run on, and a test sees a few schedules; a missing acquire or release order usually passes all tests.", "anchors": ["include/dice/template-library/channel.hpp: channel::close, closed, emplace, try_emplace, pop, try_pop", "include/dice/template-library/exchange_channel.hpp: exchange_channel::close, closed, emplace, pop, try_pop"]}
{"id": "C81", "title": "Guarded accesses are free of data races", "statement": "In every program that does not use one guard object from several threads without synchronization, two accesses to the value of a mutex or shared_mutex through owning guards, one of them a write, are ordered by happens-before; what was done before a guard released the mutex is visible after the next exclusive acquisition, and after the next shared one if the release was exclusive; a read returns the value of the last write, which happens before it; and each mutex is released by the thread that acquired it.", "quantifier": "all programs: any number of mutexes, guards and threads, all schedules, moves and move assignments of guards, failed and spurious lock attempts, and synchronization between threads by other means", "why_tests_cant": "A data race seldom shows in a test, and its absence is a statement about all pairs of accesses in all schedules.", "anchors": ["include/dice/template-library/mutex.hpp: mutex::lock, try_lock, mutex_guard", "include/dice/template-library/shared_mutex.hpp: shared_mutex::lock, try_lock, lock_shared, try_lock_shared, shared_mutex_guard"]}
{"id": "C82", "title": "limit_allocator: released budget is not missed, and threads do not block each other", "statement": "With the synchronised control block, an allocate is refused only because of a value of the budget that is at least as recent as everything that happens before the call (in the sense of the C++ memory model); if everything done with the budget happens before the call, it is refused only if the request exceeds what is left now. The calls are lock-free: apart from spurious failures and loads of old values, every execution makes a bounded number of steps per call, whatever the schedule.", "quantifier": "all numbers of threads, schedules, values that relaxed loads may return, spurious failures of compare-exchange, and patterns of synchronization outside of the allocator", "why_tests_cant": "A test runs on hardware that shows few of the permitted outcomes of relaxed operations, and under a few schedules; neither old values nor livelock can be provoked reliably.", "anchors": ["include/dice/template-library/limit_allocator.hpp: limit_allocator_control_block<sync>::allocate, deallocate", "include/dice/template-library/limit_allocator.hpp: limit_allocator::allocate, deallocate"]}
{"id": "C83", "title": "pool_allocator: memory given out is disjoint and aligned", "statement": "Whatever was allocated and deallocated before and wherever the heap puts memory, the blocks of a pool that are in use do not overlap, have different addresses and are as large as requested; each can be deallocated exactly once and its memory is used again by the next request of that arena. The block is aligned for the type of the allocator. (The last part is false for alignments above that of a pointer unless the bucket sizes are multiples of the alignment, and for over-aligned types.)", "quantifier": "all lists of bucket sizes, sequences of allocate and deallocate calls, request sizes, addresses chosen by operator new, and chunk sizes chosen by the arenas", "why_tests_cant": "Overlap or misalignment depends on the history of the free lists and on the addresses that operator new returns; on x86 a misaligned object mostly works, so a test does not notice.", "anchors": ["include/dice/template-library/pool_allocator.hpp: pool::allocate, pool::deallocate", "include/dice/template-library/pool_allocator.hpp: pool_allocator::allocate, pool_allocator::deallocate"]}
{"id": "C84", "title": "Containers with pool_allocator or limit_allocator return memory where it is from", "statement": "Whatever a program does with containers whose allocator is a pool_allocator, a limit_allocator or a polymorphic_allocator of them (construct, copy, move, assign, swap, grow, destroy, in any order, with allocations failing at any time), memory is returned only to the pool or budget it is from, the budgets always equal their limit minus what the containers own from them, and when all containers are gone everything was returned. Moved-from containers can be used like the standard permits. (The last sentence is false: moving empties the allocator, so memory for such a container is undefined behaviour until the allocator is replaced; which operations are affected is proved exactly.)", "quantifier": "all traits for propagation, limits, numbers of containers and sequences of operations, with every choice of failing allocations", "why_tests_cant": "Unit tests try a few containers and short sequences with success of all allocations; whether an allocator is exchanged correctly shows only in the combination of moves, assignments and swaps across different pools or budgets.", "anchors": ["include/dice/template-library/pool_allocator.hpp: pool_allocator", "include/dice/template-library/limit_allocator.hpp: limit_allocator", "include/dice/template-library/polymorphic_allocator.hpp: polymorphic_allocator (propagation traits)"]}
{"id": "C85", "title": "defer: guards in loops, early exits, callbacks and coroutines", "statement": "Whatever the control flow around it (branches, loops left by break or continue, return, throw; in handlers, calls, suspension of a coroutine), every guard that was constructed is destroyed once, in reverse order of construction, and its function, which sees the variables as they are then, is invoked as its policy says; if its function cannot be stored, it is not invoked at all. DICE_DEFER* can be used any number of times in a block, on different lines, and their bodies may throw only if the guard may.", "quantifier": "all programs built from these constructs, all numbers of exceptions in flight at the start, all ways to resume a coroutine, all line numbers", "why_tests_cant": "the decision is made from a per-thread counter at two moments, with arbitrary code, handlers, rethrows and other guards running in between", "anchors": ["include/dice/template-library/defer.hpp: ScopeExitGuard", "include/dice/template-library/defer.hpp: DICE_DEFER", "include/dice/template-library/defer.hpp: DICE_DEFER_TO_FAIL", "include/dice/template-library/defer.hpp: DICE_DEFER_TO_SUCCESS", "include/dice/template-library/macro_util.hpp: DICE_IDENT_CONCAT"]}
{"id": "C86", "title": "A function declared noexcept does not terminate the program", "statement": "For every element, allocator or alternative type, whichever of its operations may throw: a channel, exchange_channel, iterator, variant2, polymorphic_allocator, limit_allocator, inplace_polymorphic, integral_template_variant, mutex or scope guard operation whose noexcept clause evaluates to true lets no exception escape, so that an exception of the user's type reaches the caller instead of ending in std::terminate.", "quantifier": "all combinations of noexcept and trivial declarations of the user's types, all situations the functions distinguish (empty or full, which alternative is held, valueless, memory exhausted), any number of alternatives, every choice of the operation that throws", "why_tests_cant": "a clause is evaluated from type traits, so every combination of declarations is a different program; tests instantiate a handful of types that never throw", "anchors": ["include/dice/template-library/channel.hpp: emplace, push, pop, iterator", "include/dice/template-library/exchange_channel.hpp: emplace, push, pop, iterator", "include/dice/template-library/limit_allocator.hpp: limit_allocator", "include/dice/template-library/polymorphic_allocator.hpp: polymorphic_allocator, offset_ptr_stl_allocator", "include/dice/template-library/variant2.hpp: variant2, swap, std::hash", "include/dice/template-library/inplace_polymorphic.hpp: inplace_polymorphic, emplace", "include/dice/template-library/mutex.hpp: mutex", "include/dice/template-library/shared_mutex.hpp: shared_mutex", "include/dice/template-library/defer.hpp: ScopeExitGuard", "include/dice/template-library/integral_template_variant.hpp: integral_template_variant"]}
{"id": "C87", "title": "Calls on a channel return under a fair scheduler", "statement": "If every thread that can run again and again does run (and a free mutex is eventually handed to a thread that keeps asking for it), then every try_push, try_pop, close and closed() call returns; once the channel is closed every push and every pop returns; a pop returns if a value stays available, and in any case if it is the only consumer and a value is there once; a push returns if room stays available, and in any case if it is the only producer and there is room once. Without any fairness, as long as something runs some call returns again and again. A pop or push among several is expected to return if values or room become available again and again.", "quantifier": "all infinite executions: any number of threads, any programs of calls, any capacity, any interleaving, any choice of the thread a notification wakes, spurious wakeups, exceptions of element operations where stated", "why_tests_cant": "a test observes a finite prefix of one schedule; that a call returns eventually is a statement about infinite executions and holds or fails depending on the scheduler", "anchors": ["include/dice/template-library/channel.hpp: push, try_push, pop, try_pop, close, closed"]}
{"id": "C88", "title": "Calls on an exchange channel return under a fair scheduler", "statement": "If every thread that can run again and again does run, then every push, try_pop, close and closed() call on an exchange channel returns (a producer never waits for a consumer), whatever the element operations throw; once the channel is closed every pop returns as well, waiting ones included; a pop that waits for ever has seen the slot empty again and again; the only consumer is never passed by. Without any fairness, as long as something runs some call returns again and again. A pop among several is expected to return if values become available again and again.", "quantifier": "all infinite executions: any number of threads, any programs of calls, any interleaving, any choice of the thread a notification wakes, spurious wakeups, exceptions of element operations where stated", "why_tests_cant": "a test observes a finite prefix of one schedule; that a call returns eventually is a statement about infinite executions", "anchors": ["include/dice/template-library/exchange_channel.hpp: push, emplace, pop, try_pop, close, closed"]}
{"id": "C89", "title": "Views are lazy and read only what is needed; algorithms return on endless ranges if the result is decided", "statement": "Building unique or remove_element reads nothing. A loop left after n values has looked at the source only up to the n-th kept value. A loop over view/take(n) returns as soon as n values were found. Every element of the source is dereferenced once. Loops over the same view can be repeated and show the source as it is. all_of, any_of, none_of, all_equal, all_distinct, is_sorted_unique and lexicographical_compare_three_way return on endless sources exactly if some elements decide the result (so all_distinct and is_sorted_unique always return if there are finitely many values).", "quantifier": "all sources, with or without end, all element types, equalities, hash and tree sets, all numbers of values taken", "why_tests_cant": "tests cannot wait for a loop that never returns and only try finite ranges", "anchors": ["include/dice/template-library/ranges.hpp: unique_view, unique_view::iterator, remove_element, all_of, any_of, none_of, all_equal, all_distinct, is_sorted_unique, lexicographical_compare_three_way"]}
{"id": "C90", "title": "Element objects in the channels: no double destruction, no leak, no duplication", "statement": "For every program that uses channel and exchange_channel (push/emplace by copy, move or arguments, try variants, pop, try_pop, close, destruction of the channel, begin, increment, copy, move, assignment and destruction of iterators, moving out of an iterator) and every choice of element operations that throw: no destroyed or not yet constructed element object is ever used; every live object is in exactly one place (the program, a channel, an iterator); every object is constructed once and destroyed once, none is leaked; every value that was created is held by one object or was ended by a destruction, an assignment or a throwing operation, so none is duplicated or silently lost; the mutex is free after every call. A push that returns false touched nothing; one that returns true performs exactly one construction from its argument; pop moves twice and never copies; if push of channel throws the channel is unchanged; moving an iterator moves its element and leaves it engaged; move assignment of iterators swaps.", "quantifier": "all histories of calls on any number of channels and iterators, all capacities, all element values, all patterns of throwing element operations", "why_tests_cant": "the histories and the patterns of exceptions are unbounded; a leak or a double destruction may need a particular combination of both", "anchors": ["include/dice/template-library/channel.hpp: channel::emplace, channel::try_emplace, channel::pop, channel::try_pop, channel::iterator", "include/dice/template-library/exchange_channel.hpp: exchange_channel::emplace, exchange_channel::pop, exchange_channel::try_pop, exchange_channel::iterator"]}
{"id": "C91", "title": "variant2 and inplace_polymorphic: arguments inside the object, and throwing destructors", "statement": "Assigning to a variant2 or inplace_polymorphic from an object that lives inside its held value (the tail of a list, a branch of a tree, a member of the held object), or emplacing from one, gives the value that object had before; and a destructor that throws leaves the variant usable.", "quantifier": "all values with any nesting of owned variants, all positions inside, all alternatives on both sides, all ways elements assign", "why_tests_cant": "the failing cases read destroyed memory and usually appear to work; depth and shape of the owned structure are unbounded", "anchors": ["include/dice/template-library/variant2.hpp: operator=", "include/dice/template-library/variant2.hpp: emplace", "include/dice/template-library/inplace_polymorphic.hpp: operator=", "include/dice/template-library/inplace_polymorphic.hpp: emplace"]}
{"id": "C92", "title": "flex_array: failures while constructing, converting and resizing are reported and leave nothing behind", "statement": "If an element, an iterator or an allocation throws while a flex_array is constructed, converted or resized, the caller gets the exception, every element created for it has been destroyed, and a resized array is unchanged; if nothing throws the result is the one specified.", "quantifier": "all modes, all sizes, all kinds of iterators, every point at which something throws", "why_tests_cant": "the throw point can be any of unboundedly many element operations and allocations", "anchors": ["include/dice/template-library/flex_array.hpp: flex_array(std::initializer_list)", "include/dice/template-library/flex_array.hpp: flex_array(Iter, Sent)", "include/dice/template-library/flex_array.hpp: flex_array(flex_array const &)", "include/dice/template-library/flex_array.hpp: resize"]}
{"id": "C93", "title": "Functions declared constexpr can be evaluated at compile time", "statement": "A program that only calls functions the library declares constexpr, on element types whose operations are constexpr, and that runs without undefined behaviour and without an exception, is a constant expression under C++23, and evaluating it at compile time gives the results of running it. This concerns flex_array in all modes, variant2, tuple_fold and tuple_for_each, the range algorithms, range and next_to_range, pointer_tag_pair, integral_template_tuple and limit_allocator.", "quantifier": "every sequence of operations on any number of arrays of any modes, every sequence of operations on variants with trivial or non-trivial alternatives, every tuple and every range", "why_tests_cant": "Tests evaluate a few calls in static_assert; whether a call is constant depends on the mode, on the alternatives held and on the branch taken, and a function template that is declared constexpr but never is constant is accepted silently.", "anchors": ["include/dice/template-library/flex_array.hpp: flex_array", "include/dice/template-library/variant2.hpp: variant2", "include/dice/template-library/tuple_algorithm.hpp: get_impl", "include/dice/template-library/ranges.hpp: all_equal_impl", "include/dice/template-library/next_to_range.hpp: next_to_range"]}
{"id": "C94", "title": "variant2: the alternative a value selects", "statement": "Constructing a variant2 from a value or assigning one selects the alternative that std::variant selects, or is ill-formed if that is; a value of the type of an alternative always goes there, an lvalue is never moved from, and v = {} resets the variant to its first alternative.", "quantifier": "every pair of alternatives (arithmetic types, pointers, classes with any converting constructors, conversion functions and bases), every argument type and value category", "why_tests_cant": "which overload is called depends on all conversions between the types; tests try a few types only", "anchors": ["include/dice/template-library/variant2.hpp: variant2::variant2(T const &)", "include/dice/template-library/variant2.hpp: variant2::operator=(U &&)"]}
{"id": "C95", "title": "Construction in place makes what T(args...) makes", "statement": "Where the library makes an object from arguments of the user (emplace and in-place constructors, copies of elements, elements of tuples), the object is the one T(args...) makes, its copy constructor is used for copies, and the declaration whether this can throw is right.", "quantifier": "every class with any constructors, including one for initializer lists, every number and types of arguments, every function that makes objects", "why_tests_cant": "the result depends on the constructors of the types of the user", "anchors": ["include/dice/template-library/variant2.hpp: variant2::emplace", "include/dice/template-library/inplace_polymorphic.hpp: inplace_polymorphic::emplace", "include/dice/template-library/mutex.hpp: mutex", "include/dice/template-library/shared_mutex.hpp: shared_mutex", "include/dice/template-library/standard_layout_tuple.hpp: standard_layout_tuple", "include/dice/template-library/channel.hpp: channel::emplace", "include/dice/template-library/exchange_channel.hpp: exchange_channel::emplace"]}
{"id": "C96", "title": "Tuples: which constructor is called", "statement": "Making a standard_layout_tuple or integral_template_tuple from another one copies or moves it however this is written; values are forwarded to the elements, one for each, and never implicitly; tags are never taken for values.", "quantifier": "every number of elements, every number of arguments, every value category and constness", "why_tests_cant": "the overloads compete differently for each length of the tuple and each kind of argument", "anchors": ["include/dice/template-library/standard_layout_tuple.hpp: standard_layout_tuple", "include/dice/template-library/integral_template_tuple.hpp: integral_template_tuple"]}
{"id": "C97", "title": "limit_allocator, polymorphic_allocator, offset_ptr_stl_allocator: take the place of the allocator they wrap", "statement": "Whatever a container asks of an allocator, it gets the same answer through the wrappers as without them: memory for the number of objects it asked for, elements made and destroyed by the allocator's own functions, the allocator's max_size, an allocator for nodes, a copy for a copy of the container, propagation when containers are assigned or swapped, and holds_allocator tells for every class whether it is in use. This holds for any nesting of the wrappers.", "quantifier": "all allocators with any combination of optional members and size types, all nestings of wrappers, all numbers of objects", "why_tests_cant": "The members that are missing are replaced silently by std::allocator_traits; which allocators notice depends on members that the allocators in tests do not have, and sizes beyond 2^32 are not tried.", "anchors": ["include/dice/template-library/limit_allocator.hpp: limit_allocator", "include/dice/template-library/polymorphic_allocator.hpp: polymorphic_allocator, offset_ptr_stl_allocator, detail_pmr::same_type"]}
{"id": "C98", "title": "The type traits of the class templates tell the truth", "statement": "If a type trait (default constructible, copy and move constructible, copy and move assignable, swappable) is true for a type made with a template of the library out of element types whose own traits are right, then the operation can be used: code that chooses by the trait compiles. This holds at any nesting depth for integral_template_tuple, integral_template_variant, standard_layout_tuple, mutex, shared_mutex and their guards, channels, scope guards, inplace_polymorphic, limit_allocator, offset_ptr_stl_allocator_wrapper, pool_allocator, pointer_tag_pair, flex_array with the elements inside and polymorphic_allocator with other than two allocators; for variant2, other flex_arrays, the iterators of channels, polymorphic_allocator with two allocators, basic_static_string and constructors from values it is stated exactly when it holds. Trivially copyable is stated exactly as well.", "quantifier": "for all element types (given by what their own functions are: absent, claimed but unusable, written out, or trivial), all lists of them, and all nestings of templates", "why_tests_cant": "A test instantiates the templates with a few element types; a trait that is wrong for another type shows up only when someone instantiates it, as an error deep inside the library", "anchors": ["include/dice/template-library/variant2.hpp: variant2", "include/dice/template-library/flex_array.hpp: flex_array", "include/dice/template-library/channel.hpp: channel_iterator", "include/dice/template-library/polymorphic_allocator.hpp: polymorphic_allocator", "include/dice/template-library/mutex.hpp: mutex, mutex_guard", "include/dice/template-library/inplace_polymorphic.hpp: inplace_polymorphic"]}
{"id": "C99", "title": "Comparisons and hashes of the class templates: which element operations run, what a throwing one does, which laws carry over", "statement": "Comparing two flex_arrays, standard_layout_tuples, integral_template_tuples, integral_template_variants or variant2s calls the comparisons of the elements from left to right, each at most once, and stops at the first one that decides; arrays of different size are unequal and variants with different alternatives are unequal and ordered without calling any. The result is the lexicographic one (variants: valueless first, then by alternative). If the comparisons of the elements obey the laws of a (total) order, so do those of every type built from the templates, however nested, and the six operators fit together. An exception thrown by a comparison or hash of an element terminates the program, exactly if no earlier comparison decided; it never reaches the caller. Which operators exist follows from those of the elements and, for flex_array, from the mode", "quantifier": "all element types with arbitrary (also throwing) comparisons and hashes, all values and sizes, all nestings of the templates, all flex_array modes", "why_tests_cant": "a test compares a few values of a few types with comparisons that do not throw; the order of calls, laws for all triples of values and arbitrary nesting cannot be enumerated", "anchors": ["include/dice/template-library/flex_array.hpp: flex_array::operator<=>", "include/dice/template-library/standard_layout_tuple.hpp: operator<=>, operator==", "include/dice/template-library/integral_template_tuple.hpp: operator<=>, operator==", "include/dice/template-library/integral_template_variant.hpp: operator<=>, operator==, std::hash", "include/dice/template-library/variant2.hpp: operator==, operator<=>, std::hash"]}
{"id": "C100", "title": "Elements of tuples live exactly as long as they should, whatever throws", "statement": "In every program that constructs, copies, moves, assigns, swaps and destroys standard_layout_tuples (and integral_template_tuples, which derive from them), with element operations that may throw at any point: elements are made from left to right; if one throws, those made are destroyed in reverse order and no tuple exists; every element object is made once, destroyed at most once and after it was made, and belongs to exactly one tuple until then; nothing leaks. Assignment goes element by element and keeps what it did before an exception (no strong guarantee). uniform_construct makes each element from all the arguments, none of them used up by an earlier element. Swapping with non-throwing moves exchanges the values.", "quantifier": "all element types (operations as arbitrary programs over the user's state), all numbers of elements, all programs and all points at which operations throw", "why_tests_cant": "The exception can come from every element operation of every object, in every order of operations; tests can only try single failure points.", "anchors": ["include/dice/template-library/standard_layout_tuple.hpp: standard_layout_tuple, uniform_construct, individual_construct", "include/dice/template-library/integral_template_tuple.hpp: integral_template_tuple"]}
{"id": "C101", "title": "Views, iterators and algorithms of ranges after exceptions", "statement": "If reading, comparing, hashing, copying or inserting an element throws while a unique or remove_element view is iterated, the exception reaches the caller and the iterator can still be used: a loop that goes on afterwards ends and shows what the view shows of the source without the elements on which exceptions left the iterator. An increment that throws has no effect. Iterators of unique are values: copies go on independently, and every iterator shows the first occurrences after its position. Pipelines can be reused and keep the value they were made with. all_of, any_of, none_of, all_equal, all_distinct, is_sorted_unique and lexicographical_compare_three_way ask one element after the other up to the first that decides the result or throws.", "quantifier": "all sources, all sequences of exceptions, all programs that copy, move, assign and increment any number of iterators, all function objects with state", "why_tests_cant": "exceptions at every point of every sequence of operations are unbounded in number", "anchors": ["include/dice/template-library/ranges.hpp: unique_view::iterator", "include/dice/template-library/ranges.hpp: remove_element_pipeline, remove_element_impl", "include/dice/template-library/ranges.hpp: all_of, any_of, none_of, all_equal, all_distinct, is_sorted_unique, lexicographical_compare_three_way"]}
{"id": "C102", "title": "channel iterators: a loop whose elements' moves throw", "statement": "A range-for loop by the only consumer over a channel whose elements have throwing moves visits, until something throws, the values inserted first in order (channel) or values inserted in order and at most once (exchange_channel). The first exception ends the program for channel, whose iterators are noexcept; for exchange_channel it leaves the loop if the elements' move constructor may throw and ends the program otherwise. At most one value is lost. Without exceptions the loop behaves as for elements that do not throw.", "quantifier": "all reachable states of the concurrent models (any number of threads, any schedule, any operations of the other threads), every throwing move in pop and every list of throwing assignments to the iterator's buffer", "why_tests_cant": "which move throws and when, relative to the other threads, is unbounded", "anchors": ["include/dice/template-library/channel.hpp: channel::iterator", "include/dice/template-library/channel.hpp: channel::pop", "include/dice/template-library/exchange_channel.hpp: exchange_channel::iterator", "include/dice/template-library/exchange_channel.hpp: exchange_channel::pop"]}
{"id": "C103", "title": "lazy conditionals and switches: which failures can be tested for", "statement": "Naming lazy_conditional_t whose selected provider has no type ends the compilation; it is never a substitution failure. A switch is a substitution failure exactly if its first case is not a case_ or has a provider without type, or (without default) if there are no cases; every other failure, in particular that no condition holds, ends the compilation. When they give a type it is the one of the first case whose condition holds.", "quantifier": "all environments of providers, all lists of cases, all defaults", "why_tests_cant": "the lists and providers range over infinitely many types, and a hard error cannot be observed by a compiling test", "anchors": ["include/dice/template-library/lazy_conditional.hpp: lazy_conditional", "include/dice/template-library/lazy_conditional.hpp: lazy_switch_default", "include/dice/template-library/lazy_conditional.hpp: lazy_switch"]}
{"id": "C104", "title": "format_to_ostream: which operator<< an expression means, and what wide streams get", "statement": "The library's operator<< is viable exactly for values that have a formatter for the stream's character type and cannot be streamed otherwise (by the standard library, an overload in a namespace associated with the type, or one declared before the header and visible from the library), in places where no enclosing namespace declares an operator<< or if the type belongs to the global namespace. It never competes with overloads that come with the type. On wide streams it writes one character per byte of the text formatted as char.", "quantifier": "all programs (sets of declarations in namespaces, association of types with namespaces, formatters), all places of use, all values and texts", "why_tests_cant": "the sets of declarations and places of use in client programs are unbounded", "anchors": ["include/dice/template-library/format_to_ostream.hpp: is_ostreamable", "include/dice/template-library/format_to_ostream.hpp: operator<<"]}
{"id": "C105", "title": "opt_min, opt_max, opt_minmax: what is called and copied, exceptions, optionals of optionals", "statement": "Whatever the comparator answers, every element with a value is read exactly once and in order, every one but the first is compared exactly once (twice for opt_minmax) to the result for earlier elements with the arguments in a fixed order, and the result is one of the values, empty exactly if there is none; an exception of a copy or of the comparator reaches the caller at once and nothing is called afterwards; exactly one level of std::optional is looked through, so that an optional that contains an empty optional counts as a value", "quantifier": "all ranges of elements with and without values, all comparators with state, all positions of throwing calls, all nestings of optionals", "why_tests_cant": "comparators with state, positions of faults and ranges are unbounded; the tests use pure comparators that do not throw", "anchors": ["include/dice/template-library/opt_minmax.hpp: opt_min_element_impl", "include/dice/template-library/opt_minmax.hpp: opt_max_element_impl", "include/dice/template-library/opt_minmax.hpp: opt_minmax_element_impl", "include/dice/template-library/opt_minmax.hpp: into_optional, has_value, deref"]}
{"id": "C106", "title": "Channels join threads to pipelines that compute the right result and always finish", "statement": "Threads are joined by channels in a chain: the first pushes the elements of a list and closes its channel, each thread in the middle loops over its input channel, pushes what its loop body makes of each element to its output channel and closes it at the end, the last one consumes. A thread may stop after a given number of elements, or because a push was refused, and then closes its input and its output. At every moment every loop has seen a beginning of what the bodies before it compute from the source, in order and without gaps or repetitions. When the last thread has finished it has seen exactly that, up to its number of elements. If every channel has room for at least one element there is no deadlock: when no thread can go on, all have finished. Every execution is bounded by the lengths of the lists (plus a constant per spurious wakeup), so every execution finishes.", "quantifier": "all numbers of threads, capacities, lists, loop bodies (each element gives any list), numbers of elements after which threads stop, and all interleavings of the steps inside the member functions of all threads with spurious wakeups and late reads of the flag", "why_tests_cant": "a test runs a few pipelines with a few schedules; deadlocks in chains of bounded queues show only in rare interleavings of full and empty channels with early leavers", "anchors": ["include/dice/template-library/channel.hpp: channel::push", "include/dice/template-library/channel.hpp: channel::pop", "include/dice/template-library/channel.hpp: channel::close", "include/dice/template-library/channel.hpp: channel::iterator"]}
{"id": "C107", "title": "Layers of worker threads that share channels handle every element exactly once, never deadlock and come to an end", "statement": "Let any number of threads loop over one channel and push what their loop bodies compute to the next channel, the last thread of each layer to finish closing that channel. At every moment the loops of a layer together have seen a part of the elements that the layers before compute from the sources, each at most once. When all threads of a layer have finished, their loops have seen exactly those elements, each exactly once, in some order. If every layer has a thread and every channel has room for one element, no reachable state is a deadlock, every execution is bounded (apart from spurious wakeups) and from every state all threads can finish. The order of the elements is not kept when a layer has more than one thread.", "quantifier": "every number of layers, every number of threads per layer, all capacities, all source lists and loop bodies, all interleavings, all choices of the thread woken, spurious wakeups and stale reads of the closed flag included", "why_tests_cant": "the number of interleavings of several producers and consumers on several channels is unbounded; lost elements, duplicates and lost wakeups show in rare schedules only", "anchors": ["include/dice/template-library/channel.hpp: channel::push", "include/dice/template-library/channel.hpp: channel::pop", "include/dice/template-library/channel.hpp: channel::close", "include/dice/template-library/channel.hpp: channel::iterator"]}
{"id": "C108", "title": "Threads joined by exchange channels may skip values but never the newest one, never deadlock and come to an end", "statement": "Let a thread push the elements of a list into an exchange channel and close it, and let further threads each loop over one exchange channel, push what they compute into the next and close that at the end. At every moment every loop has seen a subsequence of what the threads before it make of the list: in order, nothing invented, nothing twice. No push is refused. When a thread has finished, the last element that its loop has seen is what the threads before it make of the last element of the list. Also before that: while the first thread is between two pushes, the others come to rest only when the value pushed last has arrived at all of them. When no thread can go on, all have finished; every execution is bounded apart from spurious wakeups, and the threads can finish from every state. It is not true that every value arrives.", "quantifier": "all numbers of threads, lists, loop bodies, interleavings of all steps of all member functions, spurious wakeups and reads of older values of the flag", "why_tests_cant": "tests run few threads with few schedules; that a value replaces another, and that the newest one is never lost at any of the links, depends on the schedule", "anchors": ["include/dice/template-library/exchange_channel.hpp: exchange_channel::emplace", "include/dice/template-library/exchange_channel.hpp: exchange_channel::pop", "include/dice/template-library/exchange_channel.hpp: exchange_channel::close", "include/dice/template-library/exchange_channel.hpp: exchange_channel::iterator"]}
{"id": "C109", "title": "When a channel may be destroyed while other threads may be inside it", "statement": "A thread that is in no call may destroy a channel or exchange_channel if and only if every other thread is in no call or has nothing left to do in its call but hand over its result; then no continuation is undefined. In particular it is enough that every call has returned (the other threads were joined), whatever is still stored. It is not enough that the destroying thread's own loop has ended, that it has received the only element ever pushed, or that its own close() has returned: the other side may still be about to notify (which happens after the mutex was released) or about to wake up. When close was called once and a pop has returned nothing, all that can be left of that close are its notifications. In a pipeline or relay the channel between two threads may be destroyed once both of them are over.", "quantifier": "every number of threads, every program of calls, every schedule, spurious wakeup, stale read and exception; every moment of destruction; every continuation after it", "why_tests_cant": "The window between releasing the mutex and notifying is a few instructions long and a use of a destroyed condition variable usually goes unnoticed; tests cannot enumerate the schedules", "anchors": ["include/dice/template-library/channel.hpp: channel::~channel, channel::close, channel::emplace, channel::try_emplace, channel::pop, channel::try_pop", "include/dice/template-library/exchange_channel.hpp: exchange_channel::~exchange_channel, exchange_channel::close, exchange_channel::emplace, exchange_channel::pop"]}
{"id": "C110", "title": "What keeps the elements of a view alive", "statement": "A loop over unique or fmt_join of an lvalue container sees exactly what the container has at that moment, after any program of changes, moves, copies and loops, and is undefined exactly when the container is gone (unspecified when its elements were moved out of an array). A loop over a view of an rvalue, a temporary or a braced list sees what the container had when the view was made, whatever happens to the container afterwards. remove_element of a vector that is an lvalue behaves like unique except that a loop followed by a change of the vector makes the next loop undefined, because the view keeps an iterator; copies and moves of the view forget it. Moving a view moves what it shows. Iterators of unique outlive the view while the container is unchanged, iterators of remove_element do not.", "quantifier": "all programs (finite sequences of creating, assigning, moving and destroying containers and creating, copying, moving, destroying and looping over views), element lists, kinds of storage, tests and positions of the view in the program", "why_tests_cant": "Every test uses one container and one view in one scope; use after destruction is undefined and normally passes unnoticed, and what holds depends on the whole history of the objects", "anchors": ["include/dice/template-library/ranges.hpp: unique, unique_view, remove_element", "include/dice/template-library/fmt_join.hpp: fmt_join"]}
{"id": "C111", "title": "What the macros put into a program", "statement": "For every argument, line, file and any macros of the program that do not redefine the words the library uses: DICE_DBG(e) is the call of a lambda with e (once, outside of the body of the lambda, at any depth of nesting) that prints file, line and e as written; DICE_MEMFN(f, args...) has a comma between the given and the later arguments exactly if the given ones expand to something; DICE_MOVE_IF_VALUE(e) puts e into decltype as it is and evaluates it once; DICE_DEFER and its variants declare a variable whose name is the same exactly on equal lines; DICE_IDENT_CONCAT expands its arguments before joining them; the macros with one parameter accept a balanced argument only if it has no comma outside of parentheses; ignore_leak never calls a missing sanitizer and tells an existing one exactly once.", "quantifier": "all token sequences as arguments and as the rest of the program, all lines, files and environments of user macros", "why_tests_cant": "arguments are arbitrary token sequences that may contain further macros; tests compile a few of them", "anchors": ["include/dice/template-library/macro_util.hpp: DICE_IDENT_CONCAT", "include/dice/template-library/macro_util.hpp: ignore_leak", "include/dice/template-library/dbg.hpp: DICE_DBG", "include/dice/template-library/memfn.hpp: DICE_MEMFN", "include/dice/template-library/type_traits.hpp: DICE_MOVE_IF_VALUE", "include/dice/template-library/defer.hpp: DICE_DEFER", "include/dice/template-library/sandbox.hpp: DICE_SANDBOX"]}
{"id": "C112", "title": "The tests of the repository pass for every input and every schedule", "statement": "Where a test of the repository has a natural generalisation, the generalised test passes always. ipow agrees with the naive reference of the randomised test for every integer type of at most 64 bits, every base and every exponent. next_to_range over the iterator of the test visits exactly its elements for every length, from both ends. A channel between a thread that pushes a list and closes and a thread that loops delivers exactly the list, for every list and capacity and in every schedule; an exchange channel delivers a subsequence that ends with the last element, never empty if the list is not empty, and close releases a waiting pop. A channel used by one thread gives for every sequence of calls the results of a bounded queue, an exchange channel those of a slot for one value, and a call blocks exactly if there is nobody who could let it go on. A limit_allocator used by one thread throws exactly if the blocks in use and the new one exceed the limit, for every program. opt_min with the order reversed is opt_max.", "quantifier": "every integer type, base, exponent; every list, capacity, schedule; every sequence of calls; every program of allocations", "why_tests_cant": "A test runs one input in one schedule.", "anchors": ["tests/tests_ipow.cpp: randomised test", "tests/tests_next_to_range.cpp", "tests/tests_channel.cpp: usecase sanity check", "tests/tests_exchange_channel.cpp: iterator collects all values", "tests/tests_limit_allocator.cpp: run_tests", "tests/tests_opt_minmax.cpp", "include/dice/template-library/ipow.hpp: ipow", "include/dice/template-library/channel.hpp: channel", "include/dice/template-library/exchange_channel.hpp: exchange_channel", "include/dice/template-library/limit_allocator.hpp: limit_allocator"]}
{"id": "C113", "title": "Blocks with guards are atomic and lock in order without deadlock", "statement": "Threads that read and write values behind mutex and shared_mutex objects only through guards on the stack, and lock nothing after the first guard of a block has ended, behave in every schedule as if the blocks were executed one after the other, in an order that respects which block ended before another one began; every property of the values that each block preserves alone holds whenever no block runs; threads that all lock in the same order never block each other for ever and all end; no update is lost.", "quantifier": "all numbers of threads, mutex objects and values, all programs of nested blocks of shared and exclusive guards whose writes depend arbitrarily on what was read, all schedules", "why_tests_cant": "the number of interleavings and of programs is unbounded; a test runs a few schedules of one program", "anchors": ["include/dice/template-library/mutex.hpp: mutex, mutex_guard", "include/dice/template-library/shared_mutex.hpp: shared_mutex, shared_mutex_guard"]}
{"id": "C114", "title": "Arbitrary programs on values behind mutexes are atomic, free of deadlocks and can always be completed", "statement": "Threads may execute any program on values behind mutex and shared_mutex objects: branch on what they read, lock, lock shared, try locks and go on with the answer, end guards in any order, leave blocks early (for instance by an exception), go on for ever. If no transaction locks anything after its first guard has ended, everything observable is explained by executing the transactions one after the other, in an order that respects real time; failed try_locks appear as spurious failures. If lock and lock_shared are called in one order of the mutexes (try_lock in any order), no thread waits for ever, and transactions that have begun can always be completed. try_lock never waits.", "quantifier": "all numbers of mutexes and threads, all programs (finite or not) with these rules, all values, all schedules, all spurious failures", "why_tests_cant": "tests run a few schedules of a few programs; the claim is about every program and every schedule, including executions that never end", "anchors": ["include/dice/template-library/mutex.hpp: mutex::lock, mutex::try_lock, mutex_guard", "include/dice/template-library/shared_mutex.hpp: shared_mutex::lock, lock_shared, try_lock, try_lock_shared, shared_mutex_guard"]}
{"id": "C115", "title": "Output, memory and locks across a sandbox", "statement": "What the parent printed to std::cout, std::cerr or a C stream before a sandbox, and what the sandboxed function prints to them, appears exactly once and in this order (all of it if the function returns, a beginning of it if the process dies); variables and mutexes of the parent are unchanged whatever the function does; destructors of global objects run in the child only after std::exit; the sandbox waits for ever exactly if the child locks a mutex that it or any thread of the parent holds. Other streams (std::ofstream) are exempt: their text may be written twice or lost, and it is stated exactly when.", "quantifier": "every sequence of prints, flushes, assignments, locks and unlocks in the function and in destructors of globals, every state of the parent's buffers, open streams and mutexes, every assignment of streams to files, every way in which the function ends", "why_tests_cant": "tests run few functions with empty buffers and no other thread, and never look at the files", "anchors": ["include/dice/template-library/sandbox.hpp: flush_all_streams", "include/dice/template-library/sandbox.hpp: operator+", "include/dice/template-library/sandbox.hpp: DICE_SANDBOX"]}
{"id": "C116", "title": "Element types whose own code uses channels", "statement": "Constructors, moves and destructors of elements may themselves call channels. If the code that runs with the mutex of a channel uses only later channels (in some order of the channels) and does not wait there for elements or space, then no set of threads waits for mutexes for ever, and every execution ends with all threads done or waiting for an element or for space, all mutexes free. Code that runs after the mutex is released (the move to the result in channel::pop) may use any channel, even its own. If code that runs with the mutex locks its own channel, the call never returns and the mutex stays locked. In exchange_channel the move to the result runs with the mutex, so an element that may be popped from a channel may hang in an exchange_channel.", "quantifier": "all programs, all nestings of element code, all numbers of channels of both kinds and of threads, all schedules", "why_tests_cant": "tests use elements that do nothing but hold values", "anchors": ["include/dice/template-library/channel.hpp: emplace", "include/dice/template-library/channel.hpp: pop", "include/dice/template-library/exchange_channel.hpp: emplace", "include/dice/template-library/exchange_channel.hpp: pop"]}
{"id": "C117", "title": "Programs that use mutexes and channels together", "statement": "If all threads take guards of mutexes in one order and no thread waits for an element or for space in a channel while it has a guard, then no thread waits for a mutex for ever: when no thread can go on, all mutexes are free and every thread is done or waits for an element of an empty open channel or for space in a full open channel. All executions are finite. Without the condition on waiting this fails even with a single mutex.", "quantifier": "all programs with nested guards (lock and try_lock) and all operations of both channels, all numbers of mutexes, channels and threads, all schedules", "why_tests_cant": "deadlocks depend on schedules, and tests of the repository never combine the classes", "anchors": ["include/dice/template-library/mutex.hpp: lock", "include/dice/template-library/mutex.hpp: try_lock", "include/dice/template-library/channel.hpp: pop", "include/dice/template-library/channel.hpp: emplace", "include/dice/template-library/exchange_channel.hpp: pop"]}
{"id": "C118", "title": "Objects take no more memory than documented", "statement": "For all element, allocator and mutex types: every member of a variant2, static_string, flex_array, inplace_polymorphic, limit_allocator, mutex or guard lies inside the object, aligned and apart from the others; variant2 is as large as the union of its types plus one byte; static_string takes two words and is smaller than a string with a capacity; flex_array takes its elements, and one size field if the number varies; mutex and inplace_polymorphic are as small as any object with room for the same things; wrapping an allocator in offset_ptr_stl_allocator costs nothing; pointer_tag_pair is one word.", "quantifier": "every size and alignment of the types involved, every number of elements", "why_tests_cant": "the tests compare sizeof for a few types with int elements and the default allocator", "anchors": ["include/dice/template-library/variant2.hpp: variant2", "include/dice/template-library/static_string.hpp: basic_static_string", "include/dice/template-library/flex_array.hpp: flex_array_inner", "include/dice/template-library/inplace_polymorphic.hpp: inplace_polymorphic", "include/dice/template-library/limit_allocator.hpp: limit_allocator", "include/dice/template-library/polymorphic_allocator.hpp: offset_ptr_stl_allocator", "include/dice/template-library/pointer_tag_pair.hpp: pointer_tag_pair", "include/dice/template-library/mutex.hpp: mutex, mutex_guard"]}
{"id": "C119", "title": "A call of lock returns under a fair scheduler", "statement": "In programs that never end, if every thread locks mutexes in one common order, a thread that calls lock or lock_shared gets its guard eventually and every block with guards comes to its end, provided the scheduler and the mutex are strongly fair and readers of a shared_mutex leave writers a gap. Readers leave a gap if lock_shared is not used, if each mutex has one reader thread at most, or if the mutex prefers writers. None of the three conditions can be dropped: with readers that take turns, with a mutex that is only weakly fair, or with different orders of locking, a call of lock may never return.", "quantifier": "all programs of blocks with nested guards, all numbers of mutexes and threads, all infinite executions", "why_tests_cant": "a call that never returns shows only in infinite executions, tests end", "anchors": ["include/dice/template-library/mutex.hpp: lock", "include/dice/template-library/mutex.hpp: mutex_guard", "include/dice/template-library/shared_mutex.hpp: lock", "include/dice/template-library/shared_mutex.hpp: lock_shared", "include/dice/template-library/shared_mutex.hpp: shared_mutex_guard"]}
{"id": "C120", "title": "Structured bindings and get of tuples and pointer-tag pairs", "statement": "`get<i>()` of a `standard_layout_tuple` gives a reference to element i with the qualifiers and value category of the tuple, as `std::get` does for a `std::tuple`, and `get<T>()` is the `get` of the only element of type T. A structured binding introduces one name per element, in order; each has the declared type of its element and means that element of the tuple (or of the copy, for `auto [...]`), and tuples can be bound in every way a `std::tuple` can. The names for a `pointer_tag_pair` have the types of the pointer and the tag and are const if declared so.", "quantifier": "every list of element types (values and both kinds of references, every qualifier), every position, every declaration and every kind of initializer", "why_tests_cant": "tests bind a few tuples of values; references among the elements, const tuples and rvalues multiply the cases, and a binding that does not compile cannot be tested", "anchors": ["include/dice/template-library/standard_layout_tuple.hpp: get", "include/dice/template-library/standard_layout_tuple.hpp: std::tuple_size, std::tuple_element", "include/dice/template-library/pointer_tag_pair.hpp: get, std::tuple_element"]}
{"id": "C121", "title": "The programs of the examples directory, for every input and failure", "statement": "A vector with a limit_allocator throws from push_back or reserve exactly if it needs a new block and the old and the new block together exceed the limit (or there is no memory behind the limit); a call that throws changes nothing. A vector that doubles can be filled with n elements exactly if the limit is three times the largest power of two below n. copy_file_transact with a guard for failure returns exactly if copying and renaming succeed, and otherwise leaves every file as it was except the temporary one, which is gone. The extents of a shape are those it was made with, for at most two dimensions. A loop over the first n elements of a next_to_range visits exactly these and calls next() once more than it visits elements.", "quantifier": "every limit, growth policy, program of calls on the vector; every state of the files and every failure of the operating system; every shape; every iterator and number of elements", "why_tests_cant": "An example runs with one limit, no failing file operation and one number of elements.", "anchors": ["examples/example_limit_allocator.cpp: main", "examples/examples_defer.cpp: copy_file_transact", "examples/example_flex_array.cpp: shape", "examples/example_next_to_range.cpp: main", "include/dice/template-library/limit_allocator.hpp: limit_allocator::allocate", "include/dice/template-library/defer.hpp: DICE_DEFER_TO_FAIL"]}
{"id": "C122", "title": "The results of threads joined by channels do not depend on the schedule", "statement": "Let any number of threads run deterministic programs that communicate only by push, pop and close of channels, where every channel has one thread that pushes into it and closes it and one that pops from it; the graph may have cycles, the capacities are arbitrary and the programs may never end. Then in any two executions the results of a thread's calls, in order, are the same as far as both executions go. If one execution cannot go on (all threads finished, or blocked for ever), then no execution gets further in any thread, every execution makes a bounded number of steps apart from spurious wakeups, every execution can be continued to its end, and all ends have the same results: whether the network deadlocks, where, and what it computes is the same under every schedule. If a consumer also closes its channel, this is false.", "quantifier": "all numbers of threads and channels, all graphs, all programs (functions from the results so far to the next call), all element types that do not throw, all capacities, all schedules, spurious wakeups and stale reads of the flag", "why_tests_cant": "A test runs a few schedules of one network; determinism is a statement about all pairs of schedules, and that deadlocks cannot depend on the schedule is about all of them at once.", "anchors": ["include/dice/template-library/channel.hpp: channel::push", "include/dice/template-library/channel.hpp: channel::emplace", "include/dice/template-library/channel.hpp: channel::pop", "include/dice/template-library/channel.hpp: channel::close"]}
{"id": "C123", "title": "Capacities of channels change no result, and more room never makes a network stuck earlier", "statement": "For networks as in C122 (one producer that also closes, one consumer per channel): executions with any two choices of capacities have the same results of the calls of every thread, as far as both go. If every capacity is at least as large, an execution that cannot go on has got at least as far in every thread as any execution with the smaller capacities; in particular, if all threads can finish with the smaller ones, all executions with the larger ones that cannot go on have all threads finished, with the same results. The capacity can decide whether the network gets stuck.", "quantifier": "all networks as in C122, all pairs of capacities, all schedules of both", "why_tests_cant": "Compares all executions of two different programs for all networks; a test compares two runs.", "anchors": ["include/dice/template-library/channel.hpp: channel::channel", "include/dice/template-library/channel.hpp: channel::emplace", "include/dice/template-library/channel.hpp: channel::pop"]}
{"id": "C124", "title": "Networks of threads joined by channels whose graph is a forest do not deadlock", "statement": "For networks as in C122: when no thread can go on, every thread has finished, waits in pop for an element of an empty open channel, or waits in push for room in a full open channel; it never waits for a thread that has closed the channel or has seen its end. If the threads are joined by channels like a forest (no cycles, directions ignored, at most one channel between two threads), every channel has room for at least one element, and every thread that finishes has closed the channels it pushes into and popped until nullopt from those it reads, then there is no deadlock: if the network cannot go on, all threads have finished. If moreover the number of calls of each thread is bounded, every execution can be continued until all have finished, and all executions are bounded apart from spurious wakeups. Without the condition on the graph this is false.", "quantifier": "all numbers of threads and channels, all forests, all programs, all capacities of at least one, all schedules, spurious wakeups and stale reads of the flag", "why_tests_cant": "Absence of deadlock is a statement about all schedules of all programs on all graphs of that shape.", "anchors": ["include/dice/template-library/channel.hpp: channel::push", "include/dice/template-library/channel.hpp: channel::emplace", "include/dice/template-library/channel.hpp: channel::pop", "include/dice/template-library/channel.hpp: channel::close"]}
{"id": "C125", "title": "Functions of the wrapped iterator on a next_to_iter", "statement": "A next_to_iter inherits publicly from the iterator it wraps, so next_back(), nth_back(off) and remaining() can be called on it at any time. For a forward next_to_iter and any history of these calls, ++, +=, + and peek(), next_back() and nth_back() take from the back of the elements that are still to come, remaining() counts these elements, and no element is lost or seen twice by the loop.", "quantifier": "all lawful double-ended wrapped iterators, all sequences and all histories of the operations of the iterator and of the inherited functions", "why_tests_cant": "the element the iterator keeps and the one it has peeked are outside the wrapped iterator, so whether the counts and the ends agree depends on the whole history", "anchors": ["include/dice/template-library/next_to_range.hpp: next_to_iter_impl", "include/dice/template-library/next_to_range.hpp: next_to_iter_impl::peek", "include/dice/template-library/next_to_range.hpp: next_back_iterator"]}
{"id": "C126", "title": "Programs on channels behave as if every call took effect at once", "statement": "Take any program of any number of threads that share any number of channels, in which every thread may call push, try_push, pop, try_pop, close and closed on every channel, and its next call may depend on all its earlier results, including exceptions of constructors and move constructors of elements. Beside every execution runs one in which each call takes effect at once on a bounded queue with a flag (a removal whose move throws leaves the element or loses it), between the beginning and the return of the call. The results the threads can get are exactly those of the programs with such calls. If elements do not throw, the states in which nothing can go on also have exactly the same results, so the locks and condition variables add no deadlock and hide none. The number of actions of every execution is bounded by a multiple of the calls begun and the spurious wakeups, so no thread goes on for ever inside calls; if the program with calls that take effect at once makes boundedly many calls, every execution can be continued until nothing can go on, with results of that program.", "quantifier": "all numbers of threads and channels, all programs, all capacities, all schedules with spurious wakeups and stale reads of the flag", "why_tests_cant": "linearizability of one channel is about one object; a program uses several channels and decides by results, and the schedules cannot be enumerated", "anchors": ["include/dice/template-library/channel.hpp: channel::emplace", "include/dice/template-library/channel.hpp: channel::try_emplace", "include/dice/template-library/channel.hpp: channel::pop", "include/dice/template-library/channel.hpp: channel::try_pop", "include/dice/template-library/channel.hpp: channel::close", "include/dice/template-library/channel.hpp: channel::closed"]}
{"id": "C127", "title": "Programs on exchange channels behave as if every call took effect at once", "statement": "Take any program of any number of threads that share any number of exchange channels, in which every thread may call push, pop, try_pop, close and closed on every channel, and its next call may depend on all its earlier results, including exceptions of constructors and move constructors of elements. Beside every execution runs one in which each call takes effect at once on a place for one value with a flag (push replaces the value, and empties the place if the constructor throws; a removal whose move throws leaves the value or loses it), between the beginning and the return of the call. The results the threads can get are exactly those of the programs with such calls. The states in which nothing can go on also have exactly the same results, so the locks and condition variables add no deadlock and hide none. The number of actions of every execution is bounded by a multiple of the calls begun and the spurious wakeups; if the program with calls that take effect at once makes boundedly many calls, every execution can be continued until nothing can go on, with results of that program.", "quantifier": "all numbers of threads and channels, all programs, all schedules with spurious wakeups and stale reads of the flag, elements whose constructors and moves may throw", "why_tests_cant": "linearizability of one channel is about one object; a program uses several channels and decides by results, and the schedules cannot be enumerated", "anchors": ["include/dice/template-library/exchange_channel.hpp: exchange_channel::emplace", "include/dice/template-library/exchange_channel.hpp: exchange_channel::pop", "include/dice/template-library/exchange_channel.hpp: exchange_channel::try_pop", "include/dice/template-library/exchange_channel.hpp: exchange_channel::close", "include/dice/template-library/exchange_channel.hpp: exchange_channel::closed"]}
{"id": "C128", "title": "Programs that use channels and exchange channels together behave as if every call took effect at once", "statement": "Take any program of any number of threads that share any number of channels and exchange channels, in which every thread may call every member function of each of them, and its next call may depend on all its earlier results, including exceptions of elements. Beside every execution runs one in which each call takes effect at once, on a bounded queue or on a place for one value, between its beginning and its return, with the result that it returns. The results the threads can get are exactly those of the programs with such calls. If elements of channels do not throw (those of exchange channels may), the states in which nothing can go on also have exactly the same results: the two kinds of objects add no deadlock when they are used together, and hide none. The number of actions of every execution is bounded by a multiple of the calls begun and the spurious wakeups; if the program with calls that take effect at once makes boundedly many calls, every execution can be continued until nothing can go on.", "quantifier": "all numbers of threads and objects, all programs, all schedules with spurious wakeups and stale reads of the flag, elements that may throw (for deadlocks: only those of exchange channels)", "why_tests_cant": "each class can be tested alone, but programs wait in one and are woken through another; what such a program can do depends on all interleavings of the steps of all its calls, and no finite set of programs or schedules covers them", "anchors": ["include/dice/template-library/channel.hpp: channel", "include/dice/template-library/exchange_channel.hpp: exchange_channel"]}
