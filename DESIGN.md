# Formal model of dice-template-library in Lean 4

The library is C++ headers under `/repo/include/dice/template-library/`. Everything below is a hand-written Lean
model of these headers, read as text. Each definition cites the file and lines it models. `properties.jsonl` states
the properties in English, `MANIFEST.json` maps each to its theorems, `seeded/LOG.jsonl` records the wrong programs the
theorems were tried against.

## Trusted base

* Lean 4.33.0's kernel. The theorems depend on no axioms besides `propext`, `Classical.choice` and `Quot.sound`
  (`#print axioms`; the list per theorem is at the end of this file). No `sorry`, no own axioms, no `native_decide`.
* The correspondence between the C++ text and the Lean definitions (by reading; line references in every comment).
* The meaning given here to C++ itself and to the standard library parts used:
  * `std::mutex`, `std::shared_timed_mutex`-style locks as lock words. `std::condition_variable` with spurious wakeups;
    `notify_one` wakes an arbitrary sleeper; evaluating a wait predicate and going to sleep is one action under the lock.
  * Atomics. `limit_allocator`'s counter is used with relaxed order: a load may return any earlier value of the counter,
    a compare-exchange acts on the newest value and may fail spuriously. The channels' `closed` flag: a read made while
    holding the mutex sees the newest value, a read made without it may see an outdated one (`HB/` derives this from coherence and
    happens-before: views passed along by mutex, release stores and acquire loads, C80). Everything else is protected
    by mutexes, so interleaving semantics is what the C++ memory model gives to race-free programs; absence of races on the
    buffered values is itself proved (C64).
  * `std::deque`, `std::optional`, `std::array`, `std::vector`, `std::unordered_set`, `std::set` as sequences or sets.
  * Exceptions as explicit outcomes; an exception leaving a `noexcept` function is the outcome "terminated";
    `std::uncaught_exceptions` as a counter.
  * Itanium-ABI layout (`Layout/`), LP64 with 32 bit `int`, 64 bit `size_t`, two's complement widths 8/16/32/64 and the
    usual arithmetic conversions (`Range/`, `Integral/`, `IPow/`), Linux wait statuses (`Sandbox/`),
    libstdc++'s `std::format` sinks (`FmtJoin/`).

Undefined behaviour, failed assertions and `std::terminate` are explicit outcomes of the model, never silently
mapped to a value.

Assumptions beyond that, each also in the comment of the definition concerned: the allocator wrapped by
`limit_allocator` never supplies a block of 2^64 bytes or more; upstream allocators are copied, moved and compared without
exceptions where the standard demands it (except where the code's own `noexcept` is the subject); guards of `mutex` are
used by the thread that has them (the thread is not recorded).

## Method

* Concurrency (channel, exchange_channel, mutex, shared_mutex, limit_allocator): labelled transition systems whose
  steps are single shared-memory actions (lock acquisition, evaluation of a wait predicate together with going to
  sleep, insertion, unlock, each notification, each load and compare-exchange). Any number of threads, any number of steps.
  Proofs: inductive invariants over all executions. History is recorded in ghost fields that no step reads.
* Lifetime / memory (variant2, inplace_polymorphic, static_string, pool, flex_array, allocators): state machines over a
  heap or storage in which reading dead storage, freeing twice, freeing with a wrong allocator etc. is an error outcome;
  element operations may throw according to an arbitrary oracle. Proofs: no history reaches an error outcome,
  refinement to an abstract value.
* Value computations (ipow, ranges, iterators, type lists, index arithmetic, comparison, formatting): total functions,
  proved equal to an independent mathematical description.
* Where the code violates the property, the violation is proved (`..._refuted`, a concrete reachable witness) and the
  strongest true restriction is proved with the suffix `_partial`, or with an explicit hypothesis.
* Every property theorem has an `example` beside it that applies it to (or checks its hypotheses on) a concrete case.

## Plan per property

| id | model | proof |
|----|-------|-------|
| C01–C06 | `Channel/`: threads = list of program counters, lock owner, queue, closed flag, sleepers, ghost history of linearisation events | invariant induction over all steps; sequential bounded-queue spec; count of wakeup tokens for C05. C05 holds for non-throwing elements (`_partial`), refuted for throwing constructors |
| C07 | `Channel/Iter`: iterator objects whose `begin`/`++` are calls of the concurrent model | the values seen by a loop are the results of consecutive pops of that thread; ends only at close |
| C08, C09 | `Exchange/` same style, `optional` slot | invariant induction; lost wakeup with throwing move refuted |
| C10, C11 | `Guards/`: lock word + guard objects (pointer, owns flag), all guard operations | invariant: owners counted; moved-from guard access refuted |
| C12, C13 | `Limit/`: atomic word, per-thread CAS loop with stale loads, upstream oracle; 64-bit arithmetic for n*sizeof(T) | invariant: sum of charges; wrap-around refuted |
| C14, C15 | `Pool/`: bucket search, block table | least-bucket spec; invariant over histories; wrap-around refuted |
| C16, C17 | `Defer/`: small language with scopes, guards, throw, try/catch; uncaught counter | structural induction against a counter-free semantics |
| C18–C20 | `FlexArray/`: four storage modes with cells possibly uninitialised | invariant, refinement to lists; short range into static extent refuted |
| C21, C22 | `StaticString/`: byte heap with allocator ids and failure oracle | refinement for 1-byte chars, refuted for wider; safety under the trait/failure conditions, refuted otherwise |
| C23, C24 | `PtrTag/`: BitVec 64 | bit-vector lemmas |
| C25 | `IPow/`: width-parametric checked multiplication loop | loop invariant |
| C26 | `StdInt/` | modular arithmetic |
| C27–C30 | `Variant2/`: storage with live object, throw oracle, event trace | invariant over histories, refinement to `Option (T ⊕ U)`; trivial-assignment corner refuted |
| C31, C32 | `Inplace/` same style | invariant; trivially destructible corner refuted |
| C33 | `OptMinMax/` | induction on lists |
| C34–C37 | `Range/` over Int and over fixed width words | induction on remaining count; reverse and overflow refuted in general |
| C38–C40 | `NextTo/`: arbitrary step function as underlying iterator | simulation by streams |
| C41–C43 | `RangesAlgo/` | induction on lists |
| C44, C45 | `TypeList/`: metafunctions as partial functions on lists | induction |
| C46 | `Integral/` | arithmetic |
| C47 | `Layout/`: sizes and alignments, offsets | exact condition for subtuple; refuted in general |
| C48–C50 | `Control/`: recursion of execute_case, for_*, tuple folds with a state-passing effect | induction |
| C51, C52 | `PolyAlloc/` | invariant over histories |
| C53 | `Sandbox/`: wait-status decoding, retry loop | arithmetic + induction; code 256 refuted |
| C54 | `FmtJoin/` | induction |
| C55 | `LazyCond/`: providers that are fine / missing / ill-formed | induction; earlier unselected cases refuted |
| C56 | `Qualifiers/`: type shapes with cv and reference | case analysis |
| C57 | `BindFront/`: argument cells with move state; `Alias*`: memory with objects that several arguments share, callees as programs | induction on argument lists and on the steps of calls |
| C58 | `Pool/`, `Limit/Handles`, `LostProps`: histories of allocator handles including moves | refuted with a witness; which allocators are empty after every history, by invariant |
| C59 | `NextTo/`: overload selection for copies of a wrapped iterator; histories before and after the copy (`DirectProps`) | direct initialisation refuted; its exact effect by refinement to positions in the sequence |
| C60 | `TypeList/`: number of instantiations of `unique` as a recurrence | induction; exponential lower bound |
| C61, C62 | `Qualifiers/` | case analysis over qualified types |
| C63 | `Exchange/Iter` over the concurrent model | as C07, for the one-value slot |
| C64 | `Channel/Race`, `Exchange/Race`: a step accesses the buffer iff its effect depends on or changes it | mutual exclusion invariant |
| C65 | `Overload/`: overload resolution for one argument over abstract conversions, visiting | declarative "best function" against the search; permutation |
| C66, C67 | `Print/`: streams with state, width, room and tie; expressions over a store with value categories | induction on the text; equalities of outcomes; refuted by witnesses |
| C68 | `OffsetPtr/`: 64-bit self-relative pointers, heap of the wrapped allocator | bit-vector lemmas; simulation of the wrapped allocator |
| C69 | `Zst/`: sizes and alignments of the probe structs | arithmetic |
| C70 | `IntVariant/`: position and value with throwing elements; `noexcept` as termination | case analysis; order lemmas; descending order and throwing copy refuted |
| C71 | `Variant2/Std`: `std::variant` as specified by the standard, on values | step-by-step equality of the two programs; throwing copy assignment refuted |
| C72 | `FlexArray/Value*`: programs over several arrays; positions in the buffer | simulation by lists; termination of failing copies refutes reporting |
| C73 | `StaticString/Access*`: characters as byte groups in the buffer, views, padding | traversal lemmas over the reachable states of C22; lexicographic order |
| C74 | `PtrTag/Typed*`: pointer conversions as address offsets | bit-vector lemmas of C23; base class at an offset refuted |
| C75 | `Range/Generic*`: the iterator over an abstract number type | induction on the progression; Archimedean property for the end; rounding to 53 bits and NaN refute it for doubles |
| C76 | `Variant2/Access*`: overload sets, qualifiers (types of C56), addresses, text | case analysis over overloads for arbitrary alternative types; own operator&, throwing == and const alternatives refuted |
| C77 | `RangesAlgo/Effect*`: function objects with state, elements that can be moved from | induction on the range against a search specification; ranges of rvalues refuted |
| C78 | `Inplace/Layout*`: sizes, alignments and addresses | maximum of a list by induction; divisibility of powers of two; a Base that does not come first refuted |
| C79 | `NextTo/Make*`: constructor arguments, closures, requires-clauses | case analysis per argument for lists of any length; comparison with a table of the documentation; several conditions refuted |
| C80 | `HB/`: views of threads, mutex and stores over the channel models; loads of the flag read any coherent store | simulation of the interleaving model; invariants on views (transitive, contain all effects under the mutex); views equal happens-before and coherence of the standard, by induction on traces of memory events (`HB/Axiomatic`) |
| C81 | `Guards/RaceModel`: operations of threads, what each knows; `unlock` publishes to `lock` and `lock_shared`, `unlock_shared` to `lock`; other synchronization of threads | invariant that everything accessed under a mutex is known to its owner or published by the mutex; last write by induction on the log; knowledge equals the closure of the edges of the standard (`know_iff`) |
| C82 | `Limit/WeakModel`: the steps of `Limit/Model` with loads that return any coherent value, log of what was read and written; synchronization of threads outside | invariant that the oldest readable value of each thread is the newest known one; potential function for the number of steps |
| C83 | `Pool/BoostModel`: a pool with its arenas as `boost::pool` (from its documentation, it is not in the repository) over `new char[]` that answers with any aligned, disjoint area | invariant that free partitions and blocks in use are pairwise disjoint and lie on the grid of a chunk; alignment from the grid, exact condition by a two-call execution |
| C84 | `Containers/`: containers as the standard prescribes over allocators whose `shared_ptr` is emptied by moves; traits of pool, limit and polymorphic allocators; budgets; failing allocations | invariant (block and allocator of a container agree; budget equation) for every operation; the set of unusable containers computed from the program text and shown exact |
| C85 | `Defer/FlowModel`: a language with variables, loops, early exits, handlers, `throw;`, calls and coroutines, executed with the counter of uncaught exceptions; the names the macros declare | big-step semantics shown equal to one that knows no counter; traces replayed against a stack for the order; monotone resumption for coroutines |
| C86 | `Noexcept/`: for each function with a clause, the clause over the traits of the user types and the operations its body performs, with nested clauses, locals and unwinding | relational semantics of throwing programs, decided by a function shown equivalent; every function: either it never terminates, or the exact condition under which it does |
| C87 | `Channel/Live*`, `Channel/Lasso`, `Channel/Since*` (exceptions while a call waits): infinite executions of the step machine, strong and weak fairness, calls and returns as events | rank argument inside a call, wakeup invariant plus a counting argument (positions that cannot be entered again eventually disappear) for sleepers, a decreasing potential for system progress; starvation by lassos (finite prefix and loop that returns to the same state up to history) |
| C88 | `Exchange/Live*`, `Exchange/SinceProps`: infinite executions of the step machine of `exchange_channel`, fairness as for C87 | as C87; a wakeup invariant that also covers exceptions for closed channels |
| C89 | `RangesAlgo/Lazy*`: the views over sources with or without end (sequences by position), recording every comparison, dereference and increment; loops with `break`, over `take(n)`, over everything, repeated; terminal algorithms on endless sources | the views as searches for kept positions (described without the sets), induction over positions; exact records; non-termination for all fuels |
| C90 | `Elements/*` (with `Ends`: how every call ends): every construction, move, assignment and destruction of element objects by both channels and their iterators, with or without the mutex, each of which may throw; programs as lists of operations on any number of channels and iterators | ownership counted per object and shown by step through every operation; invariants over the record of operations kept by each element operation (`Closed`), lifted to all functions; exact records of single calls |
| C91 | `Variant2.AliasModel`, `Inplace.AliasModel`: assignments and `emplace` with a source owned by the held element (trees of variants, positions), destroying the owner destroys the source; destructors that throw | case analysis of the nested switch for arbitrary trees; exact condition for each operation, comparison with `std::variant` |
| C92 | `FlexArray.ThrowModel`: constructors, conversions, `resize` against an oracle that decides for every action whether it throws; count of live elements; `std::vector` growth | accounting invariant `Acct` composed over the parts of each function, by induction over elements |
| C93 | `Constexpr`: programs over `flex_array` and `variant2` and single calls of algorithms, evaluated at run time and with the rules of constant evaluation of C++23 | the two evaluations are compared step by step; induction over the program; exact conditions and counterexamples |
| C94 | `Init/Model`: implicit conversion sequences, their ranks and overload resolution over a universe of types; the overloads of `variant2` | reduction of the six overloads to two candidates by value; comparison with the rule of `std::variant` by case analysis; counterexamples for narrowing |
| C95 | `Init/BraceModel`: initialization with parentheses and braces by overload resolution for any number of arguments | case analysis, the best constructor is unique; induction over tuples; counterexamples with vectors |
| C96 | `Init/TupleModel`: overload resolution among the constructors of tuples | case analysis for every length |
| C97 | `AllocIface`: the members each allocator class declares, what `std::allocator_traits` makes of missing ones, integer conversions on the way inwards, constructors and their constraints; wrappers nested to any depth | induction over the nesting; exact conditions (`↔`) for sizes, elements, conversions, copies and propagation; witnesses for the failures |
| C98 | `Traits`: every template as a function from what the special member functions and `swap` of the element types are (absent, claimed but unusable, written out, trivial) to what its own are, by the rules of the language for defaulted, constrained and written-out functions | induction over nestings; case analysis over the kinds of functions |
| C99 | `Compare/`: `==`, `<=>` and hashes of flex_array, tuples and variants over element types whose comparisons are arbitrary programs with a trace; types nest | induction over elements, positions and nesting; exceptions, modes and unordered elements refuted with witnesses |
| C100 | `TupleLife/`: construction, copy, move, assignment, swap and destruction of tuples with element operations that are arbitrary programs and may throw; a log of when element objects begin and end | induction over the elements and over programs; an invariant that balances the log; strong guarantees refuted with witnesses |
| C101 | `RangesThrow`: iterators of `unique_view` (set, position) and of the filter behind `remove_element`, with a list of faults that says which reads, insertions, increments and copies throw; programs with any number of iterators; pipelines; algorithms with function objects that can throw | search lemmas by induction on the source; one theorem about loops that go on after exceptions, for both views; invariant of programs; algorithms by induction |
| C102 | `IterThrow`: what `advance()` did, read off the histories of the concurrent models, with faults for the assignment to the buffer; the loop with and without `noexcept` | the history is split at the first call that did not deliver a value; before it the thread's run is lossless |
| C103 | `LazyCond/Soft`: naming a type as type, substitution failure or error | induction over the cases; agreement with C55 |
| C104 | `Print/Lookup`: programs as sets of `operator<<` in namespaces, unqualified and argument-dependent lookup, the constraint and the body of the library's function | lookup is characterised by suffixes of namespace paths; the constraint by what it can find |
| C105 | `OptMinMax/Effects*`: the loops as runs with a log of copies and comparator calls and a list of faults; element types with nested optionals | induction on the range; runs with faults are prefixes of runs without; opt_max as the mirror image of opt_min |
| C106 | `Pipeline`: chains of threads joined by the channels of `Channel/Model`, with loop bodies and early leavers | invariant between neighbours (positions in the calls, order of the elements, closed flag), induction along the chain; measure for termination |
| C107 | `Workers`: layers of any number of threads on shared channels of `Channel/Model`, the last thread of a layer closes its output | invariant per channel, elements compared by arbitrary weights (equal weights give a permutation), induction over layers; measure for termination |
| C108 | `Relay`: chains of threads joined by the exchange channels of `Exchange/Model` | invariant between neighbours (what the consumer has seen or can still get is a subsequence of what was pushed with the same last element), induction along the chain; measure for termination |
| C109 | `Channel/Destroy`, `Exchange/Destroy`, `Pipeline/Destroy`: a destructor action added to the channel models; what each position of a call still uses | exact condition by a run of clear threads; the window after the end by an invariant on the calls of `close`; refuted claims by schedules |
| C110 | `Dangling`: containers (elements in a block that moves along, or inside the object), `ref_view`, `owning_view`, `unique`, `remove_element` with its cached position, `fmt_join` objects, iterators; programs of actions | one owner per block (invariant), frame lemmas for containers and views, then induction over the program; expected contents by a separate reading of the actions |
| C111 | `Macro`: tokens, a preprocessor with a step bound (arguments, `#`, `##`, `__VA_ARGS__`, `__VA_OPT__`, hidden names), the macros of the headers | expansion is deterministic (monotone in the bound); grammar of balanced arguments against the splitter; then the expansion is computed symbolically for any argument and rest |
| C112 | `Conform`: the reference implementations and programs of the tests in /repo/tests, run through the models; the literal test cases as examples (validation of the model, not proofs) | `ipow` against the naive loop of the randomised test; the test iterator of next_to_range is lawful and visits its elements; the two-thread tests as instances of pipelines and relays with no thread in between; one-thread programs against a bounded queue, a slot and a sum of live blocks, by induction on the program |
| C113 | `Critical`: threads executing blocks of nested guards, every lock, access and end of a guard a step of the guard model of `Guards`; specification `serial` executes blocks alone | simulation: the serial execution commits a block when its first guard ends; a growing thread's effects are an overlay of what it holds exclusively, a shrinking one's rest depends only on what it holds; deadlock freedom from the largest mutex waited for; number of steps as variant |
| C114 | `Atomic`: like C113, but programs are trees (branching on values read and on answers of `try_lock`, guards ending in any order, threads as state machines that may run for ever) | simulation by a serial execution with a commit point at the first guard that ends; deadlock freedom by the order of mutexes; completion by well-founded induction on the tuple of program trees |
| C115 | `Sandbox.Streams`, `Sandbox.StreamProps`: buffers of streams, files, variables, mutexes, copied or shared by `fork` | a flow invariant (text in the files plus text in the buffer = text before plus text printed) composed over all operations; waiting for ever characterised by the locks held; witnesses for streams not flushed |
| C116 | `Reentry`: threads with stacks of calls, element code as trees of calls of channels, mutex owner per channel | invariant (mutexes of a thread are in order, owner = thread that will release) and a maximality argument; a measure for termination; a stable predicate for self-deadlock; witnesses for the refuted cases |
| C117 | `Reentry` (guards as blocks around calls of channels) | by C116's invariant, for programs of plain statements; witness that waiting with a guard deadlocks |
| C118 | `Layout/SizeModel`: member declarations of each class, Itanium layout rules | offsets and sizes for all sizes and alignments by arithmetic on powers of two; minimality; exact conditions where a documented size fails |
| C119 | `Forever`: infinite executions of threads that execute blocks of nested guards one after the other, each step a step of `Critical`; fairness as a predicate on executions | induction over mutexes in locking order from above: a waiting thread is enabled again and again, by the invariant of `Critical`; infinite counterexamples built from periodic tables of states |
| C120 | `Binding`: types, value categories and objects of `get`, `tuple_element` and structured bindings, by the rules of the language | exact type of `get` by induction on the elements, comparison with `std::get`, exactly when a binding compiles and what each name means, for all declarations |
| C121 | `Examples`: a vector over the limit allocator, the file transaction with a scope guard, shapes, loops over the first elements of a range | invariant over all programs (bytes left and block are the limit); the capacity is the least power of two; case analysis on the failures; induction on the number of elements |
| C122 | `Net`: any number of threads with arbitrary deterministic programs (`Plan.prog`: results so far ↦ next call) on any number of detailed channels (`Channel/Model`), each with one producer that closes and one consumer; all steps interleave | Invariant of the system (`Inv`): every step is one call that takes effect at once or nothing; determinacy of the calls that take effect at once (`determined`, `maximal`) from justifications that stay true; a stuck system is a maximal one by the lemmas about quiescent channels; a measure bounds all executions (`network_bounded`, `network_ends`) |
| C123 | `Net/CapProps`: the networks of C122 with two choices of capacities | Executions with calls that take effect at once stay executions with more room (`areach_cap`), then the determinacy and maximality of C122; `crossed` deadlocks with room for one and finishes with room for two (`network_capacity_needed`) |
| C124 | `Net/TreeProps`: networks of C122 with a numbering of the threads in which each has at most one channel to threads of smaller numbers (`Forest`), and threads that finish tidily (`Tidy`) | In a stuck system each unfinished thread waits at a channel for an unfinished one; two do not wait for each other at one channel (it would be empty and full); so a chain of waiting threads that once goes to greater numbers always does, which is impossible, and one that never does ends |
| C125 | `NextTo/BaseModel`: next_back, nth_back and remaining of the wrapped iterator called on a next_to_iter, mixed with its own operations | refinement to a place in a list (current element, elements to come, peeked or not), induction over histories; refuted after peek |
| C126 | `Multi/Model`: any program of any number of threads on any number of channels; `Multi/Spec`: the same on queues whose calls take effect at once | simulation with pending results, backward along the execution because a move that throws at the end of `pop` decides late, and the converse by running the calls one after the other and then letting all blocked threads fall asleep; the end of executions by a measure on the work left in all channels (`Multi/EndProps`) |
| C127 | `MultiX/Model`: any program of any number of threads on any number of exchange channels; `MultiX/Spec`: the same on places for one value whose calls take effect at once | as C126; states in which nothing can go on also if elements throw: `MultiX/Taint` shows that a consumer sleeps beside a value only after a removal has thrown, `MultiX/Lose` that this removal might as well have lost the value |
| C128 | `Mixed/Model`: any program of any number of threads on channels and exchange channels together; `Mixed/Spec`: the same on queues and places for one value whose calls take effect at once | as C126, over objects of either kind: `Mixed/Did` gives one interface for the steps of both (phase of a call, effect, recanting), `Mixed/SoloC`, `Mixed/SoloX` run one call alone, `Mixed/Stuck`, `Mixed/Doze` the states in which nothing can go on, `Mixed/EndProps` the end of executions by the work left in all objects |

## Findings

Defects of the code found while modelling. Those marked * are proved as `_refuted` theorems; the rest were seen in
reading and are recorded here or in the comment of the definition concerned.

* channel: a throwing element constructor or move loses a wakeup*; a pop can lose a value when the move throws*; the
  iterator's `++` is unconditionally `noexcept`, so a throwing move terminates; `emplace`'s `noexcept` ignores the
  `bad_alloc` of the deque.
* exchange_channel: a throwing constructor in `emplace` loses the previous value*, a throwing move loses a wakeup*.
* mutex, shared_mutex: a moved-from guard keeps access to the value*; the friend `swap` cannot be
  instantiated; `lock` and `try_lock` name the guard without its `Mutex`, so any other than the default is ill-formed.
* pool_allocator, limit_allocator: `n * sizeof(T)` wraps*; a moved-from allocator has no pool / control block*;
  limit_allocator's converting constructor uses the default syncness.
* flex_array: a static extent accepts ranges that are too short*; `resize` exposes stale or uninitialised elements* and
  throws `invalid_argument` instead of `length_error`*; comparison operators of the private inner types are wrong but
  unreachable*; copies are declared `noexcept`, so a failed allocation or a throwing element, even one beyond the size, terminates*.
* static_string: copies `n` instead of `n * sizeof(Char)` bytes*; a failed allocation in copy assignment leads to a
  double free*; copy assignment with a propagating allocator frees with the wrong allocator*.
* pointer_tag_pair: `from_tagged` with a tag type narrower than the tag bits truncates*.
* variant2: bitwise assignment for trivially assignable but not trivially destructible elements*; the move constructor
  from a value has the `noexcept` of the copy*; self-swap trips an assertion*; `T{x}` need not copy*; hashing a valueless
  variant terminates*; a throwing emplace always leaves the variant valueless*.
* inplace_polymorphic: for trivially destructible classes assignment trips an assertion and assigning from an empty
  object keeps the old value*; self-move*.
* range: the reversed range is wrong unless the step divides the distance*; `next` and `remaining` overflow*.
* next_to_iter: the forwarding constructor is chosen for copies of non-const lvalues*; `peek` changes the sequence of
  non-fused iterators*.
* ranges: `all_distinct` with a custom predicate still hashes with `std::hash`*; `is_sorted_unique` is always false for
  single-pass iterators*.
* type_list: `unique` instantiates 2^n templates*.
* integral sequences: ill-formed for signed spans above the maximum*; `subtuple<last, last>` ill-formed; `index()` of a
  variant over an empty sequence is `first`*; the copy constructor of integral_template_variant is `noexcept` whenever
  it is copyable, so a throwing copy terminates.
* standard_layout_tuple: a prefix subtuple of `<char, char, int64_t>` refers to wrong memory*; its default count is only
  right for offset 0.
* switch_cases: the constant's type differs between cases for narrow types; without default function the function is
  instantiated for a value outside of the range. for_values computes `noexcept` for another call than it makes.
* for_range: ill-formed for long ranges of signed types*. tuple_fold: dangling reference for a const lvalue as initial
  value*, ill-formed for a non-const one*, unconditionally `noexcept`. tuple_for_each calls a copy of the function.
* polymorphic_allocator: `max_size` is not forwarded*; propagation is documented as "any" but is "all"*.
  offset_ptr_stl_allocator: the `noexcept` of its copy and move constructors are swapped.
* sandbox: exit code 256 is a success*; the terminate handler is inherited*; with SIGCHLD ignored it throws*.
* fmt_join: a single character separator does not advance the context*; string literals are cut at embedded NULs*.
* lazy_switch: looks at `::type` of unselected earlier cases*; other models of `lazy_case` are not supported.
* DICE_MOVE_IF_VALUE: ill-formed for `T const &&` and volatile values*, copies const values*. is_strict_invocable_r calls
  with lvalues*. bind_front passes its bound values as lvalues to be changed*. DICE_MEMFN captures by reference*.
* integral_template_variant: a throwing copy terminates*; the order of variants over a descending sequence is the
  reverse of that of their indices*.
* format_to_ostream: ignores error state*, write errors*, field width* and tied streams*; ill-formed for wide streams.
* DICE_DBG: the result dangles when a prvalue is bound to a reference*; commas in template arguments break the macro;
  bit-fields are ill-formed.
* match: visitors are copied, state they keep is lost*; duplicate types, final classes and function pointers are
  ill-formed.
* offset_ptr_stl_allocator: a throwing copy of the wrapped allocator terminates*.
* is_zst: false for over-aligned empty types*; ill-formed for `void const` and abstract classes*.
* next_to_view::crbegin requires `nth_back_iterator` instead of `next_back_iterator`.
* variant2: assigning or emplacing from a value inside the held object uses it after its destruction (as std::variant).
* variant2: a copy assignment to the other alternative that throws loses the old value, also where `std::variant` keeps it (elements that move without exceptions)*.
* static_string: copy construction ignores `select_on_container_copy_construction` (std::string does not).
* pointer_tag_pair: a pointer to a derived class is stored without converting it to the base class, so `pointer()` is wrong unless the base comes first*.
* range over `double` need not end: the step may be absorbed by rounding, and a NaN step is not refused*.
* variant2 uses `&` instead of `std::addressof`: alternatives with their own `operator&` are constructed at, and `get_if` points to, whatever it returns*.
* variant2: `==` and `<=>` are `noexcept` whatever the elements do*; `std::hash` uses the hash of the second alternative for a first one that is `const`*.
* unique over a range of rvalues (move iterators, `views::as_rvalue`) yields moved-from elements*; all_distinct and all_equal move from the elements they look at*.
* inplace_polymorphic: get, `*` and `->` point to the wrong place if a class has another base in front of `Base`; such classes are accepted*.
* next_to_range of an iterator that cannot be copied: the constructor claims to accept references, rvalue references and move-only values and does not compile for them; narrowing arguments likewise for all iterators*.
* next_to_view::crbegin requires `nth_back` instead of `next_back`*.
* A guard of `mutex`/`shared_mutex` that was moved from still gives access to the value without owning the mutex, so it can race with the guard it was moved to (`guards_race_free_refuted`); guards can be moved to another thread, which then releases a mutex it does not own: undefined behaviour for `std::mutex` (`unlock_same_thread_refuted`).
* **C82**: `limit_allocator` with `sync` may refuse a request that fits during the whole call, even if no other thread is doing anything: the relaxed load may return a value from before memory was given back, unless giving it back happens before the call (`limit_refusal_stale_refuted`). The loop is lock-free, not wait-free (`limit_wait_free_refuted`).
* **C83**: `pool_allocator` ignores `alignof(T)`: an arena aligns its partitions only to 8 bytes unless the bucket size is a multiple of 16 (`arena_aligned_refuted`: `pool_allocator<long double, 24>`), and over-aligned types are misaligned even from the fallback `new char[]` (`arena_over_aligned_refuted`).
* **C84**: moving a container empties its `pool_allocator`/`limit_allocator`, so a moved-from container cannot get memory: `push_back` after a move (`cont_moved_grow_refuted`), and for `limit_allocator` over `std::allocator` even copy assignment to it (`cont_moved_assign_refuted`), is undefined. A container that always owns memory, like `std::deque` of libstdc++, cannot even be destroyed after it was moved from (`cont_sentinel_destroy_refuted`). Containers with different `limit_allocator` budgets over `std::allocator` cannot be swapped (`cont_limit_swap_refuted`).
* **C85**: a coroutine that is resumed with another number of exceptions in flight than when it was suspended (resumed by a destructor during unwinding, or started there and resumed later) runs its fail guards when it succeeds or its success guards when it fails (`flow_resume_refuted`). Two `DICE_DEFER*` on the same line of a block (e.g. from the expansion of one macro) declare the same variable and do not compile (`flow_macro_same_line_refuted`).
* **C86**: clauses that promise too much. `channel::push/emplace` terminate when memory runs out (`channel_push_refuted`); iterators of `channel` when the element's move throws (`channel_iterator_refuted`), of `exchange_channel` when its move assignment throws (`exchange_iterator_refuted`); assignment of both iterators when construction throws (`iterator_assign_refuted`); the clauses of the copy and move constructors of `limit_allocator` and `offset_ptr_stl_allocator` are exchanged (`limit_copy_refuted`, `limit_move_pessimistic`); assignment of `polymorphic_allocator` to another alternative, and `deallocate` or rebinding of a valueless one (`polymorphic_refuted`); `variant2` from an rvalue, in place, `swap`, `std::hash` of a valueless one (`variant2_refuted`); `shared_mutex` when `std::shared_mutex` cannot be constructed, in-place construction of both mutexes (`mutex_ctor_refuted`).
* **C87**: a `pop` can starve: with a second consumer, a fair schedule exists in which the value that woke the first is always taken before it gets the mutex (`channel_pop_starves_refuted`), the same for `push` (`channel_push_starves_refuted`). With weak fairness even `closed()`-independent operations such as `try_pop` may never return, as the mutex may be free only at instants at which others take it (`channel_weak_fairness_refuted`). Positive: after `close` every waiting call is released whatever throws (`channel_close_releases`).
* **C88**: as for `channel`, a `pop` among several consumers can starve under a fair scheduler (`exchange_pop_starves_refuted`). Positive: after `close` every waiting call is released whatever throws (`exchange_close_releases`).
* **C89**: `view \| take(n)` searches for the `(n+1)`-st value and never returns if there is none (`0,1,0,1,... \| unique \| take(2)`; `7,7,... \| remove_element(7) \| take(0)`: `take_never_returns_refuted`). Kept elements are dereferenced twice, so `transform(f) \| unique` calls `f` twice for each (`deref_twice_refuted`). `remove_element` remembers where its first loop began and shows removed values, or misses kept ones, after the source was changed (`remove_again_refuted`). `unique` over a single-pass source shows values again in a second loop (`unique_again_refuted`).
* **C90**: `exchange_channel::emplace` destroys the old value before it constructs the new one; if that throws, the channel is empty (`push_threw_exch`). `pop` that throws while it moves the element into its result loses the element, although it left the channel (`pop_strong_refuted`). A throwing copy assignment of iterators leaves the channel of the one with the element of the other (`copy_assign_strong_refuted`). Constructors, moves and destructors of elements run with the mutex held, so they must not use the channel (`user_code_unlocked_refuted`). A moved-from iterator does not compare equal to the end: it still has a moved-from element (`moved_iterator`).
* **C91**: `list = std::move(*get<Node>(list).next)` is undefined behaviour for `variant2` even if both hold the same alternative, because `operator=` reads `other.discriminant_` after the element has been assigned (and has destroyed `other`); `std::variant` supports this. A destructor that throws inside an assignment leaves the old discriminant, so the element is destroyed twice; `emplace` is safe.
* **C92**: the default constructor, the copy constructor and the conversion from a static to a dynamic extent of `flex_array` are `noexcept` although they allocate and copy: any failure terminates the program. The other constructors and `resize` report failures and leak nothing.
* **C93**: no `variant2` can be created in a constant expression although all its constructors are `constexpr`: they use placement `new` instead of `std::construct_at`. `flex_array`s of limited size cannot be compared, none can be converted to a `std::span`, and those based on `std::vector` cannot be asked for their size, because the functions of `flex_array_inner` these call are not `constexpr`. `tuple_fold`, `tuple_for_each` and `integral_template_tuple::visit` are constant only for empty tuples (`get_impl` is not `constexpr`), `all_equal` and `unique` never, `all_distinct` for empty ranges only, `is_sorted_unique` only if it is not used in a pipeline.
* **C94**: `variant2` takes values with plain overloads, so narrowing conversions take part: `variant2<std::string, bool> v("abc")` holds `true`, `variant2<int, std::string> v(3.7)` compiles and holds 3, `variant2<double, C> v(5)` holds a `double` even if `C` is made from `int`; `variant2<long, double> v(5)` does not compile (`same_choice_refuted`). `v = {}` on a `variant2<std::string, int>` selects `int` (`assign_braces_refuted`).
* **C95**: objects are made with braces although the `noexcept` specifications ask about parentheses: `emplace<std::vector<int>>(3, 5)` makes `{3, 5}`, and moving a variant that holds a `std::vector<std::any>` nests the vector in a new one, which can throw in a function declared `noexcept` (`made_as_parens_refuted`).
* **C96**: `standard_layout_tuple<T> b{a}` for a variable `a` that is not `const` does not call the copy constructor but makes the element from the tuple (`direct_init_refuted`).
* **C97**: `polymorphic_allocator` and `offset_ptr_stl_allocator` have a 64-bit size type around any allocator, so a vector over an allocator with a 32-bit size type gets memory for one element when it asks for 2^32 + 1 (`reserve_refuted`). None of the wrappers forwards `construct`, `destroy`, `max_size` or hints (`construct_refuted`, `max_size_refuted`). `limit_allocator` without synchronization cannot be converted for other objects, because the parameter of that constructor lacks the syncness, so node-based containers do not compile (`converts_refuted`). Copying containers with `limit_allocator` does not compile if the upstream allocator has no default constructor, e.g. another `limit_allocator` (`copies_refuted`). Propagation needs the consent of alternatives that are not in use, so swapping containers can be undefined although the held allocators propagate (`swap_refuted`). `holds_allocator` of a class not in the list is false for up to two allocators and ill-formed for more (`holds_foreign`).
* **C98**: `variant2` reports every operation for every pair of alternatives (`variant2<std::unique_ptr<X>, int>` claims to be copyable) where `std::variant` does not; `polymorphic_allocator` inherits it with exactly two allocators (with `limit_allocator` first it claims to be default constructible); the iterators of channels of move-only elements claim to be copyable; `flex_array` of elements that cannot be assigned claims to be swappable; `swap` of two `const` guards is declared and never compiles. `variant2` of a class with a destructor of its own claims to be trivially assignable, and `variant2` of trivially movable move-only handles is not trivially copyable although `std::variant` is.
* **C99**: all comparison operators and `std::hash` specialisations are `noexcept` without condition: an exception of an element's comparison or hash terminates the program. A flex_array of elements with `<` but no `<=>` can be ordered if its size is fixed or it is a `std::vector`, but not in the other modes. With elements that have `<=>` but no `==`, a flex_array of fixed size treats unordered elements as equal (so `a <= b` holds), and one of bounded size does not compile.
* **C100**: assignment and move construction of the tuples give the basic guarantee only: after an exception the target has elements of both values (`strong_guarantee_refuted`), and elements moved from before a throwing move are lost (`move_strong_guarantee_refuted`).
* **C101**: `++it` of `unique` and `remove_element` has no strong guarantee. If an insertion (or reading an element) throws, an iterator of `unique` is left on an element it has not recorded, possibly a duplicate, and a loop that goes on never shows that occurrence. An iterator of `remove_element` is left on the element after the old one, even if that one is to be removed or the exception came from a later one; going on skips it.
* **C102**: `channel::iterator` is `noexcept` although the `pop` it calls is not: an element whose move constructor throws ends the program in a loop over a channel (`channel_exception_reaches_caller_refuted`), while the same loop over an `exchange_channel` lets the exception through. The latter looks only at the move constructor: a move assignment that throws ends the program there too, when the move constructor is `noexcept`.
* **C103**: `lazy_switch_t` without a matching case is a substitution failure only if there are no cases at all; otherwise it ends the compilation, so "does a case match" cannot be asked in a constraint (`no_match_detectable_refuted`).
* **C104**: the `operator<<` of format_to_ostream.hpp is in the global namespace, so any `operator<<` declared in a namespace around the expression hides it (`streamable_everywhere_refuted`); an overload in the global namespace after the header competes with it (`only_one_refuted`); its format string is narrow, so wide streams get one (sign-extended) character per byte, and a type with a wide formatter only is accepted and then ill-formed (`wide_refuted`).
* **C106**: a channel of capacity 0 is accepted by the constructor, but every `push` to it blocks until the channel is closed: a pipeline with such a channel deadlocks at once (`pipeline_no_deadlock_refuted`).
* **C107**: with several workers per layer every element is handled exactly once, but the order is lost (`workers_order_refuted`); a layer without workers leaves its output open for ever (`workers_no_deadlock_refuted`), as the warning at channel.hpp:16 says.
* **C108**: a relay of exchange channels skips values (`relay_all_refuted`, by design), but the newest one always arrives at the end (`relay_newest`, `relay_up_to_date`).
* **C109**: `close`, `push` and `pop` notify after they have released the mutex, so the reader must not destroy a channel when its loop ends (or when it has got its last element): the writer may still be about to notify a condition variable that is gone. Joining the other threads first is enough.
* **C110**: `remove_element` of an lvalue vector must not be looped over again after the vector was changed (`lvalue_remove`, `remove_again_refuted`), although `unique` may (`lvalue_shows`); iterators of `unique` outlive the view, those of `remove_element` do not.
* **C111**: the given arguments of `DICE_MEMFN` are inside its lambda, so a variable of the program called `runtime_args` is captured; `DICE_DBG(std::pair<int, int>{1, 2})` is rejected (needs parentheses) although `__VA_ARGS__` would accept it; a program with a macro `val` breaks `DICE_DBG`.
* **C10/C11**: the template parameter `Mutex` cannot be used: `lock()` and `try_lock()` of `mutex<T, Mutex>` return `mutex_guard<value_type>`, whose mutex type is the default `std::mutex` (mutex.hpp:111-129), so they are ill-formed for every other mutex type; the same holds for `shared_mutex` (shared_mutex.hpp:113-158).
* **C10/C11**: `swap(ga, gb)` of guards works only because argument-dependent lookup also finds `std::swap`; the friend functions (mutex.hpp:57-61, shared_mutex.hpp:59-63) take references to const and cannot be instantiated. `std_swap_spec` is about `std::swap`.
* **C113**: atomicity needs that nothing is locked after the first guard of a block has ended, and freedom of deadlocks needs one order of locking; the library enforces neither (`critical_two_phase_needed`, `critical_order_needed`).
* **C21**: the member type of `basic_static_string` that should be `difference_type` is spelled `different_type` (static_string.hpp:23), so code that asks for `difference_type` does not compile.
* **C115**: `flush_all_streams` flushes `std::cout`, `std::cerr` and C streams only. What a sandboxed function prints to a `std::ofstream` that outlives it is lost at `_exit`, and what the parent had in such a buffer is written twice if the child flushes it.
* **C116**: `channel::pop` builds its result after releasing the mutex, `exchange_channel::pop` before. Element code that uses its own channel hangs in the latter where it does not in the former; in constructors it hangs in both.
* **C118**: the discriminant of variant2 is put after the padded union, so `variant2<double, char[9]>` takes 24 bytes where 16 would do (`variant2_minimal_refuted`, exact condition `variant2_minimal_iff`); leaving out the capacity does not make static_string smaller if the allocator has an alignment of 32 or more (`static_string_saves_word_refuted`); a limited flex_array has padding after elements that do not fill whole words (`flex_limited_size_refuted`).
* **C119**: `shared_mutex::lock` may never return although every reader ends its block and the scheduler is fair: two readers whose guards overlap alternately keep a writer out (`writer_starves_refuted`). The library adds nothing to `std::shared_mutex` here, which makes no promise either.
* **C120**: `get` forwards members that are references like members that are values (standard_layout_tuple.hpp:105). `std::move(t).get<0>()` of a tuple with an element `int &` has type `int &&`, so that moving the element out of the tuple moves from an object the tuple only refers to; `std::get` gives `int &`. A `const` tuple gives `int const &` where `std::get` gives `int &`. As a consequence `auto [x] = t` and `auto const &[x] = t` do not compile for such a tuple (`get_moves_referenced_refuted`, `bind_reference_refuted`); `get_like_std_iff` and `bind_iff` say exactly when. `std::tuple_element` of `pointer_tag_pair const` drops `const` (pointer_tag_pair.hpp:138-145), so that the names in `auto const [p, t]` can be assigned to (`pair_const_refuted`).
* **C121**: `copy_file_transact` of the example removes `dst.deleteme` even if the file was there before the call and belongs to somebody else (`transact_foreign_refuted`). A loop over `take(n)` asks the iterator for `n + 1` elements (`take_spec`).
* **C122**: a network in which a consumer closes its channel (as consumers that stop early must, C106) is not deterministic: whether the producer's push is accepted depends on the schedule (`network_consumer_close_refuted`).
* **C125**: `peek()` is documented not to advance the iterator, but the public functions of the wrapped iterator notice it: after `peek()` `remaining()` is one less and `next_back()` can return `nullopt` while the peeked element is still to come (`base_peek_refuted`).
* **C126**: with constructors of elements that throw, locks and condition variables add a deadlock that atomic calls do not have (`multi_deadlocks_throw_refuted`): the thread that a `pop` has woken throws, and another producer sleeps on although there is room.
* **C124**: the conditions are needed: two channels between the same threads, a consumer that finishes early and a channel of capacity 0 each give a deadlock (`network_cycle_deadlock_refuted`, `network_untidy_deadlock_refuted`, `network_zero_deadlock_refuted`).
* **C126**: the same with moves that throw: the consumer that a `push` has woken throws, the element stays, and another consumer sleeps on (`multi_deadlocks_move_refuted`).
* **C127**: unlike for `channel` (C126), exceptions of elements add no deadlock that shows in the results: a consumer can sleep beside a value after a removal that threw (`exchange_no_lost_wakeup_refuted`), but no sequence of calls tells this apart from a removal that lost the value.

## Not modelled

Overload resolution and constraints except where a property is about them (C59, C65, C94-C96, C98); compile-time diagnostics except as the outcome "ill-formed";
member type aliases without behaviour. Lexing and preprocessor directives (`#if` and the like; expansion of macros is modelled, C111). Threads blocked forever by the scheduler.

## Axioms per theorem

P = `propext`, C = `Classical.choice`, Q = `Quot.sound`, – = none. (Prefix `Verif.` omitted.)

| property | theorems |
|---|---|
| C01 | `Channel.channel_fifo` PQ, `Channel.channel_removed_prefix` PQ |
| C02 | `Channel.channel_capacity` PQ |
| C03 | `Channel.channel_closed_rejects` PQ, `Channel.channel_push_after_close` PQ, `Channel.channel_pop_end` PQ, `Channel.channel_closed_monotone` PQ |
| C04 | `Channel.channel_call_effect` PQ, `Channel.atomic_meaning` CPQ, `Channel.channel_nothrow` PQ, `Channel.channel_pop_loses_value_refuted` P, `Channel.channel_call_outcome` PQ |
| C05 | `Channel.channel_no_lost_wakeup_partial` CPQ, `Channel.channel_no_deadlock_partial` CPQ, `Channel.channel_close_releases_partial` CPQ, `Channel.channel_steps_bounded` PQ, `Channel.channel_no_lost_wakeup_refuted` PQ, `Channel.channel_no_lost_wakeup_move_refuted` PQ, `Channel.channel_blocked_partial` CPQ, `Channel.channel_close_releases` CPQ, `Channel.channel_blocked` CPQ, `Channel.channel_blocked_tight` PQ, `Channel.channel_blocked_since` CPQ |
| C06 | `Channel.channel_linearizable` PQ, `Channel.channel_call_effect` PQ, `Channel.channel_producer_order` CPQ, `Channel.channel_call_possible` PQ |
| C07 | `Channel.channel_iterate_running` PQ, `Channel.channel_iterate_ended` CPQ, `Channel.channel_iterate_safe` P |
| C08 | `Exchange.exchange_linearizable` PQ, `Exchange.exchange_call_effect` PQ, `Exchange.exchange_pop_most_recent` PQ, `Exchange.exchange_at_most_once` PQ, `Exchange.exchange_holds_last` PQ, `Exchange.exchange_not_dropped_partial` PQ, `Exchange.exchange_drop_refuted` P, `Exchange.exchange_call_outcome` PQ, `Exchange.exchange_call_possible` PQ |
| C09 | `Exchange.exchange_closed_rejects` PQ, `Exchange.exchange_push_after_close` PQ, `Exchange.exchange_close_keeps_value` PQ, `Exchange.exchange_pop_end` PQ, `Exchange.exchange_no_lost_wakeup_partial` CPQ, `Exchange.exchange_close_releases_partial` CPQ, `Exchange.exchange_steps_bounded` PQ, `Exchange.exchange_no_lost_wakeup_refuted` P, `Exchange.exchange_close_releases` CPQ, `Exchange.exchange_blocked` CPQ, `Exchange.exchange_blocked_since` CPQ |
| C10 | `Guards.guard_exclusive` CPQ, `Guards.lock_iff_free` PQ, `Guards.try_lock_spec` PQ, `Guards.lock_effect` PQ, `Guards.move_ctor_effect` CPQ, `Guards.move_assign_effect` CPQ, `Guards.destroy_effect` PQ, `Guards.all_guards_gone_free` PQ, `Guards.access_effect` PQ, `Guards.owner_value_stable_partial` CPQ, `Guards.owner_value_stable_refuted` P, `Guards.std_swap_spec` PQ |
| C100 | `TupleLife.build_spec` PQ, `TupleLife.destroy_spec` P, `TupleLife.move_spec` PQ, `TupleLife.copy_assign_spec` CPQ, `TupleLife.move_assign_spec` CPQ, `TupleLife.self_assign_spec` PQ, `TupleLife.swap_objects` CPQ, `TupleLife.constructor_spec` PQ, `TupleLife.move_step` PQ, `TupleLife.copy_assign_step` CPQ, `TupleLife.move_assign_step` CPQ, `TupleLife.self_assign_step` PQ, `TupleLife.swap_spec` CPQ, `TupleLife.uniform_values` PQ, `TupleLife.history` CPQ, `TupleLife.no_leak` CPQ, `TupleLife.made_first` CPQ, `TupleLife.strong_guarantee_refuted` P, `TupleLife.move_strong_guarantee_refuted` P, `TupleLife.swap_destroys` CPQ |
| C101 | `RangesThrow.unique_retry` CPQ, `RangesThrow.remove_retry` CPQ, `RangesThrow.no_faults` CPQ, `RangesThrow.unique_incr_throws` PQ, `RangesThrow.remove_incr_throws` PQ, `RangesThrow.strong_guarantee_refuted` P, `RangesThrow.history` CPQ, `RangesThrow.goes_on` CPQ, `RangesThrow.independent` CPQ, `RangesThrow.incr_defined_iff` PQ, `RangesThrow.pipeline_values` PQ, `RangesThrow.pipeline_steps` PQ, `RangesThrow.quantifiers_throw` PQ, `RangesThrow.all_equal_throws` PQ, `RangesThrow.is_sorted_unique_throws` PQ, `RangesThrow.lex_compare_throws` PQ, `RangesThrow.all_distinct_throws` PQ |
| C102 | `IterThrow.channel_loop` CPQ, `IterThrow.channel_loss` PQ, `IterThrow.channel_never_throws` PQ, `IterThrow.channel_exception_reaches_caller_refuted` P, `IterThrow.exchange_loop` CPQ, `IterThrow.exchange_loss` PQ, `IterThrow.loops_agree` P |
| C103 | `LazyCond.named_agrees` P, `LazyCond.conditional_never_soft` P, `LazyCond.switch_default_soft_iff` PQ, `LazyCond.switch_soft_iff` PQ, `LazyCond.no_match_hard` PQ, `LazyCond.no_match_detectable_refuted` – |
| C104 | `Print.Lookup.ostreamable_iff` PQ, `Print.Lookup.lib_viable_iff` PQ, `Print.Lookup.no_competition` PQ, `Print.Lookup.competitors` PQ, `Print.Lookup.same_meaning` PQ, `Print.Lookup.streamable_everywhere_refuted` CPQ, `Print.Lookup.only_one_refuted` PQ, `Print.Lookup.body_writes` CPQ, `Print.Lookup.wide_refuted` P |
| C105 | `OptMinMax.min_calls` PQ, `OptMinMax.min_compared` PQ, `OptMinMax.max_calls` PQ, `OptMinMax.max_compared` PQ, `OptMinMax.minmax_calls` PQ, `OptMinMax.exceptions` PQ, `OptMinMax.two_calls` P, `OptMinMax.result_types` P, `OptMinMax.only_outer_level` PQ, `OptMinMax.empty_inside` PQ |
| C106 | `Pipeline.pipeline_prefix` CPQ, `Pipeline.pipeline_result` CPQ, `Pipeline.pipeline_no_deadlock` CPQ, `Pipeline.pipeline_bounded` CPQ, `Pipeline.pipeline_can_finish` CPQ, `Pipeline.pipeline_no_deadlock_refuted` PQ |
| C107 | `Workers.workers_subset` CPQ, `Workers.workers_result` CPQ, `Workers.workers_no_deadlock` CPQ, `Workers.workers_bounded` CPQ, `Workers.workers_can_finish` CPQ, `Workers.workers_order_refuted` PQ, `Workers.workers_no_deadlock_refuted` CPQ |
| C108 | `Relay.relay_subsequence` CPQ, `Relay.relay_newest` CPQ, `Relay.relay_no_refusal` CPQ, `Relay.relay_up_to_date` CPQ, `Relay.relay_no_deadlock` CPQ, `Relay.relay_bounded` CPQ, `Relay.relay_can_finish` CPQ, `Relay.relay_all_refuted` PQ |
| C109 | `Channel.channel_clear_iff` PQ, `Channel.channel_destroy_iff` CPQ, `Channel.channel_destroy_returned` CPQ, `Channel.channel_destroy_refuted` CPQ, `Channel.channel_end_window` CPQ, `Exchange.exchange_clear_iff` PQ, `Exchange.exchange_destroy_iff` CPQ, `Exchange.exchange_destroy_returned` CPQ, `Exchange.exchange_destroy_refuted` CPQ, `Exchange.exchange_end_window` CPQ, `Pipeline.pipeline_destroy` CPQ, `Pipeline.pipeline_destroy_refuted` CPQ, `Relay.relay_destroy` CPQ, `Channel.channel_gone` PQ, `Exchange.exchange_gone` PQ |
| C11 | `Guards.guard_exclusive` CPQ, `Guards.lock_iff_free` PQ, `Guards.lock_shared_iff` PQ, `Guards.try_lock_spec` PQ, `Guards.try_lock_shared_spec` PQ, `Guards.lock_shared_effect` PQ, `Guards.move_ctor_effect` CPQ, `Guards.move_assign_effect` CPQ, `Guards.destroy_effect` PQ, `Guards.all_guards_gone_free` PQ, `Guards.shared_blocks_writer` CPQ, `Guards.access_effect` PQ, `Guards.owner_value_stable_partial` CPQ, `Guards.owner_value_stable_refuted` P, `Guards.std_swap_spec` PQ |
| C110 | `Dangling.lvalue_shows` PQ, `Dangling.lvalue_remove` CPQ, `Dangling.rvalue_shows` PQ, `Dangling.temporary_shows` PQ, `Dangling.moved_view_shows` PQ, `Dangling.moved_lvalue_shows` PQ, `Dangling.moved_lvalue_remove` CPQ, `Dangling.unique_iterator_survives` PQ, `Dangling.remove_iterator_dies` PQ, `Dangling.owned_iterator` PQ, `Dangling.view_outlives_refuted` P, `Dangling.remove_again_refuted` P, `Dangling.moved_array_refuted` P |
| C111 | `Macro.Expands.det` CPQ, `Macro.dbg_expands` CPQ, `Macro.dbg_once` CPQ, `Macro.one_argument_only` CPQ, `Macro.dbg_any_expression_refuted` CPQ, `Macro.dbg_user_macro_refuted` CPQ, `Macro.memfn_expands` CPQ, `Macro.memfn_capture_refuted` CPQ, `Macro.move_if_value_expands` CPQ, `Macro.ignore_leak_expands` CPQ, `Macro.ignore_leak_calls` –, `Macro.concat_expands` CPQ, `Macro.raw_concat_refuted` CPQ, `Macro.defer_expands` CPQ, `Macro.guard_names` CPQ, `Macro.sandbox_expands` CPQ, `Macro.dbg_prints_source` CPQ |
| C112 | `Conform.IPow.ipow_eq_reference` CPQ, `Conform.IPow.random_test_passes` CPQ, `Conform.NextTo.yielder_lawful` CPQ, `Conform.NextTo.yielder_view` CPQ, `Conform.Channels.usecase_passes` CPQ, `Conform.Channels.collects_passes` CPQ, `Conform.Channels.spsc_passes` CPQ, `Conform.Channels.close_unblocks_passes` CPQ, `Conform.Solo.channel_solo` PQ, `Conform.Solo.exchange_solo` PQ, `Conform.Limit.limit_program` CPQ, `Conform.OptMinMax.reversed` P, `Conform.Rest.lock_passes` PQ, `Conform.Rest.swap_passes` PQ, `Conform.Rest.bind_front_passes` CPQ, `Conform.Rest.memfn_passes` CPQ, `Conform.Rest.copy_passes` P, `Conform.Rest.copy_reference_passes` P |
| C113 | `Critical.critical_serializable` CPQ, `Critical.critical_invariant` CPQ, `Critical.critical_bounded` PQ, `Critical.critical_no_deadlock` CPQ, `Critical.critical_completes` CPQ, `Critical.critical_counter` CPQ, `Critical.critical_two_phase_needed` P, `Critical.critical_order_needed` P |
| C114 | `Atomic.atomic_serializable` CPQ, `Atomic.atomic_invariant` CPQ, `Atomic.atomic_no_deadlock` CPQ, `Atomic.atomic_completes` CPQ, `Atomic.atomic_try_never_blocks` CPQ |
| C115 | `Sandbox.sandbox_output_partial` CPQ, `Sandbox.sandbox_other_streams` CPQ, `Sandbox.sandbox_twice_refuted` P, `Sandbox.sandbox_lost_refuted` P, `Sandbox.sandbox_hangs_iff` CPQ |
| C116 | `Reentry.element_code_no_deadlock` CPQ, `Reentry.element_code_bounded` CPQ, `Reentry.own_channel_never_returns` CPQ, `Reentry.result_move_in_exchange_channel_refuted` P, `Reentry.opposite_order_refuted` P, `Reentry.waiting_with_mutex_refuted` P |
| C117 | `Reentry.guards_and_channels_no_deadlock` CPQ, `Reentry.element_code_bounded` CPQ, `Reentry.pop_with_guard_refuted` P |
| C118 | `Layout.Size.members_apart` CPQ, `Layout.Size.variant2_size` CPQ, `Layout.Size.variant2_minimal_iff` CPQ, `Layout.Size.variant2_one_byte_iff` CPQ, `Layout.Size.variant2_minimal_refuted` P, `Layout.Size.static_string_two_words_iff` CPQ, `Layout.Size.static_string_saves_word` CPQ, `Layout.Size.static_string_saves_word_refuted` P, `Layout.Size.limit_allocator_size_iff` CPQ, `Layout.Size.offset_ptr_allocator_size` CPQ, `Layout.Size.flex_static_size` CPQ, `Layout.Size.flex_limited_size_iff` CPQ, `Layout.Size.flex_limited_bound` CPQ, `Layout.Size.flex_limited_size_refuted` P, `Layout.Size.inplace_minimal` CPQ, `Layout.Size.mutex_minimal` CPQ, `Layout.Size.word_sizes` – |
| C119 | `Forever.lock_returns` CPQ, `Forever.lock_shared_returns` CPQ, `Forever.block_ends` CPQ, `Forever.mutex_lock_returns` CPQ, `Forever.mutex_block_ends` CPQ, `Forever.writers_first_pause` CPQ, `Forever.writers_first_lock_returns` CPQ, `Forever.one_reader_pause` CPQ, `Forever.one_reader_lock_returns` CPQ, `Forever.writer_starves_refuted` CPQ, `Forever.weak_fairness_refuted` CPQ, `Forever.cross_order_refuted` CPQ |
| C12 | `Limit.limit_never_exceeded` PQ, `Limit.limit_conserved` PQ, `Limit.limit_quiescent` PQ, `Limit.limit_every_budget` CPQ |
| C120 | `Binding.get_type` P, `Binding.get_place` PQ, `Binding.get_like_std_iff` PQ, `Binding.get_moves_referenced_refuted` P, `Binding.get_by_type` PQ, `Binding.entity_spec` P, `Binding.bind_names` CPQ, `Binding.bind_iff` CPQ, `Binding.bind_values` CPQ, `Binding.bind_reference_refuted` P, `Binding.std_bind_always` CPQ, `Binding.pair_bind` PQ, `Binding.pair_get_value` P, `Binding.pair_const_refuted` P |
| C121 | `Examples.vector_spec` PQ, `Examples.vector_fill` CPQ, `Examples.transact_spec` CPQ, `Examples.transact_foreign_refuted` P, `Examples.shape_extents` CPQ, `Examples.take_spec` CPQ |
| C122 | `Net.network_deterministic` CPQ, `Net.network_stuck_maximal` CPQ, `Net.network_outcome` CPQ, `Net.network_finished` CPQ, `Net.network_bounded` CPQ, `Net.network_ends` CPQ, `Net.network_consumer_close_refuted` PQ |
| C123 | `Net.network_capacity_results` CPQ, `Net.network_capacity_more` CPQ, `Net.network_capacity_finish` CPQ, `Net.network_capacity_needed` PQ |
| C124 | `Net.network_stuck_waits` CPQ, `Net.network_waits_for` CPQ, `Net.network_forest_no_deadlock` CPQ, `Net.network_forest_finishes` CPQ, `Net.network_capacity_needed` PQ, `Net.network_cycle_deadlock_refuted` CPQ, `Net.network_untidy_deadlock_refuted` CPQ, `Net.network_zero_deadlock_refuted` CPQ |
| C125 | `NextTo.base_history_partial` P, `NextTo.base_unpeeked_partial` PQ, `NextTo.base_whole_partial` PQ, `NextTo.base_peek_refuted` P |
| C126 | `Multi.multi_simulation` CPQ, `Multi.multi_outcomes` CPQ, `Multi.multi_deadlocks` CPQ, `Multi.multi_safety` CPQ, `Multi.multi_deadlocks_throw_refuted` CPQ, `Multi.multi_bounded` PQ, `Multi.multi_bounded_calls` CPQ, `Multi.multi_ends` CPQ, `Multi.multi_deadlocks_move_refuted` CPQ |
| C127 | `MultiX.multix_simulation` CPQ, `MultiX.multix_outcomes` CPQ, `MultiX.multix_deadlocks` CPQ, `MultiX.multix_safety` CPQ, `MultiX.multix_bounded` PQ, `MultiX.multix_bounded_calls` CPQ, `MultiX.multix_ends` CPQ |
| C128 | `Mixed.mixed_simulation` CPQ, `Mixed.mixed_outcomes` CPQ, `Mixed.mixed_deadlocks` CPQ, `Mixed.mixed_safety` CPQ, `Mixed.mixed_bounded` PQ, `Mixed.mixed_bounded_calls` CPQ, `Mixed.mixed_ends` CPQ |
| C13 | `Limit.limit_allocate_spec_partial` CPQ, `Limit.limit_failure_free` PQ, `Limit.limit_refusal_justified` PQ, `Limit.limit_solo` PQ, `Limit.limit_wrap_refuted` –, `Limit.limit_own_budget` CPQ, `Limit.limit_sharing` PQ |
| C14 | `Pool.pool_smallest_bucket` PQ, `Pool.pool_heap_iff` PQ, `Pool.pool_free_same_source` P |
| C15 | `Pool.pool_frees_legal` CPQ, `Pool.pool_free_exact` CPQ, `Pool.pool_blocks_disjoint` CPQ, `Pool.pool_block_persists` CPQ, `Pool.pool_block_large_enough_partial` CPQ, `Pool.pool_no_leak` CPQ, `Pool.pool_block_too_small_refuted` PQ |
| C16 | `Defer.defer_correct` PQ, `Defer.defer_balanced` PQ, `Defer.guard_runs_iff` PQ |
| C17 | `Defer.defer_correct` PQ, `Defer.defer_block` PQ, `Defer.defer_reverse_order` PQ, `Defer.defer_at_most_once` PQ, `Defer.defer_empty` P, `Defer.defer_guard_throws` PQ |
| C18 | `FlexArray.size_le_max` CPQ, `FlexArray.reach_wf` CPQ, `FlexArray.init_spec` PQ, `FlexArray.range_spec` CPQ, `FlexArray.resize_spec` CPQ, `FlexArray.to_static_spec` CPQ, `FlexArray.of_static_spec` CPQ, `FlexArray.range_short_refuted` – |
| C19 | `FlexArray.init_spec` PQ, `FlexArray.range_spec` CPQ, `FlexArray.resize_spec` CPQ, `FlexArray.write_spec` CPQ, `FlexArray.to_static_spec` CPQ, `FlexArray.of_static_spec` CPQ, `FlexArray.static_dynamic_roundtrip` CPQ, `FlexArray.elements_initialised` PQ, `FlexArray.resize_exposes_refuted` P |
| C20 | `FlexArray.three_way_lex` PQ, `FlexArray.equals_iff` CPQ, `FlexArray.operators_consistent` CPQ, `FlexArray.inner_operators_wrong` –, `FlexArray.lexLess_iff` PQ |
| C21 | `StaticString.contents_partial` PQ, `StaticString.contents_any_width` PQ, `StaticString.wide_refuted` P |
| C22 | `StaticString.memory_safe_partial` PQ, `StaticString.run_ok` PQ, `StaticString.assign_failure_refuted` P, `StaticString.pocca_refuted` P |
| C23 | `PtrTag.mk_defined_iff` CPQ, `PtrTag.mkNull_defined_iff` CPQ, `PtrTag.pack_unpack` CPQ, `PtrTag.null_unpack` CPQ, `PtrTag.default_unpack` PQ, `PtrTag.tagged_roundtrip` –, `PtrTag.unpack_any` CPQ, `PtrTag.repack` CPQ, `PtrTag.aligned_accepted` CPQ |
| C24 | `PtrTag.eq_iff` CPQ, `PtrTag.cmp_lex` CPQ, `PtrTag.swap_spec` PQ, `PtrTag.narrow_tag_refuted` PQ |
| C25 | `IPow.ipow_exact_or_error` CPQ, `IPow.ipow_negative_exponent` CPQ, `IPow.range_exact` CPQ |
| C26 | `StdInt.lit_congruent` CPQ, `StdInt.lit_unique` CPQ, `StdInt.lit_representable` CPQ |
| C27 | `Variant2.history_partial` PQ, `Variant2.step_ok` PQ, `Variant2.rep_matches` PQ, `Variant2.trivial_assign_refuted` P, `Variant2.move_noexcept_refuted` P |
| C28 | `Variant2.history_partial` PQ, `Variant2.step_ok` PQ, `Variant2.self_swap_refuted` P, `Variant2.brace_copy_refuted` P, `Variant2.assignValue_value` P, `Variant2.copy_ctor_value` P, `Variant2.move_ctor_value` P, `Variant2.copy_assign_value` P, `Variant2.move_assign_value` P, `Variant2.new_value` P, `Variant2.set_value` P, `Variant2.swap_value` P |
| C29 | `Variant2.observers_agree` PQ, `Variant2.visit_spec` P, `Variant2.getIf_null` –, `Variant2.observers_defined` PQ |
| C30 | `Variant2.cmp_spec` P, `Variant2.eq_spec` PQ, `Variant2.eq_equivalence` P, `Variant2.cmp_order` P, `Variant2.hash_eq_partial` PQ, `Variant2.hash_valueless_refuted` P, `Variant2.hash_index` CPQ |
| C31 | `Inplace.lifetime_partial` PQ, `Inplace.trivial_classes_partial` PQ, `Inplace.assign_trivial_refuted` P, `Inplace.assign_from_valueless_refuted` P, `Inplace.self_move_refuted` P |
| C32 | `Inplace.value_semantics_partial` PQ, `Inplace.observe` P, `Inplace.assign_from_valueless_refuted` P, `Inplace.self_move_refuted` P |
| C33 | `OptMinMax.optMinElement_spec` PQ, `OptMinMax.optMaxElement_spec` PQ, `OptMinMax.optMinmaxElement_spec` PQ, `OptMinMax.two_arguments` P, `OptMinMax.absent_ignored` P, `OptMinMax.append` P |
| C34 | `Range.forward_partial` CPQ, `Range.loop_partial` CPQ, `Range.elems_spec` CPQ, `Range.zero_step` PQ, `Range.unit_step` CPQ |
| C35 | `Range.both_ends_partial` CPQ, `Range.lawful_partial` CPQ, `Range.reversed_partial` CPQ, `Range.reverse_refuted` –, `Range.reverse_wrap_refuted` – |
| C36 | `Range.lawful_forward_partial` CPQ, `Range.view_partial` CPQ, `Range.size_refuted` –, `Range.size_overflow_refuted` – |
| C37 | `Range.fixed_width_dvd_partial` CPQ, `Range.unit_step` CPQ, `Range.forward_partial` CPQ, `Range.unsigned_wrap_refuted` CPQ, `Range.signed_overflow_refuted` –, `Range.from_zero` CPQ |
| C38 | `NextTo.iterate` P, `NextTo.loop` P, `NextTo.loop_endless` PQ, `NextTo.begin_restarts` P |
| C39 | `NextTo.history` PQ, `NextTo.peek_not_fused_refuted` – |
| C40 | `NextTo.view_forward` PQ, `NextTo.view_backward` PQ, `NextTo.advance_visit` PQ, `NextTo.interleaving` P, `NextTo.LawfulFwd.results_forward` P, `NextTo.Lawful.results_backward` PQ |
| C41 | `RangesAlgo.quantifiers` PQ, `RangesAlgo.empty_spec` P, `RangesAlgo.all_equal_spec` PQ, `RangesAlgo.all_distinct_spec` PQ, `RangesAlgo.all_distinct_cases` PQ, `RangesAlgo.all_distinct_hash_refuted` –, `RangesAlgo.all_distinct_sorted_spec` PQ, `RangesAlgo.is_sorted_unique_partial` PQ, `RangesAlgo.is_sorted_unique_refuted` P, `RangesAlgo.hashSet_finds` PQ, `RangesAlgo.treeSet_finds` PQ |
| C42 | `RangesAlgo.unique_spec` CPQ, `RangesAlgo.unique_meaning` CPQ, `RangesAlgo.distinct_iff_unique` CPQ, `RangesAlgo.remove_element_spec` CPQ, `RangesAlgo.firstOccs_eq` P |
| C43 | `RangesAlgo.lex_spec` PQ, `RangesAlgo.lex_order` PQ, `RangesAlgo.lexCompare_eq` PQ |
| C44 | `TypeList.access` PQ, `TypeList.concat_spec` PQ, `TypeList.take_drop` PQ, `TypeList.transform_spec` PQ, `TypeList.generate_spec` PQ, `TypeList.tuple_spec` PQ, `TypeList.integer_sequence_spec` P, `TypeList.filter_spec` CPQ, `TypeList.apply_unpack` – |
| C45 | `TypeList.search` CPQ, `TypeList.search_lazy` PQ, `TypeList.quantifiers` PQ, `TypeList.quantifiers_ill_formed` PQ, `TypeList.count_contains` CPQ, `TypeList.all_same_spec` PQ, `TypeList.unique_spec` PQ, `TypeList.all_distinct_spec` PQ, `TypeList.folds` P, `TypeList.for_each_trace` PQ, `TypeList.opt_spec` PQ |
| C46 | `Integral.seq_get` P, `Integral.sequence` CPQ, `Integral.valid_index` CPQ, `Integral.tuple_get` CPQ, `Integral.tuple_subtuple` CPQ, `Integral.tuple_subtuple_ill_formed` CPQ, `Integral.tuple_subtuple_end_refuted` P, `Integral.variant_index` CPQ, `Integral.variant_valueless` CPQ, `Integral.variant_emplace` CPQ, `Integral.variant_empty_refuted` –, `Integral.tuple_subtuple_empty` CPQ, `Integral.variant_empty` PQ, `Integral.variant_types` CPQ, `Integral.variant_default` CPQ, `Integral.variant_in_place` CPQ, `Integral.variant_in_place_empty` CPQ, `Integral.variant_emplace_iff` CPQ, `Integral.variant_holds_type` CPQ, `Integral.variant_visit` CPQ |
| C47 | `Layout.layout` CPQ, `Layout.subtuple_partial` CPQ, `Layout.subtuple_refuted` P, `Layout.subtuple_default_refuted` CPQ, `Layout.subtuple_suffix` CPQ, `Layout.subtuple_descending` CPQ, `Layout.construct` CPQ, `Layout.uniform_spec` –, `Layout.get_by_type` CPQ, `Layout.compare_spec` CPQ, `Layout.equal_spec` CPQ, `Layout.size_spec` PQ |
| C48 | `Control.switch_cases_spec` CPQ, `Control.switch_cases_to_spec` CPQ, `Control.switch_cases_no_default` CPQ, `Control.switch_type_wide` CPQ, `Control.switch_type_refuted` CPQ, `Control.switch_instances` CPQ, `Control.switch_instances_no_default` CPQ, `Control.switch_instances_no_default_refuted` PQ, `Control.switch_instances_no_default_refuted'` PQ, `Control.switch_bool_spec` –, `Control.switch_cases_to_no_default` CPQ, `Control.switch_result` CPQ, `Control.switch_instances_to_no_default` CPQ |
| C49 | `Control.for_types_returns` P, `Control.for_types_throws` P, `Control.for_values_spec` P, `Control.for_values_noexcept_refuted` P, `Control.for_range_partial` CPQ, `Control.for_range_refuted` P, `Control.calls_cases` – |
| C50 | `Control.tuple_fold_partial` P, `Control.tuple_fold_refuted` P, `Control.tuple_fold_terminates` P, `Control.foldsTo_pure` –, `Control.tuple_for_each_returns` P, `Control.tuple_for_each_throws` P |
| C51 | `PolyAlloc.history` CPQ, `PolyAlloc.convert_keeps` CPQ, `PolyAlloc.select_keeps` –, `PolyAlloc.holds_spec` PQ, `PolyAlloc.distinctTypes_iff` CPQ, `PolyAlloc.max_size_refuted` –, `PolyAlloc.allocate_held` P, `PolyAlloc.deallocate_held` CPQ, `PolyAlloc.container_after` PQ, `PolyAlloc.max_size_exact` CPQ |
| C52 | `PolyAlloc.eq_spec` PQ, `PolyAlloc.eq_equivalence` P, `PolyAlloc.eq_src` P, `PolyAlloc.propagation` CPQ, `PolyAlloc.always_equal` CPQ, `PolyAlloc.history` CPQ, `PolyAlloc.propagation_documented_refuted` P |
| C53 | `Sandbox.waits` P, `Sandbox.report_exited` PQ, `Sandbox.report_killed` PQ, `Sandbox.child_signals` CPQ, `Sandbox.sandbox_partial` CPQ, `Sandbox.exit_code` PQ, `Sandbox.exit_code_refuted` –, `Sandbox.terminate_handler_refuted` –, `Sandbox.sigchld_ignored_refuted` P, `Sandbox.results_distinct` CPQ, `Sandbox.report_status` CPQ |
| C54 | `FmtJoin.format_joins` PQ, `FmtJoin.format_joins_positional` PQ, `FmtJoin.format_empty` –, `FmtJoin.separators_agree` PQ, `FmtJoin.joined_append` P, `FmtJoin.joined_length` PQ, `FmtJoin.format_throws` PQ, `FmtJoin.stdFormat_joins` PQ, `FmtJoin.stdFormat_rejects` P, `FmtJoin.writeSep_literal` PQ, `FmtJoin.char_positional_refuted` CPQ, `FmtJoin.literal_nul_refuted` CPQ |
| C55 | `LazyCond.lazyConditional_selects` P, `LazyCond.lazyConditional_indep` P, `LazyCond.switch_default_selects_partial` PQ, `LazyCond.switch_default_default_partial` PQ, `LazyCond.switch_selects_partial` PQ, `LazyCond.switch_no_match` PQ, `LazyCond.unusable_before` PQ, `LazyCond.unselected_harmless_refuted` –, `LazyCond.other_case_refuted` – |
| C56 | `Qualifiers.copyConst_spec` P, `Qualifiers.copyVolatile_spec` P, `Qualifiers.copyCv_eq` P, `Qualifiers.copyCv_spec` P, `Qualifiers.copyReference_spec` P, `Qualifiers.copyCvref_spec` P, `Qualifiers.copyCvref_transfer` P, `Qualifiers.forwardLike_spec` PQ, `Qualifiers.forwardLike_binds` PQ, `Qualifiers.ty_ext` P, `Qualifiers.referable_iff` PQ |
| C57 | `BindFront.call_order` PQ, `BindFront.bound_unchanged` CPQ, `BindFront.repeated_calls` CPQ, `BindFront.rvalue_call` CPQ, `BindFront.rest_forwarded` CPQ, `BindFront.bind_leaves` P, `BindFront.noexcept_types` PQ, `BindFront.lvalue_ref_refuted` P, `BindFront.memfn_order` PQ, `BindFront.memfn_unchanged` CPQ, `BindFront.memfn_by_reference_refuted` P, `BindFront.call_compiles` PQ, `BindFront.evalAll_category` PQ, `BindFront.bound_after` CPQ, `BindFront.rest_after` CPQ, `BindFront.Alias.bound_stable` PQ, `BindFront.Alias.bound_seen` CPQ, `BindFront.Alias.memfn_seen` CPQ, `BindFront.Alias.memfn_alias_refuted` P, `BindFront.Alias.members_seen` CPQ |
| C58 | `Pool.pool_move_keeps_source_refuted` PQ, `Pool.pool_no_null_partial` PQ, `Limit.limit_move_keeps_source_refuted` P, `Pool.pool_lost_iff_partial` CPQ, `Limit.limit_lost_iff_partial` CPQ |
| C59 | `NextTo.copy_partial` –, `NextTo.direct_init_refuted` P, `NextTo.direct_init_partial` CPQ, `NextTo.direct_init_iff_partial` CPQ |
| C60 | `TypeList.unique_instances_refuted` PQ, `TypeList.unique_instances_bound` PQ |
| C61 | `Qualifiers.moveIfValue_moves` P, `Qualifiers.moveIfValue_lref` –, `Qualifiers.moveIfValueType_spec` P, `Qualifiers.moveIfValue_crref` P, `Qualifiers.moveIfValue_refuted` – |
| C62 | `Qualifiers.strict_invocable_partial` PQ, `Qualifiers.strict_invocable_of_indifferent` –, `Qualifiers.strict_invocable_refuted` – |
| C63 | `Exchange.exchange_iterate_running` PQ, `Exchange.exchange_iterate_ended` CPQ, `Exchange.exchange_iterate_newest` CPQ |
| C64 | `Channel.channel_no_race` PQ, `Exchange.exchange_no_race` PQ |
| C65 | `Overload.match_accepted_iff` PQ, `Overload.match_selects` PQ, `Overload.match_order` PQ, `Overload.match_valueless` P, `Overload.match_bad_access_iff` PQ, `Overload.match_exact_before_generic` P, `Overload.match_generic` P, `Overload.match_keeps_functions` PQ, `Overload.match_state_refuted` P |
| C66 | `Print.shift_applicable` P, `Print.shift_appends` PQ, `Print.shift_prefix` PQ, `Print.shifts_append` PQ, `Print.shift_like_string_partial` PQ, `Print.shift_failed_refuted` –, `Print.shift_full_refuted` –, `Print.shift_width_refuted` –, `Print.shift_tie_refuted` –, `Print.shifts_throw` PQ |
| C67 | `Print.dbg_transparent` PQ, `Print.dbg_expr_throws` P, `Print.dbg_format_throws` PQ, `Print.dbg_dangling_refuted` PQ, `Print.dbg_line` CPQ |
| C68 | `OffsetPtr.pointer_round_trip` PQ, `OffsetPtr.pointer_copies` PQ, `OffsetPtr.pointer_relocate` PQ, `OffsetPtr.allocate_forwards` PQ, `OffsetPtr.deallocate_returns` PQ, `OffsetPtr.deallocate_iff` CPQ, `OffsetPtr.wrapper_transparent` –, `OffsetPtr.copy_move_partial` P, `OffsetPtr.copy_refuted` PQ, `OffsetPtr.from_upstream` P |
| C69 | `Zst.is_zst_iff` CPQ, `Zst.zst_free` CPQ, `Zst.nonempty_costs` PQ, `Zst.is_zst_other` –, `Zst.is_zst_overaligned_refuted` –, `Zst.is_zst_ill_formed_refuted` – |
| C70 | `IntVariant.copy_same_partial` P, `IntVariant.copy_throws_refuted` P, `IntVariant.move_same` CPQ, `IntVariant.assign_outcome` Q, `IntVariant.assign_strong` P, `IntVariant.move_assign_outcome` PQ, `IntVariant.of_value_holds` P, `IntVariant.visit_emplace` –, `IntVariant.eq_spec` CPQ, `IntVariant.order_ascending_partial` CPQ, `IntVariant.order_descending` CPQ, `IntVariant.order_descending_refuted` –, `IntVariant.order_consistent` PQ, `IntVariant.hash_consistent` PQ, `Compare.integral_variant_eq` CPQ, `Compare.integral_variant_cmp` CPQ, `Compare.integral_variant_laws` PQ, `Compare.integral_variant_hash` PQ |
| C71 | `Variant2.like_std_partial` PQ, `Variant2.like_std_refuted` P, `Variant2.like_std_set_refuted` P |
| C72 | `FlexArray.value_partial` PQ, `FlexArray.access_spec` CPQ, `FlexArray.copy_terminates_iff` PQ, `FlexArray.copy_oom_refuted` P, `FlexArray.copy_dead_throw_refuted` P, `FlexArray.moved_from_size_refuted` P |
| C73 | `StaticString.access_spec` CPQ, `StaticString.compare_print_partial` CPQ, `StaticString.copy_alloc` P, `StaticString.assign_alloc` P |
| C74 | `PtrTag.typed_partial` CPQ, `PtrTag.typed_iff` CPQ, `PtrTag.typed_refuted` PQ, `PtrTag.accepts_spec` CPQ, `PtrTag.bool_tag` CPQ, `PtrTag.decompose_spec` CPQ |
| C75 | `Range.generic_spec` PQ, `Range.generic_fused` P, `Range.generic_short` P, `Range.generic_default` P, `Range.exact_spec_partial` CPQ, `Range.double_refuted` P, `Range.nan_refuted` P |
| C76 | `Variant2.access_type` P, `Variant2.get_if_partial` PQ, `Variant2.get_if_amp_refuted` –, `Variant2.format_spec` PQ, `Variant2.eq_throw_partial` PQ, `Variant2.eq_throw_refuted` –, `Variant2.hash_branch_partial` P, `Variant2.hash_branch_refuted` P, `Variant2.select_spec` PQ |
| C77 | `RangesAlgo.quantifier_calls` P, `RangesAlgo.all_equal_calls` P, `RangesAlgo.is_sorted_unique_calls` P, `RangesAlgo.sortedTest_spec` –, `RangesAlgo.lex_calls` PQ, `RangesAlgo.forms_agree` –, `RangesAlgo.lvalue_unchanged_partial` P, `RangesAlgo.unique_rvalue_refuted` P, `RangesAlgo.rvalue_moved_refuted` –, `RangesAlgo.sortedTest_log` P, `RangesAlgo.moved_results` PQ |
| C78 | `Inplace.object_fits` CPQ, `Inplace.storage_tight` PQ, `Inplace.get_iff` CPQ, `Inplace.get_partial` P, `Inplace.get_refuted` –, `Inplace.accepted_spec` PQ |
| C79 | `NextTo.ctor_copyable` CPQ, `NextTo.ctor_noncopyable_partial` PQ, `NextTo.ctor_refuted` P, `NextTo.begin_fresh` –, `NextTo.kept_refs` PQ, `NextTo.range_members` P, `NextTo.view_members_partial` P, `NextTo.crbegin_refuted` –, `NextTo.iter_members` P |
| C80 | `HB.chan_weak` CPQ, `HB.chan_order` CPQ, `HB.chan_insert_remove` CPQ, `HB.chan_removed_from` CPQ, `HB.chan_publish` CPQ, `HB.chan_remove_insert` CPQ, `HB.chan_push_false` CPQ, `HB.chan_try_push_false` CPQ, `HB.chan_pop_none` CPQ, `HB.chan_closed` CPQ, `HB.chan_steps` CPQ, `HB.chan_closed_late` P, `HB.exch_weak` CPQ, `HB.exch_order` CPQ, `HB.exch_removed_from` CPQ, `HB.exch_publish` CPQ, `HB.exch_push_false` CPQ, `HB.exch_pop_none` CPQ, `HB.exch_closed` CPQ, `HB.exch_steps` CPQ, `HB.exch_closed_late` P, `HB.chan_sync` CPQ, `HB.exch_sync` CPQ, `HB.before_iff_hb` CPQ, `HB.coherence_iff` CPQ |
| C81 | `Guards.guards_race_free_partial` CPQ, `Guards.guards_race_free_refuted` PQ, `Guards.hb_order` PQ, `Guards.release_acquire` PQ, `Guards.one_thread_ordered` PQ, `Guards.unlock_same_thread_partial` CPQ, `Guards.unlock_same_thread_refuted` PQ, `Guards.read_latest` CPQ, `Guards.know_iff` PQ |
| C82 | `Limit.limit_weak_reachable` PQ, `Limit.limit_load_iff` CPQ, `Limit.limit_refusal_known` CPQ, `Limit.limit_refusal_current` CPQ, `Limit.limit_refusal_stale_refuted` PQ, `Limit.limit_lock_free` CPQ, `Limit.limit_wait_free_refuted` CPQ |
| C83 | `Pool.arena_blocks_disjoint` CPQ, `Pool.arena_blocks_inside` CPQ, `Pool.arena_frees_legal` CPQ, `Pool.arena_free_list_disjoint` CPQ, `Pool.arena_reuse` CPQ, `Pool.arena_aligned_partial` CPQ, `Pool.arena_aligned_buckets_partial` CPQ, `Pool.arena_aligned_iff` CPQ, `Pool.arena_aligned_refuted` PQ, `Pool.arena_over_aligned_refuted` PQ |
| C84 | `Containers.cont_frees_legal` PQ, `Containers.cont_budget` PQ, `Containers.cont_no_leak` PQ, `Containers.cont_moved_iff` CPQ, `Containers.cont_null_iff` CPQ, `Containers.cont_pool_moved_partial` CPQ, `Containers.cont_pool_swap` P, `Containers.cont_move_free` PQ, `Containers.cont_throw` PQ, `Containers.cont_copy_charges` CPQ, `Containers.cont_moved_grow_refuted` P, `Containers.cont_moved_assign_refuted` P, `Containers.cont_sentinel_destroy_refuted` P, `Containers.cont_limit_swap_refuted` P, `Containers.cont_poly_swap_refuted` P, `Containers.cont_poly_assign` PQ |
| C85 | `Defer.Flow.flow_correct` CPQ, `Defer.Flow.flow_correct_partial` CPQ, `Defer.Flow.flow_balanced` CPQ, `Defer.Flow.flow_deterministic` CPQ, `Defer.Flow.flow_resume_refuted` P, `Defer.Flow.flow_fail_partial` PQ, `Defer.Flow.flow_success_partial` PQ, `Defer.Flow.flow_lifo` PQ, `Defer.Flow.flow_init_throws` P, `Defer.Flow.flow_macro_names` CPQ, `Defer.Flow.flow_macro_same_line_refuted` CPQ, `Defer.Flow.flow_macro_forms` PQ, `Defer.Flow.guard_assigns` P, `Defer.Flow.flow_assigns` P |
| C86 | `Noexcept.pop_noexcept` P, `Noexcept.iterator_copy_noexcept` P, `Noexcept.exchange_emplace_noexcept` P, `Noexcept.limit_noexcept` P, `Noexcept.variant2_noexcept` PQ, `Noexcept.polymorphic_noexcept` PQ, `Noexcept.polymorphic_swap_noexcept` PQ, `Noexcept.inplace_noexcept` P, `Noexcept.guard_ctor_noexcept` P, `Noexcept.integral_variant_noexcept` PQ, `Noexcept.channel_emplace_terminates_iff` P, `Noexcept.channel_emplace_partial` P, `Noexcept.channel_push_refuted` PQ, `Noexcept.channel_iterator_terminates_iff` P, `Noexcept.channel_iterator_refuted` PQ, `Noexcept.iterator_copy_assign_terminates_iff` P, `Noexcept.iterator_move_assign_terminates_iff` P, `Noexcept.iterator_assign_refuted` PQ, `Noexcept.exchange_iterator_terminates_iff` P, `Noexcept.exchange_iterator_refuted` PQ, `Noexcept.limit_copy_terminates_iff` P, `Noexcept.limit_copy_refuted` PQ, `Noexcept.limit_move_pessimistic` PQ, `Noexcept.variant2_terminates_iff` PQ, `Noexcept.variant2_refuted` PQ, `Noexcept.variant2_swap_partial` PQ, `Noexcept.polymorphic_copy_assign_terminates_iff` PQ, `Noexcept.polymorphic_move_assign_terminates_iff` PQ, `Noexcept.polymorphic_assign2_terminates_iff` CPQ, `Noexcept.polymorphic_valueless_terminates_iff` PQ, `Noexcept.polymorphic_refuted` PQ, `Noexcept.mutex_ctor_terminates_iff` P, `Noexcept.mutex_ctor_partial` P, `Noexcept.mutex_ctor_refuted` PQ, `Noexcept.runs_terminated` P, `Noexcept.push_throws_iff` P, `Noexcept.pop_throws_iff` P, `Noexcept.iterator_throws_iff` P, `Noexcept.limit_throws_iff` P, `Noexcept.variant2_ctor_throws_iff` P, `Noexcept.variant2_copy_throws_iff` PQ, `Noexcept.variant2_assign_throws_iff` PQ, `Noexcept.variant2_swap_throws_iff` PQ, `Noexcept.polymorphic_throws_iff` CPQ, `Noexcept.polymorphic_dtor_throws_iff` CPQ, `Noexcept.polymorphic_assign_throws_iff` CPQ, `Noexcept.polymorphic_swap_throws_iff` CPQ, `Noexcept.polymorphic_swap_destroys_both` CPQ, `Noexcept.inplace_throws_iff` P, `Noexcept.inplace_drop_outcomes` PQ, `Noexcept.mutex_ctor_throws_iff` P, `Noexcept.guard_ctor_throws_iff` P, `Noexcept.integral_variant_throws_iff` CPQ, `Noexcept.iterator_copy_assign_any` PQ |
| C87 | `Channel.channel_try_returns` CPQ, `Channel.channel_closed_returns` CPQ, `Channel.channel_pop_returns_partial` CPQ, `Channel.channel_push_returns_partial` CPQ, `Channel.channel_sole_consumer_returns_partial` CPQ, `Channel.channel_sole_producer_returns_partial` CPQ, `Channel.channel_system_progress` CPQ, `Channel.channel_pop_starves_refuted` PQ, `Channel.channel_push_starves_refuted` CPQ, `Channel.channel_weak_fairness_refuted` CPQ, `Channel.channel_pop_returns_since_partial` CPQ, `Channel.channel_push_returns_since_partial` CPQ, `Channel.channel_sole_consumer_returns` CPQ, `Channel.channel_sole_producer_returns` CPQ |
| C88 | `Exchange.exchange_push_returns` CPQ, `Exchange.exchange_closed_returns` CPQ, `Exchange.exchange_close_releases` CPQ, `Exchange.exchange_sole_consumer_returns_partial` CPQ, `Exchange.exchange_pop_returns_partial` CPQ, `Exchange.exchange_system_progress` CPQ, `Exchange.exchange_pop_starves_refuted` PQ, `Exchange.exchange_pop_returns_since_partial` CPQ, `Exchange.exchange_sole_consumer_returns` CPQ |
| C89 | `RangesAlgo.unique_lazy` CPQ, `RangesAlgo.remove_lazy` CPQ, `RangesAlgo.take_returns_partial` CPQ, `RangesAlgo.take_never_returns_refuted` CPQ, `RangesAlgo.deref_twice_refuted` CPQ, `RangesAlgo.remove_again_partial` PQ, `RangesAlgo.remove_again_refuted` P, `RangesAlgo.unique_again_refuted` PQ, `RangesAlgo.quantifiers_endless` CPQ, `RangesAlgo.all_equal_endless` CPQ, `RangesAlgo.all_distinct_endless` CPQ, `RangesAlgo.all_distinct_finite` CPQ, `RangesAlgo.is_sorted_unique_endless` CPQ, `RangesAlgo.is_sorted_unique_finite` CPQ, `RangesAlgo.lex_endless` CPQ |
| C90 | `Elements.elements_no_ub` CPQ, `Elements.elements_owned` CPQ, `Elements.elements_unlocked` CPQ, `Elements.elements_lifetime` CPQ, `Elements.elements_no_leak` CPQ, `Elements.elements_values` CPQ, `Elements.push_refused` P, `Elements.tryPush_refused` PQ, `Elements.push_move_queue` CPQ, `Elements.push_copy_queue` CPQ, `Elements.push_threw_queue` PQ, `Elements.push_threw_exch` CPQ, `Elements.pop_queue` CPQ, `Elements.pop_exch` CPQ, `Elements.pop_threw_queue` CPQ, `Elements.channel_iterator_never_throws` P, `Elements.moved_iterator` PQ, `Elements.move_assigned_iterators` CPQ, `Elements.pop_strong_refuted` P, `Elements.copy_assign_strong_refuted` P, `Elements.user_code_unlocked_refuted` PQ, `Elements.tryPush_eq_push` PQ, `Elements.tryPop_eq_pop` P, `Elements.push_move_exch` CPQ, `Elements.copied_iterator` PQ, `Elements.copy_assigned_iterator` CPQ, `Elements.move_assigned_iterator` CPQ, `Elements.taken_from_iterator` PQ, `Elements.begin_threw` P, `Elements.full_takes_nothing` PQ, `Elements.emplace_queue` CPQ, `Elements.closed_takes_nothing` P, `Elements.call_ends` CPQ |
| C91 | `Variant2.at_inside` P, `Variant2.assign_outside` P, `Variant2.assign_inside` PQ, `Variant2.assign_inside_refuted` PQ, `Variant2.assign_inside_alt_refuted` PQ, `Variant2.std_assign_inside` P, `Variant2.assign_value_outside` P, `Variant2.assign_value_within` P, `Variant2.emplace_outside` P, `Variant2.emplace_within_refuted` P, `Variant2.emplace_dtor_threw` P, `Variant2.assign_dtor_threw_refuted` PQ, `Variant2.assign_dtor_ok` –, `Inplace.tree_assign_outside` P, `Inplace.tree_assign_inside_refuted` P, `Inplace.tree_emplace_outside` P, `Inplace.tree_emplace_inside_refuted` P, `Variant2.std_assign_inside_exact` P |
| C92 | `FlexArray.init_reports` PQ, `FlexArray.range_reports` PQ, `FlexArray.toStatic_reports` PQ, `FlexArray.resize_reports` CPQ, `FlexArray.dflt_dies` PQ, `FlexArray.ofStatic_dies` PQ, `FlexArray.copy_dies` PQ, `FlexArray.reported_refuted` P |
| C93 | `Constexpr.flex_array_agrees` PQ, `Constexpr.flex_array_constant_iff` PQ, `Constexpr.flex_array_constant_refuted` P, `Constexpr.variant2_agrees` PQ, `Constexpr.variant2_step_constant_iff` PQ, `Constexpr.variant2_constant_refuted` P, `Constexpr.tuple_fold_constant` P, `Constexpr.tuple_for_each_constant` P, `Constexpr.tuple_types_constant` P, `Constexpr.sets_constant` P, `Constexpr.is_sorted_unique_constant` PQ, `Constexpr.ranges_constant` P, `Constexpr.others_constant` –, `Constexpr.flex_array_constant_contents` PQ, `Constexpr.flex_array_step_value` CPQ, `Constexpr.flex_array_run_value` CPQ, `Constexpr.flex_array_constant_value` CPQ, `Constexpr.variant2_step_value` PQ, `Constexpr.variant2_run_value` PQ, `Constexpr.algorithms_run_value` PQ |
| C94 | `Init.exact_type` CPQ, `Init.same_choice_partial` CPQ, `Init.lvalue_not_moved` CPQ, `Init.arithmetic_choice` CPQ, `Init.assign_braces` PQ, `Init.same_choice_refuted` PQ, `Init.assign_braces_refuted` PQ, `Init.converting_constructors` CPQ, `Init.both_ways_ambiguous` CPQ |
| C95 | `Init.never_other_constructor` PQ, `Init.made_as_parens_partial` CPQ, `Init.scalar_made` PQ, `Init.copy_made_partial` CPQ, `Init.noexcept_right_partial` PQ, `Init.tuple_made` CPQ, `Init.tuple_uniform` PQ, `Init.made_as_parens_refuted` PQ, `Init.declared_iff` PQ |
| C96 | `Init.Tuple.direct_init_partial` PQ, `Init.Tuple.copy_init` P, `Init.Tuple.integral_copied` P, `Init.Tuple.tags` CPQ, `Init.Tuple.values` CPQ, `Init.Tuple.not_implicit` PQ, `Init.Tuple.direct_init_refuted` P |
| C97 | `AllocIface.allocate_exact` PQ, `AllocIface.reserve_exact` PQ, `AllocIface.reserve_unwrapped` PQ, `AllocIface.reserve_limit` PQ, `AllocIface.reserve_partial` PQ, `AllocIface.reserve_refuted` P, `AllocIface.max_size_partial` P, `AllocIface.max_size_refuted` P, `AllocIface.hints` P, `AllocIface.construct_partial` P, `AllocIface.construct_refuted` P, `AllocIface.limit_from` PQ, `AllocIface.converts_partial` PQ, `AllocIface.converts_refuted` PQ, `AllocIface.copies_partial` PQ, `AllocIface.copies_refuted` P, `AllocIface.same_type` PQ, `AllocIface.single` P, `AllocIface.always_equal` P, `AllocIface.propagation` PQ, `AllocIface.swap_refuted` –, `AllocIface.holds` CPQ, `AllocIface.holds_foreign` PQ, `AllocIface.well_formed` PQ, `AllocIface.default_first` – |
| C98 | `Traits.made_truthful` CPQ, `Traits.tuple_reports` CPQ, `Traits.variant2_reports` P, `Traits.variant2_compiles` CPQ, `Traits.variant2_truthful_iff_partial` CPQ, `Traits.variant2_truthful_refuted` P, `Traits.variant2_like_std` CPQ, `Traits.variant2_trivial_assign_iff` PQ, `Traits.variant2_trivial_assign_refuted` P, `Traits.variant2_trivially_copyable_iff` PQ, `Traits.variant2_trivially_copyable_refuted` PQ, `Traits.value_constructors` CPQ, `Traits.value_constructors_refuted` P, `Traits.polymorphic_default_refuted` PQ, `Traits.flex_truthful_iff_partial` CPQ, `Traits.flex_truthful_refuted` P, `Traits.flex_trivially_copyable_iff` PQ, `Traits.iterator_traits` CPQ, `Traits.iterator_traits_refuted` P, `Traits.pinned_traits` P, `Traits.mutex_default_iff` P, `Traits.inplace_traits` PQ, `Traits.string_truthful_iff_partial` CPQ, `Traits.string_truthful_refuted` PQ, `Traits.integral_variant_reports` CPQ, `Traits.stdVariant_reports` CPQ, `Traits.flex_reports` PQ, `Traits.allocators_report` PQ, `Traits.polymorphic_reports` CPQ, `Traits.string_compiles` CPQ, `Traits.flex_outside_works` PQ, `Traits.trivially_destructible` PQ |
| C99 | `Compare.flex_eq_runs` PQ, `Compare.flex_cmp_runs` PQ, `Compare.flex_cmp_less` PQ, `Compare.tuple_eq_runs` PQ, `Compare.tuple_cmp_runs` PQ, `Compare.integral_tuple_runs` PQ, `Compare.integral_variant_eq` CPQ, `Compare.integral_variant_cmp` CPQ, `Compare.variant2_eq` P, `Compare.variant2_cmp` PQ, `Compare.runs_terminated` P, `Compare.exception_refuted` P, `Compare.flex_ordered` PQ, `Compare.less_from_three_way` P, `Compare.mode_refuted` P, `Compare.unordered_refuted` PQ, `Compare.flex_laws` CPQ, `Compare.tuple_laws` PQ, `Compare.integral_tuple_laws` PQ, `Compare.variant2_laws` PQ, `Compare.integral_variant_laws` PQ, `Compare.made_lawful` CPQ, `Compare.operators_fit` P, `Compare.integral_variant_hash` PQ, `Compare.variant2_hash` PQ, `Compare.derived_operators` P |
