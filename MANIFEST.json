{
 "claims": [
  {
   "property": "C01",
   "status": "proved",
   "theorems": [
    "Verif.Channel.channel_fifo",
    "Verif.Channel.channel_removed_prefix"
   ],
   "note": "every execution of any number of threads"
  },
  {
   "property": "C02",
   "status": "proved",
   "theorems": [
    "Verif.Channel.channel_capacity"
   ],
   "note": ""
  },
  {
   "property": "C03",
   "status": "proved",
   "theorems": [
    "Verif.Channel.channel_closed_rejects",
    "Verif.Channel.channel_push_after_close",
    "Verif.Channel.channel_pop_end",
    "Verif.Channel.channel_closed_monotone"
   ],
   "note": ""
  },
  {
   "property": "C04",
   "status": "proved",
   "theorems": [
    "Verif.Channel.channel_call_effect",
    "Verif.Channel.atomic_meaning",
    "Verif.Channel.channel_nothrow",
    "Verif.Channel.channel_pop_loses_value_refuted",
    "Verif.Channel.channel_call_outcome"
   ],
   "note": "Holds for every call that returns, whatever the element type does. A pop that ends with an exception can have removed a value if moving elements throws (channel_pop_loses_value_refuted shows that this is possible)."
  },
  {
   "property": "C05",
   "status": "partial",
   "theorems": [
    "Verif.Channel.channel_no_lost_wakeup_partial",
    "Verif.Channel.channel_no_deadlock_partial",
    "Verif.Channel.channel_close_releases_partial",
    "Verif.Channel.channel_steps_bounded",
    "Verif.Channel.channel_no_lost_wakeup_refuted",
    "Verif.Channel.channel_no_lost_wakeup_move_refuted",
    "Verif.Channel.channel_blocked_partial",
    "Verif.Channel.channel_close_releases",
    "Verif.Channel.channel_blocked",
    "Verif.Channel.channel_blocked_tight",
    "Verif.Channel.channel_blocked_since"
   ],
   "note": "for every element type: a pop (push) is blocked only by as many elements (free places) as calls of other threads were left by exceptions while it waited, the bound is reached, and close releases everybody; without exceptions no wakeup is lost; with exceptions the claim as stated is false (concrete executions)"
  },
  {
   "property": "C06",
   "status": "proved",
   "theorems": [
    "Verif.Channel.channel_linearizable",
    "Verif.Channel.channel_call_effect",
    "Verif.Channel.channel_producer_order",
    "Verif.Channel.channel_call_possible"
   ],
   "note": ""
  },
  {
   "property": "C07",
   "status": "proved",
   "theorems": [
    "Verif.Channel.channel_iterate_running",
    "Verif.Channel.channel_iterate_ended",
    "Verif.Channel.channel_iterate_safe"
   ],
   "note": ""
  },
  {
   "property": "C08",
   "status": "partial",
   "theorems": [
    "Verif.Exchange.exchange_linearizable",
    "Verif.Exchange.exchange_call_effect",
    "Verif.Exchange.exchange_pop_most_recent",
    "Verif.Exchange.exchange_at_most_once",
    "Verif.Exchange.exchange_holds_last",
    "Verif.Exchange.exchange_not_dropped_partial",
    "Verif.Exchange.exchange_drop_refuted",
    "Verif.Exchange.exchange_call_outcome",
    "Verif.Exchange.exchange_call_possible"
   ],
   "note": "all parts proved; 'dropped only if replaced' fails when the element constructor throws (std::optional::emplace destroys the old value first), refuted by a witness"
  },
  {
   "property": "C09",
   "status": "partial",
   "theorems": [
    "Verif.Exchange.exchange_closed_rejects",
    "Verif.Exchange.exchange_push_after_close",
    "Verif.Exchange.exchange_close_keeps_value",
    "Verif.Exchange.exchange_pop_end",
    "Verif.Exchange.exchange_no_lost_wakeup_partial",
    "Verif.Exchange.exchange_close_releases_partial",
    "Verif.Exchange.exchange_steps_bounded",
    "Verif.Exchange.exchange_no_lost_wakeup_refuted",
    "Verif.Exchange.exchange_close_releases",
    "Verif.Exchange.exchange_blocked",
    "Verif.Exchange.exchange_blocked_since"
   ],
   "note": "close semantics proved; for every element type a sleeping pop with a value present means that a pop of another thread threw while it waited and since the last push, and close releases everybody; with throwing moves the claim as stated is false (concrete execution)"
  },
  {
   "property": "C10",
   "status": "partial",
   "theorems": [
    "Verif.Guards.guard_exclusive",
    "Verif.Guards.lock_iff_free",
    "Verif.Guards.try_lock_spec",
    "Verif.Guards.lock_effect",
    "Verif.Guards.move_ctor_effect",
    "Verif.Guards.move_assign_effect",
    "Verif.Guards.destroy_effect",
    "Verif.Guards.all_guards_gone_free",
    "Verif.Guards.access_effect",
    "Verif.Guards.owner_value_stable_partial",
    "Verif.Guards.owner_value_stable_refuted",
    "Verif.Guards.std_swap_spec"
   ],
   "note": "Everything except the last clause holds: a moved-from guard still gives access to the value without the lock (refuted with a witness); isolation is proved for executions that do not dereference moved-from guards."
  },
  {
   "property": "C100",
   "status": "proved",
   "theorems": [
    "Verif.TupleLife.build_spec",
    "Verif.TupleLife.destroy_spec",
    "Verif.TupleLife.move_spec",
    "Verif.TupleLife.copy_assign_spec",
    "Verif.TupleLife.move_assign_spec",
    "Verif.TupleLife.self_assign_spec",
    "Verif.TupleLife.swap_objects",
    "Verif.TupleLife.constructor_spec",
    "Verif.TupleLife.move_step",
    "Verif.TupleLife.copy_assign_step",
    "Verif.TupleLife.move_assign_step",
    "Verif.TupleLife.self_assign_step",
    "Verif.TupleLife.swap_spec",
    "Verif.TupleLife.uniform_values",
    "Verif.TupleLife.history",
    "Verif.TupleLife.no_leak",
    "Verif.TupleLife.made_first",
    "Verif.TupleLife.strong_guarantee_refuted",
    "Verif.TupleLife.move_strong_guarantee_refuted",
    "Verif.TupleLife.swap_destroys"
   ],
   "note": "Proved for all element operations and programs, with destructors that do not throw. A strong guarantee is not part of the claim: it is refuted with witnesses."
  },
  {
   "property": "C101",
   "status": "partial",
   "theorems": [
    "Verif.RangesThrow.unique_retry",
    "Verif.RangesThrow.remove_retry",
    "Verif.RangesThrow.no_faults",
    "Verif.RangesThrow.unique_incr_throws",
    "Verif.RangesThrow.remove_incr_throws",
    "Verif.RangesThrow.strong_guarantee_refuted",
    "Verif.RangesThrow.history",
    "Verif.RangesThrow.goes_on",
    "Verif.RangesThrow.independent",
    "Verif.RangesThrow.incr_defined_iff",
    "Verif.RangesThrow.pipeline_values",
    "Verif.RangesThrow.pipeline_steps",
    "Verif.RangesThrow.quantifiers_throw",
    "Verif.RangesThrow.all_equal_throws",
    "Verif.RangesThrow.is_sorted_unique_throws",
    "Verif.RangesThrow.lex_compare_throws",
    "Verif.RangesThrow.all_distinct_throws"
   ],
   "note": "An increment that throws does have an effect: the iterator can be left on an element the view does not show, and elements can be lost (refuted). Where the iterator stands, and what a loop that goes on shows, is proved exactly; all other parts are proved. Sources are forward ranges whose iterators do not throw on comparison."
  },
  {
   "property": "C102",
   "status": "proved",
   "theorems": [
    "Verif.IterThrow.channel_loop",
    "Verif.IterThrow.channel_loss",
    "Verif.IterThrow.channel_never_throws",
    "Verif.IterThrow.channel_exception_reaches_caller_refuted",
    "Verif.IterThrow.exchange_loop",
    "Verif.IterThrow.exchange_loss",
    "Verif.IterThrow.loops_agree"
   ],
   "note": "Proved as stated. The stronger claim that an exception of pop leaves a loop over a channel is refuted: it ends the program. The moves of the iterator object itself are not part of the loop."
  },
  {
   "property": "C103",
   "status": "proved",
   "theorems": [
    "Verif.LazyCond.named_agrees",
    "Verif.LazyCond.conditional_never_soft",
    "Verif.LazyCond.switch_default_soft_iff",
    "Verif.LazyCond.switch_soft_iff",
    "Verif.LazyCond.no_match_hard",
    "Verif.LazyCond.no_match_detectable_refuted"
   ],
   "note": "Proved as stated. The stronger claim that one can test whether a switch has a matching case is refuted. The rules for substitution failures are those of the language as stated in Soft.lean, not derived."
  },
  {
   "property": "C104",
   "status": "proved",
   "theorems": [
    "Verif.Print.Lookup.ostreamable_iff",
    "Verif.Print.Lookup.lib_viable_iff",
    "Verif.Print.Lookup.no_competition",
    "Verif.Print.Lookup.competitors",
    "Verif.Print.Lookup.same_meaning",
    "Verif.Print.Lookup.streamable_everywhere_refuted",
    "Verif.Print.Lookup.only_one_refuted",
    "Verif.Print.Lookup.body_writes",
    "Verif.Print.Lookup.wide_refuted"
   ],
   "note": "Proved as stated. Stronger claims are refuted: values cannot be streamed everywhere, the function can compete with overloads of unrelated namespaces, wide streams do not get the formatted text. Which of several viable functions is chosen is not modelled."
  },
  {
   "property": "C105",
   "status": "proved",
   "theorems": [
    "Verif.OptMinMax.min_calls",
    "Verif.OptMinMax.min_compared",
    "Verif.OptMinMax.max_calls",
    "Verif.OptMinMax.max_compared",
    "Verif.OptMinMax.minmax_calls",
    "Verif.OptMinMax.exceptions",
    "Verif.OptMinMax.two_calls",
    "Verif.OptMinMax.result_types",
    "Verif.OptMinMax.only_outer_level",
    "Verif.OptMinMax.empty_inside"
   ],
   "note": ""
  },
  {
   "property": "C106",
   "status": "proved",
   "theorems": [
    "Verif.Pipeline.pipeline_prefix",
    "Verif.Pipeline.pipeline_result",
    "Verif.Pipeline.pipeline_no_deadlock",
    "Verif.Pipeline.pipeline_bounded",
    "Verif.Pipeline.pipeline_can_finish",
    "Verif.Pipeline.pipeline_no_deadlock_refuted"
   ],
   "note": "The threads of the pipeline run on the channel of Channel/Model.lean, step by step. pipeline_no_deadlock_refuted shows that the condition on the capacities is needed. Elements whose operations throw are not part of this property (see C05)."
  },
  {
   "property": "C107",
   "status": "proved",
   "theorems": [
    "Verif.Workers.workers_subset",
    "Verif.Workers.workers_result",
    "Verif.Workers.workers_no_deadlock",
    "Verif.Workers.workers_bounded",
    "Verif.Workers.workers_can_finish",
    "Verif.Workers.workers_order_refuted",
    "Verif.Workers.workers_no_deadlock_refuted"
   ],
   "note": "Proved for every number of layers, workers, capacities, sources and bodies. That the order is kept is refuted for more than one worker per layer; that there is no deadlock needs a worker in every layer and room in every channel, both refuted otherwise."
  },
  {
   "property": "C108",
   "status": "proved",
   "theorems": [
    "Verif.Relay.relay_subsequence",
    "Verif.Relay.relay_newest",
    "Verif.Relay.relay_no_refusal",
    "Verif.Relay.relay_up_to_date",
    "Verif.Relay.relay_no_deadlock",
    "Verif.Relay.relay_bounded",
    "Verif.Relay.relay_can_finish",
    "Verif.Relay.relay_all_refuted"
   ],
   "note": "proved for all relays; that every value arrives is refuted (by design of the exchange channel)"
  },
  {
   "property": "C109",
   "status": "proved",
   "theorems": [
    "Verif.Channel.channel_clear_iff",
    "Verif.Channel.channel_destroy_iff",
    "Verif.Channel.channel_destroy_returned",
    "Verif.Channel.channel_destroy_refuted",
    "Verif.Channel.channel_end_window",
    "Verif.Exchange.exchange_clear_iff",
    "Verif.Exchange.exchange_destroy_iff",
    "Verif.Exchange.exchange_destroy_returned",
    "Verif.Exchange.exchange_destroy_refuted",
    "Verif.Exchange.exchange_end_window",
    "Verif.Pipeline.pipeline_destroy",
    "Verif.Pipeline.pipeline_destroy_refuted",
    "Verif.Relay.relay_destroy",
    "Verif.Channel.channel_gone",
    "Verif.Exchange.exchange_gone"
   ],
   "note": "Exact condition proved; that the end of one's own loop is enough is refuted, as the statement says."
  },
  {
   "property": "C11",
   "status": "proved",
   "theorems": [
    "Verif.Guards.guard_exclusive",
    "Verif.Guards.lock_iff_free",
    "Verif.Guards.lock_shared_iff",
    "Verif.Guards.try_lock_spec",
    "Verif.Guards.try_lock_shared_spec",
    "Verif.Guards.lock_shared_effect",
    "Verif.Guards.move_ctor_effect",
    "Verif.Guards.move_assign_effect",
    "Verif.Guards.destroy_effect",
    "Verif.Guards.all_guards_gone_free",
    "Verif.Guards.shared_blocks_writer",
    "Verif.Guards.access_effect",
    "Verif.Guards.owner_value_stable_partial",
    "Verif.Guards.owner_value_stable_refuted",
    "Verif.Guards.std_swap_spec"
   ],
   "note": "Everything stated is proved. Isolation of the value, which is more than stated, holds for executions that do not dereference moved-from guards (owner_value_stable_partial, owner_value_stable_refuted; see C10)."
  },
  {
   "property": "C110",
   "status": "proved",
   "theorems": [
    "Verif.Dangling.lvalue_shows",
    "Verif.Dangling.lvalue_remove",
    "Verif.Dangling.rvalue_shows",
    "Verif.Dangling.temporary_shows",
    "Verif.Dangling.moved_view_shows",
    "Verif.Dangling.moved_lvalue_shows",
    "Verif.Dangling.moved_lvalue_remove",
    "Verif.Dangling.unique_iterator_survives",
    "Verif.Dangling.remove_iterator_dies",
    "Verif.Dangling.owned_iterator",
    "Verif.Dangling.view_outlives_refuted",
    "Verif.Dangling.remove_again_refuted",
    "Verif.Dangling.moved_array_refuted"
   ],
   "note": "All programs of containers and views; the expected result is read off the actions by a specification without views. The refuted shortcuts are shown with concrete programs. std::views::all, ref_view, owning_view and filter_view are modelled as the standard describes them."
  },
  {
   "property": "C111",
   "status": "proved",
   "theorems": [
    "Verif.Macro.Expands.det",
    "Verif.Macro.dbg_expands",
    "Verif.Macro.dbg_once",
    "Verif.Macro.one_argument_only",
    "Verif.Macro.dbg_any_expression_refuted",
    "Verif.Macro.dbg_user_macro_refuted",
    "Verif.Macro.memfn_expands",
    "Verif.Macro.memfn_capture_refuted",
    "Verif.Macro.move_if_value_expands",
    "Verif.Macro.ignore_leak_expands",
    "Verif.Macro.ignore_leak_calls",
    "Verif.Macro.concat_expands",
    "Verif.Macro.raw_concat_refuted",
    "Verif.Macro.defer_expands",
    "Verif.Macro.guard_names",
    "Verif.Macro.sandbox_expands",
    "Verif.Macro.dbg_prints_source"
   ],
   "note": "The preprocessor (arguments, #, ##, __VA_OPT__, rescanning with hidden names) is modelled on tokens. Refuted: arguments of DICE_MEMFN can be captured (runtime_args), not every expression can be an argument (commas outside of parentheses), a macro named val breaks DICE_DBG."
  },
  {
   "property": "C112",
   "status": "proved",
   "theorems": [
    "Verif.Conform.IPow.ipow_eq_reference",
    "Verif.Conform.IPow.random_test_passes",
    "Verif.Conform.NextTo.yielder_lawful",
    "Verif.Conform.NextTo.yielder_view",
    "Verif.Conform.Channels.usecase_passes",
    "Verif.Conform.Channels.collects_passes",
    "Verif.Conform.Channels.spsc_passes",
    "Verif.Conform.Channels.close_unblocks_passes",
    "Verif.Conform.Solo.channel_solo",
    "Verif.Conform.Solo.exchange_solo",
    "Verif.Conform.Limit.limit_program",
    "Verif.Conform.OptMinMax.reversed",
    "Verif.Conform.Rest.lock_passes",
    "Verif.Conform.Rest.swap_passes",
    "Verif.Conform.Rest.bind_front_passes",
    "Verif.Conform.Rest.memfn_passes",
    "Verif.Conform.Rest.copy_passes",
    "Verif.Conform.Rest.copy_reference_passes"
   ],
   "note": "The test cases themselves are in the same modules as examples (also those of ranges, flex_array, static_string, variant2, type_list, lazy_conditional, integral_template_variant and _tuple, switch_cases, for, tuple_algorithm, stdint, defer, pointer_tag_pair, fmt_join, sandbox, polymorphic_allocator, pool_allocator, inplace_polymorphic, standard_layout_tuple, mutex, shared_mutex, functional, memfn, macro_util, overloaded, dbg, format_to_ostream and type_traits); they check the model against the repository's expectations and are not counted as proofs. The theorem about ipow covers types of at most 64 bits, as the instantiations of the test do."
  },
  {
   "property": "C113",
   "status": "proved",
   "theorems": [
    "Verif.Critical.critical_serializable",
    "Verif.Critical.critical_invariant",
    "Verif.Critical.critical_bounded",
    "Verif.Critical.critical_no_deadlock",
    "Verif.Critical.critical_completes",
    "Verif.Critical.critical_counter",
    "Verif.Critical.critical_two_phase_needed",
    "Verif.Critical.critical_order_needed"
   ],
   "note": "strict serializability of two-phase blocks over the guard model; the two rules for users are necessary (witnesses); writes are assumed sequentially consistent, justified by C10/C11 data race freedom (RaceProps)"
  },
  {
   "property": "C114",
   "status": "proved",
   "theorems": [
    "Verif.Atomic.atomic_serializable",
    "Verif.Atomic.atomic_invariant",
    "Verif.Atomic.atomic_no_deadlock",
    "Verif.Atomic.atomic_completes",
    "Verif.Atomic.atomic_try_never_blocks"
   ],
   "note": "Sequentially consistent interleavings of whole operations; race freedom is C81. That both rules are needed is critical_two_phase_needed and critical_order_needed (C113)."
  },
  {
   "property": "C115",
   "status": "partial",
   "theorems": [
    "Verif.Sandbox.sandbox_output_partial",
    "Verif.Sandbox.sandbox_other_streams",
    "Verif.Sandbox.sandbox_twice_refuted",
    "Verif.Sandbox.sandbox_lost_refuted",
    "Verif.Sandbox.sandbox_hangs_iff"
   ],
   "note": "Exactly-once output holds for std::cout, std::cerr and C streams only; for other streams it is refuted (text written twice, or lost because of _exit) and the exact behaviour is proved."
  },
  {
   "property": "C116",
   "status": "proved",
   "theorems": [
    "Verif.Reentry.element_code_no_deadlock",
    "Verif.Reentry.element_code_bounded",
    "Verif.Reentry.own_channel_never_returns",
    "Verif.Reentry.result_move_in_exchange_channel_refuted",
    "Verif.Reentry.opposite_order_refuted",
    "Verif.Reentry.waiting_with_mutex_refuted"
   ],
   "note": "Proved as stated. Without the restrictions it is false: witnesses for element code that uses its own channel, for channels used in opposite orders, and for waiting with the mutex."
  },
  {
   "property": "C117",
   "status": "proved",
   "theorems": [
    "Verif.Reentry.guards_and_channels_no_deadlock",
    "Verif.Reentry.element_code_bounded",
    "Verif.Reentry.pop_with_guard_refuted"
   ],
   "note": "The condition on waiting is part of the claim; pop_with_guard_refuted shows that it is needed."
  },
  {
   "property": "C118",
   "status": "partial",
   "theorems": [
    "Verif.Layout.Size.members_apart",
    "Verif.Layout.Size.variant2_size",
    "Verif.Layout.Size.variant2_minimal_iff",
    "Verif.Layout.Size.variant2_one_byte_iff",
    "Verif.Layout.Size.variant2_minimal_refuted",
    "Verif.Layout.Size.static_string_two_words_iff",
    "Verif.Layout.Size.static_string_saves_word",
    "Verif.Layout.Size.static_string_saves_word_refuted",
    "Verif.Layout.Size.limit_allocator_size_iff",
    "Verif.Layout.Size.offset_ptr_allocator_size",
    "Verif.Layout.Size.flex_static_size",
    "Verif.Layout.Size.flex_limited_size_iff",
    "Verif.Layout.Size.flex_limited_bound",
    "Verif.Layout.Size.flex_limited_size_refuted",
    "Verif.Layout.Size.inplace_minimal",
    "Verif.Layout.Size.mutex_minimal",
    "Verif.Layout.Size.word_sizes"
   ],
   "note": "Exact sizes for all types. Refuted: variant2 is larger than union plus one byte unless both alignments are 1, and not minimal if the larger size is no multiple of the larger alignment; static_string saves nothing with allocators of alignment above 16 or large empty ones; a limited flex_array has padding unless the elements fill whole words."
  },
  {
   "property": "C119",
   "status": "proved",
   "theorems": [
    "Verif.Forever.lock_returns",
    "Verif.Forever.lock_shared_returns",
    "Verif.Forever.block_ends",
    "Verif.Forever.mutex_lock_returns",
    "Verif.Forever.mutex_block_ends",
    "Verif.Forever.writers_first_pause",
    "Verif.Forever.writers_first_lock_returns",
    "Verif.Forever.one_reader_pause",
    "Verif.Forever.one_reader_lock_returns",
    "Verif.Forever.writer_starves_refuted",
    "Verif.Forever.weak_fairness_refuted",
    "Verif.Forever.cross_order_refuted"
   ],
   "note": "The conditions are hypotheses of the theorems; fairness is about the scheduler and std::mutex, which the standard does not promise. The theorems named _refuted show that each condition is needed."
  },
  {
   "property": "C12",
   "status": "proved",
   "theorems": [
    "Verif.Limit.limit_never_exceeded",
    "Verif.Limit.limit_conserved",
    "Verif.Limit.limit_quiescent",
    "Verif.Limit.limit_every_budget"
   ],
   "note": "Any number of threads; loads may be arbitrarily stale, compare-exchange may fail spuriously. The wrapped allocator is assumed not to supply blocks of 2^64 or more bytes."
  },
  {
   "property": "C120",
   "status": "partial",
   "theorems": [
    "Verif.Binding.get_type",
    "Verif.Binding.get_place",
    "Verif.Binding.get_like_std_iff",
    "Verif.Binding.get_moves_referenced_refuted",
    "Verif.Binding.get_by_type",
    "Verif.Binding.entity_spec",
    "Verif.Binding.bind_names",
    "Verif.Binding.bind_iff",
    "Verif.Binding.bind_values",
    "Verif.Binding.bind_reference_refuted",
    "Verif.Binding.std_bind_always",
    "Verif.Binding.pair_bind",
    "Verif.Binding.pair_get_value",
    "Verif.Binding.pair_const_refuted"
   ],
   "note": "Proved for tuples without references, and exactly when it holds with references. False for references: taking an lvalue reference out of an rvalue tuple gives an rvalue, so that `auto [x]` of a tuple with an `int &` does not compile. The names for a pointer_tag_pair are never const."
  },
  {
   "property": "C121",
   "status": "proved",
   "theorems": [
    "Verif.Examples.vector_spec",
    "Verif.Examples.vector_fill",
    "Verif.Examples.transact_spec",
    "Verif.Examples.transact_foreign_refuted",
    "Verif.Examples.shape_extents",
    "Verif.Examples.take_spec"
   ],
   "note": "Proved as stated. The stronger claim that a failing copy_file_transact leaves everything as it was is refuted: it removes a temporary file that was there before."
  },
  {
   "property": "C122",
   "status": "proved",
   "theorems": [
    "Verif.Net.network_deterministic",
    "Verif.Net.network_stuck_maximal",
    "Verif.Net.network_outcome",
    "Verif.Net.network_finished",
    "Verif.Net.network_bounded",
    "Verif.Net.network_ends",
    "Verif.Net.network_consumer_close_refuted"
   ],
   "note": "On the detailed channel model, all steps of all calls interleaved. The elements do not throw; try_push, try_pop, closed() and the iterators are not among the calls, since their results depend on the schedule by design. network_consumer_close_refuted shows that the rule that only the producer closes is needed."
  },
  {
   "property": "C123",
   "status": "proved",
   "theorems": [
    "Verif.Net.network_capacity_results",
    "Verif.Net.network_capacity_more",
    "Verif.Net.network_capacity_finish",
    "Verif.Net.network_capacity_needed"
   ],
   "note": "On the detailed channel model; the elements do not throw."
  },
  {
   "property": "C124",
   "status": "proved",
   "theorems": [
    "Verif.Net.network_stuck_waits",
    "Verif.Net.network_waits_for",
    "Verif.Net.network_forest_no_deadlock",
    "Verif.Net.network_forest_finishes",
    "Verif.Net.network_capacity_needed",
    "Verif.Net.network_cycle_deadlock_refuted",
    "Verif.Net.network_untidy_deadlock_refuted",
    "Verif.Net.network_zero_deadlock_refuted"
   ],
   "note": "On the detailed channel model; the elements do not throw. network_capacity_needed has a deadlock of two threads joined by two channels, so the condition on the graph is needed."
  },
  {
   "property": "C125",
   "status": "partial",
   "theorems": [
    "Verif.NextTo.base_history_partial",
    "Verif.NextTo.base_unpeeked_partial",
    "Verif.NextTo.base_whole_partial",
    "Verif.NextTo.base_peek_refuted"
   ],
   "note": "Refuted as stated: after peek() the inherited functions do not see the peeked element (remaining() one less, next_back() may return nullopt although an element is to come). base_history_partial gives every result of every history exactly; base_unpeeked_partial is the claim when peek() was not called since the last move; base_whole_partial shows that nothing is lost or seen twice in any case without skips."
  },
  {
   "property": "C126",
   "status": "proved",
   "theorems": [
    "Verif.Multi.multi_simulation",
    "Verif.Multi.multi_outcomes",
    "Verif.Multi.multi_deadlocks",
    "Verif.Multi.multi_safety",
    "Verif.Multi.multi_deadlocks_throw_refuted",
    "Verif.Multi.multi_bounded",
    "Verif.Multi.multi_bounded_calls",
    "Verif.Multi.multi_ends",
    "Verif.Multi.multi_deadlocks_move_refuted"
   ],
   "note": "Refinement in both directions between programs on the detailed channels and programs on atomic queues, for every element type. For multi_deadlocks, and the last clause of multi_ends, constructors and moves of elements do not throw (otherwise a wakeup can be lost, refuted by multi_deadlocks_throw_refuted and multi_deadlocks_move_refuted). closed() reads the current value of the flag, as in Channel/Model."
  },
  {
   "property": "C127",
   "status": "proved",
   "theorems": [
    "Verif.MultiX.multix_simulation",
    "Verif.MultiX.multix_outcomes",
    "Verif.MultiX.multix_deadlocks",
    "Verif.MultiX.multix_safety",
    "Verif.MultiX.multix_bounded",
    "Verif.MultiX.multix_bounded_calls",
    "Verif.MultiX.multix_ends"
   ],
   "note": "all programs, all schedules, elements may throw; a call of try_push, which the class does not have, cannot be begun"
  },
  {
   "property": "C128",
   "status": "proved",
   "theorems": [
    "Verif.Mixed.mixed_simulation",
    "Verif.Mixed.mixed_outcomes",
    "Verif.Mixed.mixed_deadlocks",
    "Verif.Mixed.mixed_safety",
    "Verif.Mixed.mixed_bounded",
    "Verif.Mixed.mixed_bounded_calls",
    "Verif.Mixed.mixed_ends"
   ],
   "note": "all programs, all schedules; results also with elements that throw, deadlocks if those of channels do not (with throwing elements of channels the claim is refuted at C126)"
  },
  {
   "property": "C13",
   "status": "partial",
   "theorems": [
    "Verif.Limit.limit_allocate_spec_partial",
    "Verif.Limit.limit_failure_free",
    "Verif.Limit.limit_refusal_justified",
    "Verif.Limit.limit_solo",
    "Verif.Limit.limit_wrap_refuted",
    "Verif.Limit.limit_own_budget",
    "Verif.Limit.limit_sharing"
   ],
   "note": "Exact for n*sizeof(T) < 2^64; for larger n the size computation wraps and the request reaches the wrapped allocator (refuted)."
  },
  {
   "property": "C14",
   "status": "proved",
   "theorems": [
    "Verif.Pool.pool_smallest_bucket",
    "Verif.Pool.pool_heap_iff",
    "Verif.Pool.pool_free_same_source"
   ],
   "note": ""
  },
  {
   "property": "C15",
   "status": "partial",
   "theorems": [
    "Verif.Pool.pool_frees_legal",
    "Verif.Pool.pool_free_exact",
    "Verif.Pool.pool_blocks_disjoint",
    "Verif.Pool.pool_block_persists",
    "Verif.Pool.pool_block_large_enough_partial",
    "Verif.Pool.pool_no_leak",
    "Verif.Pool.pool_block_too_small_refuted"
   ],
   "note": "Everything except the block size for n*sizeof(T) >= 2^64, where the computation wraps and a too small block is returned (refuted)."
  },
  {
   "property": "C16",
   "status": "proved",
   "theorems": [
    "Verif.Defer.defer_correct",
    "Verif.Defer.defer_balanced",
    "Verif.Defer.guard_runs_iff"
   ],
   "note": "Guards on the heap or in coroutines are not modelled."
  },
  {
   "property": "C17",
   "status": "proved",
   "theorems": [
    "Verif.Defer.defer_correct",
    "Verif.Defer.defer_block",
    "Verif.Defer.defer_reverse_order",
    "Verif.Defer.defer_at_most_once",
    "Verif.Defer.defer_empty",
    "Verif.Defer.defer_guard_throws"
   ],
   "note": "Guards on the heap or in coroutines are not modelled."
  },
  {
   "property": "C18",
   "status": "partial",
   "theorems": [
    "Verif.FlexArray.size_le_max",
    "Verif.FlexArray.reach_wf",
    "Verif.FlexArray.init_spec",
    "Verif.FlexArray.range_spec",
    "Verif.FlexArray.resize_spec",
    "Verif.FlexArray.to_static_spec",
    "Verif.FlexArray.of_static_spec",
    "Verif.FlexArray.range_short_refuted"
   ],
   "note": "False as stated: the range constructor of a static extent accepts ranges that are too short (range_short_refuted), and resize reports an oversized request with invalid_argument. Everything else is proved."
  },
  {
   "property": "C19",
   "status": "partial",
   "theorems": [
    "Verif.FlexArray.init_spec",
    "Verif.FlexArray.range_spec",
    "Verif.FlexArray.resize_spec",
    "Verif.FlexArray.write_spec",
    "Verif.FlexArray.to_static_spec",
    "Verif.FlexArray.of_static_spec",
    "Verif.FlexArray.static_dynamic_roundtrip",
    "Verif.FlexArray.elements_initialised",
    "Verif.FlexArray.resize_exposes_refuted"
   ],
   "note": "The clause \"every element was written by the user or value-initialised\" is false: resize in bounded mode exposes stale or uninitialised elements (resize_exposes_refuted). The rest is proved."
  },
  {
   "property": "C20",
   "status": "proved",
   "theorems": [
    "Verif.FlexArray.three_way_lex",
    "Verif.FlexArray.equals_iff",
    "Verif.FlexArray.operators_consistent",
    "Verif.FlexArray.inner_operators_wrong",
    "Verif.FlexArray.lexLess_iff"
   ],
   "note": "inner_operators_wrong records that the unreachable operators of the private inner types are wrong."
  },
  {
   "property": "C21",
   "status": "partial",
   "theorems": [
    "Verif.StaticString.contents_partial",
    "Verif.StaticString.contents_any_width",
    "Verif.StaticString.wide_refuted"
   ],
   "note": "False for characters wider than one byte: only the first n of n*sizeof(Char) bytes are copied (wide_refuted). Proved for one-byte characters over all histories without the two defects of C22."
  },
  {
   "property": "C22",
   "status": "partial",
   "theorems": [
    "Verif.StaticString.memory_safe_partial",
    "Verif.StaticString.run_ok",
    "Verif.StaticString.assign_failure_refuted",
    "Verif.StaticString.pocca_refuted"
   ],
   "note": "False as stated: a failing allocation in copy assignment leaves a dangling pointer (assign_failure_refuted), and copy assignment with POCCA frees through the wrong allocator (pocca_refuted). Proved for all other histories, including failing constructions."
  },
  {
   "property": "C23",
   "status": "proved",
   "theorems": [
    "Verif.PtrTag.mk_defined_iff",
    "Verif.PtrTag.mkNull_defined_iff",
    "Verif.PtrTag.pack_unpack",
    "Verif.PtrTag.null_unpack",
    "Verif.PtrTag.default_unpack",
    "Verif.PtrTag.tagged_roundtrip",
    "Verif.PtrTag.unpack_any",
    "Verif.PtrTag.repack",
    "Verif.PtrTag.aligned_accepted"
   ],
   "note": "bool as tag type is not modelled."
  },
  {
   "property": "C24",
   "status": "proved",
   "theorems": [
    "Verif.PtrTag.eq_iff",
    "Verif.PtrTag.cmp_lex",
    "Verif.PtrTag.swap_spec",
    "Verif.PtrTag.narrow_tag_refuted"
   ],
   "note": "For pairs made by the constructors, or any pair when the tag type has at least as many bits as the tag; narrow_tag_refuted shows that this hypothesis is needed for from_tagged."
  },
  {
   "property": "C25",
   "status": "proved",
   "theorems": [
    "Verif.IPow.ipow_exact_or_error",
    "Verif.IPow.ipow_negative_exponent",
    "Verif.IPow.range_exact"
   ],
   "note": ""
  },
  {
   "property": "C26",
   "status": "proved",
   "theorems": [
    "Verif.StdInt.lit_congruent",
    "Verif.StdInt.lit_unique",
    "Verif.StdInt.lit_representable"
   ],
   "note": ""
  },
  {
   "property": "C27",
   "status": "partial",
   "theorems": [
    "Verif.Variant2.history_partial",
    "Verif.Variant2.step_ok",
    "Verif.Variant2.rep_matches",
    "Verif.Variant2.trivial_assign_refuted",
    "Verif.Variant2.move_noexcept_refuted"
   ],
   "note": "Proved for all histories and throw points with error outcomes for every lifetime violation. The full claim is false of the code: refuted for element types with trivial assignment but non-trivial destruction, and for the value constructor whose noexcept looks at the copy constructor."
  },
  {
   "property": "C28",
   "status": "partial",
   "theorems": [
    "Verif.Variant2.history_partial",
    "Verif.Variant2.step_ok",
    "Verif.Variant2.self_swap_refuted",
    "Verif.Variant2.brace_copy_refuted",
    "Verif.Variant2.assignValue_value",
    "Verif.Variant2.copy_ctor_value",
    "Verif.Variant2.move_ctor_value",
    "Verif.Variant2.copy_assign_value",
    "Verif.Variant2.move_assign_value",
    "Verif.Variant2.new_value",
    "Verif.Variant2.set_value",
    "Verif.Variant2.swap_value"
   ],
   "note": "Refinement to value semantics, including the state after exceptions. A throwing emplace leaves the variant valueless even for the same alternative. The full claim is false: self-swap trips an assertion, and T{x} need not be a copy of x."
  },
  {
   "property": "C29",
   "status": "proved",
   "theorems": [
    "Verif.Variant2.observers_agree",
    "Verif.Variant2.visit_spec",
    "Verif.Variant2.getIf_null",
    "Verif.Variant2.observers_defined"
   ],
   "note": "All states with matching discriminant, which are all reachable ones."
  },
  {
   "property": "C30",
   "status": "partial",
   "theorems": [
    "Verif.Variant2.cmp_spec",
    "Verif.Variant2.eq_spec",
    "Verif.Variant2.eq_equivalence",
    "Verif.Variant2.cmp_order",
    "Verif.Variant2.hash_eq_partial",
    "Verif.Variant2.hash_valueless_refuted",
    "Verif.Variant2.hash_index"
   ],
   "note": "Equality and order proved in full; hashing a valueless variant terminates the program (refuted), so the hash part is restricted to variants holding a value."
  },
  {
   "property": "C31",
   "status": "partial",
   "theorems": [
    "Verif.Inplace.lifetime_partial",
    "Verif.Inplace.trivial_classes_partial",
    "Verif.Inplace.assign_trivial_refuted",
    "Verif.Inplace.assign_from_valueless_refuted",
    "Verif.Inplace.self_move_refuted"
   ],
   "note": "Every history of constructions, assignments, emplacements and destruction creates and destroys each object exactly once for classes with a non-trivial destructor; refuted for trivially destructible classes (assignment asserts) and self-move assignment."
  },
  {
   "property": "C32",
   "status": "partial",
   "theorems": [
    "Verif.Inplace.value_semantics_partial",
    "Verif.Inplace.observe",
    "Verif.Inplace.assign_from_valueless_refuted",
    "Verif.Inplace.self_move_refuted"
   ],
   "note": "Refinement to an optional (type, value) for every history without self-move and with non-trivial destructors; counterexamples for the rest."
  },
  {
   "property": "C33",
   "status": "proved",
   "theorems": [
    "Verif.OptMinMax.optMinElement_spec",
    "Verif.OptMinMax.optMaxElement_spec",
    "Verif.OptMinMax.optMinmaxElement_spec",
    "Verif.OptMinMax.two_arguments",
    "Verif.OptMinMax.absent_ignored",
    "Verif.OptMinMax.append"
   ],
   "note": ""
  },
  {
   "property": "C34",
   "status": "partial",
   "theorems": [
    "Verif.Range.forward_partial",
    "Verif.Range.loop_partial",
    "Verif.Range.elems_spec",
    "Verif.Range.zero_step",
    "Verif.Range.unit_step"
   ],
   "note": "Holds whenever the first value at or behind stop is representable in the value type (always for step 1 and -1); the other case is refuted under C37."
  },
  {
   "property": "C35",
   "status": "partial",
   "theorems": [
    "Verif.Range.both_ends_partial",
    "Verif.Range.lawful_partial",
    "Verif.Range.reversed_partial",
    "Verif.Range.reverse_refuted",
    "Verif.Range.reverse_wrap_refuted"
   ],
   "note": "Holds if the step divides the distance; refuted otherwise: reversed range(0,10,3) is 7,4,1,-2."
  },
  {
   "property": "C36",
   "status": "partial",
   "theorems": [
    "Verif.Range.lawful_forward_partial",
    "Verif.Range.view_partial",
    "Verif.Range.size_refuted",
    "Verif.Range.size_overflow_refuted"
   ],
   "note": "Holds if the distance plus the step fits the promoted type; refuted otherwise (size 0 for a non-empty size_t range, signed overflow)."
  },
  {
   "property": "C37",
   "status": "partial",
   "theorems": [
    "Verif.Range.fixed_width_dvd_partial",
    "Verif.Range.unit_step",
    "Verif.Range.forward_partial",
    "Verif.Range.unsigned_wrap_refuted",
    "Verif.Range.signed_overflow_refuted",
    "Verif.Range.from_zero"
   ],
   "note": "No overflow and termination for steps dividing the distance and whenever the overshoot is representable; refuted otherwise (uint8 range(250,255,10) is endless, int range near INT_MAX is undefined)."
  },
  {
   "property": "C38",
   "status": "proved",
   "theorems": [
    "Verif.NextTo.iterate",
    "Verif.NextTo.loop",
    "Verif.NextTo.loop_endless",
    "Verif.NextTo.begin_restarts"
   ],
   "note": ""
  },
  {
   "property": "C39",
   "status": "proved",
   "theorems": [
    "Verif.NextTo.history",
    "Verif.NextTo.peek_not_fused_refuted"
   ],
   "note": "For inner iterators that keep returning nothing once exhausted; for others peek at the end changes the sequence (witness given)."
  },
  {
   "property": "C40",
   "status": "proved",
   "theorems": [
    "Verif.NextTo.view_forward",
    "Verif.NextTo.view_backward",
    "Verif.NextTo.advance_visit",
    "Verif.NextTo.interleaving",
    "Verif.NextTo.LawfulFwd.results_forward",
    "Verif.NextTo.Lawful.results_backward"
   ],
   "note": ""
  },
  {
   "property": "C41",
   "status": "partial",
   "theorems": [
    "Verif.RangesAlgo.quantifiers",
    "Verif.RangesAlgo.empty_spec",
    "Verif.RangesAlgo.all_equal_spec",
    "Verif.RangesAlgo.all_distinct_spec",
    "Verif.RangesAlgo.all_distinct_cases",
    "Verif.RangesAlgo.all_distinct_hash_refuted",
    "Verif.RangesAlgo.all_distinct_sorted_spec",
    "Verif.RangesAlgo.is_sorted_unique_partial",
    "Verif.RangesAlgo.is_sorted_unique_refuted",
    "Verif.RangesAlgo.hashSet_finds",
    "Verif.RangesAlgo.treeSet_finds"
   ],
   "note": "all_distinct needs a hash compatible with the predicate (refuted otherwise); is_sorted_unique needs iterators whose copies are not invalidated by advancing (refuted for single-pass iterators)."
  },
  {
   "property": "C42",
   "status": "proved",
   "theorems": [
    "Verif.RangesAlgo.unique_spec",
    "Verif.RangesAlgo.unique_meaning",
    "Verif.RangesAlgo.distinct_iff_unique",
    "Verif.RangesAlgo.remove_element_spec",
    "Verif.RangesAlgo.firstOccs_eq"
   ],
   "note": ""
  },
  {
   "property": "C43",
   "status": "proved",
   "theorems": [
    "Verif.RangesAlgo.lex_spec",
    "Verif.RangesAlgo.lex_order",
    "Verif.RangesAlgo.lexCompare_eq"
   ],
   "note": ""
  },
  {
   "property": "C44",
   "status": "proved",
   "theorems": [
    "Verif.TypeList.access",
    "Verif.TypeList.concat_spec",
    "Verif.TypeList.take_drop",
    "Verif.TypeList.transform_spec",
    "Verif.TypeList.generate_spec",
    "Verif.TypeList.tuple_spec",
    "Verif.TypeList.integer_sequence_spec",
    "Verif.TypeList.filter_spec",
    "Verif.TypeList.apply_unpack"
   ],
   "note": ""
  },
  {
   "property": "C45",
   "status": "proved",
   "theorems": [
    "Verif.TypeList.search",
    "Verif.TypeList.search_lazy",
    "Verif.TypeList.quantifiers",
    "Verif.TypeList.quantifiers_ill_formed",
    "Verif.TypeList.count_contains",
    "Verif.TypeList.all_same_spec",
    "Verif.TypeList.unique_spec",
    "Verif.TypeList.all_distinct_spec",
    "Verif.TypeList.folds",
    "Verif.TypeList.for_each_trace",
    "Verif.TypeList.opt_spec"
   ],
   "note": ""
  },
  {
   "property": "C46",
   "status": "partial",
   "theorems": [
    "Verif.Integral.seq_get",
    "Verif.Integral.sequence",
    "Verif.Integral.valid_index",
    "Verif.Integral.tuple_get",
    "Verif.Integral.tuple_subtuple",
    "Verif.Integral.tuple_subtuple_ill_formed",
    "Verif.Integral.tuple_subtuple_end_refuted",
    "Verif.Integral.variant_index",
    "Verif.Integral.variant_valueless",
    "Verif.Integral.variant_emplace",
    "Verif.Integral.variant_empty_refuted",
    "Verif.Integral.tuple_subtuple_empty",
    "Verif.Integral.variant_empty",
    "Verif.Integral.variant_types",
    "Verif.Integral.variant_default",
    "Verif.Integral.variant_in_place",
    "Verif.Integral.variant_in_place_empty",
    "Verif.Integral.variant_emplace_iff",
    "Verif.Integral.variant_holds_type",
    "Verif.Integral.variant_visit"
   ],
   "note": "Refuted parts, with the exact conditions proved: sequences with more elements than the largest value of the index type are ill-formed (sequence), subtuple<last, last> is ill-formed (tuple_subtuple_empty), index() of the variant over an empty sequence is not an index (variant_empty)."
  },
  {
   "property": "C47",
   "status": "partial",
   "theorems": [
    "Verif.Layout.layout",
    "Verif.Layout.subtuple_partial",
    "Verif.Layout.subtuple_refuted",
    "Verif.Layout.subtuple_default_refuted",
    "Verif.Layout.subtuple_suffix",
    "Verif.Layout.subtuple_descending",
    "Verif.Layout.construct",
    "Verif.Layout.uniform_spec",
    "Verif.Layout.get_by_type",
    "Verif.Layout.compare_spec",
    "Verif.Layout.equal_spec",
    "Verif.Layout.size_spec"
   ],
   "note": "subtuple refers to other memory when a dropped later element has a larger alignment (refuted); proved exactly when it is right."
  },
  {
   "property": "C48",
   "status": "proved",
   "theorems": [
    "Verif.Control.switch_cases_spec",
    "Verif.Control.switch_cases_to_spec",
    "Verif.Control.switch_cases_no_default",
    "Verif.Control.switch_type_wide",
    "Verif.Control.switch_type_refuted",
    "Verif.Control.switch_instances",
    "Verif.Control.switch_instances_no_default",
    "Verif.Control.switch_instances_no_default_refuted",
    "Verif.Control.switch_instances_no_default_refuted'",
    "Verif.Control.switch_bool_spec",
    "Verif.Control.switch_cases_to_no_default",
    "Verif.Control.switch_result",
    "Verif.Control.switch_instances_to_no_default"
   ],
   "note": "The calls and results are as stated. Beyond the statement: the type of the constant differs between cases for types narrower than int, and without default function the function is instantiated for a value outside of the range."
  },
  {
   "property": "C49",
   "status": "partial",
   "theorems": [
    "Verif.Control.for_types_returns",
    "Verif.Control.for_types_throws",
    "Verif.Control.for_values_spec",
    "Verif.Control.for_values_noexcept_refuted",
    "Verif.Control.for_range_partial",
    "Verif.Control.for_range_refuted",
    "Verif.Control.calls_cases"
   ],
   "note": "for_range is ill-formed for ranges of signed types with more values than the largest value of the type."
  },
  {
   "property": "C50",
   "status": "partial",
   "theorems": [
    "Verif.Control.tuple_fold_partial",
    "Verif.Control.tuple_fold_refuted",
    "Verif.Control.tuple_fold_terminates",
    "Verif.Control.foldsTo_pure",
    "Verif.Control.tuple_for_each_returns",
    "Verif.Control.tuple_for_each_throws"
   ],
   "note": "tuple_fold gives a dangling reference for a const lvalue as initial value and is ill-formed for a non-const one."
  },
  {
   "property": "C51",
   "status": "partial",
   "theorems": [
    "Verif.PolyAlloc.history",
    "Verif.PolyAlloc.convert_keeps",
    "Verif.PolyAlloc.select_keeps",
    "Verif.PolyAlloc.holds_spec",
    "Verif.PolyAlloc.distinctTypes_iff",
    "Verif.PolyAlloc.max_size_refuted",
    "Verif.PolyAlloc.allocate_held",
    "Verif.PolyAlloc.deallocate_held",
    "Verif.PolyAlloc.container_after",
    "Verif.PolyAlloc.max_size_exact"
   ],
   "note": "allocate and deallocate are forwarded and memory returns where it came from; max_size is not forwarded (refuted)."
  },
  {
   "property": "C52",
   "status": "proved",
   "theorems": [
    "Verif.PolyAlloc.eq_spec",
    "Verif.PolyAlloc.eq_equivalence",
    "Verif.PolyAlloc.eq_src",
    "Verif.PolyAlloc.propagation",
    "Verif.PolyAlloc.always_equal",
    "Verif.PolyAlloc.history",
    "Verif.PolyAlloc.propagation_documented_refuted"
   ],
   "note": "The documentation promises the composition of std::scoped_allocator_adaptor (any), the code demands all (refuted against the documentation)."
  },
  {
   "property": "C53",
   "status": "partial",
   "theorems": [
    "Verif.Sandbox.waits",
    "Verif.Sandbox.report_exited",
    "Verif.Sandbox.report_killed",
    "Verif.Sandbox.child_signals",
    "Verif.Sandbox.sandbox_partial",
    "Verif.Sandbox.exit_code",
    "Verif.Sandbox.exit_code_refuted",
    "Verif.Sandbox.terminate_handler_refuted",
    "Verif.Sandbox.sigchld_ignored_refuted",
    "Verif.Sandbox.results_distinct",
    "Verif.Sandbox.report_status"
   ],
   "note": "Proved for exit codes that fit in a byte, no inherited terminate handler, SIGCHLD not ignored. Refuted otherwise: code 256 is reported as ExitSuccess, an inherited terminate handler decides what an exception is reported as, a parent ignoring SIGCHLD gets system_error."
  },
  {
   "property": "C54",
   "status": "partial",
   "theorems": [
    "Verif.FmtJoin.format_joins",
    "Verif.FmtJoin.format_joins_positional",
    "Verif.FmtJoin.format_empty",
    "Verif.FmtJoin.separators_agree",
    "Verif.FmtJoin.joined_append",
    "Verif.FmtJoin.joined_length",
    "Verif.FmtJoin.format_throws",
    "Verif.FmtJoin.stdFormat_joins",
    "Verif.FmtJoin.stdFormat_rejects",
    "Verif.FmtJoin.writeSep_literal",
    "Verif.FmtJoin.char_positional_refuted",
    "Verif.FmtJoin.literal_nul_refuted"
   ],
   "note": "Proved for every range, formatter, specification and separator with a sink as output (all std::format functions). Refuted: string literals with an embedded NUL, and single-character separators with an output iterator that has a position of its own (the context is not advanced)."
  },
  {
   "property": "C55",
   "status": "partial",
   "theorems": [
    "Verif.LazyCond.lazyConditional_selects",
    "Verif.LazyCond.lazyConditional_indep",
    "Verif.LazyCond.switch_default_selects_partial",
    "Verif.LazyCond.switch_default_default_partial",
    "Verif.LazyCond.switch_selects_partial",
    "Verif.LazyCond.switch_no_match",
    "Verif.LazyCond.unusable_before",
    "Verif.LazyCond.unselected_harmless_refuted",
    "Verif.LazyCond.other_case_refuted"
   ],
   "note": "lazy_conditional proved in full. lazy_switch selects the first match if all earlier cases have a usable ::type; refuted otherwise: the constraint type_provider looks at unselected earlier providers. Classes fulfilling lazy_case but not instances of case_ are not supported."
  },
  {
   "property": "C56",
   "status": "proved",
   "theorems": [
    "Verif.Qualifiers.copyConst_spec",
    "Verif.Qualifiers.copyVolatile_spec",
    "Verif.Qualifiers.copyCv_eq",
    "Verif.Qualifiers.copyCv_spec",
    "Verif.Qualifiers.copyReference_spec",
    "Verif.Qualifiers.copyCvref_spec",
    "Verif.Qualifiers.copyCvref_transfer",
    "Verif.Qualifiers.forwardLike_spec",
    "Verif.Qualifiers.forwardLike_binds",
    "Verif.Qualifiers.ty_ext",
    "Verif.Qualifiers.referable_iff"
   ],
   "note": "For object, array, function and void types with any qualifiers and references; ill-formedness characterised."
  },
  {
   "property": "C57",
   "status": "partial",
   "theorems": [
    "Verif.BindFront.call_order",
    "Verif.BindFront.bound_unchanged",
    "Verif.BindFront.repeated_calls",
    "Verif.BindFront.rvalue_call",
    "Verif.BindFront.rest_forwarded",
    "Verif.BindFront.bind_leaves",
    "Verif.BindFront.noexcept_types",
    "Verif.BindFront.lvalue_ref_refuted",
    "Verif.BindFront.memfn_order",
    "Verif.BindFront.memfn_unchanged",
    "Verif.BindFront.memfn_by_reference_refuted",
    "Verif.BindFront.call_compiles",
    "Verif.BindFront.evalAll_category",
    "Verif.BindFront.bound_after",
    "Verif.BindFront.rest_after",
    "Verif.BindFront.Alias.bound_stable",
    "Verif.BindFront.Alias.bound_seen",
    "Verif.BindFront.Alias.memfn_seen",
    "Verif.BindFront.Alias.memfn_alias_refuted",
    "Verif.BindFront.Alias.members_seen"
   ],
   "note": "Order, single call, copies on lvalue calls and moves on rvalue calls proved. Refuted: callees taking bound arguments by reference to non-const change them between calls; DICE_MEMFN refers to variables instead of keeping their values."
  },
  {
   "property": "C58",
   "status": "partial",
   "theorems": [
    "Verif.Pool.pool_move_keeps_source_refuted",
    "Verif.Pool.pool_no_null_partial",
    "Verif.Limit.limit_move_keeps_source_refuted",
    "Verif.Pool.pool_lost_iff_partial",
    "Verif.Limit.limit_lost_iff_partial"
   ],
   "note": "Refuted for both allocators; for every history it is proved exactly which allocators have lost their pool or budget, and that allocating dereferences null exactly through those."
  },
  {
   "property": "C59",
   "status": "partial",
   "theorems": [
    "Verif.NextTo.copy_partial",
    "Verif.NextTo.direct_init_refuted",
    "Verif.NextTo.direct_init_partial",
    "Verif.NextTo.direct_init_iff_partial"
   ],
   "note": "Copies from const or by copy initialization agree; direct initialization from a non-const lvalue selects the forwarding constructor: for every history the copy stands one element further, two if peek was called since the last move, so over a finite sequence it agrees exactly at the end."
  },
  {
   "property": "C60",
   "status": "partial",
   "theorems": [
    "Verif.TypeList.unique_instances_refuted",
    "Verif.TypeList.unique_instances_bound"
   ],
   "note": "Refuted: 2^n instantiations."
  },
  {
   "property": "C61",
   "status": "partial",
   "theorems": [
    "Verif.Qualifiers.moveIfValue_moves",
    "Verif.Qualifiers.moveIfValue_lref",
    "Verif.Qualifiers.moveIfValueType_spec",
    "Verif.Qualifiers.moveIfValue_crref",
    "Verif.Qualifiers.moveIfValue_refuted"
   ],
   "note": "Refuted for const rvalue references (ill-formed when evaluated) and volatile values; const values are copied."
  },
  {
   "property": "C62",
   "status": "partial",
   "theorems": [
    "Verif.Qualifiers.strict_invocable_partial",
    "Verif.Qualifiers.strict_invocable_of_indifferent",
    "Verif.Qualifiers.strict_invocable_refuted"
   ],
   "note": "Only holds for lvalue reference arguments, or calls indifferent to value categories: the trait always calls with lvalues."
  },
  {
   "property": "C63",
   "status": "partial",
   "theorems": [
    "Verif.Exchange.exchange_iterate_running",
    "Verif.Exchange.exchange_iterate_ended",
    "Verif.Exchange.exchange_iterate_newest"
   ],
   "note": "For moves that do not throw (C102 has the loops with throwing moves); the clause about the newest value also needs constructors that do not throw, see exchange_drop_refuted."
  },
  {
   "property": "C64",
   "status": "proved",
   "theorems": [
    "Verif.Channel.channel_no_race",
    "Verif.Exchange.exchange_no_race"
   ],
   "note": "The other shared variable, the closed flag, is a std::atomic_flag."
  },
  {
   "property": "C65",
   "status": "proved",
   "theorems": [
    "Verif.Overload.match_accepted_iff",
    "Verif.Overload.match_selects",
    "Verif.Overload.match_order",
    "Verif.Overload.match_valueless",
    "Verif.Overload.match_bad_access_iff",
    "Verif.Overload.match_exact_before_generic",
    "Verif.Overload.match_generic",
    "Verif.Overload.match_keeps_functions",
    "Verif.Overload.match_state_refuted"
   ],
   "note": "Conversions are abstract. Visitors passed as lvalues are copied, so state they keep is lost (match_state_refuted)."
  },
  {
   "property": "C66",
   "status": "partial",
   "theorems": [
    "Verif.Print.shift_applicable",
    "Verif.Print.shift_appends",
    "Verif.Print.shift_prefix",
    "Verif.Print.shifts_append",
    "Verif.Print.shift_like_string_partial",
    "Verif.Print.shift_failed_refuted",
    "Verif.Print.shift_full_refuted",
    "Verif.Print.shift_width_refuted",
    "Verif.Print.shift_tie_refuted",
    "Verif.Print.shifts_throw"
   ],
   "note": "The text is right whenever the buffer has room. Unlike inserting the string, stream state, field width, tie and write errors are ignored (refuted)."
  },
  {
   "property": "C67",
   "status": "partial",
   "theorems": [
    "Verif.Print.dbg_transparent",
    "Verif.Print.dbg_expr_throws",
    "Verif.Print.dbg_format_throws",
    "Verif.Print.dbg_dangling_refuted",
    "Verif.Print.dbg_line"
   ],
   "note": "A prvalue becomes an xvalue, so binding the result to a reference dangles (dbg_dangling_refuted)."
  },
  {
   "property": "C68",
   "status": "partial",
   "theorems": [
    "Verif.OffsetPtr.pointer_round_trip",
    "Verif.OffsetPtr.pointer_copies",
    "Verif.OffsetPtr.pointer_relocate",
    "Verif.OffsetPtr.allocate_forwards",
    "Verif.OffsetPtr.deallocate_returns",
    "Verif.OffsetPtr.deallocate_iff",
    "Verif.OffsetPtr.wrapper_transparent",
    "Verif.OffsetPtr.copy_move_partial",
    "Verif.OffsetPtr.copy_refuted",
    "Verif.OffsetPtr.from_upstream"
   ],
   "note": "The noexcept of copy and move constructor are swapped, so a throwing copy of the wrapped allocator may terminate (copy_refuted)."
  },
  {
   "property": "C69",
   "status": "partial",
   "theorems": [
    "Verif.Zst.is_zst_iff",
    "Verif.Zst.zst_free",
    "Verif.Zst.nonempty_costs",
    "Verif.Zst.is_zst_other",
    "Verif.Zst.is_zst_overaligned_refuted",
    "Verif.Zst.is_zst_ill_formed_refuted"
   ],
   "note": "False for over-aligned empty types although they are free, ill-formed for cv void and types without objects (refuted)."
  },
  {
   "property": "C70",
   "status": "partial",
   "theorems": [
    "Verif.IntVariant.copy_same_partial",
    "Verif.IntVariant.copy_throws_refuted",
    "Verif.IntVariant.move_same",
    "Verif.IntVariant.assign_outcome",
    "Verif.IntVariant.assign_strong",
    "Verif.IntVariant.move_assign_outcome",
    "Verif.IntVariant.of_value_holds",
    "Verif.IntVariant.visit_emplace",
    "Verif.IntVariant.eq_spec",
    "Verif.IntVariant.order_ascending_partial",
    "Verif.IntVariant.order_descending",
    "Verif.IntVariant.order_descending_refuted",
    "Verif.IntVariant.order_consistent",
    "Verif.IntVariant.hash_consistent",
    "Verif.Compare.integral_variant_eq",
    "Verif.Compare.integral_variant_cmp",
    "Verif.Compare.integral_variant_laws",
    "Verif.Compare.integral_variant_hash"
   ],
   "note": "A throwing copy, comparison or hash terminates, and for descending sequences the order is by descending index (both refuted); everything else is proved."
  },
  {
   "property": "C71",
   "status": "partial",
   "theorems": [
    "Verif.Variant2.like_std_partial",
    "Verif.Variant2.like_std_refuted",
    "Verif.Variant2.like_std_set_refuted"
   ],
   "note": "Refuted for throwing copy assignments when an element can throw on copy but not on move: std::variant keeps the old value, variant2 becomes valueless. Proved for every program without such a throw (and without throwing swaps, whose result the standard leaves open)."
  },
  {
   "property": "C72",
   "status": "partial",
   "theorems": [
    "Verif.FlexArray.value_partial",
    "Verif.FlexArray.access_spec",
    "Verif.FlexArray.copy_terminates_iff",
    "Verif.FlexArray.copy_oom_refuted",
    "Verif.FlexArray.copy_dead_throw_refuted",
    "Verif.FlexArray.moved_from_size_refuted"
   ],
   "note": "Value semantics proved for every program in which nothing throws, element access for all reachable arrays. Refuted: copies that fail terminate the program instead of throwing, even because of elements beyond size()."
  },
  {
   "property": "C73",
   "status": "partial",
   "theorems": [
    "Verif.StaticString.access_spec",
    "Verif.StaticString.compare_print_partial",
    "Verif.StaticString.copy_alloc",
    "Verif.StaticString.assign_alloc"
   ],
   "note": "Access proved for every character width; comparison and output for one-byte characters (wider ones have wrong contents, see C21). Copies keep the allocator of the source, ignoring select_on_container_copy_construction."
  },
  {
   "property": "C74",
   "status": "partial",
   "theorems": [
    "Verif.PtrTag.typed_partial",
    "Verif.PtrTag.typed_iff",
    "Verif.PtrTag.typed_refuted",
    "Verif.PtrTag.accepts_spec",
    "Verif.PtrTag.bool_tag",
    "Verif.PtrTag.decompose_spec"
   ],
   "note": "Refuted for conversions to a base class that is not at the beginning of the object: the bits of the unconverted pointer are stored. Proved for all conversions that keep the address."
  },
  {
   "property": "C75",
   "status": "partial",
   "theorems": [
    "Verif.Range.generic_spec",
    "Verif.Range.generic_fused",
    "Verif.Range.generic_short",
    "Verif.Range.generic_default",
    "Verif.Range.exact_spec_partial",
    "Verif.Range.double_refuted",
    "Verif.Range.nan_refuted"
   ],
   "note": "The values are proved for every number type; termination for exact Archimedean numbers. Refuted for doubles: range(2^53, 2^53+4, 1.0) never ends, and a NaN step is accepted and never ends when start > stop."
  },
  {
   "property": "C76",
   "status": "partial",
   "theorems": [
    "Verif.Variant2.access_type",
    "Verif.Variant2.get_if_partial",
    "Verif.Variant2.get_if_amp_refuted",
    "Verif.Variant2.format_spec",
    "Verif.Variant2.eq_throw_partial",
    "Verif.Variant2.eq_throw_refuted",
    "Verif.Variant2.hash_branch_partial",
    "Verif.Variant2.hash_branch_refuted",
    "Verif.Variant2.select_spec"
   ],
   "note": "Types, categories, text and selection are proved. Refuted: alternatives with their own operator& (get_if and construction use it), throwing comparison operators (== is noexcept), hash of const alternatives."
  },
  {
   "property": "C77",
   "status": "partial",
   "theorems": [
    "Verif.RangesAlgo.quantifier_calls",
    "Verif.RangesAlgo.all_equal_calls",
    "Verif.RangesAlgo.is_sorted_unique_calls",
    "Verif.RangesAlgo.sortedTest_spec",
    "Verif.RangesAlgo.lex_calls",
    "Verif.RangesAlgo.forms_agree",
    "Verif.RangesAlgo.lvalue_unchanged_partial",
    "Verif.RangesAlgo.unique_rvalue_refuted",
    "Verif.RangesAlgo.rvalue_moved_refuted",
    "Verif.RangesAlgo.sortedTest_log",
    "Verif.RangesAlgo.moved_results"
   ],
   "note": "Calls and call forms are proved for all stateful function objects. Refuted for ranges of rvalues: unique, all_distinct and all_equal move from the elements, and a unique_view then yields moved-from values."
  },
  {
   "property": "C78",
   "status": "partial",
   "theorems": [
    "Verif.Inplace.object_fits",
    "Verif.Inplace.storage_tight",
    "Verif.Inplace.get_iff",
    "Verif.Inplace.get_partial",
    "Verif.Inplace.get_refuted",
    "Verif.Inplace.accepted_spec"
   ],
   "note": "get gives a wrong pointer for classes whose Base is not at the beginning (get_refuted); the rest is proved."
  },
  {
   "property": "C79",
   "status": "partial",
   "theorems": [
    "Verif.NextTo.ctor_copyable",
    "Verif.NextTo.ctor_noncopyable_partial",
    "Verif.NextTo.ctor_refuted",
    "Verif.NextTo.begin_fresh",
    "Verif.NextTo.kept_refs",
    "Verif.NextTo.range_members",
    "Verif.NextTo.view_members_partial",
    "Verif.NextTo.crbegin_refuted",
    "Verif.NextTo.iter_members"
   ],
   "note": "The constructor is available in cases in which it does not compile (ctor_refuted) and crbegin of views has the wrong condition (crbegin_refuted); the rest is proved."
  },
  {
   "property": "C80",
   "status": "proved",
   "theorems": [
    "Verif.HB.chan_weak",
    "Verif.HB.chan_order",
    "Verif.HB.chan_insert_remove",
    "Verif.HB.chan_removed_from",
    "Verif.HB.chan_publish",
    "Verif.HB.chan_remove_insert",
    "Verif.HB.chan_push_false",
    "Verif.HB.chan_try_push_false",
    "Verif.HB.chan_pop_none",
    "Verif.HB.chan_closed",
    "Verif.HB.chan_steps",
    "Verif.HB.chan_closed_late",
    "Verif.HB.exch_weak",
    "Verif.HB.exch_order",
    "Verif.HB.exch_removed_from",
    "Verif.HB.exch_publish",
    "Verif.HB.exch_push_false",
    "Verif.HB.exch_pop_none",
    "Verif.HB.exch_closed",
    "Verif.HB.exch_steps",
    "Verif.HB.exch_closed_late",
    "Verif.HB.chan_sync",
    "Verif.HB.exch_sync",
    "Verif.HB.before_iff_hb",
    "Verif.HB.coherence_iff"
   ],
   "note": "Happens-before as positions in a log, from mutex, acquire loads and release stores; loads of the flag may read any store coherence allows. closed_late: a closed() that is not ordered after a close() may return false although the close() has returned."
  },
  {
   "property": "C81",
   "status": "partial",
   "theorems": [
    "Verif.Guards.guards_race_free_partial",
    "Verif.Guards.guards_race_free_refuted",
    "Verif.Guards.hb_order",
    "Verif.Guards.release_acquire",
    "Verif.Guards.one_thread_ordered",
    "Verif.Guards.unlock_same_thread_partial",
    "Verif.Guards.unlock_same_thread_refuted",
    "Verif.Guards.read_latest",
    "Verif.Guards.know_iff"
   ],
   "note": "Accesses through guards that were moved from are excluded: such a guard still gives access and races (refuted). Release by the acquiring thread is proved for programs in which each guard object stays in one thread; a guard can be moved to another thread and be destroyed there (refuted)."
  },
  {
   "property": "C82",
   "status": "proved",
   "theorems": [
    "Verif.Limit.limit_weak_reachable",
    "Verif.Limit.limit_load_iff",
    "Verif.Limit.limit_refusal_known",
    "Verif.Limit.limit_refusal_current",
    "Verif.Limit.limit_refusal_stale_refuted",
    "Verif.Limit.limit_lock_free",
    "Verif.Limit.limit_wait_free_refuted"
   ],
   "note": "Proved as stated. Without a happens-before relation a call may be refused although the request fits during all of the call (relaxed load of an old value), and single calls are not wait-free; both are shown by executions. The memory model is coherence of one atomic object plus the order in threads and synchronization outside of the allocator."
  },
  {
   "property": "C83",
   "status": "partial",
   "theorems": [
    "Verif.Pool.arena_blocks_disjoint",
    "Verif.Pool.arena_blocks_inside",
    "Verif.Pool.arena_frees_legal",
    "Verif.Pool.arena_free_list_disjoint",
    "Verif.Pool.arena_reuse",
    "Verif.Pool.arena_aligned_partial",
    "Verif.Pool.arena_aligned_buckets_partial",
    "Verif.Pool.arena_aligned_iff",
    "Verif.Pool.arena_aligned_refuted",
    "Verif.Pool.arena_over_aligned_refuted"
   ],
   "note": "Disjointness, sizes, legality of deallocation and reuse hold; alignment is false above the alignment of a pointer unless the bucket sizes are multiples (exact condition proved)."
  },
  {
   "property": "C84",
   "status": "partial",
   "theorems": [
    "Verif.Containers.cont_frees_legal",
    "Verif.Containers.cont_budget",
    "Verif.Containers.cont_no_leak",
    "Verif.Containers.cont_moved_iff",
    "Verif.Containers.cont_null_iff",
    "Verif.Containers.cont_pool_moved_partial",
    "Verif.Containers.cont_pool_swap",
    "Verif.Containers.cont_move_free",
    "Verif.Containers.cont_throw",
    "Verif.Containers.cont_copy_charges",
    "Verif.Containers.cont_moved_grow_refuted",
    "Verif.Containers.cont_moved_assign_refuted",
    "Verif.Containers.cont_sentinel_destroy_refuted",
    "Verif.Containers.cont_limit_swap_refuted",
    "Verif.Containers.cont_poly_swap_refuted",
    "Verif.Containers.cont_poly_assign"
   ],
   "note": "Legality of deallocation, budgets and absence of leaks hold for all histories; use of moved-from containers is refuted, with the exact set of affected operations."
  },
  {
   "property": "C85",
   "status": "partial",
   "theorems": [
    "Verif.Defer.Flow.flow_correct",
    "Verif.Defer.Flow.flow_correct_partial",
    "Verif.Defer.Flow.flow_balanced",
    "Verif.Defer.Flow.flow_deterministic",
    "Verif.Defer.Flow.flow_resume_refuted",
    "Verif.Defer.Flow.flow_fail_partial",
    "Verif.Defer.Flow.flow_success_partial",
    "Verif.Defer.Flow.flow_lifo",
    "Verif.Defer.Flow.flow_init_throws",
    "Verif.Defer.Flow.flow_macro_names",
    "Verif.Defer.Flow.flow_macro_same_line_refuted",
    "Verif.Defer.Flow.flow_macro_forms",
    "Verif.Defer.Flow.guard_assigns",
    "Verif.Defer.Flow.flow_assigns"
   ],
   "note": "Full for functions; a coroutine resumed with another number of exceptions in flight may run the wrong guards (refuted), and two DICE_DEFER* on one line do not compile (refuted)."
  },
  {
   "property": "C86",
   "status": "partial",
   "theorems": [
    "Verif.Noexcept.pop_noexcept",
    "Verif.Noexcept.iterator_copy_noexcept",
    "Verif.Noexcept.exchange_emplace_noexcept",
    "Verif.Noexcept.limit_noexcept",
    "Verif.Noexcept.variant2_noexcept",
    "Verif.Noexcept.polymorphic_noexcept",
    "Verif.Noexcept.polymorphic_swap_noexcept",
    "Verif.Noexcept.inplace_noexcept",
    "Verif.Noexcept.guard_ctor_noexcept",
    "Verif.Noexcept.integral_variant_noexcept",
    "Verif.Noexcept.channel_emplace_terminates_iff",
    "Verif.Noexcept.channel_emplace_partial",
    "Verif.Noexcept.channel_push_refuted",
    "Verif.Noexcept.channel_iterator_terminates_iff",
    "Verif.Noexcept.channel_iterator_refuted",
    "Verif.Noexcept.iterator_copy_assign_terminates_iff",
    "Verif.Noexcept.iterator_move_assign_terminates_iff",
    "Verif.Noexcept.iterator_assign_refuted",
    "Verif.Noexcept.exchange_iterator_terminates_iff",
    "Verif.Noexcept.exchange_iterator_refuted",
    "Verif.Noexcept.limit_copy_terminates_iff",
    "Verif.Noexcept.limit_copy_refuted",
    "Verif.Noexcept.limit_move_pessimistic",
    "Verif.Noexcept.variant2_terminates_iff",
    "Verif.Noexcept.variant2_refuted",
    "Verif.Noexcept.variant2_swap_partial",
    "Verif.Noexcept.polymorphic_copy_assign_terminates_iff",
    "Verif.Noexcept.polymorphic_move_assign_terminates_iff",
    "Verif.Noexcept.polymorphic_assign2_terminates_iff",
    "Verif.Noexcept.polymorphic_valueless_terminates_iff",
    "Verif.Noexcept.polymorphic_refuted",
    "Verif.Noexcept.mutex_ctor_terminates_iff",
    "Verif.Noexcept.mutex_ctor_partial",
    "Verif.Noexcept.mutex_ctor_refuted",
    "Verif.Noexcept.runs_terminated",
    "Verif.Noexcept.push_throws_iff",
    "Verif.Noexcept.pop_throws_iff",
    "Verif.Noexcept.iterator_throws_iff",
    "Verif.Noexcept.limit_throws_iff",
    "Verif.Noexcept.variant2_ctor_throws_iff",
    "Verif.Noexcept.variant2_copy_throws_iff",
    "Verif.Noexcept.variant2_assign_throws_iff",
    "Verif.Noexcept.variant2_swap_throws_iff",
    "Verif.Noexcept.polymorphic_throws_iff",
    "Verif.Noexcept.polymorphic_dtor_throws_iff",
    "Verif.Noexcept.polymorphic_assign_throws_iff",
    "Verif.Noexcept.polymorphic_swap_throws_iff",
    "Verif.Noexcept.polymorphic_swap_destroys_both",
    "Verif.Noexcept.inplace_throws_iff",
    "Verif.Noexcept.inplace_drop_outcomes",
    "Verif.Noexcept.mutex_ctor_throws_iff",
    "Verif.Noexcept.guard_ctor_throws_iff",
    "Verif.Noexcept.integral_variant_throws_iff",
    "Verif.Noexcept.iterator_copy_assign_any"
   ],
   "note": "Proved for the functions whose clause is right; for the others the exact condition of termination is proved and the promise refuted by a witness type."
  },
  {
   "property": "C87",
   "status": "partial",
   "theorems": [
    "Verif.Channel.channel_try_returns",
    "Verif.Channel.channel_closed_returns",
    "Verif.Channel.channel_pop_returns_partial",
    "Verif.Channel.channel_push_returns_partial",
    "Verif.Channel.channel_sole_consumer_returns_partial",
    "Verif.Channel.channel_sole_producer_returns_partial",
    "Verif.Channel.channel_system_progress",
    "Verif.Channel.channel_pop_starves_refuted",
    "Verif.Channel.channel_push_starves_refuted",
    "Verif.Channel.channel_weak_fairness_refuted",
    "Verif.Channel.channel_pop_returns_since_partial",
    "Verif.Channel.channel_push_returns_since_partial",
    "Verif.Channel.channel_sole_consumer_returns",
    "Verif.Channel.channel_sole_producer_returns"
   ],
   "note": "Proved over infinite executions under strong fairness, for every element type (exceptions of other calls while a call waits are counted; an only consumer or producer needs no condition on exceptions). Missing: a pop (push) among several consumers (producers) can starve although values (room) come again and again (refuted by explicit infinite executions); an exception of another call loses a wakeup (C06); weak fairness is not enough because the mutex need not be handed over."
  },
  {
   "property": "C88",
   "status": "partial",
   "theorems": [
    "Verif.Exchange.exchange_push_returns",
    "Verif.Exchange.exchange_closed_returns",
    "Verif.Exchange.exchange_close_releases",
    "Verif.Exchange.exchange_sole_consumer_returns_partial",
    "Verif.Exchange.exchange_pop_returns_partial",
    "Verif.Exchange.exchange_system_progress",
    "Verif.Exchange.exchange_pop_starves_refuted",
    "Verif.Exchange.exchange_pop_returns_since_partial",
    "Verif.Exchange.exchange_sole_consumer_returns"
   ],
   "note": "Everything but the last sentence is proved, for every element type (a pop that throws loses a wakeup, a push that throws takes the value away, both are conditions of the statements); the last sentence is refuted: with a second consumer a pop can starve under a fair scheduler."
  },
  {
   "property": "C89",
   "status": "partial",
   "theorems": [
    "Verif.RangesAlgo.unique_lazy",
    "Verif.RangesAlgo.remove_lazy",
    "Verif.RangesAlgo.take_returns_partial",
    "Verif.RangesAlgo.take_never_returns_refuted",
    "Verif.RangesAlgo.deref_twice_refuted",
    "Verif.RangesAlgo.remove_again_partial",
    "Verif.RangesAlgo.remove_again_refuted",
    "Verif.RangesAlgo.unique_again_refuted",
    "Verif.RangesAlgo.quantifiers_endless",
    "Verif.RangesAlgo.all_equal_endless",
    "Verif.RangesAlgo.all_distinct_endless",
    "Verif.RangesAlgo.all_distinct_finite",
    "Verif.RangesAlgo.is_sorted_unique_endless",
    "Verif.RangesAlgo.is_sorted_unique_finite",
    "Verif.RangesAlgo.lex_endless"
   ],
   "note": "Laziness and the conditions for returning are proved with the exact sequence of operations on the source. Refuted: take(n) searches for one more value and may never return; kept elements are dereferenced twice; remove_element remembers its first position and shows stale values after the source changed; unique over a single-pass source forgets what earlier loops have shown."
  },
  {
   "property": "C90",
   "status": "proved",
   "theorems": [
    "Verif.Elements.elements_no_ub",
    "Verif.Elements.elements_owned",
    "Verif.Elements.elements_unlocked",
    "Verif.Elements.elements_lifetime",
    "Verif.Elements.elements_no_leak",
    "Verif.Elements.elements_values",
    "Verif.Elements.push_refused",
    "Verif.Elements.tryPush_refused",
    "Verif.Elements.push_move_queue",
    "Verif.Elements.push_copy_queue",
    "Verif.Elements.push_threw_queue",
    "Verif.Elements.push_threw_exch",
    "Verif.Elements.pop_queue",
    "Verif.Elements.pop_exch",
    "Verif.Elements.pop_threw_queue",
    "Verif.Elements.channel_iterator_never_throws",
    "Verif.Elements.moved_iterator",
    "Verif.Elements.move_assigned_iterators",
    "Verif.Elements.pop_strong_refuted",
    "Verif.Elements.copy_assign_strong_refuted",
    "Verif.Elements.user_code_unlocked_refuted",
    "Verif.Elements.tryPush_eq_push",
    "Verif.Elements.tryPop_eq_pop",
    "Verif.Elements.push_move_exch",
    "Verif.Elements.copied_iterator",
    "Verif.Elements.copy_assigned_iterator",
    "Verif.Elements.move_assigned_iterator",
    "Verif.Elements.taken_from_iterator",
    "Verif.Elements.begin_threw",
    "Verif.Elements.full_takes_nothing",
    "Verif.Elements.emplace_queue",
    "Verif.Elements.closed_takes_nothing",
    "Verif.Elements.call_ends"
   ],
   "note": "Everything stated is proved. Stronger exception guarantees that the statement does not make are refuted: a push of exchange_channel that throws loses the old value (push_threw_exch), a pop that throws may lose the element (pop_strong_refuted), a throwing copy assignment leaves an iterator with the channel of the other (copy_assign_strong_refuted). Calls run one after another; their interleavings are C06, C08 and C64."
  },
  {
   "property": "C91",
   "status": "partial",
   "theorems": [
    "Verif.Variant2.at_inside",
    "Verif.Variant2.assign_outside",
    "Verif.Variant2.assign_inside",
    "Verif.Variant2.assign_inside_refuted",
    "Verif.Variant2.assign_inside_alt_refuted",
    "Verif.Variant2.std_assign_inside",
    "Verif.Variant2.assign_value_outside",
    "Verif.Variant2.assign_value_within",
    "Verif.Variant2.emplace_outside",
    "Verif.Variant2.emplace_within_refuted",
    "Verif.Variant2.emplace_dtor_threw",
    "Verif.Variant2.assign_dtor_threw_refuted",
    "Verif.Variant2.assign_dtor_ok",
    "Verif.Inplace.tree_assign_outside",
    "Verif.Inplace.tree_assign_inside_refuted",
    "Verif.Inplace.tree_emplace_outside",
    "Verif.Inplace.tree_emplace_inside_refuted",
    "Verif.Variant2.std_assign_inside_exact"
   ],
   "note": "The exact cases are proved. Refuted: assigning from inside reads destroyed objects unless the alternative stays and the element keeps what it owns (std::variant also works if it does not keep it); emplace from inside always does; a destructor that throws during an assignment leaves a variant that destroys the dead object again."
  },
  {
   "property": "C92",
   "status": "partial",
   "theorems": [
    "Verif.FlexArray.init_reports",
    "Verif.FlexArray.range_reports",
    "Verif.FlexArray.toStatic_reports",
    "Verif.FlexArray.resize_reports",
    "Verif.FlexArray.dflt_dies",
    "Verif.FlexArray.ofStatic_dies",
    "Verif.FlexArray.copy_dies",
    "Verif.FlexArray.reported_refuted"
   ],
   "note": "Proved for the constructors from lists and ranges, the conversion to a static extent and resize. Refuted for default construction, copies and the conversion to a dynamic extent: they are noexcept and end the program exactly if something throws."
  },
  {
   "property": "C93",
   "status": "partial",
   "theorems": [
    "Verif.Constexpr.flex_array_agrees",
    "Verif.Constexpr.flex_array_constant_iff",
    "Verif.Constexpr.flex_array_constant_refuted",
    "Verif.Constexpr.variant2_agrees",
    "Verif.Constexpr.variant2_step_constant_iff",
    "Verif.Constexpr.variant2_constant_refuted",
    "Verif.Constexpr.tuple_fold_constant",
    "Verif.Constexpr.tuple_for_each_constant",
    "Verif.Constexpr.tuple_types_constant",
    "Verif.Constexpr.sets_constant",
    "Verif.Constexpr.is_sorted_unique_constant",
    "Verif.Constexpr.ranges_constant",
    "Verif.Constexpr.others_constant",
    "Verif.Constexpr.flex_array_constant_contents",
    "Verif.Constexpr.flex_array_step_value",
    "Verif.Constexpr.flex_array_run_value",
    "Verif.Constexpr.flex_array_constant_value",
    "Verif.Constexpr.variant2_step_value",
    "Verif.Constexpr.variant2_run_value",
    "Verif.Constexpr.algorithms_run_value"
   ],
   "note": "What is evaluated at compile time agrees with the run. That every such program is constant is refuted: no variant2 can be made at compile time (placement new), flex_array needs functions that are not constexpr for spans, for comparisons in limited mode and for the size of vectors, and tuple_fold, tuple_for_each, all_equal, unique, non-empty all_distinct and piped is_sorted_unique call functions that are not constexpr. The exact conditions are proved."
  },
  {
   "property": "C94",
   "status": "partial",
   "theorems": [
    "Verif.Init.exact_type",
    "Verif.Init.same_choice_partial",
    "Verif.Init.lvalue_not_moved",
    "Verif.Init.arithmetic_choice",
    "Verif.Init.assign_braces",
    "Verif.Init.same_choice_refuted",
    "Verif.Init.assign_braces_refuted",
    "Verif.Init.converting_constructors",
    "Verif.Init.both_ways_ambiguous"
   ],
   "note": "The claim is false for narrowing conversions (a string literal becomes a bool), where std::variant decides differently, and for v = {}; same_choice_partial says exactly when the choices agree."
  },
  {
   "property": "C95",
   "status": "partial",
   "theorems": [
    "Verif.Init.never_other_constructor",
    "Verif.Init.made_as_parens_partial",
    "Verif.Init.scalar_made",
    "Verif.Init.copy_made_partial",
    "Verif.Init.noexcept_right_partial",
    "Verif.Init.tuple_made",
    "Verif.Init.tuple_uniform",
    "Verif.Init.made_as_parens_refuted",
    "Verif.Init.declared_iff"
   ],
   "note": "All but the channels initialize with braces, so the claim is false for classes with a constructor for initializer lists and for narrowing; the theorems say exactly when it holds."
  },
  {
   "property": "C96",
   "status": "partial",
   "theorems": [
    "Verif.Init.Tuple.direct_init_partial",
    "Verif.Init.Tuple.copy_init",
    "Verif.Init.Tuple.integral_copied",
    "Verif.Init.Tuple.tags",
    "Verif.Init.Tuple.values",
    "Verif.Init.Tuple.not_implicit",
    "Verif.Init.Tuple.direct_init_refuted"
   ],
   "note": "Direct initialization of a tuple with one element from an lvalue that is not const, a const rvalue, or an object of a derived class forwards the source to the element; everything else holds."
  },
  {
   "property": "C97",
   "status": "partial",
   "theorems": [
    "Verif.AllocIface.allocate_exact",
    "Verif.AllocIface.reserve_exact",
    "Verif.AllocIface.reserve_unwrapped",
    "Verif.AllocIface.reserve_limit",
    "Verif.AllocIface.reserve_partial",
    "Verif.AllocIface.reserve_refuted",
    "Verif.AllocIface.max_size_partial",
    "Verif.AllocIface.max_size_refuted",
    "Verif.AllocIface.hints",
    "Verif.AllocIface.construct_partial",
    "Verif.AllocIface.construct_refuted",
    "Verif.AllocIface.limit_from",
    "Verif.AllocIface.converts_partial",
    "Verif.AllocIface.converts_refuted",
    "Verif.AllocIface.copies_partial",
    "Verif.AllocIface.copies_refuted",
    "Verif.AllocIface.same_type",
    "Verif.AllocIface.single",
    "Verif.AllocIface.always_equal",
    "Verif.AllocIface.propagation",
    "Verif.AllocIface.swap_refuted",
    "Verif.AllocIface.holds",
    "Verif.AllocIface.holds_foreign",
    "Verif.AllocIface.well_formed",
    "Verif.AllocIface.default_first"
   ],
   "note": "False for allocators with a 32-bit size type (polymorphic and offset), own construct, destroy or max_size, for limit_allocator without synchronization (no conversion), around allocators without default constructor (no copies of containers), and for swapping; exact conditions are proved for each."
  },
  {
   "property": "C98",
   "status": "partial",
   "theorems": [
    "Verif.Traits.made_truthful",
    "Verif.Traits.tuple_reports",
    "Verif.Traits.variant2_reports",
    "Verif.Traits.variant2_compiles",
    "Verif.Traits.variant2_truthful_iff_partial",
    "Verif.Traits.variant2_truthful_refuted",
    "Verif.Traits.variant2_like_std",
    "Verif.Traits.variant2_trivial_assign_iff",
    "Verif.Traits.variant2_trivial_assign_refuted",
    "Verif.Traits.variant2_trivially_copyable_iff",
    "Verif.Traits.variant2_trivially_copyable_refuted",
    "Verif.Traits.value_constructors",
    "Verif.Traits.value_constructors_refuted",
    "Verif.Traits.polymorphic_default_refuted",
    "Verif.Traits.flex_truthful_iff_partial",
    "Verif.Traits.flex_truthful_refuted",
    "Verif.Traits.flex_trivially_copyable_iff",
    "Verif.Traits.iterator_traits",
    "Verif.Traits.iterator_traits_refuted",
    "Verif.Traits.pinned_traits",
    "Verif.Traits.mutex_default_iff",
    "Verif.Traits.inplace_traits",
    "Verif.Traits.string_truthful_iff_partial",
    "Verif.Traits.string_truthful_refuted",
    "Verif.Traits.integral_variant_reports",
    "Verif.Traits.stdVariant_reports",
    "Verif.Traits.flex_reports",
    "Verif.Traits.allocators_report",
    "Verif.Traits.polymorphic_reports",
    "Verif.Traits.string_compiles",
    "Verif.Traits.flex_outside_works",
    "Verif.Traits.trivially_destructible"
   ],
   "note": "Proved at any nesting for the templates whose functions are defaulted or constrained. Refuted for variant2 (reports everything), flex_array with a vector or small buffer, channel iterators, polymorphic_allocator with two allocators, basic_static_string with an allocator that needs arguments, and constructors from values; for these the exact condition is proved."
  },
  {
   "property": "C99",
   "status": "proved",
   "theorems": [
    "Verif.Compare.flex_eq_runs",
    "Verif.Compare.flex_cmp_runs",
    "Verif.Compare.flex_cmp_less",
    "Verif.Compare.tuple_eq_runs",
    "Verif.Compare.tuple_cmp_runs",
    "Verif.Compare.integral_tuple_runs",
    "Verif.Compare.integral_variant_eq",
    "Verif.Compare.integral_variant_cmp",
    "Verif.Compare.variant2_eq",
    "Verif.Compare.variant2_cmp",
    "Verif.Compare.runs_terminated",
    "Verif.Compare.exception_refuted",
    "Verif.Compare.flex_ordered",
    "Verif.Compare.less_from_three_way",
    "Verif.Compare.mode_refuted",
    "Verif.Compare.unordered_refuted",
    "Verif.Compare.flex_laws",
    "Verif.Compare.tuple_laws",
    "Verif.Compare.integral_tuple_laws",
    "Verif.Compare.variant2_laws",
    "Verif.Compare.integral_variant_laws",
    "Verif.Compare.made_lawful",
    "Verif.Compare.operators_fit",
    "Verif.Compare.integral_variant_hash",
    "Verif.Compare.variant2_hash",
    "Verif.Compare.derived_operators"
   ],
   "note": "Everything stated is proved. What a user might expect beyond it is refuted with witnesses: exceptions of element comparisons do not reach the caller; which operators a flex_array has depends on its mode; with elements that have <=> but no ==, a flex_array of fixed size treats unordered elements as equal. Comparison categories are not told apart."
  }
 ]
}
