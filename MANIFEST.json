{
 "claims": [
  {
   "property": "C01",
   "status": "proved",
   "theorems": [
    "Hoard.Props.C01_stored_answer_is_last_write",
    "Hoard.Props.C01_completed_lookup_was_for_this_key"
   ],
   "note": ""
  },
  {
   "property": "C02",
   "status": "proved",
   "theorems": [
    "Hoard.Props.C02_unlimited_cache_is_a_map",
    "Hoard.Props.C02_unlimited_cache_is_a_memo_table"
   ],
   "note": ""
  },
  {
   "property": "C03",
   "status": "proved",
   "theorems": [
    "Hoard.Props.C03_get_if_exists_has_no_effect",
    "Hoard.Props.C03_get_if_exists_agrees_with_get"
   ],
   "note": ""
  },
  {
   "property": "C04",
   "status": "partial",
   "theorems": [
    "Hoard.Props.C04_emplaced_value_is_retrievable_partial",
    "Hoard.Props.C04_exact_condition",
    "Hoard.Props.C04_emplaced_value_evicted_at_once"
   ],
   "note": "Holds exactly if the table has fewer than twice the limit of entries after linking, which is proved; beyond that the negation is proved."
  },
  {
   "property": "C05",
   "status": "proved",
   "theorems": [
    "Hoard.Props.C05_erase_removes",
    "Hoard.Props.C05_late_completion_stays_out",
    "Hoard.Props.C05_erase_keeps_others"
   ],
   "note": ""
  },
  {
   "property": "C06",
   "status": "proved",
   "theorems": [
    "Hoard.Props.C06_clear_removes_everything",
    "Hoard.Props.C06_late_completion_stays_out",
    "Hoard.Props.C06_count_is_zero"
   ],
   "note": ""
  },
  {
   "property": "C07",
   "status": "proved",
   "theorems": [
    "Hoard.Props.C07_get_or_emplace",
    "Hoard.Props.C07_throws_exactly"
   ],
   "note": ""
  },
  {
   "property": "C08",
   "status": "proved",
   "theorems": [
    "Hoard.Props.C08_operations_do_not_disturb_other_keys",
    "Hoard.Props.C08_other_keys_can_be_left_out"
   ],
   "note": ""
  },
  {
   "property": "C09",
   "status": "proved",
   "theorems": [
    "Hoard.Props.C09_size_limit_bounds_live_entries"
   ],
   "note": ""
  },
  {
   "property": "C10",
   "status": "partial",
   "theorems": [
    "Hoard.Props.C10_resolver_ignores_the_limit",
    "Hoard.Props.C10_get_adds_at_most_its_calls_partial"
   ],
   "note": "False of the code for every limit; the negation is proved. What remains is that a get adds at most as many entries as it makes resolver calls."
  },
  {
   "property": "C11",
   "status": "proved",
   "theorems": [
    "Hoard.Props.C11_no_eviction_within_limit",
    "Hoard.Props.C11_few_keys_stay_within_limit"
   ],
   "note": ""
  },
  {
   "property": "C12",
   "status": "proved",
   "theorems": [
    "Hoard.Props.C12_hot_values_survive",
    "Hoard.C12_evicts_cold_tail",
    "Hoard.C12_hit_survives_next_insertion"
   ],
   "note": ""
  },
  {
   "property": "C13",
   "status": "proved",
   "theorems": [
    "Hoard.Props.C13_every_entry_in_recency_order",
    "Hoard.C13_recency_balanced"
   ],
   "note": ""
  },
  {
   "property": "C14",
   "status": "proved",
   "theorems": [
    "Hoard.Props.C14_never_too_old",
    "Hoard.Props.C14_exact_window"
   ],
   "note": ""
  },
  {
   "property": "C15",
   "status": "proved",
   "theorems": [
    "Hoard.Props.C15_expiry_is_irreversible",
    "Hoard.Props.C15_needs_monotone_clock"
   ],
   "note": ""
  },
  {
   "property": "C16",
   "status": "proved",
   "theorems": [
    "Hoard.Props.C16_earliest_deadline_wins",
    "Hoard.Props.C16_order_is_irrelevant"
   ],
   "note": ""
  },
  {
   "property": "C17",
   "status": "proved",
   "theorems": [
    "Hoard.Props.C17_resolver_called_exactly_on_miss",
    "Hoard.Props.C17_second_get_does_not_ask"
   ],
   "note": ""
  },
  {
   "property": "C18",
   "status": "proved",
   "theorems": [
    "Hoard.Props.C18_error_only_from_own_call",
    "Hoard.Props.C18_error_reaches_only_its_lookup",
    "Hoard.Props.C18_next_get_asks_again",
    "Hoard.Props.C18_next_async_get_asks_again"
   ],
   "note": ""
  },
  {
   "property": "C19",
   "status": "partial",
   "theorems": [
    "Hoard.Props.C19_errors_are_never_kept",
    "Hoard.Props.C19_error_is_asked_for_again"
   ],
   "note": "The claim is false of the code: proved that no selection of policies makes entries keep errors, and that the resolver is asked again at once. See DESIGN.md."
  },
  {
   "property": "C20",
   "status": "proved",
   "theorems": [
    "Hoard.Props.C20_share_one_resolver_call",
    "Hoard.Props.C20_eviction_ends_sharing"
   ],
   "note": ""
  },
  {
   "property": "C21",
   "status": "proved",
   "theorems": [
    "Hoard.Props.C21_completion_answers_all_waiters",
    "Hoard.Props.C21_answered_at_most_once",
    "Hoard.Props.C21_answered_by_own_lookup",
    "Hoard.Props.C21_nobody_is_forgotten",
    "Hoard.Props.C21_each_settled_at_most_once"
   ],
   "note": ""
  },
  {
   "property": "C22",
   "status": "proved",
   "theorems": [
    "Hoard.Props.C22_waiters_still_answered",
    "Hoard.Props.C22_late_result_not_stored",
    "Hoard.Props.C22_later_gets"
   ],
   "note": ""
  },
  {
   "property": "C23",
   "status": "proved",
   "theorems": [
    "Hoard.Props.C23_completes_at_most_once",
    "Hoard.Props.C23_refused_after_destruction"
   ],
   "note": ""
  },
  {
   "property": "C24",
   "status": "partial",
   "theorems": [
    "Hoard.Props.C24_drop_releases_waiters_partial",
    "Hoard.Props.C24_next_get_starts_new_lookup",
    "Hoard.Props.C24_dropped_inside_resolver_waits_forever"
   ],
   "note": "Missing: lookups dropped inside the resolver; for these the negation is proved."
  },
  {
   "property": "C25",
   "status": "partial",
   "theorems": [
    "Hoard.Props.C25_not_expired_is_returned",
    "Hoard.Props.C25_returned_is_not_expired",
    "Hoard.Props.C25_erase_reclaims_partial",
    "Hoard.Props.C25_lookup_reclaims_partial",
    "Hoard.Props.C25_growth_reclaims_partial",
    "Hoard.Props.C25_reclaimed_for_good",
    "Hoard.Props.C25_abandoned_lookup_is_never_reclaimed"
   ],
   "note": "Missing: entries of abandoned lookups, which are never reclaimed; this negation is proved."
  },
  {
   "property": "C26",
   "status": "proved",
   "theorems": [
    "Hoard.Chain.C26_table_exact",
    "Hoard.Chain.C26_insert_appends",
    "Hoard.Chain.C26_remove_exact",
    "Hoard.Chain.C26_before_end",
    "Hoard.Chain.C26_clear_disposes_all"
   ],
   "note": ""
  },
  {
   "property": "C27",
   "status": "partial",
   "theorems": [
    "Hoard.Props.C27_grows_only_for_entries_in_use",
    "Hoard.Props.C27_dead_entry_prevents_growth",
    "Hoard.Props.C27_load_factor_kept_partial",
    "Hoard.Props.C27_grows_only_when_needed",
    "Hoard.Props.C27_small_limit_exceeded",
    "Hoard.Props.C27_link_within",
    "Hoard.Props.C27_models_agree",
    "Hoard.Props.C27_new_limit_within",
    "Hoard.Props.C27_reserved_small_exceeded",
    "Hoard.Props.C27_any_limit",
    "Hoard.Props.C27_enough_entries_partial",
    "Hoard.Props.C27_exceeded_exactly"
   ],
   "note": "For load factor limits from 1/4 on it is kept always (C27_load_factor_kept_partial). For every limit p/q it is kept whenever there are n entries with n*q <= p*2^(n+1), so for all but finitely many n (C27_enough_entries_partial), and for each other n a history exceeds it (C27_exceeded_exactly). From 1/4 on a table that has buckets grows only when it holds no dead entry at all (C27_grows_only_for_entries_in_use, C27_dead_entry_prevents_growth). With the rounding of float: C105."
  },
  {
   "property": "C28",
   "status": "partial",
   "theorems": [
    "Hoard.DL.C28_list_is_sequence",
    "Hoard.DL.C28_empty_exact",
    "Hoard.DL.C28_move_partial",
    "Hoard.DL.C28_move_empty_corrupts",
    "Hoard.DL.C28_iteration",
    "Hoard.DL.C28_iteration_whole",
    "Hoard.DL.C28_postfix",
    "Hoard.DL.C28_copied_element"
   ],
   "note": "The move constructor of an empty list corrupts both lists; the move theorem is stated for non-empty lists."
  },
  {
   "property": "C29",
   "status": "partial",
   "theorems": [
    "Hoard.Chain.C29_linked_test_partial",
    "Hoard.Chain.C29_last_reported_unlinked"
   ],
   "note": "False for the last element of the chain, which is proved; the rest is exact."
  },
  {
   "property": "C30",
   "status": "partial",
   "theorems": [
    "Hoard.Props.C30_no_use_after_destruction_partial",
    "Hoard.Props.C30_destroyed_iff_no_owner_partial",
    "Hoard.Props.C30_destroyed_at_once_partial",
    "Hoard.Props.C30_null_afterwards_partial",
    "Hoard.Props.C30_reset_of_shared_is_wrong",
    "Hoard.Props.C30_reset_to_other_is_wrong"
   ],
   "note": "Missing: reset on a shared object, for which the negation is proved."
  },
  {
   "property": "C31",
   "status": "proved",
   "theorems": [
    "Hoard.Props.C31_weakened_pointer_stays_available"
   ],
   "note": ""
  },
  {
   "property": "C32",
   "status": "proved",
   "theorems": [
    "Hoard.Props.C32_never_dangling",
    "Hoard.Props.C32_weakened_and_destroyed_never_returned"
   ],
   "note": ""
  },
  {
   "property": "C33",
   "status": "proved",
   "theorems": [
    "Hoard.Props.C33_old_value_until_refresh_completes",
    "Hoard.Props.C33_starting_a_refresh_keeps_the_value",
    "Hoard.Props.C33_new_value_after_refresh"
   ],
   "note": ""
  },
  {
   "property": "C34",
   "status": "proved",
   "theorems": [
    "Hoard.Props.C34_unused_value_not_returned",
    "Hoard.Props.C34_use_extends_deadline"
   ],
   "note": ""
  },
  {
   "property": "C35",
   "status": "proved",
   "theorems": [
    "Hoard.Props.C35_earliest_due_first",
    "Hoard.Props.C35_none_missed"
   ],
   "note": ""
  },
  {
   "property": "C36",
   "status": "partial",
   "theorems": [
    "Hoard.Props.C36_failed_refresh_drops_value_partial",
    "Hoard.Props.C36_failed_synchronous_refresh_drops_value_partial",
    "Hoard.Props.C36_abandoned_refresh_is_never_retried",
    "Hoard.Props.C36_abandoned_refresh_freezes_value"
   ],
   "note": "Missing: refreshes that are abandoned; the negation is proved for them."
  },
  {
   "property": "C37",
   "status": "proved",
   "theorems": [
    "Hoard.Props.C37_locked_operations_are_linearizable",
    "Hoard.Props.C37_results_of_a_sequential_history",
    "Hoard.Props.C37_lock_is_needed"
   ],
   "note": "For the operations on the cache object, cut into accesses in any way, under the table's lock. Deliveries on completion handles read a flag outside the lock and are covered by C38."
  },
  {
   "property": "C38",
   "status": "partial",
   "theorems": [
    "Hoard.Props.C38_waiters_answered_at_most_once",
    "Hoard.Props.C38_one_thread_inside",
    "Hoard.Props.C38_no_deadlock",
    "Hoard.Props.C38_one_takes_effect_partial",
    "Hoard.Props.C38_second_delivery_may_throw",
    "Hoard.Props.C38_second_error_may_throw",
    "Hoard.Props.C38_value_and_cancel_both_succeed",
    "Hoard.Props.C38_one_after_the_other_partial"
   ],
   "note": "False of the code: the second of two overlapping deliveries may throw, and a value and a cancellation may both return true (both proved). Proved for deliveries that do not overlap; for overlapping ones: waiters hear of one at most, at most one value or error returns true."
  },
  {
   "property": "C39",
   "status": "proved",
   "theorems": [
    "Hoard.Props.C39_named_policies_kept",
    "Hoard.Props.C39_needed_policies_present",
    "Hoard.Props.C39_nothing_else",
    "Hoard.Props.C39_needed_policies_not_twice",
    "Hoard.Props.C39_library_not_twice",
    "Hoard.Props.C39_age_limits_have_a_steady_deadline",
    "Hoard.Props.C39_library_no_policy_twice",
    "Hoard.Props.C39_needed_equality_is_there_twice"
   ],
   "note": "For the library's own policies without exception; for user-defined ones except a dependency on the default equality, hash or allocator policy, for which a duplicate is proved."
  },
  {
   "property": "C40",
   "status": "proved",
   "theorems": [
    "Hoard.Props.C40_lock_exactly_once",
    "Hoard.Props.C40_no_lock",
    "Hoard.Props.C40_library",
    "Hoard.Props.C40_refresh_is_locked",
    "Hoard.Props.C40_asio_refresh_is_not_locked",
    "Hoard.Props.C40_one_lock"
   ],
   "note": ""
  },
  {
   "property": "C41",
   "status": "proved",
   "theorems": [
    "Hoard.Props.C41_failing_emplace"
   ],
   "note": ""
  },
  {
   "property": "C42",
   "status": "proved",
   "theorems": [
    "Hoard.Props.C42_silence_after_destruction",
    "Hoard.Props.C42_everything_unlinked"
   ],
   "note": ""
  },
  {
   "property": "C43",
   "status": "proved",
   "theorems": [
    "Hoard.Props.C43_count_is_number_of_keys",
    "Hoard.Props.C43_count_without_async",
    "Hoard.Props.C43_count_without_refresh"
   ],
   "note": ""
  },
  {
   "property": "C44",
   "status": "partial",
   "theorems": [
    "Hoard.Props.C44_reserved_is_enough_partial",
    "Hoard.Props.C44_removals_make_room_partial",
    "Hoard.Props.C44_one_at_a_time_partial"
   ],
   "note": "Partial: with exact fractions (Verif.Grow). With the rounding of float, C105_reserved_is_enough_partial proves it for limits that are powers of two, C105_reserved_is_nearly_enough up to one part in 2^22, and C105_reserve_too_small_for_five shows that it is false in general."
  },
  {
   "property": "C45",
   "status": "proved",
   "theorems": [
    "Hoard.Props.C45_dependencies_first"
   ],
   "note": ""
  },
  {
   "property": "C46",
   "status": "proved",
   "theorems": [
    "Hoard.Props.C46_remove",
    "Hoard.Props.C46_remove_all",
    "Hoard.Props.C46_distinct",
    "Hoard.Props.C46_reverse",
    "Hoard.Props.C46_filter",
    "Hoard.Props.C46_extend",
    "Hoard.Props.C46_exclude"
   ],
   "note": ""
  },
  {
   "property": "C47",
   "status": "proved",
   "theorems": [
    "Hoard.Props.C47_everybody_settled"
   ],
   "note": ""
  },
  {
   "property": "C48",
   "status": "proved",
   "theorems": [
    "Hoard.Props.C48_recency_list"
   ],
   "note": ""
  },
  {
   "property": "C49",
   "status": "proved",
   "theorems": [
    "Hoard.Props.C49_no_undefined_behaviour"
   ],
   "note": ""
  },
  {
   "property": "C50",
   "status": "proved",
   "theorems": [
    "Hoard.Props.C50_no_dangling_pointers",
    "Hoard.Props.C50_counters_are_owners",
    "Hoard.Props.C50_everything_freed",
    "Hoard.Props.C50_open_lookups_are_held"
   ],
   "note": ""
  },
  {
   "property": "C51",
   "status": "proved",
   "theorems": [
    "Hoard.Props.C51_hit_takes_ownership",
    "Hoard.Props.C51_hit_survives_loss_of_owners"
   ],
   "note": ""
  },
  {
   "property": "C52",
   "status": "partial",
   "theorems": [
    "Hoard.Props.C52_insertion_limits_ownership_partial",
    "Hoard.Props.C52_insertion_limits_ownership_small_partial",
    "Hoard.Props.C52_owned_objects_unbounded",
    "Hoard.Props.C52_owned_objects_after_insertion"
   ],
   "note": "For insertions; for histories with lookups the negation is proved."
  },
  {
   "property": "C53",
   "status": "proved",
   "theorems": [
    "Hoard.Props.C53_worker_wakes_for_due_value",
    "Hoard.Props.C53_worker_leaves_no_due_value"
   ],
   "note": ""
  },
  {
   "property": "C54",
   "status": "partial",
   "theorems": [
    "Hoard.Props.C54_worker_gives_lock_back_partial",
    "Hoard.Props.C54_worker_steps_are_defined",
    "Hoard.Props.C54_zero_delay_keeps_lock"
   ],
   "note": "For delays above zero; with a delay of zero the negation is proved."
  },
  {
   "property": "C55",
   "status": "partial",
   "theorems": [
    "Hoard.Props.C55_worker_reads_live_memory_partial",
    "Hoard.Props.C55_erase_under_waiting_worker"
   ],
   "note": "Missing: removal of the entry the worker waits for, for which the negation is proved."
  },
  {
   "property": "C56",
   "status": "partial",
   "theorems": [
    "Hoard.Props.C56_stopped_worker_ends_partial",
    "Hoard.Props.C56_destructor_races_worker",
    "Hoard.Props.C56_destructor_frees_under_worker"
   ],
   "note": "Missing: the race between the worker and the destructor, for which the negations are proved."
  },
  {
   "property": "C57",
   "status": "partial",
   "theorems": [
    "Hoard.Nested.C57_nested_get_is_current_partial",
    "Hoard.Nested.C57_nested_get_asks_only_on_miss_partial",
    "Hoard.Nested.C57_own_key_result_is_ignored",
    "Hoard.Nested.C57_any_nesting_shows_stored_values",
    "Hoard.Nested.C57_memoised_function_is_right",
    "Hoard.Nested.C57_flat_call_is_one_step"
   ],
   "note": "For resolvers that store nothing under keys whose resolver runs; without it the negation is proved."
  },
  {
   "property": "C58",
   "status": "partial",
   "theorems": [
    "Hoard.Nested.C58_each_key_resolved_once_partial",
    "Hoard.Nested.C58_descending_resolvers_are_apart",
    "Hoard.Nested.C58_own_key_resolved_twice"
   ],
   "note": "Same condition as C57; the negation is proved without it."
  },
  {
   "property": "C59",
   "status": "proved",
   "theorems": [
    "Hoard.Nested.C59_nested_calls_memory_safe"
   ],
   "note": ""
  },
  {
   "property": "C60",
   "status": "partial",
   "theorems": [
    "Hoard.Props.C60_answers_are_current_partial",
    "Hoard.Props.C60_exact_partial",
    "Hoard.Props.C60_prompt_handlers_are_in_time",
    "Hoard.Props.C60_values_have_a_source",
    "Hoard.Props.C60_erased_key_comes_back",
    "Hoard.Props.C60_overtaken_value_shown"
   ],
   "note": "Proved for handlers that run before the entry they belong to is replaced; with late handlers it is false, proved by C60's negation theorems."
  },
  {
   "property": "C61",
   "status": "partial",
   "theorems": [
    "Hoard.Props.C61_handler_runs_once",
    "Hoard.Props.C61_refresh_is_due_partial",
    "Hoard.Props.C61_due_value_is_refreshed_partial",
    "Hoard.Props.C61_silent_after_destruction"
   ],
   "note": "'At most once' and 'nothing after destruction' without conditions; 'due' and 'not forgotten' under the condition of C60."
  },
  {
   "property": "C62",
   "status": "partial",
   "theorems": [
    "Hoard.Props.C62_terminates_iff_invalidated_partial",
    "Hoard.Props.C62_only_effective_completions",
    "Hoard.Props.C62_completion_terminates"
   ],
   "note": "False of the code; the exact condition under which the program ends is proved."
  },
  {
   "property": "C63",
   "status": "partial",
   "theorems": [
    "Hoard.Handlers.C63_idle_handlers_change_nothing",
    "Hoard.Handlers.C63_answers_as_if_instant_partial",
    "Hoard.Handlers.C63_state_as_if_instant_partial",
    "Hoard.Handlers.C63_nothing_undefined_partial",
    "Hoard.Handlers.C63_retry_in_handler_is_undefined",
    "Hoard.Handlers.C63_eviction_by_handler_is_undefined",
    "Hoard.Handlers.C63_stale_success_is_seen",
    "Hoard.Handlers.C63_erase_by_handler_corrupts_queue",
    "Hoard.Handlers.C63_waiters_as_if_instant_partial"
   ],
   "note": "False without the conditions named in the theorems; a counterexample is proved for each. For handlers that do not use the cache it is proved without conditions. Refreshing is left out."
  },
  {
   "property": "C64",
   "status": "partial",
   "theorems": [
    "Hoard.Handlers.C64_value_seen_from_the_beginning_partial",
    "Hoard.Handlers.C64_nothing_there_while_failing_partial"
   ],
   "note": "Under the conditions of C63."
  },
  {
   "property": "C65",
   "status": "proved",
   "theorems": [
    "Hoard.Handlers.C65_settled_at_most_once",
    "Hoard.Handlers.C65_all_settled_in_the_end"
   ],
   "note": "Without refreshing; with it a handler that erases corrupts the queue of the refresh policy (C63_erase_by_handler_corrupts_queue)."
  },
  {
   "property": "C66",
   "status": "proved",
   "theorems": [
    "Hoard.NestedAsync.C66_as_if_functors_returned_at_once",
    "Hoard.NestedAsync.C66_operations_see_the_plain_cache",
    "Hoard.NestedAsync.C66_calls_of_the_functor",
    "Hoard.NestedAsync.C66_simple_functors"
   ],
   "note": ""
  },
  {
   "property": "C67",
   "status": "proved",
   "theorems": [
    "Hoard.NestedAsync.C67_settled_at_most_once",
    "Hoard.NestedAsync.C67_all_settled_when_gone",
    "Hoard.NestedAsync.C67_answered_by_own_lookup",
    "Hoard.NestedAsync.C67_completion_answers_the_same"
   ],
   "note": ""
  },
  {
   "property": "C68",
   "status": "partial",
   "theorems": [
    "Hoard.NestedAsync.C68_caller_answered_partial",
    "Hoard.NestedAsync.C68_caller_forgotten",
    "Hoard.NestedAsync.C68_caller_forgotten_by_eviction"
   ],
   "note": "False without the conditions: erasing the own key before the completion, or eviction of the result, leaves the caller unanswered (both proved). The positive theorem is for caches that do not weaken pointers on eviction."
  },
  {
   "property": "C69",
   "status": "proved",
   "theorems": [
    "Hoard.Props.C69_setting_back_has_no_effect",
    "Hoard.Props.C69_setting_forward_hides_values",
    "Hoard.Props.C69_unless_replaced",
    "Hoard.Props.C69_forward_hides",
    "Hoard.Props.C69_set_right_as_before",
    "Hoard.Props.C69_shown_again"
   ],
   "note": ""
  },
  {
   "property": "C70",
   "status": "partial",
   "theorems": [
    "Hoard.Props.C70_argument_reaches_its_policy_partial",
    "Hoard.Props.C70_order_is_irrelevant",
    "Hoard.Props.C70_compiles_iff",
    "Hoard.Props.C70_unknown_argument_is_ignored",
    "Hoard.Props.C70_load_factor",
    "Hoard.Props.C70_load_factor_ignored",
    "Hoard.Props.C70_allocator",
    "Hoard.Props.C70_allocator_and_load_factor",
    "Hoard.Props.C70_allocator_ignored"
   ],
   "note": "Missing: arguments that belong to no policy; they are ignored and not rejected, which is proved, also for load factors and allocators of another type."
  },
  {
   "property": "C71",
   "status": "partial",
   "theorems": [
    "Hoard.Props.C71_copies_are_one_cache",
    "Hoard.Props.C71_copies_act_alike_partial",
    "Hoard.Props.C71_built_cache_is_new",
    "Hoard.Props.C71_direct_copy_is_another_cache"
   ],
   "note": "False for cache x(y) with y not const, which makes another cache (proved). Everything else is proved without conditions."
  },
  {
   "property": "C72",
   "status": "proved",
   "theorems": [
    "Hoard.Props.C72_contents_live_as_long_as_a_copy",
    "Hoard.Props.C72_moved_from_is_unusable"
   ],
   "note": ""
  },
  {
   "property": "C73",
   "status": "proved",
   "theorems": [
    "Hoard.Props.C73_alive_while_used",
    "Hoard.Props.C73_destroyed_once",
    "Hoard.Props.C73_one_at_a_time"
   ],
   "note": ""
  },
  {
   "property": "C74",
   "status": "partial",
   "theorems": [
    "Hoard.Props.C74_settled_once_partial",
    "Hoard.Props.C74_race"
   ],
   "note": "Proved for all schedules in which no handle is used while the destructor runs. Otherwise it is false: two threads cancel the same lookup without the lock (C74_race)."
  },
  {
   "property": "C75",
   "status": "partial",
   "theorems": [
    "Hoard.Props.C75_not_terminated_partial",
    "Hoard.Props.C75_no_worker_no_termination",
    "Hoard.Props.C75_worker_joins_itself",
    "Hoard.Props.C75_no_deadlock",
    "Hoard.Props.C75_finishes",
    "Hoard.Props.C75_destruction_completes"
   ],
   "note": "No deadlock, the bound on steps and the completion of the destruction are proved for all schedules. That the program is not ended is proved without a refresh worker, and with one that completes no lookup itself; otherwise it is false (C75_worker_joins_itself)."
  },
  {
   "property": "C76",
   "status": "partial",
   "theorems": [
    "Hoard.Props.C76_failures_leave_values_right_partial",
    "Hoard.Props.C76_failures_lose_no_value_partial",
    "Hoard.Props.C76_failed_refresh_is_lost"
   ],
   "note": "Proved for all histories in which no failed delivery leaves a refresh of a stored value in place; then it is false (C76_failed_refresh_is_lost)."
  },
  {
   "property": "C77",
   "status": "partial",
   "theorems": [
    "Hoard.Props.C77_failed_call_changes_no_value_partial"
   ],
   "note": "Same condition as C76."
  },
  {
   "property": "C78",
   "status": "partial",
   "theorems": [
    "Hoard.Props.C78_failed_delivery_drops_waiters_partial",
    "Hoard.Props.C78_spoiled_handle",
    "Hoard.Props.C78_kept_lookup_can_be_delivered_partial",
    "Hoard.Props.C78_settled_once_partial",
    "Hoard.Props.C78_nobody_is_forgotten_partial"
   ],
   "note": "Same condition as C76, except for C78_spoiled_handle."
  },
  {
   "property": "C79",
   "status": "partial",
   "theorems": [
    "Hoard.Props.C79_failures_leave_nothing_partial",
    "Hoard.Props.C79_failed_deliveries_leak"
   ],
   "note": "Proved for pointer values, and for failures that leave the lookup in place. For all other caches with an asynchronous resolver it is false: C79_failed_deliveries_leak, for every number of leaked entries and every size limit."
  },
  {
   "property": "C80",
   "status": "proved",
   "theorems": [
    "Hoard.Props.C80_what_ends_the_program",
    "Hoard.Props.C80_asynchronous_failures_do_not_end_the_program"
   ],
   "note": ""
  },
  {
   "property": "C81",
   "status": "proved",
   "theorems": [
    "Hoard.Props.C81_values_are_opaque",
    "Hoard.Props.C81_wrapped_values"
   ],
   "note": ""
  },
  {
   "property": "C82",
   "status": "proved",
   "theorems": [
    "Hoard.Props.C82_keys_are_only_hashed_and_compared"
   ],
   "note": ""
  },
  {
   "property": "C83",
   "status": "proved",
   "theorems": [
    "Hoard.Props.C83_only_time_differences_matter"
   ],
   "note": ""
  },
  {
   "property": "C84",
   "status": "proved",
   "theorems": [
    "Hoard.Props.C84_who_waits_makes_no_difference"
   ],
   "note": ""
  },
  {
   "property": "C85",
   "status": "partial",
   "theorems": [
    "Hoard.Props.C85_member_pointers_are_invisible_partial",
    "Hoard.Props.C85_exact_member_pointers",
    "Hoard.Props.C85_functor_is_applied_again"
   ],
   "note": "Proved for single entries and functors for which storing and reading back a second time changes nothing more. Otherwise it is false: C85_functor_is_applied_again, for every functor and number of times."
  },
  {
   "property": "C86",
   "status": "partial",
   "theorems": [
    "Hoard.Props.C86_hash_table_is_invisible_partial",
    "Hoard.Props.C86_without_size_limit",
    "Hoard.Props.C86_size_limit_shows_the_hash_table",
    "Hoard.Props.C86_size_limit_alone_shows_the_hash_table",
    "Hoard.Props.C86_refresh_shows_the_hash_table",
    "Hoard.Props.C86_clocks_show_the_hash_table",
    "Hoard.Props.C86_growth_and_order_show_the_hash_table"
   ],
   "note": "Proved for all histories in which the size limit is not exceeded, clocks do not go back (or there are no time limits), the refresh worker does not run and no needed bucket array is missing. In each of the other cases it is false (proved)."
  },
  {
   "property": "C87",
   "status": "proved",
   "theorems": [
    "Hoard.Props.C87_cache_is_the_small_cache",
    "Hoard.Props.C87_without_size_limit",
    "Hoard.Props.C87_without_limits",
    "Hoard.Props.C87_pointers_are_the_small_cache"
   ],
   "note": "Proved. The conditions (no refreshing, size limit not exceeded, clocks, bucket arrays) are part of the statement; C86 proves that without them the hash table shows."
  },
  {
   "property": "C88",
   "status": "proved",
   "theorems": [
    "Hoard.Props.C88_threads_share_the_small_cache"
   ],
   "note": "Proved. A delivery looks at its handle before it takes the lock; the theorem treats a delivery as one operation, which is right when each handle is used by one thread (C38 treats the other case). The destructor is not among the calls (Verif.Lifetime treats it)."
  },
  {
   "property": "C89",
   "status": "proved",
   "theorems": [
    "Hoard.Props.C89_other_keys_can_be_left_out"
   ],
   "note": "Proved. The clocks do not go back, no bucket array fails to be allocated, and the destructor is not among the calls. Strengthens the whole-history theorem of C08, which has no asynchronous lookups."
  },
  {
   "property": "C90",
   "status": "proved",
   "theorems": [
    "Hoard.Props.C90_dead_entries_do_not_pile_up",
    "Hoard.Props.C90_default_limit",
    "Hoard.Props.C90_count_bounds_memory",
    "Hoard.Props.C90_dropped_lookups_pile_up"
   ],
   "note": "Proved: bounds on entries and buckets for any limit p/q, for the default limit (where the bound 2M is reached by a concrete history), and in terms of count() for caches without asynchronous lookups. With an asynchronous resolver that drops its callbacks the table grows without bound although count() is always 0 (C90_dropped_lookups_pile_up). Load factor limits are exact fractions here; C105_default_is_exact says that with the default limit this is the same up to 2^24 entries and buckets, C105 what rounding does otherwise."
  },
  {
   "property": "C91",
   "status": "proved",
   "theorems": [
    "Hoard.Props.C91_values_are_those_of_the_function",
    "Hoard.Props.C91_get_is_the_function",
    "Hoard.Props.C91_the_cache_is_invisible",
    "Hoard.Props.C91_callbacks_get_the_function",
    "Hoard.Props.C91_each_value_is_computed_once"
   ],
   "note": "The condition on the resolver is Computes/ComputesAt in Verif/Spec/Pure.lean: it is a condition on the environment (what the resolver returns, what the user stores), not on the cache."
  },
  {
   "property": "C92",
   "status": "proved",
   "theorems": [
    "Hoard.Props.C92_resolver_computes_fibonacci",
    "Hoard.Props.C92_recursion_agrees",
    "Hoard.Props.C92_every_line_is_right",
    "Hoard.Props.C92_main"
   ],
   "note": "The text of the lines, the streams and the measured times are not modelled."
  },
  {
   "property": "C93",
   "status": "partial",
   "theorems": [
    "Hoard.Chain.C93_cost_of_inserting",
    "Hoard.Chain.C93_cost_of_removing",
    "Hoard.Chain.C93_cost_of_growing",
    "Hoard.Chain.C93_bounds_partial",
    "Hoard.Chain.C93_growing_is_quadratic",
    "Hoard.Chain.C93_filling_is_quadratic",
    "Hoard.Chain.C93_filling_partial"
   ],
   "note": "Proved: the exact cost of inserting, removing and growing, upper bounds for single calls (C93_bounds_partial) and for series (C93_filling_partial). The claim itself is false: C93_growing_is_quadratic and C93_filling_is_quadratic, for every number of entries. Only runs of the loops over the bucket array are counted, not the walk along a bucket, and not the filling of a new array."
  },
  {
   "property": "C94",
   "status": "partial",
   "theorems": [
    "Hoard.Props.C94_answers_stay_right",
    "Hoard.Props.C94_nothing_else_is_lost_partial",
    "Hoard.Props.C94_failed_emplace_may_lose_the_value",
    "Hoard.Props.C94_failed_emplace_may_leave_the_lookup",
    "Hoard.Props.C94_failed_lookup_is_invisible",
    "Hoard.Props.C94_failed_lookup_never_shows",
    "Hoard.Props.C94_failed_emplace_concerns_its_key_partial",
    "Hoard.Props.C94_waiters_hear_of_it"
   ],
   "note": "Proved for lookups: without size limit and refreshing a failed lookup changes nothing any later call shows (C94_failed_lookup_never_shows); with them, no answer of the store directly after it. For emplace the claim is false (C94_failed_emplace_may_lose_the_value, C94_failed_emplace_may_leave_the_lookup); proved instead: other keys are not concerned, its own key keeps its value or has none, and every history is exact if each failed emplace counts as one of three things. One failing step of user code per call; copies made after the walk are not modelled."
  },
  {
   "property": "C95",
   "status": "proved",
   "theorems": [
    "Hoard.Props.C95_counted_element",
    "Hoard.Props.C95_links",
    "Hoard.Props.C95_no_base_twice"
   ],
   "note": "Classes are names; what C++ does with a base class that occurs twice (ambiguity) is outside the model."
  },
  {
   "property": "C96",
   "status": "proved",
   "theorems": [
    "Hoard.Props.C96_order_of_policies",
    "Hoard.Props.C96_cache_does_what_the_policies_do"
   ],
   "note": "Two steps: events sent to any list of policies do the same in any order; and the cache all other properties are about does at each event what these policies do. Policies of the user's own take no events in the model."
  },
  {
   "property": "C97",
   "status": "proved",
   "theorems": [
    "Hoard.Props.C97_when_a_value_expires",
    "Hoard.Props.C97_refresh_is_not_a_use"
   ],
   "note": "Hits of the entry are assumed to happen only while it is not expired, as lookups do. Combinations of two refresh policies are covered although they do not compile."
  },
  {
   "property": "C98",
   "status": "proved",
   "theorems": [
    "Hoard.Props.C98_when_a_refresh_is_due",
    "Hoard.Props.C98_not_due_after_removal",
    "Hoard.Props.C98_errors_are_not_due"
   ],
   "note": "That a timer that is not stopped fires, and what its handler does, is in Verif.Timers (C60, C61)."
  },
  {
   "property": "C99",
   "status": "proved",
   "theorems": [
    "Hoard.PQ.C99_queue_order",
    "Hoard.PQ.C99_self_check_passes",
    "Hoard.PQ.C99_self_check_exact",
    "Hoard.PQ.C99_self_check_ignores_backward_links",
    "Hoard.PQ.C99_chosen_from_the_end",
    "Hoard.Props.C99_in_the_cache"
   ],
   "note": "Iterators of the typed list are modelled by those of the base list. That a cache's calls send legal events is part of C49; C99_in_the_cache states the self-check for the cache."
  },
  {
   "property": "C100",
   "status": "proved",
   "theorems": [
    "Hoard.Props.C100_only_equal_hash_codes",
    "Hoard.Props.C100_no_other_calls",
    "Hoard.Props.C100_stops_at_the_answer",
    "Hoard.Props.C100_removal_compares_all",
    "Hoard.Props.C100_one_entry_per_key",
    "Hoard.Props.C100_perfect_hash",
    "Hoard.Props.C100_same_walks",
    "Hoard.Props.C100_dropped_lookups_are_compared"
   ],
   "note": "The walks with a record of calls are proved to have the same results as those of the cache model. Calls of the resolver that use the cache themselves are not part of the count."
  },
  {
   "property": "C101",
   "status": "proved",
   "theorems": [
    "Hoard.Props.C101_arrays_are_given_back_once",
    "Hoard.Props.C101_all_arrays_are_given_back",
    "Hoard.Props.C101_null_at_most_once",
    "Hoard.Props.C101_null_is_given_back",
    "Hoard.Props.C101_failed_allocation",
    "Hoard.Props.C101_failed_insertion_can_be_repeated",
    "Hoard.Props.C101_filling_is_cheap",
    "Hoard.Props.C101_filling_default",
    "Hoard.Props.C101_reserve_one_by_one",
    "Hoard.Props.C101_same_table"
   ],
   "note": "On the exact-fraction arithmetic of Verif.Grow (C27); C101_same_table connects the two. The loops over the entries and over the bucket array while an entry is put in are counted in C93. Load factor limits are exact fractions here; C105_default_is_exact says that with the default limit this is the same up to 2^24 entries and buckets, C105 what rounding does otherwise."
  },
  {
   "property": "C102",
   "status": "partial",
   "theorems": [
    "Hoard.Props.C102_answers_are_current_partial",
    "Hoard.Props.C102_exact_partial",
    "Hoard.Props.C102_failed_refresh_changes_no_value_partial",
    "Hoard.Props.C102_growth_fails_exactly",
    "Hoard.Props.C102_no_failure_no_difference",
    "Hoard.Props.C102_no_second_attempt",
    "Hoard.Props.C102_value_stays_for_ever",
    "Hoard.Props.C102_others_are_refreshed_partial",
    "Hoard.Props.C102_late_delivery_is_hidden",
    "Hoard.Props.C102_failed_registration_removes_the_value",
    "Hoard.Props.C102_refresh_thread_ends_the_program"
   ],
   "note": "Partial: the claims about values assume that no handler runs late, no functor keeps its handle and throws, and no registration fails; C102_late_delivery_is_hidden and C102_failed_registration_removes_the_value show what happens otherwise. The case in which making the value in assign destroys the lookup (the program ends, C76) is left out."
  },
  {
   "property": "C103",
   "status": "partial",
   "theorems": [
    "Hoard.Props.C103_as_if_unbounded_partial",
    "Hoard.Props.C103_right_unless_overflow",
    "Hoard.Props.C103_146_years",
    "Hoard.Props.C103_store_overflows_exactly",
    "Hoard.Props.C103_delivery_overflows_exactly",
    "Hoard.Props.C103_hit_overflows_exactly",
    "Hoard.Props.C103_lookup_overflows_exactly",
    "Hoard.Props.C103_get_or_emplace_overflows_exactly",
    "Hoard.Props.C103_async_get_overflows_exactly",
    "Hoard.Props.C103_refresh_overflows_exactly",
    "Hoard.Props.C103_age_limit_for_ever",
    "Hoard.Props.C103_idle_timer_for_ever",
    "Hoard.Props.C103_for_ever_is_now"
   ],
   "note": "Partial: equal to unbounded times only if the limits can be added to the times shown. C103_age_limit_for_ever, C103_idle_timer_for_ever and C103_for_ever_is_now show what happens with the largest limits."
  },
  {
   "property": "C104",
   "status": "partial",
   "theorems": [
    "Hoard.Props.C104_same_loops",
    "Hoard.Props.C104_looks_at_its_bucket",
    "Hoard.Props.C104_nothing_else",
    "Hoard.Props.C104_pass_only_if_full",
    "Hoard.Props.C104_emplace_pass",
    "Hoard.Props.C104_no_memory_no_pass",
    "Hoard.Props.C104_no_call_no_pass",
    "Hoard.Props.C104_pass_pays",
    "Hoard.Props.C104_idle_passes_are_cheap_partial",
    "Hoard.Props.C104_no_limit_no_tail",
    "Hoard.Props.C104_tail_bound",
    "Hoard.Props.C104_too_many_are_looked_at",
    "Hoard.Props.C104_removed_are_looked_at",
    "Hoard.Props.C104_growth_looks_at_all",
    "Hoard.Props.C104_clogged_stays_clogged",
    "Hoard.Props.C104_limit_costs_a_pass_each",
    "Hoard.Props.C104_limit_costs_the_tail_each"
   ],
   "note": "Partial: the average cost is bounded only for passes that remove nothing (C104_idle_passes_are_cheap_partial). C104_clogged_stays_clogged, C104_limit_costs_a_pass_each and C104_limit_costs_the_tail_each show that it is not bounded for caches with a size limit. Load factor limits are exact fractions here; C105_default_is_exact says that with the default limit this is the same up to 2^24 entries and buckets, C105 what rounding does otherwise."
  },
  {
   "property": "C105",
   "status": "partial",
   "theorems": [
    "Hoard.Props.C105_rounding",
    "Hoard.Props.C105_default_is_exact",
    "Hoard.Props.C105_reported_limit_kept_partial",
    "Hoard.Props.C105_real_limit_nearly_kept",
    "Hoard.Props.C105_models_agree",
    "Hoard.Props.C105_large_tables_hold_more",
    "Hoard.Props.C105_reserved_is_nearly_enough",
    "Hoard.Props.C105_only_the_last_grows",
    "Hoard.Props.C105_reserved_is_enough_partial",
    "Hoard.Props.C105_removals_make_room_partial",
    "Hoard.Props.C105_reserve_too_small",
    "Hoard.Props.C105_reserve_too_small_for_five",
    "Hoard.Props.C105_reserve_undefined",
    "Hoard.Props.C105_infinite_limit",
    "Hoard.Props.C105_new_limit_too_small",
    "Hoard.Props.C105_new_limit_undefined",
    "Hoard.Props.C105_bad_limit_never_grows",
    "Hoard.Props.C105_bad_limit_always_grows",
    "Hoard.Props.C105_any_limit"
   ],
   "note": "Partial: C105_reported_limit_kept_partial is for limits of at least 1/4 that are never changed (for every limit: C105_any_limit), C105_reserved_is_enough_partial for limits that are powers of two. C105_large_tables_hold_more, C105_reserve_too_small, C105_new_limit_too_small, C105_reserve_undefined and C105_new_limit_undefined show that the full claims are false."
  },
  {
   "property": "C106",
   "status": "partial",
   "theorems": [
    "Hoard.Props.C106_constructed",
    "Hoard.Props.C106_failure_ends_the_program",
    "Hoard.Props.C106_never_throws",
    "Hoard.Props.C106_destructor_stops_all",
    "Hoard.Props.C106_failure_is_undone_partial"
   ],
   "note": "Partial: C106_failure_is_undone_partial is about the program without noexcept; C106_failure_ends_the_program shows that the code ends instead."
  },
  {
   "property": "C107",
   "status": "partial",
   "theorems": [
    "Hoard.Props.C107_right_iff",
    "Hoard.Props.C107_some_result_is_lost",
    "Hoard.Props.C107_handlers_cannot_tell",
    "Hoard.Props.C107_null_error_is_a_value",
    "Hoard.Props.C107_futures_right_partial"
   ],
   "note": "Partial: C107_futures_right_partial needs that no error counts as none; C107_some_result_is_lost and C107_null_error_is_a_value show that the full claim is false."
  },
  {
   "property": "C108",
   "status": "partial",
   "theorems": [
    "Hoard.Props.C108_handlers_neither_lost_nor_repeated",
    "Hoard.Props.C108_handlers_run_once",
    "Hoard.Props.C108_resolver_neither_lost_nor_repeated",
    "Hoard.Props.C108_not_inside_async_get",
    "Hoard.Props.C108_runs_only_on_its_executor",
    "Hoard.Props.C108_when_run_returns",
    "Hoard.Props.C108_executors_finish",
    "Hoard.Props.C108_dropped_inside_never_returns",
    "Hoard.Props.C108_in_order_partial",
    "Hoard.Props.C108_older_value_later"
   ],
   "note": "Partial: C108_in_order_partial needs that results are delivered by threads outside of the executors; C108_older_value_later and C108_dropped_inside_never_returns show what is false."
  },
  {
   "property": "C109",
   "status": "partial",
   "theorems": [
    "Hoard.Props.C109_nothing_after",
    "Hoard.Props.C109_once",
    "Hoard.Props.C109_ordered_if_acquire",
    "Hoard.Props.C109_ordered_if_locked_partial",
    "Hoard.Props.C109_not_ordered"
   ],
   "note": "Partial: C109_ordered_if_locked_partial needs the lock; C109_not_ordered shows that accesses need not happen before the destruction otherwise; C109_ordered_if_acquire is about the repaired program."
  },
  {
   "property": "C110",
   "status": "partial",
   "theorems": [
    "Hoard.Props.C110_full_or_complete_partial",
    "Hoard.Props.C110_by_default_partial",
    "Hoard.Props.C110_count_by_default_partial",
    "Hoard.Props.C110_erased_entries_take_room",
    "Hoard.Props.C110_failures_take_room",
    "Hoard.Props.C110_limit_of_four"
   ],
   "note": "Partial: C110_full_or_complete_partial, C110_by_default_partial and C110_count_by_default_partial need that calls only fill and that the cache has fewer than 2N entries; C110_erased_entries_take_room, C110_failures_take_room and C110_limit_of_four show that each is needed."
  },
  {
   "property": "C111",
   "status": "partial",
   "theorems": [
    "Hoard.Props.C111_value_is_the_key",
    "Hoard.Props.C111_matches",
    "Hoard.Props.C111_erased_matches_nothing",
    "Hoard.Props.C111_lookups_partial",
    "Hoard.Props.C111_age_limit_ignored"
   ],
   "note": "Partial: C111_lookups_partial gives equal lookups until a time policy expires the value; C111_age_limit_ignored and C111_erased_matches_nothing show the differences. The public cache types have no sets; the claim is about the entry classes."
  },
  {
   "property": "C112",
   "status": "proved",
   "theorems": [
    "Hoard.Props.C112_calls_the_function",
    "Hoard.Props.C112_undefined_exactly",
    "Hoard.Props.C112_nested_is_defined",
    "Hoard.Props.C112_const_copy_outlives",
    "Hoard.Props.C112_copy_dangles"
   ],
   "note": "Partial: the part about copies is false for references that are not const (C112_copy_dangles); the rest is proved without conditions."
  },
  {
   "property": "C113",
   "status": "partial",
   "theorems": [
    "Hoard.Props.C113_calls_make_sense",
    "Hoard.Props.C113_policy_knows_entries",
    "Hoard.Props.C113_values_are_announced",
    "Hoard.Props.C113_flags_tell_the_result",
    "Hoard.Props.C113_all_unlinked_at_the_end",
    "Hoard.Props.C113_pending_is_not_unlinked_partial",
    "Hoard.Props.C113_destructor_unlinks_pending",
    "Hoard.Props.C113_one_report_per_lookup",
    "Hoard.Props.C113_miss_calls_the_resolver",
    "Hoard.Props.C113_get_reports_its_answer",
    "Hoard.Props.C113_hit_names_the_entry",
    "Hoard.Props.C113_recency_queue_follows_the_calls",
    "Hoard.Props.C113_refresh_queue_follows_the_calls"
   ],
   "note": "Partial: that pending lookups are never unlinked (notes.txt:22) is false of the destructor (C113_destructor_unlinks_pending); everything else is proved without restriction."
  },
  {
   "property": "C114",
   "status": "partial",
   "theorems": [
    "Hoard.Props.C114_nested_calls_make_sense",
    "Hoard.Props.C114_nested_policy_knows_entries",
    "Hoard.Props.C114_nested_values_are_announced",
    "Hoard.Props.C114_nested_flags_tell_the_result",
    "Hoard.Props.C114_async_calls_make_sense",
    "Hoard.Props.C114_async_policy_knows_entries",
    "Hoard.Props.C114_async_values_are_announced",
    "Hoard.Props.C114_async_flags_tell_the_result",
    "Hoard.Props.C114_handler_calls_make_sense_partial",
    "Hoard.Props.C114_handler_policy_knows_entries_partial",
    "Hoard.Props.C114_handler_values_are_announced_partial",
    "Hoard.Props.C114_handler_flags_tell_the_result",
    "Hoard.Props.C114_recency_queue_follows_the_calls",
    "Hoard.Props.C114_assigned_after_unlink",
    "Hoard.Props.C114_refresh_queue_keeps_unlinked_entry",
    "Hoard.Props.C114_value_before_announcement"
   ],
   "note": "Partial: for completion handlers the order of assignment and unlinking is false of the code (C114_assigned_after_unlink, C114_value_before_announcement), and the refresh policy is left out there because its queue can then hold entries that are gone (C114_refresh_queue_keeps_unlinked_entry). Resolvers and functors are proved without restriction."
  },
  {
   "property": "C115",
   "status": "proved",
   "theorems": [
    "Hoard.Props.C115_failing_calls_make_sense",
    "Hoard.Props.C115_failing_policy_knows_entries",
    "Hoard.Props.C115_failing_values_are_announced",
    "Hoard.Props.C115_failing_flags_tell_the_result",
    "Hoard.Props.C115_failed_lookup_is_reported",
    "Hoard.Props.C115_spoiled_entry_is_never_assigned",
    "Hoard.Props.C115_left_calls_make_sense",
    "Hoard.Props.C115_left_policy_knows_entries",
    "Hoard.Props.C115_left_values_are_announced",
    "Hoard.Props.C115_left_call_reports_no_lookup",
    "Hoard.Props.C115_recency_queue_follows_the_calls",
    "Hoard.Props.C115_refresh_queue_follows_the_calls"
   ],
   "note": ""
  },
  {
   "property": "C116",
   "status": "partial",
   "theorems": [
    "Hoard.QMove.C116_moving_keeps_the_queue_partial",
    "Hoard.QMove.C116_where_the_queue_is",
    "Hoard.QMove.C116_old_queue_reaches_the_new_one",
    "Hoard.QMove.C116_moving_an_empty_queue"
   ],
   "note": "Proved for queues that are not empty when they are moved; the full claim is false, see C116_moving_an_empty_queue. No cache of the library is moved this way: the class queue has no move constructor."
  },
  {
   "property": "C117",
   "status": "partial",
   "theorems": [
    "Hoard.Props.C117_memory_goes_back_partial",
    "Hoard.Props.C117_nothing_leaks_partial",
    "Hoard.Props.C117_pointers_know_the_allocator_partial",
    "Hoard.Props.C117_failing_changes_nothing",
    "Hoard.Props.C117_failed_assignment_loses_the_old_value_partial",
    "Hoard.Props.C117_throwing_destructor_loses_the_memory_partial",
    "Hoard.Props.C117_one_allocator_needs_no_care_partial",
    "Hoard.Props.C117_adopting_with_another_allocator_is_wrong"
   ],
   "note": "As in C30, correct use excludes reset() and reset(ptr) of a pointer to an object with other owners, where the code is wrong. Not modelled: throwing deallocate, and the ends of the program by exceptions in noexcept functions, such as throwing allocator copies in adopt, which is noexcept."
  }
 ]
}