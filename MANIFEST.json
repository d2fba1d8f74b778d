{
 "claims": [
  {
   "property": "C01",
   "status": "proved",
   "theorems": [
    "Toffee.LFSR.C01_rand_is_64_bit"
   ],
   "note": ""
  },
  {
   "property": "C02",
   "status": "proved",
   "theorems": [
    "Toffee.LFSR.C02_period",
    "Toffee.LFSR.C02_never_zero",
    "Toffee.LFSR.C02_visits_every_value_once",
    "Toffee.LFSR.C02_zero_seed_stuck"
   ],
   "note": ""
  },
  {
   "property": "C03",
   "status": "proved",
   "theorems": [
    "Toffee.TwoBits.C03_range",
    "Toffee.TwoBits.C03_two_equal_outcomes_decide",
    "Toffee.TwoBits.C03_strong_state_hysteresis",
    "Toffee.TwoBits.C03_three_equal_outcomes_saturate",
    "Toffee.TwoBits.C03_prediction_values",
    "Toffee.TwoBits.C03_moves_by_one"
   ],
   "note": ""
  },
  {
   "property": "C04",
   "status": "proved",
   "theorems": [
    "Toffee.PLRU.C04_recently_used_not_evicted",
    "Toffee.PLRU.C04_not_most_recent"
   ],
   "note": ""
  },
  {
   "property": "C05",
   "status": "partial",
   "theorems": [
    "Toffee.PLRU.C05_victim_valid_partial",
    "Toffee.PLRU.C05_victim_bound_partial",
    "Toffee.PLRU.C05_victim_invalid_violated"
   ],
   "note": "holds for powers of two; violated otherwise (witness)"
  },
  {
   "property": "C06",
   "status": "proved",
   "theorems": [
    "Toffee.PLRU.C06_sweep_is_fair"
   ],
   "note": ""
  },
  {
   "property": "C07",
   "status": "proved",
   "theorems": [
    "Toffee.Delayer.C07_value_is_delayed_sample",
    "Toffee.Delayer.C07_value_available",
    "Toffee.Delayer.C07_buffer_bounded",
    "Toffee.Delayer.C07_constructor",
    "Toffee.Delayer.C07_delayers_independent"
   ],
   "note": ""
  },
  {
   "property": "C08",
   "status": "partial",
   "theorems": [
    "Toffee.Props.LoopHooks.C08_once_partial",
    "Toffee.Props.LoopHooks.C08_double_sample_violated"
   ],
   "note": "Sampled exactly once in cycles without executed done-event hooks; at least twice in every cycle with one (code violates the claim)."
  },
  {
   "property": "C09",
   "status": "proved",
   "theorems": [
    "Toffee.Props.LoopCycles.C09_resumes_in_cycle",
    "Toffee.Props.LoopCycles.C09_not_later",
    "Toffee.Triggers.C09_clockCycles_exact"
   ],
   "note": "Per-coroutine part plus the event-loop part: a task that enters the n-cycle wait in cycle c leaves it in cycle c+n, for every program, schedule and timer oracle (ClockPrivate: only the clock loop sets dut.event); the clock cannot get past cycle c+n before it does, unless the test is over and the task is cancelled."
  },
  {
   "property": "C10",
   "status": "proved",
   "theorems": [
    "Toffee.Triggers.C10_value_earliest",
    "Toffee.Triggers.C10_condition_earliest",
    "Toffee.Triggers.C10_allValid_earliest",
    "Toffee.Triggers.C10_allValid_no_pins",
    "Toffee.Triggers.C10_value_never"
   ],
   "note": ""
  },
  {
   "property": "C11",
   "status": "proved",
   "theorems": [
    "Toffee.Triggers.C11_change_earliest"
   ],
   "note": ""
  },
  {
   "property": "C12",
   "status": "proved",
   "theorems": [
    "Toffee.Triggers.C12_risingEdge",
    "Toffee.Triggers.C12_fallingEdge"
   ],
   "note": ""
  },
  {
   "property": "C13",
   "status": "partial",
   "theorems": [
    "Toffee.Props.LoopQuiet.C13_quiescent_partial",
    "Toffee.Props.LoopQuiet.C13_cancel_quiescent",
    "Toffee.Props.LoopQuiet.C13_violated"
   ],
   "note": "Holds whenever hooks without done event (monitor hooks) do not set events, put into queues or create tasks; false otherwise (witness)."
  },
  {
   "property": "C14",
   "status": "proved",
   "theorems": [
    "Toffee.Props.LoopOrder.C14_rounds",
    "Toffee.Props.Priority.C14_execute",
    "Toffee.Props.Priority.C14_order_unique"
   ],
   "note": "Hooks requested in a batch run in stable priority order; that order is unique; a round cut short by an exception executed the first hooks of that order."
  },
  {
   "property": "C15",
   "status": "proved",
   "theorems": [
    "Toffee.Props.LoopHooks.C15_none_pending",
    "Toffee.Props.LoopHooks.C15_executed_in_cycle",
    "Toffee.Props.LoopHooks.C15_once",
    "Toffee.Props.LoopHooks.C15_only_requested"
   ],
   "note": "Log-based: no hook pending at a step, executed between its request and the next step, at most once, only after the request."
  },
  {
   "property": "C16",
   "status": "proved",
   "theorems": [
    "Toffee.Props.LoopClock.C16_fifo_once",
    "Toffee.Props.LoopClock.C16_waiting_at_step"
   ],
   "note": "Every clock waiter of cycle i resumes exactly once, in FIFO order, in cycle i+1. Hypothesis ClockPrivate: only the clock loop sets dut.event (user code and hooks do not)."
  },
  {
   "property": "C17",
   "status": "partial",
   "theorems": [
    "Toffee.Props.LoopEnd.C17_one_step_partial",
    "Toffee.Props.LoopEnd.C17_second_step_violated",
    "Toffee.Props.LoopEnd.C17_returns"
   ],
   "note": "False as stated: proved for every system that the DUT is stepped exactly twice between the return of the test and the end of the loop (C17_second_step_violated). The rest holds: the remaining tasks reach a blocking point and are cancelled, then the DUT is stepped once before main_coro is woken, the result is the test's result, and the loop then terminates. Hypotheses: a clock was started, only the clock loop sets dut.event, handle_exception did not stop the loop."
  },
  {
   "property": "C18",
   "status": "proved",
   "theorems": [
    "Toffee.Props.LoopGather.C18_gather",
    "Toffee.Props.LoopGather.C18_raises"
   ],
   "note": "Results in argument order, all created tasks finished, for every program using the gather code and every schedule; when gather raises, the exception is that of the first task in argument order that failed, and those before it have finished."
  },
  {
   "property": "C19",
   "status": "partial",
   "theorems": [
    "Toffee.Executor.C19_sequential",
    "Toffee.Executor.C19_results",
    "Toffee.Executor.C19_once",
    "Toffee.Executor.C19_only",
    "Toffee.Executor.C19_expected_partial",
    "Toffee.Executor.C19_rejected_violated"
   ],
   "note": "Order and results proved for all call sequences and all interleavings; with rejected calls the results have extra empty groups, so the wording holds for accepted calls only."
  },
  {
   "property": "C20",
   "status": "proved",
   "theorems": [
    "Toffee.Executor.C20_all",
    "Toffee.Executor.C20_empty",
    "Toffee.Executor.C20_wait_all",
    "Toffee.Executor.C20_again",
    "Toffee.Executor.C20_any",
    "Toffee.Executor.C20_invalid"
   ],
   "note": "All exit modes, all interleavings."
  },
  {
   "property": "C21",
   "status": "partial",
   "theorems": [
    "Toffee.Driver.C21_first_partial",
    "Toffee.Driver.C21_serial_partial",
    "Toffee.Driver.C21_priority_violated",
    "Toffee.Driver.C21_direct_violated",
    "Toffee.Driver.C21_mismatch_violated"
   ],
   "note": "Fails for overlapping calls of one driver method, for direct calls next to executor calls, and after a mismatch (three witnesses). Proved: executor calls always get their own order and their own priorities for model_first hooks; everything is right when calls of one driver do not overlap and match."
  },
  {
   "property": "C22",
   "status": "partial",
   "theorems": [
    "Toffee.Driver.C22_sides_partial",
    "Toffee.Driver.C22_whole_partial",
    "Toffee.Driver.C22_finishes",
    "Toffee.Driver.C22_ports_violated"
   ],
   "note": "Proved for every interleaving for the hooks of models that provide no port for the method; a model with both a port and a hook has its hook skipped (witness)."
  },
  {
   "property": "C23",
   "status": "proved",
   "theorems": [
    "Toffee.Driver.C23_compare"
   ],
   "note": "For every interleaving, every compare function and every list of results."
  },
  {
   "property": "C24",
   "status": "partial",
   "theorems": [
    "Toffee.Args.C24_delivers_partial",
    "Toffee.Args.C24_invalid_partial",
    "Toffee.Args.C24_spelling_partial",
    "Toffee.Args.C24_keyword_partial",
    "Toffee.Args.C24_agent_violated",
    "Toffee.Args.C24_self_violated",
    "Toffee.Driver.C24_served"
   ],
   "note": "Fails for a parameter named agent given by keyword and for methods whose first parameter is not named self (witnesses); proved for all other signatures of positional-or-keyword and keyword-only parameters and all calls."
  },
  {
   "property": "C25",
   "status": "proved",
   "theorems": [
    "Toffee.Port.C25_fifo",
    "Toffee.Port.C25_bounded",
    "Toffee.Port.C25_drops_exactly_when_full",
    "Toffee.Port.C25_unbounded_accepts_all",
    "Toffee.Port.C25_constructor"
   ],
   "note": ""
  },
  {
   "property": "C26",
   "status": "partial",
   "theorems": [
    "Toffee.Props.MonitorLife.C26_no_env_violated",
    "Toffee.Port.C26_fifo_bounded",
    "Toffee.Port.C26_drops_exactly_when_full_partial",
    "Toffee.Port.C26_before_start",
    "Toffee.Port.C26_nonpositive_size_drops_all"
   ],
   "note": "Holds as long as the monitor task runs, so for every agent of an environment (C131_env_partial). For an agent that belongs to no environment a full queue ends the task, and later values are dropped although there is room (C26_no_env_violated)."
  },
  {
   "property": "C27",
   "status": "proved",
   "theorems": [
    "Toffee.Monitor.C27_all",
    "Toffee.Monitor.C27_ports",
    "Toffee.Monitor.C27_once",
    "Toffee.Monitor.C27_only"
   ],
   "note": "For every interleaving of any number of monitors; per sink: in order, exactly once, None nowhere."
  },
  {
   "property": "C28",
   "status": "proved",
   "theorems": [
    "Toffee.Paths.C28_dunder",
    "Toffee.Paths.C28_agent_method",
    "Toffee.Paths.C28_plain_name",
    "Toffee.Paths.C28_hook",
    "Toffee.Paths.C28_port",
    "Toffee.Paths.C28_accepts",
    "Toffee.Paths.C28_agent_hook"
   ],
   "note": "Path resolution for driver/monitor hooks and ports and agent hooks; dunder reading proved for all names."
  },
  {
   "property": "C29",
   "status": "partial",
   "theorems": [
    "Toffee.Attach.C29_accepts",
    "Toffee.Attach.C29_fits_partial",
    "Toffee.Attach.C29_value_error_partial",
    "Toffee.Attach.C29_rejects_violated",
    "Toffee.Attach.C29_accepts_violated",
    "Toffee.Attach.C29_value_error_violated"
   ],
   "note": "Exact acceptance condition proved for all models (C29_accepts); it departs from the statement in both directions (witnesses); equivalence proved for plain models."
  },
  {
   "property": "C30",
   "status": "proved",
   "theorems": [
    "Toffee.Attach.C30_wiring",
    "Toffee.Attach.C30_exact",
    "Toffee.Attach.C30_order",
    "Toffee.Attach.C30_attached_models"
   ],
   "note": "For every history of attach/unattach calls, including failing ones."
  },
  {
   "property": "C31",
   "status": "partial",
   "theorems": [
    "Toffee.Attach.C31_failed_attach_partial",
    "Toffee.Attach.C31_failed_attach_violated"
   ],
   "note": "False: injection precedes the check. Partial: attached list, other models and other envs are unchanged."
  },
  {
   "property": "C32",
   "status": "partial",
   "theorems": [
    "Toffee.Attach.C32_accepted",
    "Toffee.Attach.C32_history_partial",
    "Toffee.Attach.C32_stale_violated"
   ],
   "note": "False: match marks live on shared function objects and are never cleared. Proved: acceptance is never lost; exact for histories of other classes."
  },
  {
   "property": "C33",
   "status": "partial",
   "theorems": [
    "Toffee.Attach.C33_unattach_violated",
    "Toffee.Attach.C33_move_violated",
    "Toffee.Attach.C33_uninject_partial"
   ],
   "note": "False: unattach raises AttributeError and changes nothing; is_attached is never true. Partial: the unreachable uninject code removes exactly the model's wiring."
  },
  {
   "property": "C34",
   "status": "proved",
   "theorems": [
    "Toffee.Bundle.C34_bind_connects",
    "Toffee.Bundle.C34_bind_exact"
   ],
   "note": "For every bundle tree with distinct slot names per level, every rule and every DUT with distinct signal names."
  },
  {
   "property": "C35",
   "status": "proved",
   "theorems": [
    "Toffee.Bundle.C35_pin_once"
   ],
   "note": "For every bundle tree with distinct slot names per level, every rule and every DUT with distinct signal names."
  },
  {
   "property": "C36",
   "status": "proved",
   "theorems": [
    "Toffee.Bundle.C36_detect_iff_denotes",
    "Toffee.Bundle.C36_detect_iff_connected",
    "Toffee.Bundle.C36_detect_iff_slot"
   ],
   "note": "For every bundle tree with distinct slot names per level, every rule and every DUT with distinct signal names."
  },
  {
   "property": "C37",
   "status": "partial",
   "theorems": [
    "Toffee.Bundle.C37_specific_partial",
    "Toffee.Bundle.C37_specific_violated"
   ],
   "note": "With prefix rules, a name denoting a slot is reported True. The converse fails and the other rules raise: see the violation theorem."
  },
  {
   "property": "C38",
   "status": "proved",
   "theorems": [
    "Toffee.Bundle.C38_unconnected",
    "Toffee.Bundle.C38_connected"
   ],
   "note": "reads of unconnected and connected slots"
  },
  {
   "property": "C39",
   "status": "proved",
   "theorems": [
    "Toffee.Bundle.C39_assign_as_dict",
    "Toffee.Bundle.C39_as_dict_assign",
    "Toffee.Bundle.C39_readable"
   ],
   "note": "for messages with the keys in any order at every level; the pins must be able to hold the values (a hypothesis on the device)"
  },
  {
   "property": "C40",
   "status": "partial",
   "theorems": [
    "Toffee.Bundle.C40_round_trip_partial",
    "Toffee.Bundle.C40_round_trip_violated"
   ],
   "note": "proved for trees without bundle lists, for messages with the keys in any order; false with them (C40_round_trip_violated): flat assign does not know the keys v[i].name that flat as_dict produces"
  },
  {
   "property": "C41",
   "status": "proved",
   "theorems": [
    "Toffee.Bundle.C41_only_named",
    "Toffee.Bundle.C41_unknown_keys"
   ],
   "note": "pins not named keep their value; unknown keys are exactly those reported, with no other effect"
  },
  {
   "property": "C42",
   "status": "partial",
   "theorems": [
    "Toffee.Bundle.C42_final_partial",
    "Toffee.Bundle.C42_named_partial",
    "Toffee.Bundle.C42_default",
    "Toffee.Bundle.C42_output",
    "Toffee.Bundle.C42_flat_order_violated"
   ],
   "note": "holds for multilevel messages and for flat messages whose only star key is the top-level one; a flat message with a 'sub.*' key after 'sub.name' overwrites it (C42_flat_order_violated)"
  },
  {
   "property": "C43",
   "status": "partial",
   "theorems": [
    "Toffee.Bundle.C43_argument_partial",
    "Toffee.Bundle.C43_star_removed_violated",
    "Toffee.Bundle.C43_argument_violated"
   ],
   "note": "the argument keeps everything but its '*' keys; assign deletes '*' from the caller's dictionary (C43_star_removed_violated)"
  },
  {
   "property": "C44",
   "status": "proved",
   "theorems": [
    "Toffee.Bundle.C44_set_all",
    "Toffee.Bundle.C44_randomize_all"
   ],
   "note": "set_all and randomize_all"
  },
  {
   "property": "C45",
   "status": "proved",
   "theorems": [
    "Toffee.Bundle.C45_every_slot_once",
    "Toffee.Bundle.C45_paths_distinct"
   ],
   "note": "For every tree with distinct slot names; distinct path names need clean sibling names."
  },
  {
   "property": "C46",
   "status": "partial",
   "theorems": [
    "Toffee.Bundle.C46_unconnected_partial",
    "Toffee.Bundle.C46_multiple_partial",
    "Toffee.Bundle.C46_counting_violated"
   ],
   "note": "Proved for every sequence of bundles with prefix and dictionary rules. Fails with regular expressions that identify two names: see the violation theorem."
  },
  {
   "property": "C47",
   "status": "partial",
   "theorems": [
    "Toffee.Bundle.C47_slots_default_partial",
    "Toffee.Bundle.C47_slots_no_lists_partial",
    "Toffee.Bundle.C47_counts_partial",
    "Toffee.Bundle.C47_clock_partial",
    "Toffee.Bundle.C47_rebind_violated"
   ],
   "note": "Slots: proved for the default access on every tree, and for all access choices without lists. Counts: proved without lists. Clock: proved with a single clock event. The full claim fails: see the violation theorem."
  },
  {
   "property": "C48",
   "status": "proved",
   "theorems": [
    "Toffee.Bundle.C48_every_slot",
    "Toffee.Bundle.C48_rule_connects"
   ],
   "note": "For every tree of prefix rules."
  },
  {
   "property": "C49",
   "status": "partial",
   "theorems": [
    "Toffee.Requests.C49_order_partial",
    "Toffee.Requests.C49_one_per_cycle_partial",
    "Toffee.Requests.C49_returns_partial",
    "Toffee.Requests.C49_last_partial",
    "Toffee.Requests.C49_terminates",
    "Toffee.Requests.C49_returns_violated",
    "Toffee.Requests.C49_rebind_violated",
    "Toffee.Requests.C49_reuse_violated"
   ],
   "note": "Proved for a bundle that was bound once, new dictionaries, and a last request that does not wait (any list, conditions and callable requests); the loop ends if conditions hold again and again. Violated: a last conditional request that has to wait is not waited for; two binds apply two requests per cycle; a reused dictionary gives a stale result."
  },
  {
   "property": "C50",
   "status": "proved",
   "theorems": [
    "Toffee.Bundle.C50_names_distinct",
    "Toffee.Bundle.C50_default_distinct",
    "Toffee.Bundle.C50_bundle_prefixes_distinct",
    "Toffee.Bundle.C50_one_index"
   ],
   "note": "For every format, limit and injective rule."
  },
  {
   "property": "C51",
   "status": "partial",
   "theorems": [
    "Toffee.Instances.C51_own_partial",
    "Toffee.Instances.C51_parts_partial",
    "Toffee.Instances.C51_plain_partial",
    "Toffee.Instances.C51_create",
    "Toffee.Instances.C51_create_parts",
    "Toffee.Instances.C51_assign_pins",
    "Toffee.Instances.C51_assign",
    "Toffee.Instances.C51_violated"
   ],
   "note": "Proved for every program of constructions and method calls: everything outside of the elements of bundle lists is independent, and everything for classes without bundle lists. Violated: instances of a class with a bundle list share its elements, so binding one instance moves the elements of another."
  },
  {
   "property": "C52",
   "status": "proved",
   "theorems": [
    "Toffee.FunCov.C52_bin_counts_exact",
    "Toffee.FunCov.C52_one_counter_per_bin",
    "Toffee.FunCov.C52_new_point"
   ],
   "note": ""
  },
  {
   "property": "C53",
   "status": "proved",
   "theorems": [
    "Toffee.FunCov.C53_point_covered_iff",
    "Toffee.FunCov.C53_all_covered_iff",
    "Toffee.FunCov.C53_sample_keeps_covered"
   ],
   "note": ""
  },
  {
   "property": "C54",
   "status": "proved",
   "theorems": [
    "Toffee.FunCov.C54_stopped_sample_is_void",
    "Toffee.FunCov.C54_live_sample_counts",
    "Toffee.FunCov.C54_counters",
    "Toffee.FunCov.C54_stops_iff",
    "Toffee.FunCov.C54_resumes",
    "Toffee.FunCov.C54_resume_sample"
   ],
   "note": ""
  },
  {
   "property": "C55",
   "status": "proved",
   "theorems": [
    "Toffee.FunCov.C55_totals",
    "Toffee.FunCov.C55_all_covered"
   ],
   "note": ""
  },
  {
   "property": "C56",
   "status": "partial",
   "theorems": [
    "Toffee.FunCov.C56_hinted_agrees_violated",
    "Toffee.FunCov.C56_hinted_agrees_partial"
   ],
   "note": "violated after del_point of the last uncovered point and before the first sample; holds after every effective sample"
  },
  {
   "property": "C57",
   "status": "proved",
   "theorems": [
    "Toffee.FunCov.C57_rejected_unchanged",
    "Toffee.FunCov.C57_add_rejected_iff",
    "Toffee.FunCov.C57_unknown_name_rejected",
    "Toffee.FunCov.C57_other_points_unchanged"
   ],
   "note": ""
  },
  {
   "property": "C58",
   "status": "partial",
   "theorems": [
    "Toffee.FunCov.C58_stop_sample_violated",
    "Toffee.FunCov.C58_stop_attribute_partial"
   ],
   "note": "violated: the method is shadowed by the attribute of the same name and the call raises TypeError; assigning the attribute works"
  },
  {
   "property": "C59",
   "status": "partial",
   "theorems": [
    "Toffee.FunCov.C59_once_violated",
    "Toffee.FunCov.C59_once_partial"
   ],
   "note": "violated for single points; holds for the whole group"
  },
  {
   "property": "C60",
   "status": "proved",
   "theorems": [
    "Toffee.FunCov.C60_mark_exact",
    "Toffee.FunCov.C60_mark_rejected",
    "Toffee.FunCov.C60_mark_unknown",
    "Toffee.FunCov.C60_mark_idempotent"
   ],
   "note": ""
  },
  {
   "property": "C61",
   "status": "proved",
   "theorems": [
    "Toffee.FunCov.C61_conditions_decide",
    "Toffee.FunCov.C61_complements",
    "Toffee.FunCov.C61_list_is_conjunction"
   ],
   "note": ""
  },
  {
   "property": "C62",
   "status": "proved",
   "theorems": [
    "Toffee.Logger.C62_severity_exact",
    "Toffee.Logger.C62_severity_keys"
   ],
   "note": ""
  },
  {
   "property": "C63",
   "status": "proved",
   "theorems": [
    "Toffee.Logger.C63_each_record_once",
    "Toffee.Logger.C63_last_setup_wins"
   ],
   "note": ""
  },
  {
   "property": "C64",
   "status": "partial",
   "theorems": [
    "Toffee.Logger.C64_id_display_violated",
    "Toffee.Logger.C64_id_display_partial",
    "Toffee.Logger.C64_no_id"
   ],
   "note": "violated when both console and file output are on"
  },
  {
   "property": "C65",
   "status": "proved",
   "theorems": [
    "Toffee.CodeGen.C65_line_width"
   ],
   "note": ""
  },
  {
   "property": "C66",
   "status": "proved",
   "theorems": [
    "Toffee.CodeGen.C66_declares_exactly",
    "Toffee.CodeGen.C66_names_read_back",
    "Toffee.CodeGen.C66_sorted",
    "Toffee.CodeGen.C66_selected"
   ],
   "note": ""
  },
  {
   "property": "C67",
   "status": "partial",
   "theorems": [
    "Toffee.Paths.C67_reuse_violated",
    "Toffee.Paths.C67_agent_reuse_violated",
    "Toffee.Paths.C67_reuse_partial"
   ],
   "note": "False: the nonlocal arguments keep what the first function set. Partial: explicit arguments (nothing derived from the name)."
  },
  {
   "property": "C68",
   "status": "partial",
   "theorems": [
    "Toffee.Executor.C68_ends_partial",
    "Toffee.Executor.C68_any_violated"
   ],
   "note": "False for exit=any without coroutines; proved otherwise (bounded progress, no deadlock)."
  },
  {
   "property": "C69",
   "status": "partial",
   "theorems": [
    "Toffee.Executor.C69_concurrent",
    "Toffee.Executor.C69_overlap_partial",
    "Toffee.Executor.C69_same_method",
    "Toffee.Executor.C69_overlap_violated"
   ],
   "note": "Same-method calls never overlap and the first calls of all groups can overlap, for every list of calls and interleaving. The full claim is false: two agents that belong to no Env both have the name '', so their methods of the same name share a group (C69_overlap_violated); proved when different agents have different names."
  },
  {
   "property": "C70",
   "status": "proved",
   "theorems": [
    "Toffee.Settings.C70_rejects",
    "Toffee.Settings.C70_rejected_never_runs",
    "Toffee.Settings.C70_order"
   ],
   "note": "Rejection is exact, rejected coroutines never run; the order is proved on the executed log of the call."
  },
  {
   "property": "C71",
   "status": "proved",
   "theorems": [
    "Toffee.Logger.C71_ids_exact"
   ],
   "note": ""
  },
  {
   "property": "C72",
   "status": "proved",
   "theorems": [
    "Toffee.Logger.C72_file"
   ],
   "note": "log_file='' is the same as no file."
  },
  {
   "property": "C73",
   "status": "partial",
   "theorems": [
    "Toffee.Props.LoopRuns.C73_clean_partial",
    "Toffee.Props.LoopRuns.C73_failed_hook_violated",
    "Toffee.Props.LoopRuns.C73_no_clock_violated",
    "Toffee.Props.LoopRuns.C73_abort_violated"
   ],
   "note": "Proved for every run that started a clock and whose test returned: nothing is left pending. False otherwise: a run without a clock and a run that ends with an exception leave their hooks to the next run (two witnesses); and after a run in which a hook raised, no later run in the process ever steps its DUT (C73_failed_hook_violated, for every test)."
  },
  {
   "property": "C74",
   "status": "partial",
   "theorems": [
    "Toffee.Props.WriteMode.C74_exact",
    "Toffee.Props.WriteMode.C74_last_partial",
    "Toffee.Props.WriteMode.C74_others",
    "Toffee.Props.WriteMode.C74_invalid",
    "Toffee.Props.WriteMode.C74_sub_violated",
    "Toffee.Props.WriteMode.C74_rebind_violated",
    "Toffee.Props.WriteMode.C74_invalid_violated"
   ],
   "note": "Exact result of any history of calls, a first bind and further calls (C74_exact); the last covering call decides if the calls before bind are for the whole bundle (C74_last_partial); other pins untouched; invalid modes raise. Violated: a sub-bundle's mode set before the root's bind is ignored, a second bind overwrites a sub-bundle's later mode, an invalid mode is accepted before bind."
  },
  {
   "property": "C75",
   "status": "partial",
   "theorems": [
    "Toffee.Bundle.C75_step_partial",
    "Toffee.Bundle.C75_no_lists_partial",
    "Toffee.Bundle.C75_list_violated",
    "Toffee.Bundle.C75_xport_violated"
   ],
   "note": "Holds for signals reached through sub-bundles, for every bundle of the tree, in both directions. Violated for signals that are only in bundle lists (the clock event is not taken over from list elements) and for bundles made by from_xport."
  },
  {
   "property": "C76",
   "status": "proved",
   "theorems": [
    "Toffee.Props.LoopQueue.C76_fifo",
    "Toffee.Props.LoopQueue.C76_put",
    "Toffee.Props.LoopQueue.C76_get",
    "Toffee.Props.LoopQueue.C76_woken"
   ],
   "note": "Invariant of the loop model with ghost histories of each queue, plus what put, get and a wake-up in get do to them."
  },
  {
   "property": "C77",
   "status": "partial",
   "theorems": [
    "Toffee.Props.LoopFail.C77_reported_partial",
    "Toffee.Props.LoopFail.C77_passed_partial",
    "Toffee.Props.LoopFail.C77_test",
    "Toffee.Props.LoopFail.C77_await_after",
    "Toffee.Props.LoopFail.C77_await_before",
    "Toffee.Props.LoopFail.C77_monitor_violated",
    "Toffee.Props.LoopFail.C77_no_clock_violated"
   ],
   "note": "False as stated: exceptions of tasks somebody keeps a reference to (every monitor) are swallowed and the test passes (C77_monitor_violated); without a clock an exception in the loop iteration in which the test returns is only logged (C77_no_clock_violated). Proved: with a clock, the exception of an unreferenced, unawaited task keeps the run from ever returning a result, whatever happens afterwards; the exception of the test ends the run; tasks awaiting a failed task get the exception. Hypothesis: only the clock loop sets dut.event."
  },
  {
   "property": "C78",
   "status": "partial",
   "theorems": [
    "Toffee.Executor.C78_rest_of_group",
    "Toffee.Executor.C78_not_left",
    "Toffee.Executor.C78_wait_all",
    "Toffee.Executor.C78_first",
    "Toffee.Executor.C78_reported",
    "Toffee.Executor.C78_wait_all_reported",
    "Toffee.Executor.C78_any_partial",
    "Toffee.Executor.C78_other_groups",
    "Toffee.Executor.C78_any_violated"
   ],
   "note": "Proved: rest of the group never starts, block/wait_all never return normally after a failure, they raise the exception of the first group that did not return, and do so after finitely many steps. Violated: with exit='any', if every group fails, the event is never set and the test waits forever (C78_any_violated)."
  },
  {
   "property": "C79",
   "status": "partial",
   "theorems": [
    "Toffee.Agent.C79_call_partial",
    "Toffee.Agent.C79_super_partial",
    "Toffee.Agent.C79_only_methods",
    "Toffee.Agent.C79_super_violated",
    "Toffee.Agent.C79_plain_override_violated",
    "Toffee.Agent.C79_alias_violated"
   ],
   "note": "agent.n() proved when every driver method is under the name of its function; super().n() proved only without an override, and refuted in general: it runs the overriding function again (or KeyError); functions under other names refuted"
  },
  {
   "property": "C80",
   "status": "partial",
   "theorems": [
    "Toffee.Agent.C80_tasks",
    "Toffee.Agent.C80_reads_partial",
    "Toffee.Agent.C80_alias_violated"
   ],
   "note": "one task per attribute proved in general; reading proved when every monitor method is under the name of its function; an alias gets two tasks of which one is never read"
  },
  {
   "property": "C81",
   "status": "proved",
   "theorems": [
    "Toffee.Agent.C81_attrs",
    "Toffee.Agent.C81_named",
    "Toffee.Agent.C81_unique",
    "Toffee.Agent.C81_distinct",
    "Toffee.Agent.C81_only"
   ],
   "note": "for all constructors made of agent assignments and super calls"
  },
  {
   "property": "C82",
   "status": "proved",
   "theorems": [
    "Toffee.Props.LoopHookFail.C82_hook_stops",
    "Toffee.Props.LoopHookFail.C82_hook"
   ],
   "note": "For the event loop with arbitrary tasks and hooks, at whatever moment a hook raises; hypothesis: only the clock loop sets dut.event. That the hooks behind the one that raised are not executed: C14_rounds."
  },
  {
   "property": "C83",
   "status": "partial",
   "theorems": [
    "Toffee.IntelGen.C83_exact_partial",
    "Toffee.IntelGen.C83_sound",
    "Toffee.IntelGen.C83_covers_partial",
    "Toffee.IntelGen.C83_lost_violated",
    "Toffee.IntelGen.C83_confused_violated"
   ],
   "note": "C83_sound: nothing but signals of the tree. C83_exact_partial gives exactly the signals that are covered: those whose path consists of bundles that are no signals followed by signals only; so C83_covers_partial: everything is covered if no signal has a pure bundle below it. C83_lost_violated: signals of a bundle below a signal are lost. C83_confused_violated: a bundle '3' and a signal-and-bundle '2' with the same content can get the same key, then one of them is dropped (excluded by Apart in the partial theorems)."
  },
  {
   "property": "C84",
   "status": "proved",
   "theorems": [
    "Toffee.Props.LoopCall.C84_no_cycle",
    "Toffee.Props.LoopCall.C84_hooks_first",
    "Toffee.Props.LoopCall.C84_no_exception",
    "Toffee.Props.LoopCall.C84_task_starts"
   ],
   "note": "Hooks that raise are covered by C82; here the requested hooks and the waiters are arbitrary, the events are owned by the call (fresh objects)."
  },
  {
   "property": "C85",
   "status": "proved",
   "theorems": [
    "Toffee.Props.LoopFifo.C85_first_come",
    "Toffee.Props.LoopFifo.C85_in_order",
    "Toffee.Props.LoopFifo.C85_no_starvation"
   ],
   "note": "C85_first_come and C85_in_order for all executions; C85_no_starvation for all infinite executions (liveness)."
  },
  {
   "property": "C86",
   "status": "proved",
   "theorems": [
    "Toffee.Props.LoopIdle.C86_clock_advances",
    "Toffee.Props.LoopIdle.C86_hooks_run"
   ],
   "note": "Liveness over all infinite executions; the exception (a timer fires before, or the loop stops) is part of the statement."
  },
  {
   "property": "C87",
   "status": "proved",
   "theorems": [
    "Toffee.Props.LoopComponent.C87_starts_in_next_cycle",
    "Toffee.Props.LoopComponent.C87_not_later"
   ],
   "note": "The other programs must not set or clear the clock event (ClockPrivate), as for C09."
  },
  {
   "property": "C88",
   "status": "proved",
   "theorems": [
    "Toffee.Props.LoopEnv.C88_ends_as_test",
    "Toffee.Props.LoopEnv.C88_environment_first"
   ],
   "note": "'raises' means that the exception of the awaited test task propagates; the exception objects themselves are not modelled."
  },
  {
   "property": "C89",
   "status": "proved",
   "theorems": [
    "Toffee.Props.LoopPoll.C89_once_per_cycle",
    "Toffee.Props.LoopPoll.C89_every_cycle",
    "Toffee.Props.LoopPoll.C89_trigger",
    "Toffee.Props.LoopPoll.C89_not_missed",
    "Toffee.Props.LoopPoll.C89_value",
    "Toffee.Props.LoopPoll.C89_condition",
    "Toffee.Props.LoopPoll.C89_allValid",
    "Toffee.Props.LoopPoll.C89_change",
    "Toffee.Props.LoopPoll.C89_rising",
    "Toffee.Props.LoopPoll.C89_falling"
   ],
   "note": "C89_once_per_cycle, C89_every_cycle: generic; C89_trigger refines the trigger coroutines of Model/Triggers to programs of the event loop, the other theorems are its instances combined with C10 to C12. Between two suspensions a trigger is one step (it runs atomically)."
  },
  {
   "property": "C90",
   "status": "partial",
   "theorems": [
    "Toffee.Bundle.C90_one_per_slot",
    "Toffee.Bundle.C90_paths_partial",
    "Toffee.Bundle.C90_path_violated"
   ],
   "note": "for every bundle tree and DUT for which bind returns (see C111), there is one warning per unconnected slot, with the rule that all_signals_rule gives afterwards (C90_one_per_slot); the paths are right if at most one signal-list element per level is missing; with two, the second path names a slot that does not exist (the loop reuses level_string)"
  },
  {
   "property": "C91",
   "status": "partial",
   "theorems": [
    "Toffee.Bundle.C91_unreported_iff",
    "Toffee.Bundle.C91_keys_partial",
    "Toffee.Bundle.C91_repeated_violated"
   ],
   "note": "reported iff the entry's DUT signal would not be connected: proved; in terms of key names for dictionaries without repeated values; violated with repeated values"
  },
  {
   "property": "C92",
   "status": "partial",
   "theorems": [
    "Toffee.Bundle.C92_every_pin_partial",
    "Toffee.Bundle.C92_xpin_violated"
   ],
   "note": "proved for pins whose class name contains XData; violated for pins of a class named XPin (which is what bind accepts)"
  },
  {
   "property": "C93",
   "status": "partial",
   "theorems": [
    "Toffee.Props.LoopAwait.C93_await",
    "Toffee.Props.LoopAwait.C93_event",
    "Toffee.Props.LoopAwait.C93_queue",
    "Toffee.Props.LoopAwait.C93_timer",
    "Toffee.Props.LoopAwait.C93_idle",
    "Toffee.Props.LoopAwait.C93_gather_partial",
    "Toffee.Props.LoopAwait.C93_exception_violated"
   ],
   "note": "Proved for every program: await, Event.set, Queue.put, timers, gather (return), and the quiescence before every step without any hypothesis on hooks. False for exceptions: gather awaits its tasks in argument order, so an exception of a later coroutine reaches the caller only when all earlier ones have ended (C93_exception_violated). Events set or items put by hooks without a done event are the exception of C13 (C13_violated)."
  },
  {
   "property": "C94",
   "status": "partial",
   "theorems": [
    "Toffee.Props.FunCovRaise.C94_counts_exact",
    "Toffee.Props.FunCovRaise.C94_raises_iff",
    "Toffee.Props.FunCovRaise.C94_keeps_covered",
    "Toffee.Props.FunCovRaise.C94_goes_on_partial",
    "Toffee.Props.FunCovRaise.C94_without_exceptions",
    "Toffee.Props.FunCovRaise.C94_atomic_violated",
    "Toffee.Props.FunCovRaise.C94_covered_violated",
    "Toffee.Props.FunCovRaise.C94_stops_violated"
   ],
   "note": "Counts are exact for histories with raising samples; raising is characterised; without exceptions the model refines to that of C52-C61. Not atomic, a covered point may stay uncovered and a covered group may stop for good: three violations."
  },
  {
   "property": "C95",
   "status": "partial",
   "theorems": [
    "Toffee.Props.FunCovArgs.C95_named",
    "Toffee.Props.FunCovArgs.C95_nameless_partial",
    "Toffee.Props.FunCovArgs.C95_single_violated",
    "Toffee.Props.FunCovArgs.C95_add_rejected_unchanged",
    "Toffee.Props.FunCovArgs.C95_mark_raises_iff",
    "Toffee.Props.FunCovArgs.C95_mark_exact",
    "Toffee.Props.FunCovArgs.C95_mark_rejected_partial",
    "Toffee.Props.FunCovArgs.C95_mark_invalid",
    "Toffee.Props.FunCovArgs.C95_mark_atomic_violated"
   ],
   "note": "Named points as C57; nameless points for dicts; marks exact for every set order. A nameless single condition is rejected, and a rejected mark_function may leave marks: violations."
  },
  {
   "property": "C96",
   "status": "partial",
   "theorems": [
    "Toffee.Props.LoopExecutor.C96_any_partial",
    "Toffee.Props.LoopExecutor.C96_any_completed",
    "Toffee.Props.LoopExecutor.C96_any_stuck",
    "Toffee.Props.LoopExecutor.C96_none",
    "Toffee.Props.LoopExecutor.C96_wait_all",
    "Toffee.Props.LoopExecutor.C96_wait_all_results",
    "Toffee.Props.LoopExecutor.C96_any_raise_violated",
    "Toffee.Props.LoopExecutor.C96_any_empty_violated"
   ],
   "note": "Proved on the event loop for arbitrary group programs: C96_any_partial (the DUT is stepped inside the block only while no group has completed), C96_any_completed, C96_none, C96_wait_all, C96_wait_all_results. False for groups that raise and for empty blocks with exit mode any: C96_any_stuck shows they are never left, with concrete systems in C96_any_raise_violated and C96_any_empty_violated."
  },
  {
   "property": "C97",
   "status": "proved",
   "theorems": [
    "Toffee.Props.LoopScore.C97_compared"
   ],
   "note": "On the event loop, for the task created by process_driver_call: composition of C84 and C77 with the fact that a run has a result only after all tasks ended. R and Match are arbitrary: what each hook leaves in the shared state, and what the comparison checks."
  },
  {
   "property": "C98",
   "status": "partial",
   "theorems": [
    "Toffee.Debug.C98_commands",
    "Toffee.Debug.C98_tprint",
    "Toffee.Debug.C98_tlist",
    "Toffee.Debug.C98_reports",
    "Toffee.Debug.C98_force_until_release",
    "Toffee.Debug.C98_tset_partial",
    "Toffee.Debug.C98_tset_violated"
   ],
   "note": "everything but the last clause in full (C98_commands, C98_force_until_release, C98_tprint, C98_tlist, C98_reports); tset on a signal that is forced at the time is another force (C98_tset_violated), because tforce leaves the signal in force mode; proved for signals that are not forced"
  },
  {
   "property": "C99",
   "status": "partial",
   "theorems": [
    "Toffee.Recognise.C99_recognised",
    "Toffee.Recognise.C99_same_driver",
    "Toffee.Recognise.C99_driver_call",
    "Toffee.Recognise.C99_custom_partial",
    "Toffee.Recognise.C99_monitor",
    "Toffee.Recognise.C99_same_name_violated",
    "Toffee.Recognise.C99_other_agent_violated"
   ],
   "note": "Recognition is characterised exactly (C99_recognised) and is right for driver and monitor calls; a custom function with the name of a driver method of its 'agent' (as in the documentation) is mistaken for a driver call, and any other variable called 'agent' raises AttributeError."
  },
  {
   "property": "C100",
   "status": "partial",
   "theorems": [
    "Toffee.Executor.C100_not_swallowed",
    "Toffee.Executor.C100_reaches_partial",
    "Toffee.Executor.C100_executes_first",
    "Toffee.Executor.C100_masked",
    "Toffee.Executor.C100_any_violated"
   ],
   "note": "Never swallowed; with exit=any and no coroutine handed over yet the block hangs and the exception is never seen."
  },
  {
   "property": "C101",
   "status": "partial",
   "theorems": [
    "Toffee.ExecutorLife.C101_second_block_violated",
    "Toffee.ExecutorLife.C101_once",
    "Toffee.ExecutorLife.C101_late",
    "Toffee.ExecutorLife.C101_wait_late_violated",
    "Toffee.ExecutorLife.C101_index_violated",
    "Toffee.ExecutorLife.C101_shape_violated",
    "Toffee.ExecutorLife.C101_reuse_violated",
    "Toffee.ExecutorLife.C101_first_block_partial"
   ],
   "note": "The first block refines the machine of C19/C20/C68/C78/C100; no coroutine begins twice; late coroutines never begin. A second block after one that executed something never ends normally (proved for all histories), and late calls break wait_all()."
  },
  {
   "property": "C102",
   "status": "partial",
   "theorems": [
    "Toffee.Props.LoopFirst.C102_monitors_first_partial",
    "Toffee.Props.LoopFirst.C102_env_partial",
    "Toffee.Props.LoopFirst.C102_last_call",
    "Toffee.Props.LoopFirst.C102_inside_test_violated",
    "Toffee.Props.LoopFirst.C102_hook_violated"
   ],
   "note": "Proved for monitors created by env_handle before any other task (C102_env_partial) and from any state in which they are first among the waiters of the clock (C102_monitors_first_partial); C102_last_call for all hooks. False if the test creates the monitors (C102_inside_test_violated) or a hook without done event wakes tasks (C102_hook_violated)."
  },
  {
   "property": "C103",
   "status": "proved",
   "theorems": [
    "Toffee.Props.LoopMonitor.C103_messages",
    "Toffee.Props.LoopMonitor.C103_every_cycle",
    "Toffee.Props.LoopMonitor.C103_end"
   ],
   "note": "Event-loop model: C103_messages (content and order), C103_every_cycle (one entry per cycle, taken out or still in the queue), C103_end (nothing missing at the end of the test, nothing added later). Ports without size limit; dropping in bounded ones is C25/C26."
  },
  {
   "property": "C104",
   "status": "partial",
   "theorems": [
    "Toffee.Props.LoopUrgent.C104_urgent_partial",
    "Toffee.Props.LoopUrgent.C104_default_partial",
    "Toffee.Props.LoopUrgent.C104_tie_violated",
    "Toffee.Props.LoopUrgent.C104_waiting_violated"
   ],
   "note": "Proved for monitors that wait only for the clock event: the hook is requested before the first round of callbacks of the cycle, is executed in the cycle, and no less urgent hook of the cycle is executed before it; with the default priority 0 that covers all driver and agent hooks not declared (or overridden by the executor) with priority 0. Fails in two cases, with witnesses: a driver hook with priority 0 requested earlier in the cycle is executed first (the documented default -1 is not what the code has), and a monitor method that waits for something else than the clock requests its hook in a later round."
  },
  {
   "property": "C105",
   "status": "partial",
   "theorems": [
    "Toffee.FunCovShare.C105_copies_partial",
    "Toffee.FunCovShare.C105_reset_partial",
    "Toffee.FunCovShare.C105_added_violated",
    "Toffee.FunCovShare.C105_deleted_violated"
   ],
   "note": "Proved for every history in which no dictionary of bins is changed after it was handed over (dictionaries may be shared between points): the group is then indistinguishable from one that copies the bins, so C52-C57 and C94 apply. False otherwise: the point refers to the caller's dictionary while its counters were made at add time. Adding a bin later makes every live sample raise KeyError (proved for every state and observation); deleting a bin that was never hit makes the points covered while their reports still show it with 0 hits. reset_point makes the counters agree with the dictionary of that moment."
  },
  {
   "property": "C106",
   "status": "partial",
   "theorems": [
    "Toffee.Bundle.C106_reports_partial",
    "Toffee.Bundle.C106_lists_partial",
    "Toffee.Bundle.C106_silent_partial",
    "Toffee.Bundle.C106_list_violated"
   ],
   "note": "Proved in full for bundles without bundle lists (nested and flat). With bundle lists the same entries are reported, but the paths of those inside an element of a bundle list begin at the element: BundleList.assign does not pass the path on ({'v': [{'bad': 1}]} is reported as bad, not as v[0].bad). That a value is not a dictionary is logged without a path; the model records the path of the bundle."
  },
  {
   "property": "C107",
   "status": "partial",
   "theorems": [
    "Toffee.Args.Full.C107_delivers_partial",
    "Toffee.Args.Full.C107_invalid",
    "Toffee.Args.Full.C107_unique",
    "Toffee.Args.Full.C107_clash_violated",
    "Toffee.Args.Full.C107_agent_violated"
   ],
   "note": "Proved for all signatures. Missing: a keyword agent, which is the name of the parameter of the wrapper, and a keyword named like a positional-only parameter that is left to its default (CPython 3.11); both are violations, with witnesses."
  },
  {
   "property": "C108",
   "status": "partial",
   "theorems": [
    "Toffee.RequestsFull.C108_sequential_partial",
    "Toffee.RequestsFull.C108_unique",
    "Toffee.RequestsFull.C108_reaches",
    "Toffee.RequestsFull.C108_all_partial",
    "Toffee.RequestsFull.C108_plain_partial",
    "Toffee.RequestsFull.C108_last_violated"
   ],
   "note": "process_requests is the sequential program (Run), including the number of cycles, the state of the rest of the program and the results (C108_sequential_partial, C108_reaches, C108_all_partial, C108_unique), unless it returns while the last request still waits (C108_last_violated); it never does if that request cannot wait (C108_plain_partial)."
  },
  {
   "property": "C109",
   "status": "partial",
   "theorems": [
    "Toffee.CodeRun.C109_prefix_partial",
    "Toffee.CodeRun.C109_regex_partial",
    "Toffee.CodeRun.C109_dict_partial",
    "Toffee.CodeRun.C109_raises",
    "Toffee.CodeRun.C109_keyword_violated",
    "Toffee.CodeRun.C109_digit_violated",
    "Toffee.CodeRun.C109_hidden_violated",
    "Toffee.CodeRun.C109_mangled_violated",
    "Toffee.CodeRun.C109_same_violated"
   ],
   "note": "The text is read by a tokenizer and interpreter for the fragment of Python that it uses (specification in Props/CodeRun). Proved for pins whose rest is a Python name that Bundle does not use itself (prefix), raw-quotable regular expressions giving distinct names, dictionaries without repeated values. Counterexamples: keywords (io_in), digits (io_0), attributes of Bundle (io_name), two underscores, regular expressions that give one name to two pins."
  },
  {
   "property": "C110",
   "status": "partial",
   "theorems": [
    "Toffee.Driver.Raise.C110_raises_partial",
    "Toffee.Driver.Raise.C110_others",
    "Toffee.Driver.Raise.C110_finishes",
    "Toffee.Driver.Raise.C110_setting_violated"
   ],
   "note": "Proved for all interleavings (hooks of models with a port are skipped, see C22): C110_raises_partial, C110_others, C110_finishes. The last clause fails: the setting of the failed call stays behind and the next direct call uses it (C110_setting_violated)."
  },
  {
   "property": "C111",
   "status": "partial",
   "theorems": [
    "Toffee.Bundle.C111_returns_partial",
    "Toffee.Bundle.C111_raises_violated",
    "Toffee.Bundle.C111_raises_iff",
    "Toffee.Bundle.C111_rule_partial",
    "Toffee.Bundle.C111_no_key",
    "Toffee.Bundle.C111_nested_violated",
    "Toffee.Bundle.C111_below_violated",
    "Toffee.Bundle.C111_spurious_violated",
    "Toffee.Bundle.C111_dotted_violated"
   ],
   "note": "bind raises TypeError for a dictionary one of whose DUT names is also the name of a slot, as soon as a slot has no pin (C111_raises_violated; exactly when, for a bundle without sub-bundles: C111_raises_iff); slots below a dictionary are reported as having no matching signal (C111_nested_violated; for all bundles whose dictionary keys are no values and have no dots: C111_below_violated; with dots: C111_dotted_violated); rules can name a DUT signal of another slot (C111_spurious_violated). Proved: bind and all_signals_rule return for trees in which no key of a dictionary is a value of it (C111_returns_partial), and the rule of a slot reached through prefixes is the DUT name that is connected to it (C111_rule_partial); a slot without key is reported as such and gets no pin (C111_no_key)."
  },
  {
   "property": "C112",
   "status": "partial",
   "theorems": [
    "Toffee.Attach.C112_clears_partial",
    "Toffee.Attach.C112_agent_hook_violated",
    "Toffee.Attach.C112_raises_iff",
    "Toffee.Attach.C112_reattach_partial"
   ],
   "note": "Holds for models without agent hooks. With an agent hook clear_matched raises AttributeError (it assigns an attribute of a bound method) and leaves the marks of the hook's methods, of later agent hooks and of all agent ports set."
  },
  {
   "property": "C113",
   "status": "partial",
   "theorems": [
    "Toffee.Logger.C113_shown_partial",
    "Toffee.Logger.C113_silent_violated"
   ],
   "note": "summary logs its report at INFO, so it shows nothing at the default level or any level above INFO (C113_silent_violated). Proved for all histories after which the level in force and that of the last setup_logging call are at most INFO (C113_shown_partial)."
  },
  {
   "property": "C114",
   "status": "partial",
   "theorems": [
    "Toffee.Clocks.C114_quiet_step",
    "Toffee.Clocks.C114_state",
    "Toffee.Clocks.C114_task_run",
    "Toffee.Clocks.C114_lost_violated",
    "Toffee.Clocks.C114_ends_partial",
    "Toffee.Clocks.C114_starves_violated",
    "Toffee.Clocks.C114_one_clock",
    "Toffee.Clocks.C114_one_clock_end"
   ],
   "note": "Proved: with any number of clocks a DUT is stepped only when all tasks have ended or wait, and the step wakes exactly the waiters of its own clock event; after task_run() no DUT is stepped before a clock task has had an idle turn (C114_task_run); the shared state is changed by tasks and DUT steps only (C114_state). As long as one clock was started, the model does step by step what the event loop of C13 to C18 does (C114_one_clock), so those results carry over (C114_one_clock_end is C17). Proved: if, after the test, the clock of the DUT that main_coro waits for steps, the run ends. The rest fails and its negation is proved: if another clock notices the end first, it cancels all other clock tasks and the run never ends (a test that starts two clocks and returns is a case); and a test with one task per DUT never steps the second DUT."
  },
  {
   "property": "C115",
   "status": "partial",
   "theorems": [
    "Toffee.Config.C115_raises_iff",
    "Toffee.Config.C115_direct",
    "Toffee.Config.C115_deep",
    "Toffee.Config.C115_plain_partial",
    "Toffee.Config.C115_nested_violated",
    "Toffee.Config.C115_list_elements",
    "Toffee.Config.C115_list_violated",
    "Toffee.Config.C115_lost_violated"
   ],
   "note": "Proved: direct sub-bundles keep connect method and signals (C115_direct), bundle list elements are kept with everything in them, and instances are exactly as written if the sub-bundles in the body were only given a connect method (C115_plain_partial). An instance cannot be made exactly if the __init__ of a class involved needs arguments (C115_raises_iff). Everything else that the body does to a sub-bundle is lost: its write mode, its name, the configuration of its own parts (C115_nested_violated, for all classes and changes; C115_lost_violated is a case); BundleList(instance, ...) uses only the class of the instance (C115_list_violated)."
  },
  {
   "property": "C116",
   "status": "partial",
   "theorems": [
    "Toffee.AsyncHook.C116_plain",
    "Toffee.AsyncHook.C116_refused",
    "Toffee.AsyncHook.C116_trace_violated",
    "Toffee.AsyncHook.C116_monitor_partial",
    "Toffee.AsyncHook.C116_monitor_violated"
   ],
   "note": "Proved for driver calls: without async hooks every model is told everything in order (C116_plain), and with one the call never passes over it but raises AssertionError, in the call or, for a hook that runs after the method, in the background task; the results are then not compared (C116_refused). A rejected call has by then been told to the models before the one with the hook (C116_trace_violated, for all such sets of models). For monitored values the body of an async hook never runs and nothing is raised (C116_monitor_violated); the other hooks and ports are served (C116_monitor_partial)."
  },
  {
   "property": "C117",
   "status": "partial",
   "theorems": [
    "Toffee.Readers.C117_no_lost_wakeup",
    "Toffee.Readers.C117_fifo_partial",
    "Toffee.Readers.C117_size",
    "Toffee.Readers.C117_registered",
    "Toffee.Readers.C117_stranded_violated",
    "Toffee.Readers.C117_discarded_violated",
    "Toffee.Readers.C117_overtaken_violated"
   ],
   "note": "Proved for all interleavings: no lost wake-up in any queue (C117_no_lost_wakeup); a task is inside exactly one read while it waits (C117_registered); exactly the accepted values are received, in order, while start_monitor is not called again (C117_fifo_partial). Calling start_monitor again abandons every waiting task forever (C117_stranded_violated) and discards what is queued (C117_discarded_violated). A task that asks later can be served first (C117_overtaken_violated)."
  },
  {
   "property": "C118",
   "status": "proved",
   "theorems": [
    "Toffee.Bench.C118_pass",
    "Toffee.Bench.C118_fail",
    "Toffee.Bench.C118_verdict",
    "Toffee.Bench.C118_models"
   ],
   "note": "The whole run on the event loop of Verif.Model.Loop, from the start of the loop to its end, for all DUTs, models, driver methods and stimuli: C118_pass, C118_fail, C118_verdict; C118_models for models that share nothing. By symbolic execution of one call (Verif.Lemmas.Bench, Verif.Lemmas.LoopHooks), induction over the driver method, the hooks and the stimuli, and a stutter lemma for due timers (Verif.Lemmas.LoopStutter). Any number (at least one) of driver and agent hooks that run before the method."
  },
  {
   "property": "C119",
   "status": "partial",
   "theorems": [
    "Toffee.Attrs.C119_bind_partial",
    "Toffee.Attrs.C119_unbound",
    "Toffee.Attrs.C119_method_violated",
    "Toffee.Attrs.C119_part_violated",
    "Toffee.Attrs.C119_hidden_violated",
    "Toffee.Attrs.C119_bound_violated",
    "Toffee.Attrs.C119_mode_violated",
    "Toffee.Attrs.C119_level_violated"
   ],
   "note": "Proved for all classes whose signal and part names are different from each other and from the names Bundle uses itself (C119_bind_partial). Without that the property is false, for every class with the clash: a signal named like a method replaces it (C119_method_violated), a signal named like a part makes bind skip and lose the part (C119_part_violated), name = Signal() and the like declare nothing (C119_hidden_violated), a signal bound is overwritten by True (C119_bound_violated), a signal write_mode or current_level_signals makes bind raise (C119_mode_violated, C119_level_violated). One level, first bind, no signal lists."
  },
  {
   "property": "C120",
   "status": "partial",
   "theorems": [
    "Toffee.FuncName.C120_unambiguous",
    "Toffee.FuncName.C120_readable_partial",
    "Toffee.FuncName.C120_decorated_violated",
    "Toffee.FuncName.C120_apart_partial",
    "Toffee.FuncName.C120_factory_violated",
    "Toffee.FuncName.C120_method_iff",
    "Toffee.FuncName.C120_method_violated"
   ],
   "note": "Proved: the text is unambiguous for all paths and all names without colons (C120_unambiguous), is the right one for every function that is not decorated with functools.wraps (C120_readable_partial), and two references share a text iff file, lines, class and name are the same (C120_apart_partial). The rest is false: a function whose decorator stands in another file is recorded with the file of the decorator and the line numbers of its own file (C120_decorated_violated); closures of one def are recorded as one (C120_factory_violated); an inherited method, or one of a nested class, counts as two functions when marked from an instance and from the class (C120_method_violated, C120_method_iff). What inspect reports for a function is data of the model."
  },
  {
   "property": "C121",
   "status": "partial",
   "theorems": [
    "Toffee.BenchMix.C121_pass",
    "Toffee.BenchMix.C121_fail",
    "Toffee.BenchMix.C121_verdict",
    "Toffee.BenchMix.C121_shared_pass",
    "Toffee.BenchMix.C121_shared_fail",
    "Toffee.BenchMix.C121_shared_verdict",
    "Toffee.BenchMix.C121_order_violated",
    "Toffee.BenchMix.C121_false_alarm_violated",
    "Toffee.BenchMix.C121_after_pass",
    "Toffee.BenchMix.C121_after_fail",
    "Toffee.BenchMix.C121_after_verdict",
    "Toffee.BenchMix.C121_after_order",
    "Toffee.BenchMix.C121_after_violated"
   ],
   "note": "Proved in full for models with states of their own (C121_verdict, C121_pass, C121_fail). For hooks that share state the exact order and the verdict it leads to are proved, with a model_first hook among them (C121_shared_verdict, C121_shared_pass, C121_shared_fail) and with none (C121_after_verdict, C121_after_pass, C121_after_fail). With dut_first hooks only, the order is the one claimed if every call takes a clock cycle (C121_after_order). In general it is not the one claimed: a dut_first hook of a call runs with the model_first hooks of the next call, after those of the same or smaller priority (C121_order_violated), so that a right DUT may fail (C121_false_alarm_violated); and dut_first hooks of calls that take no clock cycle run together with those of the call before, by priority (C121_after_violated)."
  },
  {
   "property": "C122",
   "status": "proved",
   "theorems": [
    "Toffee.BenchMon.C122_pass",
    "Toffee.BenchMon.C122_fail",
    "Toffee.BenchMon.C122_verdict",
    "Toffee.BenchMon.C122_samples",
    "Toffee.BenchMon.C122_recorded"
   ],
   "note": "The specification (spec in Lemmas/BenchMonSpec.lean) plays the test cycle by cycle, without event loop and tasks. C122_samples and C122_recorded say it for monitors that look at the pins once in every cycle. The DUT gets two more clock cycles after the test has returned (C122_pass); monitors do not see these."
  },
  {
   "property": "C123",
   "status": "partial",
   "theorems": [
    "Toffee.BundleStr.C123_returns",
    "Toffee.BundleStr.C123_unbound_violated",
    "Toffee.BundleStr.C123_values",
    "Toffee.BundleStr.C123_format_partial",
    "Toffee.BundleStr.C123_comma_violated"
   ],
   "note": "That the text shows all values is proved in full (C123_values). str raises AttributeError if and only if some signal has no attribute: names in the list signals before bind or not found by it (C123_returns, C123_unbound_violated). The format is as claimed if every bundle that has something has a signal of its own (C123_format_partial); otherwise the text begins with a comma (C123_comma_violated)."
  },
  {
   "property": "C124",
   "status": "proved",
   "theorems": [
    "Toffee.BenchAll.C124_pass",
    "Toffee.BenchAll.C124_fail",
    "Toffee.BenchAll.C124_verdict",
    "Toffee.BenchAll.C124_undisturbed"
   ],
   "note": "The specification (spec in Lemmas/BenchAllSpec.lean) plays the test cycle by cycle, without event loop and tasks; C124_undisturbed is stated without it. Hooks run before the driver method (model_first); one driver call at a time."
  },
  {
   "property": "C125",
   "status": "proved",
   "theorems": [
    "Toffee.Props.LoopPort.C125_every_cycle",
    "Toffee.Props.LoopPort.C125_at_the_end",
    "Toffee.Props.LoopPort.C125_function",
    "Toffee.Props.LoopPort.C125_settled",
    "Toffee.Props.LoopPort.C125_scoreboard"
   ],
   "note": "What the ports accept is putH; which items a full port drops is C25. The state of the model as a function of the streams (Final in Lemmas/PortSpec.lean) is defined without the event loop."
  },
  {
   "property": "C126",
   "status": "partial",
   "theorems": [
    "Toffee.Props.PortBoard.C126_nothing_dropped_partial",
    "Toffee.Props.PortBoard.C126_latency_partial",
    "Toffee.Props.PortBoard.C126_late_violated",
    "Toffee.Props.PortBoard.C126_violated",
    "Toffee.Props.PortBoard.C126_missed_violated"
   ],
   "note": "The statement is false: for every size of the input port and every latency above it, a correct DUT that gets an input in every cycle makes the scoreboard fail (C126_late_violated; C126_violated is a case with the default size), and after six inputs in one cycle a wrong output is not noticed (C126_missed_violated). Proved: it holds for every model and every order as long as no value is reported as dropped (C126_nothing_dropped_partial), and for a pipelined DUT with an input in every cycle if the latency does not exceed the size of the port (C126_latency_partial). That the model has handled everything before the next cycle is C125."
  },
  {
   "property": "C127",
   "status": "partial",
   "theorems": [
    "Toffee.Props.OldRun.C127_pins",
    "Toffee.Props.OldRun.C127_new_partial",
    "Toffee.Props.OldRun.C127_old_partial",
    "Toffee.Props.OldRun.C127_stale_violated",
    "Toffee.Props.OldRun.C127_raises_violated"
   ],
   "note": "The statement is false: before Python 3.10, a bundle bound before the run waits for an event that is never set, and binding it again does not help (C127_stale_violated); on Python 3.10.0 run always raises (C127_raises_violated). Proved: the DUT and its pins always refer to one event (C127_pins); from 3.10.1 on the claim holds for all bundles (C127_new_partial), and on all versions for the bundles that were not bound before the run (C127_old_partial). When step() raises is C75."
  },
  {
   "property": "C128",
   "status": "partial",
   "theorems": [
    "Toffee.Props.BundleItem.C128_level_partial",
    "Toffee.Props.BundleItem.C128_flat_partial",
    "Toffee.Props.BundleItem.C128_nested_violated",
    "Toffee.Props.BundleItem.C128_only"
   ],
   "note": "The statement is false for every signal that is in a signal list or in a sub-bundle, at any depth: b[path] is None (C128_nested_violated). Proved: it holds for the signals of the bundle itself (C128_level_partial), so for all signals of a bundle without lists and sub-bundles (C128_flat_partial), and no other key gives a signal (C128_only)."
  },
  {
   "property": "C129",
   "status": "partial",
   "theorems": [
    "Toffee.Props.BindRaise.C129_returns",
    "Toffee.Props.BindRaise.C129_outcome_partial",
    "Toffee.Props.BindRaise.C129_slots_partial",
    "Toffee.Props.BindRaise.C129_counts_violated",
    "Toffee.Props.BindRaise.C129_left_violated",
    "Toffee.Props.BindRaise.C129_stale_violated",
    "Toffee.Props.BindRaise.C129_clock_violated",
    "Toffee.Props.BindRaise.C129_stuck_violated",
    "Toffee.Props.BindRaise.C129_rebind_violated"
   ],
   "note": "The statement is false. Counters: every DUT signal that belongs to a slot of the bundle itself is counted once too often (C129_counts_violated, all bundles), and so is every pin it leaves in a slot at any depth (C129_left_violated). Slots: with unconnected_signal_access=False a slot keeps the pin of the first DUT (C129_stale_violated). Clock: step waits for the event of the first DUT (C129_clock_violated). A bound bundle whose unbinding raises can never be bound again (C129_stuck_violated, all bundles), for instance after a second bind that raised (C129_rebind_violated). Proved for a bundle that is not bound, after any number of calls that raise: the next call returns iff it would have returned without them (C129_outcome_partial), and with unconnected_signal_access=True every slot of the tree is the same (C129_slots_partial). C129_returns ties the model to those of C111 and C47."
  },
  {
   "property": "C130",
   "status": "partial",
   "theorems": [
    "Toffee.Props.AttachAlias.C130_outcome_partial",
    "Toffee.Props.AttachAlias.C130_last_partial",
    "Toffee.Props.AttachAlias.C130_distinct_partial",
    "Toffee.Props.AttachAlias.C130_alias_violated",
    "Toffee.Props.AttachAlias.C130_example_violated"
   ],
   "note": "The statement is false for an agent with several attributes: a hook for the path under any attribute but the last, in the order of dir(), is marked as matched and is wired to no driver or monitor at all (C130_alias_violated, all environments and models; C130_example_violated). Proved: attach returns in the same cases as for distinct agents (C130_outcome_partial), a method gets what the model has for it under the last attribute (C130_last_partial), and under its only one if no agent has two (C130_distinct_partial)."
  },
  {
   "property": "C131",
   "status": "partial",
   "theorems": [
    "Toffee.Props.MonitorLife.C131_alive_partial",
    "Toffee.Props.MonitorLife.C131_env_partial",
    "Toffee.Props.MonitorLife.C131_full_violated",
    "Toffee.Props.MonitorLife.C131_late_violated"
   ],
   "note": "The statement is false for an agent that belongs to no environment: only Env sets the attribute path, which the message for a full queue reads, so the monitor task ends and nothing is ever queued again (C131_full_violated, all histories); the exception is not reported (C77_monitor_violated). The same happens at the first value if a model has agent hooks or agent ports for a monitor without a path (C131_late_violated). Proved: exactly when the task still runs (C131_alive_partial), and that for agents of an environment the statement holds (C131_env_partial)."
  },
  {
   "property": "C132",
   "status": "partial",
   "theorems": [
    "Toffee.Props.PathShare.C132_own_partial",
    "Toffee.Props.PathShare.C132_shared_violated",
    "Toffee.Props.PathShare.C132_late_violated"
   ],
   "note": "The statement is false: an environment made later that has the agent under another name changes the path for the models of the first one (C132_shared_violated, all environments), and an agent that becomes an attribute after the constructor has no path, so that hooks and ports raise AttributeError (C132_late_violated). Proved: the last attribute in the last environment that has the agent decides, so an agent with one attribute in one environment has the right path (C132_own_partial)."
  },
  {
   "property": "C133",
   "status": "partial",
   "theorems": [
    "Toffee.Props.HookStack.C133_kind_partial",
    "Toffee.Props.HookStack.C133_priority_partial",
    "Toffee.Props.HookStack.C133_order_partial",
    "Toffee.Props.HookStack.C133_all_iff_partial",
    "Toffee.Props.HookStack.C133_single_partial",
    "Toffee.Props.HookStack.C133_both_violated",
    "Toffee.Props.HookStack.C133_inner_violated",
    "Toffee.Props.HookStack.C133_mixed_violated"
   ],
   "note": "The statement is false: two decorators of different kinds or for different names are never both in force (C133_both_violated, all lists of decorators), the inner of two driver hooks is lost (C133_inner_violated), and a monitor hook around a driver hook is lost but changes its priority (C133_mixed_violated). Proved: which kind, names, priority and order result for every list of decorators (C133_kind_partial, C133_priority_partial, C133_order_partial), that all decorators are in force exactly if they ask for the same (C133_all_iff_partial), and that a single one is (C133_single_partial)."
  },
  {
   "property": "C134",
   "status": "partial",
   "theorems": [
    "Toffee.Props.PortAlias.C134_times_partial",
    "Toffee.Props.PortAlias.C134_once_partial",
    "Toffee.Props.PortAlias.C134_copies_violated",
    "Toffee.Props.PortAlias.C134_renamed_violated",
    "Toffee.Props.PortAlias.C134_example_violated"
   ],
   "note": "The statement is false: a port that is k attributes of a model holds every message k times (C134_copies_violated, C134_example_violated), and a port that was called otherwise before gets nothing from the agent named like its attribute (C134_renamed_violated). Proved: for all attributes the port is given each message as often as it is an attribute, if its arguments ask for it under its first name (C134_times_partial), hence exactly once for a new port with one attribute (C134_once_partial)."
  },
  {
   "property": "C135",
   "status": "partial",
   "theorems": [
    "Toffee.Props.PortClass.C135_own_partial",
    "Toffee.Props.PortClass.C135_reads_partial",
    "Toffee.Props.PortClass.C135_copies_violated",
    "Toffee.Props.PortClass.C135_twice_violated",
    "Toffee.Props.PortClass.C135_lost_violated",
    "Toffee.Props.PortClass.C135_room_violated"
   ],
   "note": "The statement is false for ports that several models share: k sharers make k copies of every message (C135_copies_violated, C135_twice_violated), and a port of size s holds only the first s of the copies (C135_room_violated, all sizes, sharers and messages; C135_lost_violated with the default size). Proved: a port that one attached model has is treated as if this model were alone (C135_own_partial), and the model reads each message once and in order (C135_reads_partial)."
  }
 ]
}