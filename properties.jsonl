{"id": "C01", "title": "LFSR_64 output is always a 64-bit value", "statement": "After LFSR_64(seed) and any number of step() calls, rand is an integer in [0, 2**64), for every Python integer seed (including negative and over-wide ones).", "quantifier": "every integer seed and every number of steps", "why_tests_cant": "unbounded seeds and step counts", "anchors": ["toffee/utils/lfsr_64.py: LFSR_64.__init__, step, rand"]}
{"id": "C02", "title": "LFSR_64 has maximal period", "statement": "From any seed whose low 64 bits are not all zero, the sequence of rand values returns to its start after exactly 2**64-1 steps and not before, so it visits every non-zero 64-bit value exactly once per period and never reaches 0; from an all-zero seed it stays 0.", "quantifier": "every seed, every pair of step counts", "why_tests_cant": "the period is 1.8e19 steps long; it cannot be run", "anchors": ["toffee/utils/lfsr_64.py: LFSR_64.step"]}
{"id": "C03", "title": "TwoBitsCounter saturates and has hysteresis", "statement": "With an initial value in 0..3 the counter stays in 0..3 under every update history; two consecutive equal outcomes force the prediction to that outcome; from a strong state (0 or 3) a single opposite outcome never changes the prediction; a run of three equal outcomes always reaches the corresponding strong state.", "quantifier": "every initial value in 0..3 and every outcome history", "why_tests_cant": "unbounded histories", "anchors": ["toffee/utils/two_bits_counter.py: TwoBitsCounter.update, get_prediction"]}
{"id": "C04", "title": "PLRU never evicts a recently used way", "statement": "After update(w), get() does not return w until at least L = ceil(log2(ways)) further update() calls have been made, whatever ways they touch and whatever the state was before; in particular right after update(w), get() != w whenever there is more than one way.", "quantifier": "every way count, every earlier history, every w, every following access sequence shorter than L", "why_tests_cant": "exponentially many states and access sequences", "anchors": ["toffee/utils/plru.py: PLRU.update, PLRU.get"]}
{"id": "C05", "title": "PLRU victim is a valid way", "statement": "get() always returns an index w with 0 <= w < ways_num, after any update history.", "quantifier": "every ways_num and every update history", "why_tests_cant": "all sizes, all histories", "anchors": ["toffee/utils/plru.py: PLRU.__init__, PLRU.get"]}
{"id": "C06", "title": "PLRU replacement sweep is fair", "statement": "From any state of a PLRU with 2**L ways, repeatedly taking w = get() and calling update(w) 2**L times yields every way exactly once.", "quantifier": "every L and every starting state", "why_tests_cant": "the number of states is 2**(2**L-1)", "anchors": ["toffee/utils/plru.py: PLRU"]}
{"id": "C07", "title": "Delayer returns the sample taken `delay` samples ago", "statement": "For a Delayer with delay d, after n samples of the signal have been taken, value is None when n <= d and otherwise is the (n-d)-th sample; the internal buffer never holds more than d+1 values; a negative delay is rejected.", "quantifier": "every delay and every history of sampled values", "why_tests_cant": "unbounded histories and delays", "anchors": ["toffee/delay.py: Delayer.__init__, sample, value"]}
{"id": "C08", "title": "Delayer delays by clock cycles", "statement": "A registered Delayer is sampled exactly once per clock cycle, so that Delayer(signal, d).value is the value the signal had d clock cycles earlier.", "quantifier": "every run of the clock loop, every mix of hooks and tasks executed in each cycle", "why_tests_cant": "depends on every schedule of hooks within a cycle", "anchors": ["toffee/delay.py: __process_delayer", "toffee/asynchronous.py: execute_all_coros, __execute_callback", "toffee/executor.py: __execute_priority_tasks"]}
{"id": "C09", "title": "ClockCycles and Bundle.step wait exactly n cycles", "statement": "await ClockCycles(item, n) (and bundle.step(n)) called in cycle c resumes the caller in cycle c+n: exactly n DUT steps happen in between, for a DUT, a pin or a bundle.", "quantifier": "every n, every set of concurrently running tasks, every schedule", "why_tests_cant": "unbounded n and arbitrary concurrent tasks", "anchors": ["toffee/triggers.py: ClockCycles", "toffee/bundle.py: Bundle.step", "toffee/asynchronous.py: __clock_loop"]}
{"id": "C10", "title": "Value / AllValid / Condition fire at the earliest eligible cycle", "statement": "Value(pin, v, delay), AllValid(*pins, delay) and Condition(item, f, delay) return in the first cycle k >= delay (counted from the call) in which the condition holds, and never return if there is none.", "quantifier": "every signal trace, target value/condition, delay", "why_tests_cant": "infinite traces", "anchors": ["toffee/triggers.py: Value, AllValid, Condition"]}
{"id": "C11", "title": "Change fires at the first cycle whose value differs", "statement": "Change(pin) returns in the first cycle k >= 1 in which the pin's value differs from the value it had when Change was called, and never if it stays constant.", "quantifier": "every signal trace", "why_tests_cant": "infinite traces", "anchors": ["toffee/triggers.py: Change"]}
{"id": "C12", "title": "RisingEdge / FallingEdge fire exactly at the first edge", "statement": "RisingEdge(pin) returns in the first cycle k >= 1 with value 0 in cycle k-1 and non-zero in cycle k; FallingEdge(pin) in the first k >= 1 with non-zero in cycle k-1 and zero in cycle k; neither returns otherwise.", "quantifier": "every signal trace", "why_tests_cant": "infinite traces", "anchors": ["toffee/triggers.py: RisingEdge, FallingEdge"]}
{"id": "C13", "title": "The clock only steps when nothing else can run", "statement": "Whenever the clock loop calls dut.Step(1), every other task is finished or blocked on something that has not happened yet (an un-set Event, an empty Queue, an unfinished task, an un-fired timer): all work enabled by cycle k completes before cycle k+1.", "quantifier": "every set of tasks built from the toffee primitives, every reachable point of the event loop", "why_tests_cant": "all interleavings of arbitrarily many tasks", "anchors": ["toffee/asynchronous.py: __clock_loop, execute_all_coros, __other_tasks_done, __has_unwait_task, __run_once"]}
{"id": "C14", "title": "Model hooks of one cycle run in priority order, FIFO on ties, each exactly once", "statement": "When the pending reference-model hooks are executed, every pending hook is run exactly once, in non-decreasing priority number, and hooks of equal priority run in the order in which they were requested; afterwards none is pending. If a hook raises, those executed are the first of that order up to the one that raised.", "quantifier": "every multiset of pending hooks with every priority assignment", "why_tests_cant": "unbounded number of hooks and orders", "anchors": ["toffee/executor.py: add_priority_task, __execute_priority_tasks"]}
{"id": "C15", "title": "Requested hooks are executed before the clock advances", "statement": "A hook requested in cycle k (by a driver call or a monitor) is executed in cycle k: whenever dut.Step(1) is called no requested hook is still pending, and none is run twice.", "quantifier": "every run of the event loop", "why_tests_cant": "all schedules", "anchors": ["toffee/asynchronous.py: execute_all_coros", "toffee/executor.py: __execute_priority_tasks"]}
{"id": "C16", "title": "Clock waiters resume once per step in FIFO order", "statement": "Every task waiting for the clock when dut.Step(1) is called resumes exactly once for that step, in the order in which the tasks started waiting, and a task that starts waiting later is not resumed by that step.", "quantifier": "every number of waiters and every schedule", "why_tests_cant": "all schedules", "anchors": ["toffee/asynchronous.py: __clock_loop", "toffee/agent.py: Agent.monitor_step"]}
{"id": "C17", "title": "A finished test gets exactly one more clock step", "statement": "After the test coroutine returns, the DUT is stepped exactly once more, all remaining tasks are given the chance to run to a blocking point before that step, and then toffee.run returns the test's result.", "quantifier": "every test, every set of background tasks", "why_tests_cant": "all schedules", "anchors": ["toffee/asynchronous.py: main_coro, execute_all_coros, cancel_all_tasks"]}
{"id": "C18", "title": "gather waits for everything and keeps argument order", "statement": "gather(c1..cn) returns only after all n coroutines have finished and returns their results in argument order, whatever order they finish in.", "quantifier": "every n and every completion order", "why_tests_cant": "factorially many completion orders", "anchors": ["toffee/asynchronous.py: gather"]}
{"id": "C19", "title": "Executor runs groups sequentially and reports results per group in order", "statement": "Coroutines given to an Executor under the same group run one after another in the order they were added; get_results() has exactly one entry per group, in order of first use, holding the results of that group's coroutines in order (the bare result if the group has a single coroutine).", "quantifier": "every sequence of exec(...) calls and every result assignment", "why_tests_cant": "unbounded call sequences", "anchors": ["toffee/executor.py: Executor.__call__, __get_sche_group, __sequential_execution_all, __set_results, get_results"]}
{"id": "C20", "title": "Executor exit modes and wait_all agree", "statement": "With exit='all' the results are available on leaving the block; with 'none'/'any' get_results() is empty until wait_all(), after which it equals what exit='all' would have given; any other exit value raises ValueError; wait_all() may be called any number of times without changing the results.", "quantifier": "every program of exec calls, every exit mode", "why_tests_cant": "all call sequences", "anchors": ["toffee/executor.py: Executor.__execute, __exit_all, __exit_none, __exit_any, wait_all"]}
{"id": "C21", "title": "Executor priority and sche_order apply to exactly the call they were given for", "statement": "exec(agent.m(..), priority=p, sche_order=o) makes exactly that call's hooks use priority p and order o; any other call of the same driver method uses its own setting or, if none was given, the hook's default.", "quantifier": "every interleaving of calls to one driver method", "why_tests_cant": "races on shared per-driver state", "anchors": ["toffee/executor.py: __sequential_execution_all", "toffee/_base_agent.py: Driver.process_driver_call"]}
{"id": "C22", "title": "Driver calls run every matched hook exactly once on the right side of the DUT call", "statement": "Awaiting a driver method calls every driver_hook and agent_hook that the attached models provide for it exactly once with the call's arguments; model_first hooks finish before the driver body starts and dut_first hooks start after it has finished; sche_order given to the Executor overrides the hooks' own.", "quantifier": "every number of attached models, hooks, orders and priorities", "why_tests_cant": "unbounded configurations", "anchors": ["toffee/_base_agent.py: Driver.process_driver_call"]}
{"id": "C23", "title": "Result comparison finds every mismatch", "statement": "After a driver call, each hook result that is not None is compared with the DUT result, and the call's comparison fails if and only if at least one of them does not compare equal; hooks returning None impose nothing.", "quantifier": "every list of hook results and every compare function", "why_tests_cant": "all result combinations", "anchors": ["toffee/_base_agent.py: Driver.process_driver_call.background_exec", "toffee/_compare.py: compare_once"]}
{"id": "C24", "title": "Driver ports receive the normalised call arguments", "statement": "A DriverPort receives, for each call, the bound arguments with defaults applied: the bare value when the driver takes one argument, otherwise a mapping with one entry per parameter; AgentPorts receive (path, mapping). Positional and keyword spellings of the same call deliver the same payload; invalid calls raise TypeError and deliver nothing.", "quantifier": "every signature of positional-or-keyword parameters and every call", "why_tests_cant": "all call spellings", "anchors": ["toffee/_base_agent.py: Driver.__get_args_dict, __drive_single_model_ports"]}
{"id": "C25", "title": "Ports are bounded drop-newest FIFOs", "statement": "A port with maxsize m > 0 never holds more than m values, delivers accepted values in the order they were sent without loss or duplication, and drops exactly the values sent while it holds m; with maxsize -1 nothing is ever dropped; other maxsize values are rejected.", "quantifier": "every maxsize and every history of puts and gets", "why_tests_cant": "all histories", "anchors": ["toffee/model.py: Port"]}
{"id": "C26", "title": "Monitor message queue", "statement": "After start_monitor(name, m), awaiting the monitor method yields the monitored values in order, monitor_size never exceeds m, and exactly the values produced while the queue holds m are dropped; before start_monitor nothing is queued.", "quantifier": "every m and every history of monitored values and reads", "why_tests_cant": "all histories", "anchors": ["toffee/_base_agent.py: Monitor", "toffee/agent.py: start_monitor, monitor_size, __monitor_wrapped_func"]}
{"id": "C27", "title": "Monitored values reach every matched hook and port exactly once", "statement": "Each time a monitor method returns a value other than None, every matching agent port, monitor port, agent hook and monitor hook of every attached model receives that value exactly once; a None result is delivered nowhere; values such as 0 or empty containers are delivered.", "quantifier": "every set of attached models and every result", "why_tests_cant": "all configurations", "anchors": ["toffee/_base_agent.py: Monitor.process_monitor_call, __monitor_forever"]}
{"id": "C28", "title": "Hook and port path resolution", "statement": "driver_hook / monitor_hook / DriverPort / MonitorPort resolve to: the explicit path if given; else agent.method; else agent.<own name>; else the own name with '__' read as '.'; so agent__method names the method of the agent whenever agent has no '__' and does not end in '_' and method has no '__'. Contradictory arguments are rejected.", "quantifier": "all names", "why_tests_cant": "all strings", "anchors": ["toffee/model.py: driver_hook, monitor_hook, DriverPort.get_path, MonitorPort.get_path"]}
{"id": "C29", "title": "attach accepts a model iff everything it names exists", "statement": "env.attach(model) on a fresh model succeeds iff every driver/monitor hook and port resolves to an existing method of the right kind (each method claimed at most once per model), every agent port matches something, and every agent and method named by agent hooks/ports exists; otherwise it raises ValueError.", "quantifier": "every env (agents and methods) and every model", "why_tests_cant": "all configurations", "anchors": ["toffee/env.py: attach, __inject_all, __ensure_model_match", "toffee/model.py: ensure_all_matched"]}
{"id": "C30", "title": "attach wires exactly the matching hooks and ports", "statement": "After attach, each driver/monitor method is wired to exactly those agent hooks/ports of the model that name its agent or its path, and to the driver/monitor hook/port (if any) that resolves to its path; other models' wiring is unchanged.", "quantifier": "every env, every sequence of attached models", "why_tests_cant": "all configurations", "anchors": ["toffee/env.py: __inject_driver_method, __inject_monitor_method, __is_agent_hook_contain_method"]}
{"id": "C31", "title": "A failed attach has no effect", "statement": "If env.attach(model) raises, subsequent driver and monitor calls behave as if attach had not been called.", "quantifier": "every env and every non-matching model", "why_tests_cant": "all configurations", "anchors": ["toffee/env.py: attach"]}
{"id": "C32", "title": "A model that does not fit an env is rejected whatever happened before", "statement": "Whether attach(model) succeeds depends only on the env and the model's declarations, not on earlier attaches of the same model or of other instances of its class.", "quantifier": "every history of attach calls", "why_tests_cant": "all histories", "anchors": ["toffee/env.py: attach", "toffee/model.py: collect_all, clear_matched, agent_hook, driver_hook"]}
{"id": "C33", "title": "unattach undoes attach", "statement": "env.unattach(model) after env.attach(model) removes the model's wiring and leaves the env as before; attaching an attached model to another env detaches it from the first.", "quantifier": "every env and model", "why_tests_cant": "all configurations", "anchors": ["toffee/env.py: attach, unattach", "toffee/model.py: is_attached, clear_matched"]}
{"id": "C34", "title": "bind connects slots to the DUT signals their names denote", "statement": "After bundle.bind(dut), a slot of the bundle tree is connected to a DUT pin iff applying the bundles' naming rules (prefix / dict / regex) along the path from the root to the slot's bundle turns that DUT signal's name into the slot's name (and no earlier sibling claims it); all other slots are unconnected.", "quantifier": "every bundle tree, every DUT signal set", "why_tests_cant": "unbounded trees and names", "anchors": ["toffee/bundle.py: Bundle.bind, __bind_from_signal_list, PrefixBindMethod.bind, RegexBindMethod.bind, DictBindMethod.bind"]}
{"id": "C35", "title": "A DUT signal is connected to at most one slot of a bundle", "statement": "After bind, no DUT pin appears in two different slots of the same bundle tree, so writing one slot never changes another.", "quantifier": "every bundle tree and DUT", "why_tests_cant": "unbounded trees", "anchors": ["toffee/bundle.py: __bind_from_signal_list"]}
{"id": "C36", "title": "detect_connectivity agrees with bind", "statement": "bundle.detect_connectivity(name) is True iff binding the bundle to a DUT that has a signal of that name connects it, whatever other signals the DUT has; and it changes nothing.", "quantifier": "every bundle tree, every name, every DUT containing it", "why_tests_cant": "all names and trees", "anchors": ["toffee/bundle.py: detect_connectivity"]}
{"id": "C37", "title": "detect_specific_connectivity is exact", "statement": "bundle.detect_specific_connectivity(name, slot) is True iff a DUT signal of that name would be connected to exactly that slot.", "quantifier": "every bundle tree, name and slot", "why_tests_cant": "all names and trees", "anchors": ["toffee/bundle.py: detect_specific_connectivity"]}
{"id": "C38", "title": "Unconnected signals are inert or rejected", "statement": "With unconnected_signal_access=True an unconnected signal reads None and ignores writes; with False any access raises AttributeError; connected signals are unaffected by the flag.", "quantifier": "every bundle tree, DUT, flag", "why_tests_cant": "all trees", "anchors": ["toffee/bundle.py: DummySignal, UnconnectedSignal, __detect_missing_signals"]}
{"id": "C39", "title": "assign/as_dict round trip (multilevel)", "statement": "For a bound bundle, assign(d) with d a complete multilevel dictionary of the bundle's shape followed by as_dict() returns d; in particular assign(as_dict()) changes nothing.", "quantifier": "every bundle tree and every value assignment", "why_tests_cant": "unbounded trees and values", "anchors": ["toffee/bundle.py: Bundle.assign, as_dict, SignalList.assign, BundleList.assign"]}
{"id": "C40", "title": "assign/as_dict round trip (flat)", "statement": "For a bound bundle, assign(d, multilevel=False) with d a complete flat dictionary as produced by as_dict(multilevel=False) followed by as_dict(multilevel=False) returns d.", "quantifier": "every bundle tree and every value assignment", "why_tests_cant": "unbounded trees and values", "anchors": ["toffee/bundle.py: Bundle.assign, as_dict"]}
{"id": "C41", "title": "assign touches only what it names", "statement": "assign(d) without '*' changes only the pins of the signals named in d; keys that name nothing are reported and change nothing, and do not prevent the other keys from being assigned.", "quantifier": "every bundle tree, dictionary", "why_tests_cant": "all dictionaries", "anchors": ["toffee/bundle.py: Bundle.assign"]}
{"id": "C42", "title": "'*' gives every other writable signal the default", "statement": "assign({'*': v, ...}) leaves every writable (non-output, connected) signal not named otherwise equal to v, every named signal equal to its named value, and does not write any output pin that is not named.", "quantifier": "every bundle tree, dictionary", "why_tests_cant": "all dictionaries", "anchors": ["toffee/bundle.py: Bundle.assign, set_all"]}
{"id": "C43", "title": "assign does not modify its argument", "statement": "Assigning the same message dictionary twice has the same effect as assigning it once more from a fresh copy: assign leaves its argument unchanged.", "quantifier": "every dictionary", "why_tests_cant": "aliasing across calls", "anchors": ["toffee/bundle.py: Bundle.assign"]}
{"id": "C44", "title": "set_all and randomize_all respect direction, range and exclusions", "statement": "set_all writes exactly the connected non-output pins; randomize_all writes exactly the connected non-output pins whose path is not excluded, each with a value in the given inclusive range or, without range, in [0, 2**max(width,1)-1].", "quantifier": "every bundle tree, widths, exclusion list, random source", "why_tests_cant": "random values and all trees", "anchors": ["toffee/bundle.py: set_all, randomize_all"]}
{"id": "C45", "title": "all_signals enumerates every slot exactly once under a unique path", "statement": "all_signals() yields every signal slot of the tree exactly once, and the yielded path names are pairwise distinct when sibling names are distinct and contain no '.' or '['.", "quantifier": "every bundle tree", "why_tests_cant": "unbounded trees", "anchors": ["toffee/bundle.py: Bundle.all_signals"]}
{"id": "C46", "title": "Connection counting", "statement": "After any sequence of first-time binds of bundles to one DUT, detect_unconnected_signals lists exactly the DUT signals connected to no slot, and detect_multiple_connections exactly those connected more than once.", "quantifier": "every sequence of bundles bound to a DUT", "why_tests_cant": "unbounded sequences", "anchors": ["toffee/bundle.py: __update_signal_info, detect_unconnected_signals, detect_multiple_connections"]}
{"id": "C47", "title": "bind again behaves like a fresh bind", "statement": "Calling bind a second time overwrites the previous bind: slots, connection counts and the clock used by step() are those of a fresh bundle bound to the new DUT.", "quantifier": "every bundle tree and pair of DUTs", "why_tests_cant": "all trees and DUT pairs", "anchors": ["toffee/bundle.py: Bundle.bind, __unbind_all, __remove_signal_attr, __update_signal_info"]}
{"id": "C48", "title": "all_signals_rule names a DUT signal that would connect", "statement": "For a bundle built with prefix rules, the rule string reported for a slot is a DUT signal name which, when present, is connected to that slot unless an enclosing or earlier bundle claims that name.", "quantifier": "every prefix bundle tree and slot", "why_tests_cant": "unbounded trees", "anchors": ["toffee/bundle.py: all_signals_rule, __get_rule_string"]}
{"id": "C49", "title": "process_requests applies requests in order, one per cycle, and returns when done", "statement": "process_requests(reqs) applies the requests in order, at most one per clock cycle, a conditional request only in a cycle where its condition holds, returns only when all requests have been applied, and returns one result per dict request with __return_bundles__, in order, stamped with its cycle.", "quantifier": "every request list, every condition behaviour", "why_tests_cant": "unbounded lists and condition traces", "anchors": ["toffee/bundle.py: ___dut_call_on_rise__, process_requests"]}
{"id": "C50", "title": "SignalList names are distinct", "statement": "SignalList(format, n) with a '#' in format has n pairwise distinct names (also with any injective custom rule), so each DUT signal is bound to exactly one index.", "quantifier": "every format and n, every injective rule", "why_tests_cant": "all formats", "anchors": ["toffee/bundle.py: SignalList.__init__, bind_signal"]}
{"id": "C51", "title": "Instances of a bundle class are independent", "statement": "Binding, re-binding or assigning one instance of a bundle class does not affect another instance of the class.", "quantifier": "every bundle class with signals, signal lists, sub-bundles and bundle lists", "why_tests_cant": "aliasing across instances", "anchors": ["toffee/bundle.py: Bundle.__init__, BundleList.from_bundlelist, SignalList.from_signallist"]}
{"id": "C52", "title": "Bin hit counts are exact", "statement": "The hit count of a bin equals the number of effective sample() calls since the point was added or last reset in which all of the bin's conditions held.", "quantifier": "every history of CovGroup operations", "why_tests_cant": "unbounded histories", "anchors": ["toffee/funcov.py: CovGroup.sample, __check__, reset_point, add_watch_point"]}
{"id": "C53", "title": "Covered means every bin was hit", "statement": "After at least one effective sample since it was added/reset, a point is covered iff each of its bins has been hit at least once since then; is_all_covered() is True iff every point is covered; sampling never un-covers a point.", "quantifier": "every history of CovGroup operations", "why_tests_cant": "unbounded histories", "anchors": ["toffee/funcov.py: is_point_covered, is_all_covered, sample"]}
{"id": "C54", "title": "sample_stoped predicts sampling", "statement": "sample() changes hit counts only when sample_stoped() is False; as_dict's call counter counts every sample() call and its sample counter exactly the effective ones; a group in which all points are covered and all are `once` stops, and resumes after a point is added or reset.", "quantifier": "every history of CovGroup operations", "why_tests_cant": "unbounded histories", "anchors": ["toffee/funcov.py: sample, sample_stoped, resume_sample"]}
{"id": "C55", "title": "as_dict totals are consistent", "statement": "In as_dict(), point_num_total/bin_num_total count all points/bins, point_num_hints/bin_num_hints exactly the covered points/hit bins, and all points are covered iff point_num_hints == point_num_total iff is_all_covered().", "quantifier": "every history of CovGroup operations", "why_tests_cant": "unbounded histories", "anchors": ["toffee/funcov.py: as_dict"]}
{"id": "C56", "title": "as_dict 'hinted' agrees with is_all_covered", "statement": "as_dict()['hinted'] is True iff is_all_covered() is True.", "quantifier": "every history of CovGroup operations", "why_tests_cant": "unbounded histories", "anchors": ["toffee/funcov.py: as_dict, is_all_covered, del_point"]}
{"id": "C57", "title": "Rejected coverage operations change nothing", "statement": "add_watch_point with a duplicate name or a non-callable bin, and del/reset/is_point_covered of an unknown name, raise and leave the group unchanged; adding a point leaves the other points' counts unchanged.", "quantifier": "every group state and argument", "why_tests_cant": "all states", "anchors": ["toffee/funcov.py: add_watch_point, del_point, reset_point"]}
{"id": "C58", "title": "stop_sample() stops sampling", "statement": "Calling stop_sample() makes subsequent sample() calls ineffective until resume_sample().", "quantifier": "every group state", "why_tests_cant": "all states", "anchors": ["toffee/funcov.py: init, stop_sample"]}
{"id": "C59", "title": "A `once` point is not re-checked after it is covered", "statement": "A point added with once=True (or under the group default) is not checked again once it is covered: its bin counts stay fixed from then on until it is reset.", "quantifier": "every history", "why_tests_cant": "unbounded histories", "anchors": ["toffee/funcov.py: sample, __check__", "docs/source/cases/cov.md"]}
{"id": "C60", "title": "mark_function records exactly the selected bins", "statement": "mark_function(name, func, patterns) adds the functions to exactly the bins selected by some pattern (exact name, else wildcard, else regex), keeps earlier marks, is idempotent, and raises without recording anything if some pattern selects no bin.", "quantifier": "every point, pattern list and function list, every matcher", "why_tests_cant": "all patterns", "anchors": ["toffee/funcov.py: mark_function"]}
{"id": "C61", "title": "Coverage conditions decide their relation", "statement": "CovEq/Ne, Gt/Le, Lt/Ge, In/NotIn are exact complements for comparable values and CovIsInRange(lo,hi) holds iff Ge(lo) and Le(hi) hold; a list of conditions in a bin is their conjunction.", "quantifier": "all values", "why_tests_cant": "all values", "anchors": ["toffee/funcov.py: CovEq .. CovIsInRange, __check__"]}
{"id": "C62", "title": "Severity statistics are exact", "statement": "For every severity, the reported count equals the number of records of that severity emitted through the toffee logger at or above the configured level.", "quantifier": "every log history and level", "why_tests_cant": "unbounded histories", "anchors": ["toffee/logger.py: StatsHandler.emit, summary"]}
{"id": "C63", "title": "setup_logging can be repeated", "statement": "After any number of setup_logging calls, each record is counted once and displayed at most once on screen and once in the file of the last call.", "quantifier": "every sequence of setup_logging calls", "why_tests_cant": "all call sequences", "anchors": ["toffee/logger.py: setup_logging"]}
{"id": "C64", "title": "Log ids are displayed as given on every output", "statement": "A record logged with log_id=x is displayed as '(id: x)' on each output.", "quantifier": "every id and handler set", "why_tests_cant": "handler combinations", "anchors": ["toffee/logger.py: ToffeeFormatter.format"]}
{"id": "C65", "title": "Generated bundle code respects the line width", "statement": "If every signal name (with its separator and a continuation backslash) and the closing '= Signals(n)' each fit on a line by itself then no generated declaration line is wider than max_width (tab counted as 4).", "quantifier": "every signal list and width", "why_tests_cant": "all lists and widths", "anchors": ["scripts/bundle_code_gen.py: __gen_bundle_code"]}
{"id": "C66", "title": "Generated bundle code declares exactly the given signals", "statement": "The declaration emitted lists exactly the given signals in order, once each, and is assigned Signals(n) with n their number.", "quantifier": "every signal list and width", "why_tests_cant": "all lists", "anchors": ["scripts/bundle_code_gen.py: __gen_bundle_code"]}
{"id": "C67", "title": "A hook decorator may be applied to several functions", "statement": "The decorator returned by driver_hook(...), monitor_hook(...) or agent_hook(...) marks each function it is applied to with the path that the function's own name and the decorator's arguments determine, no matter how many functions it was applied to before.", "quantifier": "all arguments, all sequences of functions", "why_tests_cant": "all names and sequences", "anchors": ["toffee/model.py: agent_hook, driver_hook, monitor_hook (nonlocal)"]}
{"id": "C68", "title": "Leaving an Executor block and wait_all() terminate when the coroutines do", "statement": "If every coroutine given to an Executor eventually returns, leaving the block (whatever the exit mode) and every wait_all() call eventually return.", "quantifier": "every sequence of exec calls, every exit mode, every schedule", "why_tests_cant": "liveness over all schedules", "anchors": ["toffee/executor.py: Executor.__exit_all, __exit_any, wait_all"]}
{"id": "C69", "title": "Default groups let different driver methods run concurrently", "statement": "Without sche_group, Executor calls of the same driver method of the same agent never overlap, while the first calls of different driver methods (a different agent or a different method) can all be running at the same time.", "quantifier": "every list of driver calls, every exit mode, every interleaving", "why_tests_cant": "a test observes one schedule and one choice of agents", "anchors": ["toffee/executor.py: Executor.__call__ (default sche_group)", "toffee/_base_agent.py: BaseAgent.__init__ (agent_name)"]}
{"id": "C70", "title": "Executor settings are validated and mean what they say", "statement": "exec(coro, priority=p, sche_order=o) raises exactly if p is not one of 0..99 or a setting is given for a coroutine that is not a driver call, and a rejected coroutine never runs; 'model_first' and 'parallel' make all hooks of that call run before the driver method, 'dut_first' all after it, any other text leaves each hook's own order.", "quantifier": "every call and every history of concurrent driver calls", "why_tests_cant": "unbounded priorities, texts and interleavings", "anchors": ["toffee/executor.py: Executor.__call__, __sequential_execution_all", "toffee/_base_agent.py: Driver.process_driver_call"]}
{"id": "C71", "title": "Statistics by log id are exact", "statement": "For every id, stats_handler.id_stats counts exactly the records with this log_id emitted at or above the configured level; records with an empty id are counted under 'default', records without id under 'default_id'.", "quantifier": "every history of logging and reconfiguration, every id", "why_tests_cant": "unbounded histories", "anchors": ["toffee/logger.py: StatsHandler.emit"]}
{"id": "C72", "title": "The log file holds exactly the records since setup", "statement": "After setup_logging(level, log_file=f), and until the next setup_logging call, the file f holds exactly the records logged since that passed the level, once each and in order, whatever was logged or configured before; no other log file changes.", "quantifier": "every history before and every history of log and setLevel calls after", "why_tests_cant": "unbounded histories", "anchors": ["toffee/logger.py: setup_logging"]}
{"id": "C73", "title": "Tests in one process are independent of each other's hooks", "statement": "A hook requested during one toffee.run is never executed in a later toffee.run of the same process and has no influence on it, whatever way the first run ended.", "quantifier": "every test program, every schedule, every way to end a run", "why_tests_cant": "depends on the order of tests in a process and on how a run was left", "anchors": ["toffee/executor.py: __priority_tasks, add_priority_task, __execute_priority_tasks", "toffee/asynchronous.py: main_coro, run"]}
{"id": "C74", "title": "set_write_mode covers a bundle and everything in it", "statement": "set_write_mode(m) (or its imme/rise/fall shorthands) on a bundle or a sub-bundle, before or after bind, makes every connected non-output pin of that bundle, nested ones included, use write mode m until a later call covers the pin; output pins and pins outside the bundle never change their mode; an invalid mode is rejected with ValueError and changes nothing.", "quantifier": "for all bundle trees, DUTs, sequences of set_write_mode calls before and after bind, pins", "why_tests_cant": "The effect depends on the order of calls at different levels of the tree and on whether they come before or after bind; tests try one order.", "anchors": ["toffee/bundle.py:600-634", "toffee/bundle.py:681-715"]}
{"id": "C75", "title": "step() of a bound bundle waits for the DUT's clock", "statement": "After bind, step(n) of a bundle (or of any sub-bundle or bundle-list element in it) waits for exactly n clock cycles of the DUT whenever a signal of that bundle, nested ones included, is connected; without any connected signal it fails immediately instead of waiting.", "quantifier": "for all bundle trees, DUTs with one clock, bundles in the tree, numbers of cycles", "why_tests_cant": "Which clock event a bundle ends up with depends on the shape of the tree and on which signals the DUT happens to have; tests use flat bundles with connected signals.", "anchors": ["toffee/bundle.py:666-679", "toffee/bundle.py:1145-1156", "toffee/bundle.py:1370-1399", "toffee/bundle.py:1053-1068"]}
{"id": "C76", "title": "A queue delivers everything once and in order", "statement": "At every moment the items put into a Queue are exactly the items taken out of it, in the same order, followed by the items still in it: nothing is lost, duplicated or reordered, and a task that gets an item gets the oldest one.", "quantifier": "every number of producers, consumers and hooks, every schedule", "why_tests_cant": "all interleavings of arbitrarily many tasks", "anchors": ["toffee/asynchronous.py: Queue"]}
{"id": "C77", "title": "An exception in a background task makes the test fail", "statement": "If a task other than the test raises an exception that no task awaits, toffee.run does not return a result; an exception of the test ends the run, and an exception of an awaited task is raised in the task that awaits it.", "quantifier": "every set of tasks, every schedule, every moment of the exception", "why_tests_cant": "depends on the moment of the exception relative to the end of the test", "anchors": ["toffee/asynchronous.py: handle_exception, main_coro", "toffee/_base_agent.py: Monitor.__init__"]}
{"id": "C78", "title": "An Executor does not hide exceptions", "statement": "If a coroutine given to an Executor raises, the coroutines behind it in its group are never started and the other groups are not disturbed. The end of an exit='all' block, and wait_all() after a block with any exit mode, do not return normally but raise: the exception is that of the first group (in order of first use) that did not return. An exit='any' block does not wait forever.", "quantifier": "For all sequences of exec(..) calls, all exit modes, all coroutines (each returning or raising at any time) and all interleavings of their steps.", "why_tests_cant": "Which exception wins and whether the test hangs depends on which groups fail and when; tests exercise one failing coroutine in one schedule.", "anchors": ["toffee/executor.py:71-161", "toffee/executor.py:217-246", "toffee/asynchronous.py:294-308"]}
{"id": "C79", "title": "A driver call runs the method that was called", "statement": "Awaiting agent.n(..) on an agent whose class hierarchy gives the driver method n runs the function of that method, and super().n(..) inside an overriding method runs the overridden one, as for any other Python method.", "quantifier": "all class hierarchies, all method names, all positions in the hierarchy", "why_tests_cant": "Depends on how the names of functions, attributes and overriding methods of arbitrary hierarchies coincide; tests call a handful of flat agents.", "anchors": ["toffee/agent.py:35-42,80-90,126-149"]}
{"id": "C80", "title": "Every monitor method is run by exactly one monitor task, and reading the method reads that task", "statement": "For every attribute of an agent that is a monitor method there is exactly one monitor task running the function the hierarchy gives for it; awaiting the method takes values from the queue of that task.", "quantifier": "all class hierarchies, all method names", "why_tests_cant": "The number of tasks is not visible in results; which of several tasks is read depends on the order of dir() and on the function names.", "anchors": ["toffee/agent.py:44-51,92-102,152-175"]}
{"id": "C81", "title": "Drivers and monitors know the name of their agent", "statement": "After the constructor of an environment, wherever in the hierarchy and in whatever order relative to super().__init__() its agents were assigned, the drivers and monitors of every agent it holds carry the name of an attribute holding that agent; different agents have different names.", "quantifier": "all hierarchies of environment classes, all sequences of assignments and super calls, all agents", "why_tests_cant": "Every class of the hierarchy configures the names again at another moment of construction; tests have one class with one assignment.", "anchors": ["toffee/env.py:13-30,79-108"]}
{"id": "C82", "title": "An exception in a reference-model hook makes the test fail", "statement": "If a hook of a reference model raises an exception (a failed comparison or assertion), the exception is reported, the DUT is not stepped any more, the hooks behind it are not executed, and toffee.run does not return a result; conversely a run that returned a result has had no exception in a hook.", "quantifier": "every set of tasks and hooks, every schedule, every moment of the exception", "why_tests_cant": "depends on the moment of the exception relative to the end of the test and the other tasks", "anchors": ["toffee/executor.py: __execute_priority_tasks", "toffee/asynchronous.py: handle_exception, __clock_loop, main_coro"]}
{"id": "C83", "title": "The nested bundle generator covers every signal", "statement": "The classes printed by scripts/bundle_code_intel_gen.py for a signal tree are accepted by Python (no empty class, every class defined before it is used, as many names as Signals creates, no two members of one name), and an instance of the last class connects to the pin of every signal of the tree, to each of them once, and to nothing else.", "quantifier": "all trees of names (any depth, nodes that are a signal, a bundle or both), all iteration orders of Python sets, all hashes without collisions", "why_tests_cant": "The generated code depends on the iteration order of sets, on hash randomisation and on which equal sub-bundle is met first; a test sees one tree in one process.", "anchors": ["scripts/bundle_code_intel_gen.py:6-11,36-139,142-155"]}
{"id": "C84", "title": "Reference-model hooks of a driver call take no clock cycles", "statement": "Calling a driver method does not step the DUT before the method body starts: all model_first hooks of the call are executed between the call and the body, in the clock cycle of the call, and waiting for them never raises; the background task of the call starts in the clock cycle in which the method returned, and its dut_first hooks are executed in that cycle before the results are compared.", "quantifier": "all programs of all other tasks, all sets of attached models with ports and hooks and all priorities, all reachable states of the event loop, all timers", "why_tests_cant": "Whether the hook runs before the clock steps depends on what all other tasks do in that cycle (the clock steps when nothing is runnable); tests exercise a few fixed schedules.", "anchors": ["toffee/_base_agent.py:106-194", "toffee/executor.py:17-41", "toffee/asynchronous.py:47-115,295-308"]}
{"id": "C85", "title": "Tasks start in the order of their creation and none is starved", "statement": "Of two tasks created one after the other, by the same or by different tasks, the second never runs before the first; a task that can run runs before every task that is still waiting at that moment; and a task that can run does get to run, unless another task computes forever without ever suspending or the run ends.", "quantifier": "all programs of all tasks, all hooks and timers, all reachable states of the event loop, all infinite executions", "why_tests_cant": "Order and fairness are statements about all schedules of unboundedly many tasks; starvation cannot be observed in a finite run.", "anchors": ["toffee/asynchronous.py:71-89,161-189"]}
{"id": "C86", "title": "The clock does not stall", "statement": "While every task is waiting (for a clock event, an event, a queue, a task or a timer) or has ended, the clock loop goes on: the reference-model hooks requested are executed, and if there are none and the test has not ended, the DUT is stepped after finitely many turns of the event loop and no task runs before; the only other outcomes are that a timer fires before or that the run ends.", "quantifier": "all reachable states of the event loop in which all tasks wait, all infinite executions", "why_tests_cant": "Progress is a statement about every infinite execution; a test that hangs shows only one.", "anchors": ["toffee/asynchronous.py:55-112,161-174", "toffee/executor.py:25-41"]}
{"id": "C87", "title": "The main of a component starts one clock cycle after its creation", "statement": "The main coroutine of a Component that is created in clock cycle c, whether before or after start_clock was called, starts in clock cycle c + 1 and in no other; the clock does not get beyond c + 1 before, unless the test has ended and the component was cancelled.", "quantifier": "all programs of all other tasks that leave the clock event alone, all moments of creation, all hooks and timers", "why_tests_cant": "Whether the wrapper sees the clock in time depends on the interleaving with all other tasks.", "anchors": ["toffee/asynchronous.py:318-338", "toffee/asynchronous.py:161-189"]}
{"id": "C88", "title": "run with env_handle ends exactly as the test does, and the environment comes first", "statement": "run(test, env_handle) ends with the value that the test returned, raises if and only if the test raised, and does not end before the test has; every task that was started while env_handle created the environment has run before the test starts.", "quantifier": "all environments, tests and programs of other tasks, all reachable states, all hooks and timers", "why_tests_cant": "All interleavings of the tasks of the environment and of the test.", "anchors": ["toffee/asynchronous.py:217-261", "toffee/asynchronous.py:264-292"]}
{"id": "C89", "title": "Clock-waiting code sees every cycle exactly once on the event loop; triggers return in the right cycle", "statement": "A loop that waits for one clock event per iteration (a monitor whose method does not wait itself, a trigger) runs exactly once in every clock cycle, and the DUT is not stepped before it has run in the current cycle. Hence Value, AllValid, Condition, Change, RisingEdge and FallingEdge, called by a task in cycle c, continue the task in cycle c + k where k is the first index (from delay, or from 1) at which the condition holds for what the task sees at the call and then once per cycle; while they wait, nothing seen so far satisfied the condition.", "quantifier": "all programs of all other tasks that leave the clock event alone, all DUTs, pins, hooks and timers, all executions", "why_tests_cant": "Other tasks write pins and run in the same cycle in any order; only a proof over all interleavings shows that no cycle is skipped or looked at twice.", "anchors": ["toffee/triggers.py:14-125", "toffee/_base_agent.py:238-252", "toffee/asynchronous.py:161-174"]}
{"id": "C90", "title": "bind reports exactly the slots it leaves unconnected", "statement": "bind writes one warning for every signal slot of the bundle tree that has no pin afterwards and for no other slot; each warning names the path of the slot (as in all_signals) and the DUT signal name that would be connected to it (as in all_signals_rule).", "quantifier": "all bundle trees with distinct slot names per level, all DUTs, first bind, both values of unconnected_signal_access", "why_tests_cant": "All shapes of nested bundles, lists and partially matching DUTs; a test sees one of them and rarely reads the warnings.", "anchors": ["toffee/bundle.py:1235-1275", "toffee/bundle.py:1303-1402", "toffee/bundle.py:681-715"]}
{"id": "C91", "title": "from_dict and set_dict report exactly the useless keys", "statement": "The warning of from_dict(d) / set_dict(d) lists exactly the keys of d that are not slots of the bundle or its sub-bundles; a key that is not listed gets its DUT signal connected by bind whenever the DUT has that signal.", "quantifier": "all bundle trees with distinct slot names per level, all dictionaries, all DUTs", "why_tests_cant": "All dictionaries and trees.", "anchors": ["toffee/bundle.py:1404-1428", "toffee/bundle.py:587-600", "toffee/bundle.py:1005-1021"]}
{"id": "C92", "title": "from_prefix(prefix, dut) has a connected slot for every pin with the prefix", "statement": "A bundle made by from_prefix(prefix, dut) and bound to dut has, for every pin of the DUT whose name starts with the prefix, a slot named after the rest of the name, connected to that pin.", "quantifier": "all DUTs with distinct attribute names, all prefixes, all own signals of the class", "why_tests_cant": "All DUTs and prefixes, pins of any class.", "anchors": ["toffee/bundle.py:962-985", "toffee/bundle.py:1511-1547"]}
{"id": "C93", "title": "Waiting takes no extra clock cycle", "statement": "A task that awaits another task, an asyncio Event set by a task, a queue item put by a task, or a timer goes on in the very clock cycle in which that happens, before the DUT is stepped (an event that is cleared again at once still counts). gather returns in the cycle in which the last of its coroutines ends, and raises in the cycle in which one of them raises. Whenever the clock goes about stepping the DUT, every task has ended or waits for something that has not happened.", "quantifier": "all task programs, all hooks, all schedules and timer behaviours the event loop allows, all reachable states", "why_tests_cant": "Any number of tasks in any state of the loop; off-by-one-cycle races appear only in particular interleavings.", "anchors": ["toffee/asynchronous.py:55-112", "toffee/asynchronous.py:295-308", "toffee/executor.py:100-130"]}
{"id": "C94", "title": "A bin condition that raises", "statement": "If a bin condition raises in sample(), the exception reaches the caller, and the call leaves no trace in the counters: later sample() calls are counted as if it had not been made. Counters and coverage flags are right after any mix of samples that raise and samples that do not: the count of a bin is the number of effective samples in which it was evaluated and held, and a point is covered iff every bin was hit.", "quantifier": "all groups, all histories of operations, all observations, all conditions (any of which may raise)", "why_tests_cant": "Any number of points and bins; the effect depends on which condition raises, on the order of points, and on flags set many samples before.", "anchors": ["toffee/funcov.py:400-426", "toffee/funcov.py:463-490"]}
{"id": "C95", "title": "Arguments of add_watch_point and mark_function are completed or rejected", "statement": "add_watch_point without a name accepts what it accepts with a name (a dict of bins or a single condition), under a key made from target and bins. mark_function raises iff the point is unknown (and raise_error is set), there is no pattern, a pattern selects no bin or a function cannot be marked. A call that raises changes nothing; one that does not adds the functions to exactly the selected bins, in whatever order the set of bins is iterated.", "quantifier": "all groups, all bins, names, function lists and patterns, all iteration orders of the set of bins", "why_tests_cant": "Iteration order of sets differs between runs; arbitrary argument shapes.", "anchors": ["toffee/funcov.py:262-303", "toffee/funcov.py:331-391"]}
{"id": "C96", "title": "Leaving an Executor block takes no extra clock cycle", "statement": "A task that leaves an Executor block goes on in the very clock cycle in which the exit condition is met: with exit mode any when the first group ends (and not before), with exit mode none at once, before any group begins; wait_all returns in the cycle in which the last uncompleted group ends, with the results in the order of the groups. (Exit mode all is gather, C18 and C93.) The block is left if all groups end.", "quantifier": "all group programs, all other tasks and hooks, all schedules the event loop allows, all reachable states", "why_tests_cant": "Races between the groups, the clock and the task that leaves the block; hangs need infinite executions.", "anchors": ["toffee/executor.py:100-161", "toffee/executor.py:218-246", "toffee/asynchronous.py:115-125"]}
{"id": "C97", "title": "A run that passes has compared every driver call", "statement": "If a test in which a clock was started returns a result, then for every driver call whose driver method returned (while the run was not over) the comparison with the reference models was carried out: in the clock cycle in which the method returned, after each of the hooks of the call had left its result, and all the results matched; a mismatch in the background part of a driver call makes the run fail. (Mismatches in tests without a clock: C77.)", "quantifier": "all programs of tests, drivers, hooks and other tasks, all numbers of models, all schedules the event loop allows, all reachable states", "why_tests_cant": "The comparison runs in a task that nobody awaits; whether it can be lost, delayed or cancelled at the end of the test depends on all interleavings with the clock.", "anchors": ["toffee/_base_agent.py:118-194", "toffee/_compare.py:12-28", "toffee/asynchronous.py:80-100", "toffee/asynchronous.py:208-261", "toffee/executor.py:25-41"]}
{"id": "C98", "title": "Debugger commands act on the named signal, and only when well formed", "statement": "In a PdbToffee session, tset and tforce write exactly the named value to exactly the named internal signal and refresh the combinational logic; a command with a malformed argument or an unknown signal is reported and changes nothing; tforce keeps a signal in force mode until trelease, which restores the ordinary mode of this signal only; tset makes an ordinary (not a forced) write.", "quantifier": "every command, every argument text, every sequence of commands", "why_tests_cant": "unbounded texts and sessions; the force mode is state that a later command depends on", "anchors": ["toffee/debug.py: PdbToffee.do_tstep, do_tflush, do_tlist, do_tprint, do_tset, do_tforce, do_trelease"]}
{"id": "C99", "title": "The Executor takes exactly driver calls for driver calls", "statement": "A coroutine handed to an Executor is treated as a driver call if and only if it is the call of a driver method of an agent: then its default group is agent.method, priority and sche_order are accepted and go to the driver that carries out the call. Any other coroutine is in a group of its own name and is rejected with a priority.", "quantifier": "every class hierarchy of agents, every coroutine", "why_tests_cant": "the executor guesses from the coroutine's name and its local variable 'agent'; names and class hierarchies are unbounded", "anchors": ["toffee/executor.py: Executor.__get_driver, Executor.__call__", "toffee/agent.py: driver_method, monitor_method", "docs/source/cases/executor.md"]}
{"id": "C100", "title": "Exceptions in the body of an Executor block come out of the block", "statement": "If the body of an async with Executor(..) block raises an exception, the coroutines handed over before are executed as usual, and then the exception comes out of the block (unless a coroutine raised another one); it is never swallowed, and the block always ends if the coroutines do.", "quantifier": "every exit mode, every list of calls before the exception, every schedule", "why_tests_cant": "all interleavings of any number of groups; whether a block hangs cannot be observed in finite time", "anchors": ["toffee/executor.py: Executor.__aexit__, __execute, __exit_all, __exit_none, __exit_any"]}
{"id": "C101", "title": "An Executor object can be used again and after its block", "statement": "An Executor object may be used for several async with blocks, and coroutines may be handed to it at any time: each is executed exactly once, at the end of the next block, a block or wait_all() raises only exceptions of coroutines, and get_results() reports the results of the coroutines that were executed.", "quantifier": "every sequence of calls, blocks, wait_all() and caught exceptions, every exit mode, every schedule", "why_tests_cant": "unbounded histories of one object; state left over from an earlier block shows only in a later one", "anchors": ["toffee/executor.py: Executor.__init__, __call__, __execute, __exit_all, __exit_none, __exit_any, __set_results, wait_all"]}
{"id": "C102", "title": "In every cycle the monitors run before everything else, once each", "statement": "docs/source/env/agent.md promises for an environment created by env_handle: in every clock cycle all monitor methods are called first and only when they have finished any driver method is; drivers can be called in cycle 0, a monitor method is first called in cycle 1 and then once in every cycle, and for the last time in the cycle in which the test returns (five one-cycle driver calls: monitor calls in cycles 1 to 5). The order holds if monitors are created before every other task and wait for nothing but clock cycles; it does not if the test itself creates the environment (then drivers come first in every cycle), nor after a hook of a monitor has woken a task.", "quantifier": "All programs of all tasks, any number of monitors with any code that waits only for clock cycles (also several per call), any hooks without side effects on tasks, all timings, all runs.", "why_tests_cant": "A test sees one schedule of one environment; whether any interleaving of the other tasks lets a driver see a cycle before the monitors do is a statement about all of them.", "anchors": ["toffee/_base_agent.py 208, 238-252", "toffee/asynchronous.py 81-112, 161-174, 232-261", "docs/source/env/agent.md"]}
{"id": "C103", "title": "A port receives exactly one message per clock cycle in which the monitor method returned a value", "statement": "Whatever else runs: what is put into a port (or message queue) served by a monitor is exactly the sequence of the values its method returned (other than None) for the pin values it found in the clock cycles 1, 2, 3, ... after its start, in this order, each once; whenever the DUT is stepped, the messages of all cycles up to the current one have been handed over, and the last cycle is the one in which the test returns. A reader of the port gets these messages in this order.", "quantifier": "All monitor methods that do not wait, all numbers of ports, queues and hooks the monitor serves, all programs of the other tasks, all hooks, all timings, all runs.", "why_tests_cant": "A test looks at the messages of one run; that no schedule of the other tasks, readers and hooks loses, repeats or reorders a message, or samples a cycle twice, is a statement about all runs.", "anchors": ["toffee/_base_agent.py 217-252", "toffee/asynchronous.py 81-152, 161-174", "toffee/model.py"]}
{"id": "C104", "title": "Monitor hooks are executed before the driver and agent hooks of the same cycle", "statement": "A reference-model hook that is fed by a monitor with the default priority is executed, in every clock cycle, before every driver hook and agent hook of that cycle; in general no hook of the cycle with a larger priority number, or with the same number requested later, is executed before it.", "quantifier": "All programs, all monitors, all hooks and priorities, all schedules, all cycles.", "why_tests_cant": "The order depends on which tasks run in which order in a cycle and on how many rounds of callbacks the cycle has; a test looks at some cycles of one program.", "anchors": ["toffee/model.py 126-174", "toffee/_base_agent.py 217-252", "toffee/executor.py 10-41", "toffee/asynchronous.py 36-89", "docs: ref_model.md"]}
{"id": "C105", "title": "A cover point keeps the bins it was given", "statement": "A cover point has the bins that were in the dictionary when it was handed to add_watch_point: sample() counts exactly these bins and as_dict() reports exactly these, for the whole life of the point (until it is deleted), whether the dictionary is given to further points and whatever the test does to the dictionary afterwards; reset_point() sets the counters of these bins to 0.", "quantifier": "all groups, all histories of operations on the group and on the dictionaries of bins, all observations", "why_tests_cant": "Whether a later change of a dictionary matters depends on which points share it, on resets in between and on the observations; tests usually pass dictionary literals.", "anchors": ["toffee/funcov.py:262-306", "toffee/funcov.py:315-329", "toffee/funcov.py:400-426", "toffee/funcov.py:463-490"]}
{"id": "C106", "title": "assign reports exactly what it cannot use, with its path", "statement": "assign(d) logs an error for every key, at any depth, that names no signal, signal list, sub-bundle or bundle list of the bundle it is meant for, and for everything that is not a dictionary where the entries of a bundle are expected; it logs an error for nothing else. The error for a key shows its full path from the bundle on which assign was called (c.bad, v[0].bad).", "quantifier": "every bundle tree, every message, nested and flat dictionaries", "why_tests_cant": "Unbounded trees and messages; that nothing else is reported is a statement about all of them.", "anchors": ["toffee/bundle.py:94-100", "toffee/bundle.py:135-137", "toffee/bundle.py:814-908"]}
{"id": "C107", "title": "Ports receive the local variables of the driver method, for every signature", "statement": "For a driver method of any signature - positional-only parameters, *args, keyword-only parameters and **kwargs included - a call that Python accepts delivers to every port the local variables that the method starts with, in the order of the parameters: the value or the default of each parameter, the tuple of the positional arguments that are left for *args, the dictionary of the keywords that are left for **kwargs; a DriverPort gets the bare value if there is just one parameter. A call that Python does not accept raises TypeError and no port receives anything.", "quantifier": "every signature, every list of positional arguments and every dictionary of keywords", "why_tests_cant": "All signatures and all ways to call them.", "anchors": ["toffee/_base_agent.py:38-65", "toffee/_base_agent.py:131-133", "toffee/_base_agent.py:166", "toffee/agent.py:126-135"]}
{"id": "C108", "title": "process_requests is a sequential program", "statement": "bundle.process_requests(list) has the effect of this program: for each element in turn, in cycles of its own: nothing for None; for a dictionary, wait until its condition holds (asked once in each cycle), then in that cycle assign its values, call its functions in order with the cycle, read its return bundles; for a callable, call it with the cycle, and treat the dictionary that it returns in the same way. The call returns after the cycle of the last request, with one result (data, cycle, function results) for each dictionary with return bundles, in the order of the list, a list of one value being given as that value.", "quantifier": "all lists of requests, conditions, functions, callables and return bundles that read and change the state of the rest of the program, all devices, all numbers of cycles spent waiting", "why_tests_cant": "The interleaving of the queue, the waiting request, the callback of the device and the loop of the caller depends on conditions and functions that are arbitrary and have effects; tests fix a few lists.", "anchors": ["toffee/bundle.py:425-541"]}
{"id": "C109", "title": "Generated bundle code connects every pin it was made for", "statement": "The text returned by gen_bundle_code_from_prefix/_from_regex/_from_dict(name, dut, ...) is accepted by Python, and defines a class name and an object bundle of it. The signals of bundle are exactly the rests of the pin names with the prefix (the names that the regular expression gives; the keys whose value is a pin), and bundle.bind(dut) connects each of them to its pin. The generators raise only if there is nothing to declare.", "quantifier": "all pin lists, prefixes, regular expressions, dictionaries, class names and line widths", "why_tests_cant": "The text depends on all names and their lengths (line breaks, continuation lines, keywords, quoting); tests look at a few generated files.", "anchors": ["scripts/bundle_code_gen.py:6-160", "toffee/bundle.py:388-423", "toffee/bundle.py:962-1020", "toffee/bundle.py:1070-1083"]}
{"id": "C110", "title": "A driver method that raises ends its call and disturbs no other", "statement": "When the method of a driver call raises, the model hooks that run first have run once each, those that run last never run, and nothing is compared for this call, then or later. All other calls behave as if the method had not returned yet, and can still be finished. The priority and order given to the executor for the failed call do not influence later calls.", "quantifier": "all interleavings of all calls of all drivers, all sets of methods that raise, all hooks, priorities and orders", "why_tests_cant": "The failure can come at any point among any number of concurrent calls; tests sample a few", "anchors": ["toffee/_base_agent.py:106-194", "toffee/executor.py:211-245"]}
{"id": "C111", "title": "bind and all_signals_rule work for bundles made with from_dict", "statement": "bundle.bind(dut) returns whatever signals the DUT lacks (it only warns), and all_signals_rule() returns; for a slot of a bundle made with from_dict, both name the DUT signal that the dictionary assigns to the slot, and a DUT signal of that name is connected to it.", "quantifier": "all bundle trees with prefix, regex and dictionary rules, all dictionaries, all DUTs", "why_tests_cant": "Needs a dictionary in which a DUT name is also a slot name, together with a missing pin; tests bind complete DUTs with disjoint names.", "anchors": ["toffee/bundle.py:1549-1641", "toffee/bundle.py:944-960", "toffee/bundle.py:1235-1275", "toffee/bundle.py:681-715"]}
{"id": "C112", "title": "clear_matched makes the next attach judge a model anew", "statement": "model.clear_matched() returns and leaves no hook or port of the model marked as matched, and touches no mark of another model's objects; so after any history of attach, unattach and clear_matched calls that ends with it, attach(model) accepts exactly the models that fit the env.", "quantifier": "every model, every set of marks, every history of calls", "why_tests_cant": "all histories and models; the failure only shows for models with an agent hook", "anchors": ["toffee/model.py: clear_matched, collect_all", "toffee/env.py: attach"]}
{"id": "C113", "title": "summary() shows how many messages of each severity were logged", "statement": "After any history of logging calls, setup_logging calls and setLevel calls, summary() writes a report to the screen (if the console display is on) and to the log file (if one is set) that lists each severity of the messages let through so far exactly once, in the order of first occurrence, with their exact number.", "quantifier": "all histories of logging calls and reconfigurations, all levels", "why_tests_cant": "The counts depend on the whole history of level changes, and a test that sets the level to INFO first does not see that the report is lost at the default level.", "anchors": ["toffee/logger.py:164-176", "toffee/logger.py:22-45", "toffee/logger.py:115-149"]}
{"id": "C114", "title": "With several DUTs on one loop, every started clock runs, and the run ends with the test", "statement": "When a test starts the clocks of several DUTs with start_clock, each DUT is stepped only when every task has ended or waits for an event; a step of one DUT wakes exactly the tasks that wait for its clock event and leaves all other tasks and DUTs alone. Every DUT whose clock was started goes on being stepped while the test runs, and run() returns after the test has returned, whichever clock was started last.", "quantifier": "Any number of start_clock calls for any DUTs, any program of the tasks (computation, events, sleep(0), create_task), any DUT model, any number of steps of the loop.", "why_tests_cant": "The unit tests start one clock each. Which clock notices that the tasks wait, or that the test has ended, depends on the order of the handles in the loop in every iteration.", "anchors": ["toffee/asynchronous.py:55-112", "toffee/asynchronous.py:161-189", "toffee/asynchronous.py:217-264"]}
{"id": "C115", "title": "An instance of a bundle class has the parts written in the class body", "statement": "Every instance of a Bundle subclass has, at every path, the sub-bundles and bundle list elements that are written in the class body, with the configuration they were given there: connect method (from_prefix, from_regex, from_dict, set_*), signals, write mode, name, and whatever was set in their own parts. Making an instance of a class whose body could be executed does not raise.", "quantifier": "All bundle classes: any nesting of sub-bundles and bundle lists, any configuration of them in the class body, any path.", "why_tests_cant": "A test instantiates a few classes with one level of configuration; the claim is about every nesting and everything that can be done to a sub-bundle before the first instance is made.", "anchors": ["toffee/bundle.py:119-154", "toffee/bundle.py:388-423", "toffee/bundle.py:962-1021"]}
{"id": "C116", "title": "A hook written with async def runs or is rejected", "statement": "A driver hook, agent hook or monitor hook written with async def is either run or rejected with an error, for driver calls and for monitored values; and a driver call that is rejected on account of such a hook has told no model anything.", "quantifier": "All sets of attached models with any ports and hooks, coroutine functions or not, model_first or dut_first, with any override of the order; all driver calls and monitored values.", "why_tests_cant": "A test tries one async hook on one model; the claim is about every combination of models, orders and hooks, and about what is left behind by a call that is rejected.", "anchors": ["toffee/_base_agent.py:66-194", "toffee/_base_agent.py:217-236", "toffee/model.py:16-176"]}
{"id": "C117", "title": "A task that awaits a monitor method gets the monitored values in order", "statement": "Values accepted by a monitor's queue are received by the tasks that await the monitor method, each once and in order; no value lies in the queue while a task waits for it with nobody woken; calling start_monitor again neither discards queued values nor abandons waiting tasks.", "quantifier": "All numbers of readers and values, all interleavings of monitored values, reads, wake-ups and calls of start_monitor.", "why_tests_cant": "Interleavings of readers, wake-ups and restarts are unbounded; a test runs one schedule.", "anchors": ["toffee/_base_agent.py:210-215", "toffee/_base_agent.py:238-252", "toffee/agent.py:67-78", "toffee/agent.py:150-160", "toffee/asynchronous.py:128-145"]}
{"id": "C118", "title": "The verdict of a test run is right", "statement": "A test that makes driver calls one after the other, with reference models attached, passes if and only if in each call what the driver method gets from the DUT equals (in the sense of its own ==) what every hook of the reference models returns for that call; a hook that returns None is not compared. The hooks of a call run once each, before the method, in the order of their priorities. The run fails at the first call for which they differ: the DUT gets the inputs and clock cycles of the calls up to that one and nothing after. The run comes to its end in any case.", "quantifier": "All DUTs, all reference models with any number (at least one in all) of model_first driver and agent hooks with any priorities, sharing state or not, outputs and stimuli (any types, functions and notion of ==), all driver methods that read and write pins and wait for clock cycles in any way and come to their end, all lists of stimuli of any length, all timer behaviour of the event loop.", "why_tests_cant": "A test bench is run with a few DUTs and stimuli; that it never passes a wrong DUT and never fails a right one is a statement about all of them, and about the whole interplay of clock, hooks, gather, background comparison and the end of the run.", "anchors": ["toffee/asynchronous.py:36-189", "toffee/asynchronous.py:208-309", "toffee/executor.py:14-41", "toffee/_base_agent.py:66-194", "example/adder/test_adder.py:14-29", "example/adder/env/agent.py:8-15"]}
{"id": "C119", "title": "Every declared name of a bundle stays usable after bind", "statement": "After bundle.bind(dut) every declared signal can be reached under its name (its pin, or the dummy if it is unconnected), every declared sub-bundle and bundle list is still there and was bound, and the methods and attributes of Bundle still work, whatever names the signals have.", "quantifier": "All bundle classes (any list signals, any class body), all DUTs and matches, both values of unconnected_signal_access.", "why_tests_cant": "Signals, parts, methods and bookkeeping attributes share one namespace per instance. Tests use a few names that do not clash; whether the order of the assignments in __init__ and bind ever loses one is a statement about all names.", "anchors": ["toffee/bundle.py:388-423", "toffee/bundle.py:681-715", "toffee/bundle.py:1042-1083", "toffee/bundle.py:1130-1143", "toffee/bundle.py:1196-1275", "toffee/bundle.py:1303-1402"]}
{"id": "C120", "title": "mark_function records a function under a text that identifies it", "statement": "For a function given as an object, mark_function records a text of the form file:first-last::Class::name from which the file and the lines where the function is written, its class and its name can be read in exactly one way. One function is recorded under one text, and two different functions under two.", "quantifier": "All functions, static, instance and class methods of all classes, decorated or not; all paths, line numbers and names.", "why_tests_cant": "The text is put together from several sources (inspect, __self__, __qualname__); that no two readings exist and that different functions never collide is a statement about all names.", "anchors": ["toffee/funcov.py:38-98", "toffee/funcov.py:380-391"]}
{"id": "C121", "title": "It makes no difference to the verdict of a test run whether a reference model runs before or after the driver method", "statement": "A test that makes driver calls one after the other, with reference models attached whose hooks run before the driver method (sche_order model_first) or after it (dut_first), passes if and only if in each call what the driver method gets from the DUT equals what every model returns for that call, each model being fed with the calls in their order; None is not compared. Every model sees every call exactly once, also those of the last call, whose background task is still to run when the test returns. This holds also for models that share their state, hooks of one call being run before those of the next.", "quantifier": "All DUTs, all numbers (also none) of model_first and of dut_first hooks with any priorities, outputs and stimuli (any types, functions and notion of ==), all driver methods that read and write pins and wait for clock cycles in any way, also not at all, and come to their end, all lists of stimuli of any length, all timer behaviour of the event loop.", "why_tests_cant": "The comparison of a call with hooks after the method is made by a background task that overlaps with the next calls and may outlive the test; whether one is lost or sees the wrong state depends on how many cycles each call takes and on the priorities.", "anchors": ["toffee/asynchronous.py:36-189", "toffee/asynchronous.py:208-309", "toffee/executor.py:14-41", "toffee/_base_agent.py:66-194"]}
{"id": "C122", "title": "The verdict of a test run with monitors: every monitor sees every clock cycle of the test, and every check counts", "statement": "toffee.run(test, env_handle), with an environment that has monitors and reference models whose hooks check what the monitors return, passes if and only if none of the checks raises. In every clock cycle the test waits for, every monitor runs once, after the clock step and before the test goes on, in the order in which the monitors were created; the checks for what they return run in the order of their priorities before the next clock step, also in the cycle in which the test returns. A monitor that looks at the pins once in every cycle sees every cycle of the test exactly once, in order, and nothing afterwards.", "quantifier": "All DUTs, all numbers (also none) of monitors and of hooks for each of them with any priorities, all monitor methods and tests that read and write pins and wait for clock cycles in any way, also not at all, and come to their end (a monitor method may come to its end after the test), all reference models and checks, all timer behaviour of the event loop.", "why_tests_cant": "The monitors are endless background tasks that the test never joins; whether a value is lost at the beginning, in the cycle in which the test returns, or when the tasks are cancelled depends on the order of tasks and the clock in the event loop for every length of the test.", "anchors": ["toffee/asynchronous.py:36-189", "toffee/asynchronous.py:208-309", "toffee/executor.py:14-41", "toffee/_base_agent.py:197-250"]}
{"id": "C123", "title": "The text of a bundle shows every signal of the bundle", "statement": "str(bundle) always returns. It is the name of the class with, in parentheses and separated by commas, an item for every signal, signal list, sub-bundle and bundle list, on all levels. It shows all values: if a bundle has the same text at two times, or two bundles of one class have the same text, then every signal on every level has the same text in both.", "quantifier": "All bundle trees of any depth with any names, all numbers of signals, lists and elements, all texts of signal values in which parentheses match and commas occur in parentheses only.", "why_tests_cant": "That no two states of a bundle are printed alike is a statement about all pairs of values of all trees; it depends on the separators on every level.", "anchors": ["toffee/bundle.py:48-58", "toffee/bundle.py:104-108", "toffee/bundle.py:142-146", "toffee/bundle.py:1158-1233"]}
{"id": "C124", "title": "The verdict of a test run with drivers and monitors is right", "statement": "toffee.run(test, env_handle), with an environment that has drivers and monitors and reference models with hooks for both on one shared state, passes if and only if no hook raises and every driver method returns what every hook for the call returns (None is not compared). In a driver call the models are told of the call, together with what the monitors saw in this clock cycle and they have not been told yet, in the order of the priorities, before the driver method runs; in every clock cycle the test or a driver method waits for, every monitor runs once. The test gets the results of the driver methods and may go on as it likes. Checks of the last cycle and the comparison for the last call count. If the monitors only look at the pins, then a run that passes gives the DUT just the inputs and clock cycles of the test and its driver methods, and two more clock cycles.", "quantifier": "All DUTs, all numbers (also none) of drivers, monitors and hooks with any priorities, all driver methods, monitor methods and tests that read and write pins and wait for clock cycles in any way, also not at all, and come to their end (a monitor method may come to its end after the test), all tests that use the results of their driver calls in any way, all reference models, checks and notions of ==, all timer behaviour of the event loop.", "why_tests_cant": "Hooks for calls and for monitored values share one queue and one state, the comparisons run in background tasks that nobody joins and the monitors in endless ones; whether one is lost or comes late depends on the order of tasks and the clock for every test.", "anchors": ["toffee/asynchronous.py:36-189", "toffee/asynchronous.py:208-309", "toffee/executor.py:14-41", "toffee/_base_agent.py:40-250", "toffee/_compare.py:8-9"]}
{"id": "C125", "title": "A reference model with ports is a function of what arrives at its ports", "statement": "A reference model whose main gets its inputs by awaiting its ports is, whenever the clock steps the DUT and when the test ends, in the state one gets by running its code on the items its ports have accepted, and can go no further with them: it waits for a port that is empty, has returned, or has raised, and then the failure has been reported. So its verdict depends on the sequence of items of each port only: not on the cycles in which they arrive, on the order between ports, or on what other tasks do; and what it has decided once it does not take back. For a scoreboard that reads inputs and outputs alternately and asserts that they match: the failure is reported if and only if for some i the i-th output is wrong for the i-th input.", "quantifier": "All models that read any number of ports in any order that may depend on what was read, all tests, components and hooks that put items into the ports in any cycles, all timer behaviour of the event loop; nobody but the model reads its ports and nobody awaits it.", "why_tests_cant": "The items arrive in different cycles and tasks for every DUT and test; that the model never lags behind and never depends on the interleaving is a statement about all schedules.", "anchors": ["toffee/asynchronous.py:36-189", "toffee/asynchronous.py:128-145", "toffee/asynchronous.py:208-214", "toffee/asynchronous.py:318-338", "toffee/model.py:178-314"]}
{"id": "C126", "title": "A scoreboard on ports compares the i-th output with the i-th input", "statement": "A reference model that takes the inputs of the DUT from a driver port and the outputs from a monitor port and compares them pairwise fails if and only if, for some i, the i-th output that was monitored is wrong for the i-th input that was driven, however many cycles the DUT needs.", "quantifier": "All input and output values, all notions of a right output, all port sizes, all latencies and numbers of cycles, all orders in which the items are sent; also any other model that reads ports.", "why_tests_cant": "The default ports hold four items and drop the newest with nothing but a log line, so it depends on the latency of the DUT and the spacing of the calls whether the pairs are the right ones; no finite set of tests covers all of them.", "anchors": ["toffee/model.py:178-314", "toffee/_base_agent.py:57-65", "toffee/_base_agent.py:217-236"]}
{"id": "C127", "title": "Waiting for a clock cycle works in every run, on every supported version of Python", "statement": "On every version of Python that the package supports (3.8 and later), in every run(test, dut=dut), waiting for a pin, for the DUT or for step() of a bundle is waiting for the event that the clock of the DUT sets in every cycle, no matter whether the bundle was bound before the run or in it, how often it was bound, and how many runs there were.", "quantifier": "All versions, all DUTs, all bundle trees, all sequences of constructing bundles, binding them (again) and starting runs.", "why_tests_cant": "Tests run on one version of Python and bind their bundles at one place; on the older versions run replaces the event of the DUT, and a reference to the old one shows only as a test that never ends.", "anchors": ["toffee/asynchronous.py:192-205", "toffee/asynchronous.py:264-292", "toffee/bundle.py:666-715", "toffee/bundle.py:1145-1156", "pyproject.toml:19"]}
{"id": "C128", "title": "b[path] is the signal that all_signals lists under that path", "statement": "For every pair (path, signal) that b.all_signals() yields, b[path] is that signal, and b[key] is a signal for no other key.", "quantifier": "All bundle trees of any depth and width, with signal lists and bundle lists, bound or not, all keys.", "why_tests_cant": "Tests index a flat bundle with a few names; a path that is not found gives None instead of an exception, which shows only where the signal is used.", "anchors": ["toffee/bundle.py:1085-1115", "toffee/bundle.py:1117-1128"]}
{"id": "C129", "title": "A bind that raises has no effect on a later bind", "statement": "If a call of bind raises, the next call of bind returns if and only if it would have returned without the first call, and then it leaves the same slots, connection counters and clock event as it would have left without it.", "quantifier": "All bundle trees, bound or not, all DUTs, any number of calls that raise, both values of unconnected_signal_access.", "why_tests_cant": "Tests bind bundles that fit the DUT; what a failed call leaves behind shows only in a later call, for instance with the DUT of the next test case.", "anchors": ["toffee/bundle.py:681-715", "toffee/bundle.py:1145-1156", "toffee/bundle.py:1235-1275", "toffee/bundle.py:1277-1301", "toffee/bundle.py:1303-1402"]}
{"id": "C130", "title": "Hooks work under every name of an agent", "statement": "If attach returns, every hook of the model for the path of a driver or monitor method of the environment is run by the calls of that method, also if the agent object is the value of several attributes of the environment, whichever of their names the path uses.", "quantifier": "All environments, all assignments of agent objects to attributes, all models, all marks and wirings left by earlier calls.", "why_tests_cant": "Tests use one attribute per agent; a hook that is lost is a comparison that is never made, and the test passes.", "anchors": ["toffee/env.py:32-56", "toffee/env.py:79-91", "toffee/env.py:172-226", "toffee/env.py:281-295"]}
{"id": "C131", "title": "A monitor goes on after its queue was full", "statement": "After start_monitor, a value that the monitor method returns while the queue holds fewer than maxsize values is put into the queue, also if earlier values were dropped because the queue was full, and whatever models are attached.", "quantifier": "All histories of returned values, reads and calls of start_monitor, all sizes, agents inside and outside of an environment.", "why_tests_cant": "Tests read as fast as the monitor produces; the monitor task ends without a message, and what shows is only that nothing arrives later.", "anchors": ["toffee/_base_agent.py:17-24", "toffee/_base_agent.py:197-252", "toffee/env.py:17-30", "toffee/env.py:93-108"]}
{"id": "C132", "title": "Agent hooks and agent ports are given the path of the method in their environment", "statement": "An agent hook or agent port of a model that is attached to an environment is given, for every call of a driver method and every value of a monitor method it matches, the path agent.method with the attribute name under which that environment has the agent.", "quantifier": "All numbers of environments with any attribute names, all assignments of agent objects to attributes, agents that belong to several environments or to none when their constructors end.", "why_tests_cant": "Tests build one environment; the path becomes wrong only when another environment takes over the agent, as when block environments are used in a system environment.", "anchors": ["toffee/env.py:17-30", "toffee/env.py:93-108", "toffee/_base_agent.py:17-24", "toffee/_base_agent.py:57-60", "toffee/_base_agent.py:88-97", "toffee/_base_agent.py:217-231"]}
{"id": "C133", "title": "A function of a model may have several hook decorators", "statement": "A function of a reference model that has several of the decorators driver_hook, monitor_hook and agent_hook is a hook for everything that its decorators name, each with the priority and the sche_order given to that decorator.", "quantifier": "All numbers and orders of decorators, all kinds, names, priorities and orders.", "why_tests_cant": "Tests use one decorator per function; with several, the decorators are accepted without any message, and which of them is lost depends on their kinds and their order.", "anchors": ["toffee/model.py:16-64", "toffee/model.py:67-123", "toffee/model.py:126-175", "toffee/model.py:334-366"]}
{"id": "C134", "title": "An agent port receives every message once, whatever attributes refer to it", "statement": "An agent port of an attached model is given every call of a driver method and every value of a monitor method that its arguments ask for exactly once, and an agent port without arguments is given those of the agent that has the name of its attribute; it makes no difference whether the port is an attribute under several names or of several models.", "quantifier": "All numbers and orders of attributes, all arguments of the ports, all methods, all states of the queues.", "why_tests_cant": "Tests give each port one attribute of one model; the copies and the missing messages appear only when a port object is shared.", "anchors": ["toffee/model.py:334-356", "toffee/model.py:248-266", "toffee/env.py:128-170", "toffee/_base_agent.py:57-60", "toffee/_base_agent.py:217-223"]}
{"id": "C135", "title": "Every attached model reads each message of its driver and monitor ports once", "statement": "With several models attached to an environment, each of them reads from its driver port or monitor port every call or value of the method once and in order, whatever the other models are, also if they are instances of one class whose ports are written in the class body.", "quantifier": "All numbers of models, all assignments of ports to models, all sequences of messages, all numbers of reads.", "why_tests_cant": "Tests attach models whose constructors make the ports; with ports in the class body, which the library accepts, one instance alone works.", "anchors": ["toffee/model.py:176-199", "toffee/model.py:346-356", "toffee/model.py:447-467", "toffee/_base_agent.py:57-65", "toffee/_base_agent.py:126-128", "toffee/_base_agent.py:221-226"]}
