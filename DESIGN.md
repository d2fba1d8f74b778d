# Formal model of toffee in Lean 4 — design and trusted base

* `properties.jsonl` — the properties (C01 …), stated about the Python API.
* `lean/Verif/Model` — the model of the code, function by function, each definition citing file and
  lines in `/repo`.
* `lean/Verif/Lemmas` — auxiliary lemmas and invariants.
* `lean/Verif/Props` — for each property a small specification that does not use the helpers of the
  model, the theorems (`Cnn_…`), and concrete cases that meet their hypotheses.
* `MANIFEST.json` — property → status and theorem names.
* `seeded/LOG.jsonl` — the mutation experiments: one line per wrong program.

## Conventions

* Python values are modelled by types: `int` is `Int`/`Nat`, `None`-able values are `Option`,
  dictionaries are association lists in insertion order, names are `List Char` where the characters
  matter and an arbitrary type with decidable equality where they do not. Exceptions are values.
* Where the code violates a property, the *negation* is proved with a concrete witness (suffix
  `_violated`), and the strongest true part that was found is proved (suffix `_partial`, with a
  comment that says what is missing). Theorems of a `partial` claim without suffix hold in full.
* Concurrency: `Model/Loop` is the FIFO event loop with arbitrary task programs, and statements hold
  for every program and every reachable state. `Model/Executor`, `Model/Driver`, `Model/Monitor` and
  `Model/Requests` are machines whose steps are stretches of code without suspension; the statements
  hold for *all* interleavings, of which the event loop allows only some (an over-approximation for
  safety statements; every `_violated` witness of these models is a schedule that the loop allows).

## Trusted base

1. Lean's kernel, and the axioms listed per theorem at the end of this file: at most `propext`,
   `Classical.choice` and `Quot.sound`. No own axioms, no `sorry`, no `native_decide`/`bv_decide`.
2. The hand translation of the Python code listed below into Lean definitions. Nothing was run.
3. CPython and asyncio as encoded in the models: `call_soon` is a FIFO deque processed in batches;
   `Event`, `Queue`, `Task` wake their waiters through `call_soon` in FIFO order; dictionaries keep
   insertion order; `sorted` is stable; `dir()` is sorted; `logging` filters by logger level, then by
   handler level; `inspect.Signature.bind` and `apply_defaults` of CPython 3.11 as described in `Model/Args` and `Model/ArgsFull`.
4. The DUT generated by picker: `Step(1)` advances one cycle and calls every registered rise callback
   once; pins are mutable cells; attribute look-ups that a pin does not answer go to its `xdata`.

## What is modelled

| code | model | properties |
|------|-------|------------|
| `utils/lfsr_64.py` | `LFSR` (64-bit state as `Nat` with the shifts and masks of the code) | C01 C02 |
| `utils/two_bits_counter.py` | `TwoBits` | C03 |
| `utils/plru.py` | `PLRU` (layered bit arrays) | C04–C06 |
| `delay.py` | `Delayer`, sampling in `Loop` | C07 C08 |
| `triggers.py`, `Bundle.step` | `Triggers` (coroutines as state machines), and as programs of `Loop` | C09–C12 C89 |
| `asynchronous.py`: clock loop, callbacks, `Event`/`Queue`/`sleep`, `create_task`, `gather`, `start_clock`, `main_coro` (with and without `env_handle`), `run`, `handle_exception`, `Component` | `Loop` | C08 C09 C13–C18 C73 C76 C77 C82 C84–C89 C93 C96 C97 C102–C104 |
| `asynchronous.py`: several clocks on one loop (`start_clock` for several DUTs, `__has_unwait_task`, `cancel_all_tasks`, `main_coro`) | `Clocks` | C114 |
| `executor.py`: priority tasks | `Priority`, `Loop` | C14 C15 C73 |
| `executor.py`: `Executor` | `Executor`, `ExecutorBody`, `ExecutorLife` (many blocks, late calls), `Recognise` (which coroutines are driver calls), `Loop` | C19 C20 C68–C70 C78 C96 C99–C101 |
| `_base_agent.py`: `Driver`, `_compare.py` | `Driver`, `DriverRaise`, `Args`, `ArgsFull`; the requests and waits as programs of `Loop` | C21–C24 C70 C84 C97 C107 C110 |
| `_base_agent.py`: `Monitor`, `agent.py` monitor queue | `Monitor`, `Port` | C26 C27 |
| `_base_agent.py`: the end of the monitor task when `path` is missing (17-24, 197-252; `env.py` 93-108) | `MonitorLife` | C26 C131 |
| `model.py`: `Port` and subclasses, hook decorators | `Port`, `Paths`, `HookDeco` | C25 C28 C67 C104 |
| `agent.py`: creation and look-up of drivers and monitors; `env.py`: names of agents | `Agent` | C79–C81 |
| `env.py`, `model.py`: `attach`, `unattach`, matching, `clear_matched` | `Attach`, `ClearMatched` | C29–C33 C112 |
| `env.py`: `attach` with one agent under several attributes (32-56, 172-226) | `AttachAlias` on `Attach` | C130 |
| `env.py`: `__config_agent_name` of several environments (17-30, 93-108), `path` in `_base_agent.py` | `PathShare` | C132 |
| `model.py`: several hook decorators on one function (16-175), classification in `collect_all` (360-366); what a decorator names is abstract, `__matched__` left out | `HookStack` | C133 |
| `model.py`: agent ports in `collect_all` (346-356) with one port under several attributes or in several models, and their messages (`_base_agent.py` 57-60, 217-223) | `PortAlias` | C134 |
| `model.py`, `_base_agent.py`: driver and monitor ports that several attached models share (346-356, 447-467; 57-65, 126-128, 221-226); reading while no other task reads | `PortClass` | C135 |
| `bundle.py`: naming rules, `bind`, detection, rules, counters | `Bundle` | C34–C38 C45–C48 C50 |
| `bundle.py`: `as_dict`, `assign`, `set_all`, `randomize_all` | `BundleData` | C38–C44 C106 |
| `bundle.py`: `__init__`, `BundleList`, `SignalList` | `Instances` | C51 |
| `bundle.py`: `Bundle.__init__` (parts made anew from the class body), `BundleList.__init__`, `from_bundlelist` | `Config` | C115 |
| `_base_agent.py`: `process_driver_call`, `process_monitor_call` with hooks that are coroutine functions | `AsyncHook` | C116 |
| `_base_agent.py`: `enable_get_queue`, end of `__monitor_forever`; `agent.py`: `start_monitor`, monitor methods, with any number of waiting readers | `Readers` | C117 |
| a whole run: `asynchronous.py`, `executor.py`, `_base_agent.py`: `process_driver_call`, with a test, a driver method and any number of `model_first` hooks (of any types, as in the adder example) as the program | `Bench` on `Loop` | C118 |
| the same, with any number of `model_first` and of `dut_first` hooks | `BenchMix` on `Loop` | C121 |
| a whole run with `env_handle` and monitors: `asynchronous.py` 208-309, `_base_agent.py` 197-244 | `BenchMon` on `Loop` | C122 |
| a whole run with `env_handle`, drivers and monitors, tests that use results: `asynchronous.py` 208-309, `_base_agent.py` 40-244 (`model_first`, one call at a time) | `BenchAll` on `Loop` | C124 |
| `main` of a model with ports: `asynchronous.py` 128-145, 318-338, `model.py` 178-314 (ports as queues that accept everything; C25 has the bound) | `Loop` (`ModelCode` in `Props/LoopPort`) | C125 |
| a model that reads bounded ports while values are sent: `model.py` 178-314, `_base_agent.py` 57-65, 217-236 (running the model is one event, justified by C125) | `PortBoard` | C126 |
| the clock event of a DUT and `run` on old and new versions of Python: `asynchronous.py` 165-205, 264-292, with `bind` and `step` of bundles (that `asyncio.Event` lost its parameter `loop` in 3.10 is taken from Python's documentation) | `OldRun` | C127 |
| `bundle.py` 48-58, 104-108, 142-146, 1158-1233: `__str__` | `BundleStr` | C123 |
| `bundle.py`: the namespace of one bundle instance: `__init__`, `__set_current_level_signal`, `bind`, `__detect_missing_signals`, `__all_sub_bundles`, names that clash | `Attrs` | C119 |
| `funcov.py`: `get_func_full_name`, the set of marks of a bin | `FuncName` | C120 |
| `bundle.py`: warnings of `bind` and `from_dict`, rule strings, `from_prefix(prefix, dut)` | `BundleWarn`, `Bundle` (`ruleText`) | C90–C92 C111 |
| `bundle.py`: `__getitem__` (1117-1128) | `BundleItem` on `Bundle` | C128 |
| `bundle.py`: the state that a raising `bind` leaves (681-715, 1235-1301, 1303-1402) | `BindRaise` on `BundleWarn` | C129 |
| `bundle.py`: `process_requests` | `Requests`, `RequestsFull` | C49 C108 |
| `bundle.py`: `set_write_mode`, `bind` | `WriteMode` | C74 |
| `bundle.py`: `step`, clock events, `from_xport` | `Bundle` | C75 |
| `funcov.py` | `FunCov` | C52–C61 |
| `funcov.py`: `sample` with conditions that raise | `FunCovRaise` | C94 |
| `funcov.py`: dictionaries of bins that are shared and changed later | `FunCovShare` | C105 |
| `funcov.py`: arguments of `add_watch_point` and `mark_function` | `FunCovArgs` | C95 |
| `logger.py` | `Logger` | C62–C64 C71 C72 C113 |
| `debug.py` | `Debug` (the calls a command makes) | C98 |
| `scripts/bundle_code_gen.py` | `CodeGen`, `CodeRun` | C65 C66 C109 |
| `scripts/bundle_code_intel_gen.py` | `IntelGen` (classes instead of text) | C83 |

## Simplifications and what is not modelled

* **Loop**: an exception of a task that nobody awaits is reported at once if nobody keeps a reference
  to the task (CPython counts references), never otherwise. Not modelled: tasks that catch `CancelledError`
  or run code in `finally`, user code that cancels tasks, bounded queues, a second `start_clock` (modelled apart, in `Clocks`, without queues, timers, hooks and exceptions), raw
  futures, wall-clock time (an oracle decides which timers are due). Cancellation is one step (asyncio
  takes some loop iterations in which nothing else can run). Hooks are functions that may set
  events, put into queues, create tasks and raise, but do not request hooks. Statements about clock waiters
  assume that only the clock loop sets `dut.event` (`ClockPrivate`).
* **Executor / Driver / Monitor**: agents have a `path`, that is, they were attributes of the environment when its
  constructor ended (C131 is about the others); coroutines of an executor may raise; driver methods may raise
  (`DriverRaise`); a comparison function that raises counts as a mismatch; hooks of the `Driver` model do not raise; coroutine functions as hooks (an assertion fails); handing over to an executor a coroutine that has
  already begun; a priority task requested by a running hook.
* **Args**: `*args`, `**kwargs` and positional-only parameters of driver methods (`ArgsFull` has them all;
  there, whether Python accepts a call is an input of the model, tied to the specification by hypothesis).
* **Agent**: a class hierarchy is the list of class dictionaries along the method resolution order. Not
  modelled: decorated functions in instance attributes, functions decorated twice, agents that are class
  attributes of an environment, constructors that branch (they are a list of assignments and super calls).
* **Attach**: one agent object under two attributes of an environment (but see `AttachAlias`), one method under two
  attributes; subclasses that define `attached_model`/`attached_agent`/`attached_env`; agent hooks that are no bound methods
  (`ClearMatched`); warnings.
* **Bundle**: a regular expression is an arbitrary partial function on names; attribute names of one
  bundle do not clash (what happens if they do is in `Attrs`); log output other than the
  warnings of `bind` and `from_dict` (`BundleWarn`); `Bundle.bind` is the effect of a `bind` that
  returns, and `Bundle.bindResult` says when it raises (C111); `Inst.bind` is the state a raising `bind`
  leaves (C129); the `name` of a bundle below the one that is bound is the one `bind` gives it;
  attributes other than signals, bundles and lists of them (`BundleItem` knows only that they exist).
* **BundleData**: pins hold integers and a parameter (`Dev.wr`) says what a pin makes of a written
  integer; the write mode is immediate; writing anything but an integer raises; messages have text
  keys, no sharing, no objects with `__bundle_assign__`.
* **Requests**: exceptions; functions of a request that call `process_requests` themselves. Other
  callbacks of the device and its own step are arbitrary functions before and after the callback.
* **Logger**: propagation to the root logger, `logging.disable`, the text around the id, `get_stats`
  (it reads an attribute that does not exist). The root logger has no handlers when `setup_logging` is
  called, and only `setup_logging` sets its level.
* **CodeGen**: what a regular expression does to a name is a parameter. `repr` of a dictionary is modelled
  for strings of letters, digits and underscores. C109 reads the text with a tokenizer and an interpreter
  for the few Python statements that occur in it (ASCII names, no escapes in plain string literals).
* **IntelGen**: `hash` and the iteration order of sets are parameters; the theorems assume that hashes do
  not collide, are not 0 to 3 and that no name is the decimal text of a hash; names have no underscore; the output is a list of
  class definitions, not their text (Python's name mangling does not come up without underscores).
* **FunCov**: editing the record returned by `cover_point`, after it was handed over.
* **Debug**: `pdb` (which strips the line and finds the command), `int(text)` and the DUT's internal
  signals are parameters, calls of the DUT do not raise, the printed text.
* Not modelled at all: garbage-collection time of unretrieved task exceptions, the pytest plug-in.

## What was found: statements the code violates

| property | what happens | theorem |
|---|---|---|
| C05 | PLRU with a number of ways that is not a power of two returns ways that do not exist | `C05_victim_invalid_violated` |
| C08 | delayers are sampled again after every round of driver hooks: at least twice in a cycle with a driver call with hooks | `C08_double_sample_violated` |
| C13 | a monitor hook that sets an event or puts into a queue: the clock steps before the woken task runs | `C13_violated` |
| C17 | two DUT steps, not one, happen between the return of the test and the end of the loop, in every run | `C17_second_step_violated` |
| C19 | a rejected executor call leaves an empty group in the results | `C19_rejected_violated` |
| C21 | priority and order are attributes shared by all calls of one driver method: concurrent calls overwrite each other's, direct calls pick them up, and a mismatch leaves them set | `C21_…_violated` |
| C22 | a model that provides a port for a method has its hook for the method skipped | `C22_ports_violated` |
| C24 | a parameter named `agent` given by keyword, and methods whose first parameter is not named `self`, break the payload | `C24_…_violated` |
| C29 | acceptance differs from the statement in both directions; an agent port that does not exist raises AttributeError (`agent_port.__name__`) instead of ValueError | `C29_…_violated` |
| C31 | a failed attach stays wired: injection precedes the check | `C31_failed_attach_violated` |
| C32 | marks on shared functions are never cleared: a model that does not fit is accepted after an earlier attach | `C32_stale_violated` |
| C33 | `unattach` raises AttributeError and changes nothing; an attached model is never recognised as attached | `C33_…_violated` |
| C37 | `detect_specific_connectivity` says True for slots it does not connect and raises for dict/regex rules | `C37_specific_violated` |
| C40 | flat `assign` does not understand the keys of bundle lists that flat `as_dict` produces | `C40_round_trip_violated` |
| C42 | a flat `sub.*` after `sub.name` overwrites the named value | `C42_flat_order_violated` |
| C43 | `assign` deletes `*` from the caller's dictionary | `C43_…_violated` |
| C46 | two DUT names that a regular expression maps to one slot are both counted as connected | `C46_counting_violated` |
| C47 | a second bind keeps old pins in lists, old counts and the old clock event | `C47_rebind_violated` |
| C49 | a last request that has to wait is not waited for; two binds apply two requests per cycle; a reused dictionary gives a stale result | `C49_…_violated` |
| C51 | instances of a class share the elements of its bundle lists | `C51_violated` |
| C56 | `as_dict()['hinted']` is stale after `del_point` | `C56_hinted_agrees_violated` |
| C58 | `stop_sample()` cannot be called: the attribute of that name hides the method | `C58_stop_sample_violated` |
| C59 | `once` of a single point has no effect until the whole group is covered | `C59_once_violated` |
| C64 | the id is formatted twice when both outputs are on | `C64_id_display_violated` |
| C67 | a decorator object that is reused keeps the path of its first function | `C67_…_violated` |
| C68 | `exit='any'` without coroutines waits forever | `C68_any_violated` |
| C69 | agents outside of an Env share the name '' and thus their groups | `C69_overlap_violated` |
| C73 | pending hooks of a run without clock, or of a run that ended with an exception, are executed by the next run in the process | `C73_…_violated` |
| C73 | after a run in which a hook raised, no later run of the process ever steps its DUT: the hook list is not cleared and contains coroutines that were awaited before | `C73_failed_hook_violated` |
| C74 | the write mode of a sub-bundle set before the root is bound is ignored; a second `bind` overwrites the mode set later for a sub-bundle; an invalid mode is accepted before `bind` | `C74_…_violated` |
| C75 | `step` raises if the only connected signals are in bundle lists, and for every bundle made by `from_xport` | `C75_…_violated` |
| C77 | an exception in a monitoring function is swallowed (the monitor keeps a reference to its task) and the test passes; without a clock also one of any other background task | `C77_…_violated` |
| C78 | `exit='any'` with a group in which every coroutine raised, while no group ends, waits forever; the exceptions are never reported | `C78_any_violated` |
| C79 | `super().n()` in an overriding driver method runs the overriding method again (without end); in an override that is not decorated: KeyError; two methods made by one function factory: the call of one runs the other | `C79_…_violated` |
| C80 | a monitor method under two names is run by two tasks, one of which can not be read | `C80_alias_violated` |
| C83 | the nested-bundle generator drops the signals of a bundle below a signal; it can mistake a bundle called `3` for a signal-and-bundle called `2` (depends on the hash seed) and drop it | `C83_lost_violated`, `C83_confused_violated` |
| C90 | with two missing elements of signal lists in one bundle the second warning of `bind` names a slot that does not exist (`x[0].x[1]`) | `C90_path_violated` |
| C91 | a DUT signal that occurs twice in a `from_dict` dictionary hides a wrong key, or makes a right one look wrong | `C91_repeated_violated` |
| C92 | `from_prefix(prefix, dut)` makes no slot for pins whose class is called `XPin` | `C92_xpin_violated` |
| C93 | `gather` raises the exception of a coroutine only when all coroutines before it have ended, any number of cycles later | `C93_exception_violated` |
| C96 | a block with exit mode "any" all of whose groups raise is never left (the event is set only by groups that complete), and the exceptions are not reported; the same holds for a block without groups | `C96_any_raise_violated`, `C96_any_empty_violated` |
| C98 | the debugger's `tset` on a signal that was forced with `tforce` is another force: `tforce` leaves the signal in force mode | `C98_tset_violated` |
| C99 | a function that has the name of a driver method of its parameter `agent` (as `send(agent)` in the documentation) is taken for a call of the driver method; a function with another variable called `agent` makes the executor raise `AttributeError` | `C99_same_name_violated`, `C99_other_agent_violated` |
| C100 | a block with exit mode "any" whose body raises before it handed over a coroutine is never left; the exception is not seen | `C100_any_violated` |
| C101 | an executor that has executed a coroutine in a block is never left normally again: a second `async with` on it awaits the old coroutines again and raises `AttributeError`; this also happens if it is empty | `C101_second_block_violated`, `C101_reuse_violated` |
| C101 | a coroutine that is handed over behind the block and before `wait_all()` makes `wait_all()` raise `IndexError`, or changes the shape of the results of another one | `C101_wait_late_violated`, `C101_index_violated`, `C101_shape_violated` |
| C102 | monitors that the test creates itself (instead of `env_handle`) are called after the drivers in every cycle, contrary to the timing promised in `docs/source/env/agent.md` | `C102_inside_test_violated` |
| C102 | after a monitor hook has woken a task (by setting an event), that task runs before the monitors in every later cycle | `C102_hook_violated` |
| C104 | a monitor hook is declared with priority 0, not with the documented -1: a driver hook with priority 0 requested earlier in the cycle is executed before it | `C104_tie_violated` |
| C104 | the hook of a monitor method that waits for something else than the clock comes after driver hooks of the cycle | `C104_waiting_violated` |
| C105 | a cover point refers to the caller's dictionary of bins: after a bin was added to it every sample raises `KeyError` | `C105_added_violated` |
| C105 | after a bin without hits was deleted from the dictionary the point counts as covered, while its report still shows the bin with 0 hits | `C105_deleted_violated` |
| C106 | unknown keys inside the elements of a bundle list are reported without the path of the list | `C106_list_violated` |
| C107 | a keyword that goes to `**k` but is named like a positional-only parameter left to its default raises `TypeError` if the driver method has a port (`Signature.bind` of CPython 3.11), and goes through without one | `C107_clash_violated` |
| C107 | a driver method with `**k` cannot be given a keyword `agent` | `C107_agent_violated` |
| C108 | `process_requests` returns while the last request still waits for its condition: that request is missing from the results, and is carried out later | `C108_last_violated` |
| C109 | generated code is rejected by Python if the rest of a pin name is a keyword or begins with a digit; signals called `name`, `bound`, … or `__x` are never connected; a regular expression may give two pins one name | `C109_keyword_violated`, `C109_digit_violated`, `C109_hidden_violated`, `C109_mangled_violated`, `C109_same_violated` |
| C110 | the priority and order given to the executor for a driver call whose method raises stay set: the next direct call of the method uses them | `C110_setting_violated` |
| C111 | with a dictionary in which a DUT name is also the name of a slot (`{"a": "b", "b": "c"}`) `bind` raises `TypeError` as soon as one slot has no pin, and `all_signals_rule` always does | `C111_raises_violated` |
| C111 | when a key of a dictionary is also a value and the signal goes to a sub-bundle, the rules of all slots name the value of that key too | `C111_spurious_violated` |
| C112 | `clear_matched` of a model with an agent hook raises `AttributeError` (it assigns to an attribute of a bound method) and leaves the marks of the hook's methods and of all agent ports | `C112_agent_hook_violated` |
| C113 | `summary()` logs its report at INFO: at the default level (WARNING) and any level above INFO it shows nothing | `C113_silent_violated` |
| C114 | `main_coro` waits for the clock event of the DUT started last, but the first clock that notices the end cancels all other clock tasks: if it is that of another DUT, the run never ends | `C114_lost_violated` |
| C114 | with one task for each of two DUTs, the clock started first keeps its task awake whenever the second clock looks: the second DUT is never stepped | `C114_starves_violated` |
| C115 | what the class body does to a sub-bundle, beyond giving it a connect method, is lost in every instance (write mode, name, configuration of its own parts); `BundleList(instance, …)` uses only its class | `C115_nested_violated`, `C115_lost_violated`, `C115_list_violated` |
| C116 | an `async def` monitor hook or agent hook is silently never run for monitored values; a driver call rejected for an `async def` hook has already been told to the models before it | `C116_monitor_violated`, `C116_trace_violated` |
| C117 | calling `start_monitor` again abandons every waiting reader forever and discards the queued values; a reader that asks later can be served first | `C117_stranded_violated`, `C117_discarded_violated`, `C117_overtaken_violated` |
| C119 | a signal named like a method of `Bundle` replaces the method; named like a part, the part is lost and never bound; `name`, `bound`, `write_mode`, `current_level_signals` as signals vanish, are overwritten or make `bind` raise (reachable with `new_class_from_xport` by any DUT with such a pin) | `C119_method_violated`, `C119_part_violated`, `C119_hidden_violated`, `C119_bound_violated`, `C119_mode_violated`, `C119_level_violated` |
| C120 | a decorated test function is recorded with the file of its decorator and the lines of its own file (`inspect.getsourcelines` follows `__wrapped__`, `getsourcefile` does not); closures of one `def` are recorded as one; an inherited or nested method has two names | `C120_decorated_violated`, `C120_factory_violated`, `C120_method_violated` |
| C121 | a `dut_first` hook of a call runs together with the `model_first` hooks of the next call and, at equal priority, after them: a model with both kinds of hooks for one driver method sees the next call first, and a right DUT fails; with `dut_first` hooks only, the hooks of calls that take no clock cycle run together with those of the call before, by priority | `C121_order_violated`, `C121_false_alarm_violated`, `C121_after_violated` |
| C123 | `str(bundle)` raises AttributeError before `bind` if the signals are given by the list `signals`; the text of a bundle without signals of its own begins with a comma | `C123_unbound_violated`, `C123_comma_violated` |
| C126 | a model that reads bounded ports: with every latency above the size of the port, the scoreboard blames a right DUT | `C126_late_violated` |
| C127 | before Python 3.10, a bundle bound before `run` waits for an event that is never set, also after it was bound again; on 3.10.0, `run` raises TypeError | `C127_stale_violated`, `C127_raises_violated` |
| C128 | `b[path]` is `None` for the path of every signal in a list or sub-bundle | `C128_nested_violated` |
| C129 | A `bind` that raises leaves counters, pins and the clock event behind, and a bound bundle whose `bind` raised can never be bound again | `C129_counts_violated`, `C129_stale_violated`, `C129_clock_violated`, `C129_stuck_violated` |
| C130 | If an agent has two attributes, hooks for the path under the first are accepted and never run | `C130_alias_violated`, `C130_example_violated` |
| C26 C131 | The monitor of an agent outside of an environment ends when its queue is full: `path` does not exist | `C26_no_env_violated`, `C131_full_violated`, `C131_late_violated` |
| C132 | An environment that takes over an agent changes the path the models of the first environment are given | `C132_shared_violated`, `C132_late_violated` |
| C133 | Of several hook decorators on one function only one kind is in force, with the priority of the outermost | `C133_both_violated`, `C133_inner_violated`, `C133_mixed_violated` |
| C134 | An agent port that is several attributes of a model receives every message several times; its first name is kept for ever | `C134_copies_violated`, `C134_renamed_violated`, `C134_example_violated` |
| C135 | A port written in the body of a model class is shared: every attached instance adds a copy of every message | `C135_copies_violated`, `C135_twice_violated`, `C135_room_violated`, `C135_lost_violated` |
| C111 | for slots of sub-bundles below a dictionary the warnings and `all_signals_rule` say `<No Matching Signal in Dict>` although a pin matches | `C111_nested_violated`, `C111_below_violated` |
| C94 | a `sample()` that raises has counted the bins before the condition that raised | `C94_atomic_violated` |
| C94 | after a `sample()` that raised, a point all of whose bins were hit is not covered | `C94_covered_violated` |
| C94 | one `sample()` that raises stops a covered group for good, although no point is `once` | `C94_stops_violated` |
| C95 | `add_watch_point(target, condition)` without a name raises `AttributeError` | `C95_single_violated` |
| C95 | `mark_function` with a function that cannot be marked raises, but has marked one of the bins | `C95_mark_atomic_violated` |

## Specification style and mutation testing

Each theorem's statement uses its own small specification (predicates over traces, names, slots or
counts) and the model's *entry points* only. After each group of proofs the model was edited like a
realistic bug in a scratch copy and rebuilt; `seeded/LOG.jsonl` has one line per edit with the proofs
that broke (`proofs_failed`) and the property theorems that thereby lost their proof
(`theorems_failed`). Edits that no property theorem noticed led to the tightened or new theorems named
in `theorems_tightened`.

## Axioms per property theorem

* Classical.choice, Quot.sound, propext (414): `C02_never_zero`, `C02_period`, `C02_visits_every_value_once`, `C03_range`, `C03_three_equal_outcomes_saturate`, `C03_two_equal_outcomes_decide`, `C04_not_most_recent`, `C04_recently_used_not_evicted`, `C05_victim_invalid_violated`, `C05_victim_valid_partial`, `C06_sweep_is_fair`, `C07_constructor`, `C07_delayers_independent`, `C08_double_sample_violated`, `C08_once_partial`, `C09_clockCycles_exact`, `C09_not_later`, `C09_resumes_in_cycle`, `C100_any_violated`, `C100_executes_first`, `C100_masked`, `C100_not_swallowed`, `C100_reaches_partial`, `C101_first_block_partial`, `C101_index_violated`, `C101_late`, `C101_once`, `C101_reuse_violated`, `C101_second_block_violated`, `C101_shape_violated`, `C101_wait_late_violated`, `C102_env_partial`, `C102_hook_violated`, `C102_last_call`, `C102_monitors_first_partial`, `C103_end`, `C103_every_cycle`, `C103_messages`, `C104_default_partial`, `C104_urgent_partial`, `C105_added_violated`, `C106_list_violated`, `C106_lists_partial`, `C106_reports_partial`, `C106_silent_partial`, `C107_agent_violated`, `C107_clash_violated`, `C107_delivers_partial`, `C107_invalid`, `C107_unique`, `C108_all_partial`, `C108_plain_partial`, `C108_reaches`, `C108_sequential_partial`, `C109_dict_partial`, `C109_digit_violated`, `C109_hidden_violated`, `C109_keyword_violated`, `C109_mangled_violated`, `C109_prefix_partial`, `C109_raises`, `C109_regex_partial`, `C109_same_violated`, `C10_allValid_earliest`, `C10_allValid_no_pins`, `C10_condition_earliest`, `C10_value_earliest`, `C10_value_never`, `C110_finishes`, `C110_others`, `C110_raises_partial`, `C110_setting_violated`, `C111_below_violated`, `C111_dotted_violated`, `C111_nested_violated`, `C111_no_key`, `C111_raises_iff`, `C111_raises_violated`, `C111_returns_partial`, `C111_rule_partial`, `C111_spurious_violated`, `C114_ends_partial`, `C114_lost_violated`, `C114_one_clock`, `C114_one_clock_end`, `C114_quiet_step`, `C114_starves_violated`, `C114_state`, `C114_task_run`, `C115_lost_violated`, `C116_refused`, `C116_trace_violated`, `C117_no_lost_wakeup`, `C117_registered`, `C117_stranded_violated`, `C118_fail`, `C118_models`, `C118_pass`, `C118_verdict`, `C119_bind_partial`, `C119_bound_violated`, `C119_hidden_violated`, `C119_level_violated`, `C119_method_violated`, `C119_mode_violated`, `C119_part_violated`, `C119_unbound`, `C11_change_earliest`, `C120_apart_partial`, `C120_decorated_violated`, `C120_method_iff`, `C120_method_violated`, `C120_readable_partial`, `C120_unambiguous`, `C121_after_fail`, `C121_after_order`, `C121_after_pass`, `C121_after_verdict`, `C121_fail`, `C121_false_alarm_violated`, `C121_pass`, `C121_shared_fail`, `C121_shared_pass`, `C121_shared_verdict`, `C121_verdict`, `C122_fail`, `C122_pass`, `C122_recorded`, `C122_samples`, `C122_verdict`, `C123_comma_violated`, `C123_format_partial`, `C123_returns`, `C123_unbound_violated`, `C123_values`, `C124_fail`, `C124_pass`, `C124_undisturbed`, `C124_verdict`, `C125_at_the_end`, `C125_every_cycle`, `C125_function`, `C125_settled`, `C126_late_violated`, `C126_latency_partial`, `C127_new_partial`, `C127_old_partial`, `C128_flat_partial`, `C128_level_partial`, `C129_clock_violated`, `C129_counts_violated`, `C129_left_violated`, `C129_outcome_partial`, `C129_rebind_violated`, `C129_returns`, `C129_slots_partial`, `C129_stale_violated`, `C129_stuck_violated`, `C12_fallingEdge`, `C12_risingEdge`, `C130_alias_violated`, `C130_distinct_partial`, `C130_example_violated`, `C130_last_partial`, `C134_copies_violated`, `C134_example_violated`, `C134_once_partial`, `C134_renamed_violated`, `C134_times_partial`, `C135_room_violated`, `C13_cancel_quiescent`, `C13_quiescent_partial`, `C14_execute`, `C14_order_unique`, `C14_rounds`, `C15_executed_in_cycle`, `C15_none_pending`, `C15_once`, `C15_only_requested`, `C16_fifo_once`, `C16_waiting_at_step`, `C17_one_step_partial`, `C17_returns`, `C17_second_step_violated`, `C18_gather`, `C18_raises`, `C19_expected_partial`, `C19_once`, `C19_only`, `C19_rejected_violated`, `C19_results`, `C19_sequential`, `C20_again`, `C20_all`, `C20_any`, `C20_empty`, `C20_invalid`, `C20_wait_all`, `C21_direct_violated`, `C21_first_partial`, `C21_mismatch_violated`, `C21_priority_violated`, `C21_serial_partial`, `C22_finishes`, `C22_ports_violated`, `C22_sides_partial`, `C22_whole_partial`, `C23_compare`, `C24_agent_violated`, `C24_delivers_partial`, `C24_invalid_partial`, `C24_keyword_partial`, `C24_self_violated`, `C24_served`, `C24_spelling_partial`, `C25_bounded`, `C25_drops_exactly_when_full`, `C27_all`, `C27_once`, `C27_only`, `C27_ports`, `C29_accepts_violated`, `C29_rejects_violated`, `C29_value_error_violated`, `C30_wiring`, `C31_failed_attach_partial`, `C31_failed_attach_violated`, `C32_stale_violated`, `C33_move_violated`, `C33_uninject_partial`, `C34_bind_connects`, `C34_bind_exact`, `C35_pin_once`, `C36_detect_iff_connected`, `C36_detect_iff_denotes`, `C36_detect_iff_slot`, `C37_specific_partial`, `C37_specific_violated`, `C38_connected`, `C38_unconnected`, `C39_as_dict_assign`, `C39_assign_as_dict`, `C39_readable`, `C40_round_trip_partial`, `C40_round_trip_violated`, `C41_only_named`, `C41_unknown_keys`, `C42_default`, `C42_final_partial`, `C42_flat_order_violated`, `C42_named_partial`, `C42_output`, `C43_argument_partial`, `C43_argument_violated`, `C44_randomize_all`, `C44_set_all`, `C45_every_slot_once`, `C45_paths_distinct`, `C46_counting_violated`, `C46_multiple_partial`, `C46_unconnected_partial`, `C47_clock_partial`, `C47_counts_partial`, `C47_rebind_violated`, `C47_slots_default_partial`, `C47_slots_no_lists_partial`, `C48_every_slot`, `C48_rule_connects`, `C49_returns_partial`, `C49_terminates`, `C50_bundle_prefixes_distinct`, `C50_default_distinct`, `C50_names_distinct`, `C50_one_index`, `C51_create`, `C51_create_parts`, `C51_own_partial`, `C51_parts_partial`, `C51_plain_partial`, `C52_bin_counts_exact`, `C52_new_point`, `C52_one_counter_per_bin`, `C53_all_covered_iff`, `C53_point_covered_iff`, `C53_sample_keeps_covered`, `C54_counters`, `C54_live_sample_counts`, `C54_resumes`, `C54_stops_iff`, `C55_all_covered`, `C55_totals`, `C57_add_rejected_iff`, `C57_other_points_unchanged`, `C57_unknown_name_rejected`, `C58_stop_attribute_partial`, `C59_once_partial`, `C60_mark_rejected`, `C65_line_width`, `C66_declares_exactly`, `C66_names_read_back`, `C66_selected`, `C67_agent_reuse_violated`, `C67_reuse_violated`, `C68_any_violated`, `C68_ends_partial`, `C69_concurrent`, `C69_overlap_partial`, `C69_overlap_violated`, `C69_same_method`, `C70_order`, `C70_rejected_never_runs`, `C70_rejects`, `C73_clean_partial`, `C73_failed_hook_violated`, `C74_exact`, `C74_invalid_violated`, `C74_last_partial`, `C74_others`, `C74_rebind_violated`, `C74_sub_violated`, `C75_list_violated`, `C75_no_lists_partial`, `C75_step_partial`, `C75_xport_violated`, `C77_await_after`, `C77_await_before`, `C77_passed_partial`, `C77_reported_partial`, `C77_test`, `C78_any_partial`, `C78_any_violated`, `C78_first`, `C78_not_left`, `C78_other_groups`, `C78_reported`, `C78_rest_of_group`, `C78_wait_all`, `C78_wait_all_reported`, `C79_alias_violated`, `C80_alias_violated`, `C80_reads_partial`, `C80_tasks`, `C81_distinct`, `C81_named`, `C81_only`, `C81_unique`, `C82_hook`, `C82_hook_stops`, `C83_confused_violated`, `C83_covers_partial`, `C83_exact_partial`, `C83_lost_violated`, `C83_sound`, `C84_hooks_first`, `C84_no_cycle`, `C84_no_exception`, `C84_task_starts`, `C85_first_come`, `C85_in_order`, `C85_no_starvation`, `C86_clock_advances`, `C86_hooks_run`, `C87_not_later`, `C87_starts_in_next_cycle`, `C88_ends_as_test`, `C88_environment_first`, `C89_allValid`, `C89_change`, `C89_condition`, `C89_every_cycle`, `C89_falling`, `C89_not_missed`, `C89_once_per_cycle`, `C89_rising`, `C89_trigger`, `C89_value`, `C90_one_per_slot`, `C90_path_violated`, `C90_paths_partial`, `C91_keys_partial`, `C91_repeated_violated`, `C91_unreported_iff`, `C92_every_pin_partial`, `C92_xpin_violated`, `C93_await`, `C93_event`, `C93_gather_partial`, `C93_idle`, `C93_queue`, `C93_timer`, `C94_counts_exact`, `C94_keeps_covered`, `C95_mark_exact`, `C95_mark_invalid`, `C95_mark_raises_iff`, `C95_named`, `C95_nameless_partial`, `C96_any_completed`, `C96_any_empty_violated`, `C96_any_partial`, `C96_any_raise_violated`, `C96_any_stuck`, `C96_none`, `C96_wait_all`, `C96_wait_all_results`, `C97_compared`, `C98_commands`, `C98_force_until_release`, `C98_reports`, `C98_tlist`, `C98_tprint`, `C98_tset_partial`, `C98_tset_violated`, `C99_same_name_violated`
* Quot.sound (1): `C25_constructor`
* Quot.sound, propext (114): `C01_rand_is_64_bit`, `C02_zero_seed_stuck`, `C03_moves_by_one`, `C03_prediction_values`, `C05_victim_bound_partial`, `C07_buffer_bounded`, `C07_value_available`, `C07_value_is_delayed_sample`, `C102_inside_test_violated`, `C104_tie_violated`, `C104_waiting_violated`, `C105_copies_partial`, `C105_reset_partial`, `C108_last_violated`, `C112_agent_hook_violated`, `C112_clears_partial`, `C112_raises_iff`, `C112_reattach_partial`, `C113_shown_partial`, `C113_silent_violated`, `C115_deep`, `C115_direct`, `C115_list_elements`, `C115_plain_partial`, `C116_monitor_partial`, `C116_monitor_violated`, `C116_plain`, `C117_discarded_violated`, `C117_fifo_partial`, `C117_overtaken_violated`, `C117_size`, `C121_after_violated`, `C121_order_violated`, `C125_scoreboard`, `C126_missed_violated`, `C126_violated`, `C127_pins`, `C127_raises_violated`, `C127_stale_violated`, `C128_nested_violated`, `C128_only`, `C131_alive_partial`, `C131_env_partial`, `C131_full_violated`, `C131_late_violated`, `C132_own_partial`, `C132_shared_violated`, `C133_all_iff_partial`, `C133_inner_violated`, `C133_kind_partial`, `C133_mixed_violated`, `C133_order_partial`, `C133_priority_partial`, `C133_single_partial`, `C135_copies_violated`, `C135_own_partial`, `C135_reads_partial`, `C135_twice_violated`, `C13_violated`, `C26_drops_exactly_when_full_partial`, `C26_fifo_bounded`, `C26_no_env_violated`, `C28_port`, `C29_accepts`, `C29_fits_partial`, `C30_exact`, `C30_order`, `C32_accepted`, `C32_history_partial`, `C49_last_partial`, `C49_one_per_cycle_partial`, `C49_order_partial`, `C49_returns_violated`, `C51_assign`, `C51_assign_pins`, `C51_violated`, `C56_hinted_agrees_partial`, `C60_mark_exact`, `C60_mark_idempotent`, `C61_complements`, `C61_conditions_decide`, `C61_list_is_conjunction`, `C62_severity_exact`, `C62_severity_keys`, `C63_each_record_once`, `C64_id_display_partial`, `C64_no_id`, `C66_sorted`, `C71_ids_exact`, `C72_file`, `C73_abort_violated`, `C73_no_clock_violated`, `C74_invalid`, `C76_fifo`, `C76_get`, `C76_put`, `C76_woken`, `C77_monitor_violated`, `C77_no_clock_violated`, `C79_call_partial`, `C79_only_methods`, `C79_plain_override_violated`, `C79_super_partial`, `C79_super_violated`, `C81_attrs`, `C93_exception_violated`, `C94_goes_on_partial`, `C94_raises_iff`, `C94_without_exceptions`, `C99_custom_partial`, `C99_driver_call`, `C99_monitor`, `C99_recognised`, `C99_same_driver`
* none (16): `C03_strong_state_hysteresis`, `C105_deleted_violated`, `C132_late_violated`, `C133_both_violated`, `C135_lost_violated`, `C26_before_start`, `C33_unattach_violated`, `C49_rebind_violated`, `C56_hinted_agrees_violated`, `C58_stop_sample_violated`, `C59_once_violated`, `C60_mark_unknown`, `C63_last_setup_wins`, `C94_atomic_violated`, `C94_covered_violated`, `C95_mark_atomic_violated`
* propext (30): `C108_unique`, `C115_list_violated`, `C115_nested_violated`, `C115_raises_iff`, `C120_factory_violated`, `C126_nothing_dropped_partial`, `C130_outcome_partial`, `C25_fifo`, `C25_unbounded_accepts_all`, `C26_nonpositive_size_drops_all`, `C28_accepts`, `C28_agent_hook`, `C28_agent_method`, `C28_dunder`, `C28_hook`, `C28_plain_name`, `C29_value_error_partial`, `C30_attached_models`, `C43_star_removed_violated`, `C49_reuse_violated`, `C54_resume_sample`, `C54_stopped_sample_is_void`, `C57_rejected_unchanged`, `C64_id_display_violated`, `C67_reuse_partial`, `C94_stops_violated`, `C95_add_rejected_unchanged`, `C95_mark_rejected_partial`, `C95_single_violated`, `C99_other_agent_violated`
