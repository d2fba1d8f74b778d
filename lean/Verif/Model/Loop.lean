import Verif.Model.Priority
/-!
Model of the event loop: asyncio's FIFO loop as far as toffee uses it, and toffee's clock loop on
top of it (`toffee/asynchronous.py`).

* The loop is asyncio's `BaseEventLoop._run_once`: a deque of handles; one iteration runs the
  handles that were in the deque when it began (`batch`); everything scheduled meanwhile goes to
  the next iteration (`ready`).  Timers that are due are appended at the start of an iteration;
  which ones are due is decided by an oracle (wall-clock time is not modelled).
* User tasks are arbitrary programs: `prog : σ → G → Cmd σ G V` says what a task in local state `σ`
  does next when the shared state (pins, Python variables) is `G`.  One `Cmd` is one primitive.
* The clock task (`__clock_loop`) is not a user program; it is transcribed below.
* An exception that escapes from a task is delivered to the tasks that await it; if nobody awaits the
  task and nobody holds a reference to it, the task is freed at once (CPython counts references), its
  exception goes to the loop's exception handler, and `handle_exception` stops the loop.
* Not modelled: tasks that catch `CancelledError` or run code in `finally`, user code calling
  `Task.cancel`, bounded queues, a second `start_clock`, raw futures, exceptions of
  tasks that are freed some time after they ended.
-/

namespace Toffee.Loop

/-- Function update. -/
def upd {α : Type} (f : Nat → α) (k : Nat) (v : α) : Nat → α := fun i => if i = k then v else f i

/-- What a hook can do to the event loop besides changing the shared state: a hook is an ordinary
function, so it may set events, put into queues (`put_nowait`) and create tasks. -/
inductive Eff (σ V : Type) where
  | setEv (e : Nat)
  | put (q : Nat) (v : V)
  | spawn (s : σ)

/-- The hook part of `add_priority_task(coro, priority, done_event)` (`executor.py` 17-22): `run`
is the (never suspending) hook coroutine, `fails` says whether it raises in the end. -/
structure Hook (σ G V : Type) where
  run : G → G × List (Eff σ V)
  done : Option Nat
  fails : G → Bool := fun _ => false

/-- The primitives a task can execute. -/
inductive Cmd (σ G V : Type) where
  /-- the coroutine returns -/
  | ret (v : V)
  /-- the coroutine raises; `held`: somebody has a reference to the task -/
  | raise (held : Bool)
  /-- plain Python computation -/
  | comp (g : G) (k : σ)
  /-- `task_run()` (`asynchronous.py` 47-52), the last thing `Event.wait`, `Queue.put`,
  `Queue.get` and `sleep` of toffee do (115-152) -/
  | taskRun (k : σ)
  /-- `asyncio.sleep(0)` -/
  | yield (k : σ)
  /-- `asyncio.sleep(d)` with `d > 0` -/
  | sleep (k : σ)
  /-- `asyncio.Event.wait` -/
  | waitEv (e : Nat) (k : σ)
  /-- `asyncio.Event.set` -/
  | setEv (e : Nat) (k : σ)
  /-- `asyncio.Event.clear` -/
  | clearEv (e : Nat) (k : σ)
  /-- `asyncio.Queue.put` of an unbounded queue -/
  | put (q : Nat) (v : V) (k : σ)
  /-- `asyncio.Queue.get` -/
  | get (q : Nat) (k : V → σ)
  /-- `create_task` -/
  | spawn (s : σ) (k : Nat → σ)
  /-- `await task`; `kx`: what comes next if the task raised an exception -/
  | join (t : Nat) (k : V → σ) (kx : σ)
  /-- `add_priority_task` -/
  | addHook (h : Hook σ G V) (prio : Int) (k : σ)
  /-- `start_clock` (`asynchronous.py` 180-189) -/
  | startClock (k : σ)

/-- What a suspended task waits for (its `_fut_waiter`), with the continuation.  Each pending
`Event.wait`, `Queue.get` and `sleep` has its own future, so the future is identified with
the waiting task; for `join` the future is the awaited task. `final` is the wait of `main_coro` for
the last clock event (`asynchronous.py` 253-257). -/
inductive Wait (σ V : Type) where
  | ev (e : Nat) (k : σ)
  | get (q : Nat) (k : V → σ)
  | join (t : Nat) (k : V → σ) (kx : σ)
  | timer (k : σ)
  | final (v : V)

/-- State of a task.  `ready`: `_fut_waiter is None`, a step is scheduled.  `pend w`:
`_fut_waiter._state == "PENDING"`.  `fin w`: `_fut_waiter._state == "FINISHED"`, a wake-up is
scheduled.  `done none`: cancelled, or ended with an exception (also used for ids that do not exist
yet). -/
inductive Status (σ V : Type) where
  | ready (k : σ)
  | pend (w : Wait σ V)
  | fin (w : Wait σ V)
  | running
  | done (r : Option V)

/-- Entries of the loop's deque: a task step or wake-up, the clock task's step, the callback
`_run_until_complete_cb` that stops the loop, a due timer. -/
inductive Handle where
  | task (t : Nat)
  | clock
  | stop
  | fire (t : Nat)
deriving DecidableEq, Repr

/-- Where the clock task is: not started, at its very beginning, in `__run_once`'s `sleep(0)`
(about to evaluate the loop condition of `__other_tasks_done`), in the `sleep(0)` after
`cancel_all_tasks`, or ended with the exception of a hook. -/
inductive Pc where
  | off | begin | check | afterCancel | dead
deriving DecidableEq, Repr

/-- Ghost trace of the observable happenings. -/
inductive Ev where
  /-- `dut.Step(1)` -/
  | step
  /-- `add_priority_task` number `i`, with priority `p` -/
  | req (i : Nat) (p : Int)
  /-- the hook requested as number `i` is executed; `d`: it has a done event -/
  | exec (i : Nat) (d : Bool)
  /-- the hook requested as number `i` is executed and raises -/
  | hookRaise (i : Nat)
  /-- every delayer is sampled once -/
  | sample
  /-- task `t` starts waiting for the clock event -/
  | wait (t : Nat)
  /-- task `t` resumes from waiting for the clock event -/
  | resume (t : Nat)
  /-- the test coroutine returned -/
  | testDone
  /-- `cancel_all_tasks` -/
  | cancelAll
deriving DecidableEq, Repr

/-- The whole state.  Task 0 is `main_coro`, event 0 is the clock event `dut.event`. -/
structure St (σ G V : Type) where
  g : G
  /-- number of tasks created so far -/
  n : Nat
  st : Nat → Status σ V
  batch : List Handle
  ready : List Handle
  ev : Nat → Bool
  /-- pending futures of `Event._waiters`, oldest first -/
  waiters : Nat → List Nat
  q : Nat → List V
  /-- pending futures of `Queue._getters`, oldest first -/
  getters : Nat → List Nat
  /-- tasks awaiting a task (its done callbacks), oldest first -/
  joiners : Nat → List Nat
  /-- `__priority_tasks`: (hook, priority), tagged with its request number -/
  hooks : List ((Nat × Hook σ G V) × Int)
  nextHook : Nat
  /-- `loop.new_task_run` -/
  flag : Bool
  /-- `loop.test_done` -/
  testDone : Bool
  clock : Pc
  cur : Option (Nat × σ)
  stopping : Bool
  /-- the tasks that ended with an exception (other than `CancelledError`) -/
  failed : Nat → Bool
  /-- `handle_exception` was called: the exception of a task nobody awaits (or of the clock task) was
  reported and the loop told to stop -/
  aborted : Bool
  /-- number of `dut.Step(1)` calls -/
  cycles : Nat
  /-- ghost: the coroutine each task was created with -/
  orig : Nat → Option σ
  /-- ghost: what was put into a queue, and what was taken out of it, oldest first -/
  putH : Nat → List V
  gotH : Nat → List V
  /-- ghost: what happened so far, oldest first -/
  log : List Ev

/-- The parameters: the tasks' program, what one DUT step does to the shared state, what sampling
all delayers does to it. -/
structure Sys (σ G V : Type) where
  prog : σ → G → Cmd σ G V
  dutStep : G → G
  sample : G → G

variable {σ G V : Type}

/-- `loop.call_soon`. -/
def push (h : Handle) (s : St σ G V) : St σ G V := { s with ready := s.ready ++ [h] }

def note (e : Ev) (s : St σ G V) : St σ G V := { s with log := s.log ++ [e] }

/-- `Future.set_result`: PENDING becomes FINISHED. -/
def Status.finish : Status σ V → Status σ V
  | .pend w => .fin w
  | x => x

/-- Set the result of the futures of the tasks `ts`, in order; each schedules its waiter. -/
def wake (ts : List Nat) (s : St σ G V) : St σ G V :=
  { s with
    st := fun t => if t ∈ ts then (s.st t).finish else s.st t
    ready := s.ready ++ ts.map .task }

/-- `asyncio.Event.set`. -/
def setEv (e : Nat) (s : St σ G V) : St σ G V :=
  if s.ev e then s
  else { wake (s.waiters e) s with ev := upd s.ev e true, waiters := upd s.waiters e [] }

/-- `asyncio.Queue.put_nowait` of an unbounded queue: append, wake the first getter. -/
def putQ (q : Nat) (v : V) (s : St σ G V) : St σ G V :=
  let s1 := { s with q := upd s.q q (s.q q ++ [v]), putH := upd s.putH q (s.putH q ++ [v]) }
  match s.getters q with
  | [] => s1
  | u :: us => { wake [u] s1 with getters := upd s.getters q us }

/-- `create_task`. -/
def spawn (k : σ) (s : St σ G V) : St σ G V :=
  push (.task s.n) { s with st := upd s.st s.n (.ready k), n := s.n + 1,
                            orig := upd s.orig s.n (some k) }

/-- A task finishes (`Task.__step` on `StopIteration`): its done callbacks are scheduled.  For
`main_coro` the first one is `_run_until_complete_cb`. -/
def finish (t : Nat) (r : Option V) (s : St σ G V) : St σ G V :=
  let s1 := { s with st := upd s.st t (.done r), cur := none }
  let s2 := if t = 0 then push .stop s1 else s1
  { wake (s.joiners t) s2 with joiners := upd s.joiners t [] }

/-- A task ends with an exception (`Task.__step` on `Exception`), `handle_exception`
(`asynchronous.py` 208-214). -/
def fail (t : Nat) (held : Bool) (s : St σ G V) : St σ G V :=
  let s1 := finish t none { s with failed := upd s.failed t true }
  if t = 0 ∨ held = true ∨ s.joiners t ≠ [] then s1 else { s1 with stopping := true, aborted := true }

/-- The current task suspends. -/
def block (t : Nat) (x : Status σ V) (s : St σ G V) : St σ G V :=
  { s with st := upd s.st t x, cur := none }

/-- Execute one primitive of the current task `t`. -/
def exec (t : Nat) (c : Cmd σ G V) (s : St σ G V) : St σ G V :=
  match c with
  | .ret v =>
    -- `main_coro` (`asynchronous.py` 250-261): set `test_done`, wait for the clock event if
    -- a clock was started, then return.
    if t = 0 then
      let s1 := note .testDone { s with testDone := true }
      if s.clock = .off ∨ s.ev 0 = true then finish t (some v) s1
      else note (.wait t)
        { block t (.pend (.final v)) s1 with waiters := upd s.waiters 0 (s.waiters 0 ++ [t]) }
    else finish t (some v) s
  | .raise held => fail t held s
  | .comp g k => { s with g := g, cur := some (t, k) }
  | .taskRun k => { s with flag := true, cur := some (t, k) }
  | .yield k => push (.task t) (block t (.ready k) s)
  | .sleep k => block t (.pend (.timer k)) s
  | .waitEv e k =>
    if s.ev e then { s with cur := some (t, k) }
    else
      let s1 := { block t (.pend (.ev e k)) s with
        waiters := upd s.waiters e (s.waiters e ++ [t]) }
      if e = 0 then note (.wait t) s1 else s1
  | .setEv e k => { setEv e s with cur := some (t, k) }
  | .clearEv e k => { s with ev := upd s.ev e false, cur := some (t, k) }
  | .put q v k => { putQ q v s with cur := some (t, k) }
  | .get q k =>
    match s.q q with
    | [] => { block t (.pend (.get q k)) s with
        getters := upd s.getters q (s.getters q ++ [t]) }
    | v :: vs => { s with q := upd s.q q vs, gotH := upd s.gotH q (s.gotH q ++ [v]),
                          cur := some (t, k v) }
  | .spawn s0 k => { spawn s0 s with cur := some (t, k s.n) }
  | .join u k kx =>
    match s.st u with
    | .done (some v) => { s with cur := some (t, k v) }
    | .done none => if s.failed u then { s with cur := some (t, kx) } else finish t none s
    | _ => { block t (.pend (.join u k kx)) s with
        joiners := upd s.joiners u (s.joiners u ++ [t]) }
  | .addHook h p k =>
    note (.req s.nextHook p)
      { s with hooks := s.hooks ++ [((s.nextHook, h), p)], nextHook := s.nextHook + 1,
               cur := some (t, k) }
  | .startClock k =>
    -- a second `start_clock` is outside the model (ignored)
    if s.clock = .off then { push .clock { s with clock := .begin } with cur := some (t, k) }
    else { s with cur := some (t, k) }

/-- Let task `t` run: first step or wake-up (`Task.__step`, `Task.__wakeup`). -/
def resume (t : Nat) (s : St σ G V) : St σ G V :=
  let run (k : σ) (s : St σ G V) : St σ G V :=
    { s with st := upd s.st t .running, cur := some (t, k) }
  match s.st t with
  | .ready k => run k s
  | .fin (.ev e k) => run k (if e = 0 then note (.resume t) s else s)
  | .fin (.timer k) => run k s
  | .fin (.get q k) =>
    -- `while self.empty(): await getter`, then `get_nowait`
    match s.q q with
    | [] => { s with st := upd s.st t (.pend (.get q k)),
                     getters := upd s.getters q (s.getters q ++ [t]) }
    | v :: vs => run (k v) { s with q := upd s.q q vs, gotH := upd s.gotH q (s.gotH q ++ [v]) }
  | .fin (.join u k kx) =>
    match s.st u with
    | .done (some v) => run (k v) s
    | _ =>
      if s.failed u then run kx s
      else finish t none s   -- the awaited task was cancelled: `CancelledError`
  | .fin (.final v) => finish t (some v) (note (.resume t) s)
  | _ => s   -- cannot happen (a handle of a task that is not scheduled)

/-- `__has_unwait_task` (`asynchronous.py` 55-68). -/
def hasUnwait (s : St σ G V) : Bool :=
  (List.range s.n).any fun t =>
    match s.st t with
    | .ready _ | .running | .fin _ => true
    | .pend _ | .done _ => false

/-- One effect of a hook. -/
def runEff (s : St σ G V) : Eff σ V → St σ G V
  | .setEv e => setEv e s
  | .put q v => putQ q v s
  | .spawn k => spawn k s

/-- One iteration of the loop in `__execute_priority_tasks` (`executor.py` 30-35). -/
def runHook (s : St σ G V) (h : (Nat × Hook σ G V) × Int) : St σ G V :=
  let s1 := note (.exec h.1.1 h.1.2.done.isSome) s
  let s2 := (h.1.2.run s1.g).2.foldl runEff { s1 with g := (h.1.2.run s1.g).1 }
  match h.1.2.done with
  | some e => setEv e s2
  | none => s2

/-- A hook that raises (`await coro` in line 32): what it did so far stays done. -/
def runFail (s : St σ G V) (h : (Nat × Hook σ G V) × Int) : St σ G V :=
  let s1 := note (.hookRaise h.1.1) s
  (h.1.2.run s1.g).2.foldl runEff { s1 with g := (h.1.2.run s1.g).1 }

/-- The loop in `__execute_priority_tasks` if a hook raises: the numbers of the hooks that were awaited,
and the state after them; `none` if no hook raises. -/
def raising : List ((Nat × Hook σ G V) × Int) → List Nat → St σ G V → Option (List Nat × St σ G V)
  | [], _, _ => none
  | h :: hs, ran, s =>
    if h.1.2.fails s.g then some (ran ++ [h.1.1], runFail s h)
    else raising hs (ran ++ [h.1.1]) (runHook s h)

/-- A coroutine that was awaited before: awaiting it again raises RuntimeError. -/
def spent (h : Hook σ G V) : Hook σ G V where
  run := fun g => (g, [])
  done := h.done
  fails := fun _ => true

/-- The exception of a hook leaves `__execute_priority_tasks` before the list is cleared and ends the
clock task.  Nobody awaits that task and nobody holds a reference to it, so `handle_exception` is
called. -/
def die (ran : List Nat) (s : St σ G V) : St σ G V :=
  { s with
    hooks := s.hooks.map fun h => if h.1.1 ∈ ran then ((h.1.1, spent h.1.2), h.2) else h
    clock := .dead
    stopping := true
    aborted := true }

/-- `__execute_callback` (`asynchronous.py` 36-44) with the two callbacks registered on import of
the package: `__execute_priority_tasks` (`executor.py` 25-41) and then `__process_delayer`
(`delay.py` 8-14), if no hook raises.  The list is cleared after the hooks ran. -/
def callbacks (sys : Sys σ G V) (s : St σ G V) : Bool × St σ G V :=
  let s1 := (Priority.sorted s.hooks).foldl runHook s
  let rerun := s.hooks.any fun h => h.1.2.done.isSome
  (rerun, note .sample { s1 with hooks := [], g := sys.sample s1.g })

/-- `__run_once` (`asynchronous.py` 71-78) in the clock task. -/
def clockYield (s : St σ G V) : St σ G V :=
  push .clock { s with flag := false, clock := .check }

/-- `cancel_all_tasks` (`asynchronous.py` 92-100): everything except `main_coro` and the clock ends.
Simplified: tasks end at once (the loop iterations asyncio needs to deliver the
`CancelledError`s, in which nothing else can run, are not represented). -/
def cancelAll (s : St σ G V) : St σ G V :=
  note .cancelAll
    { s with
      st := fun t => if t = 0 then s.st t else
        match s.st t with
        | .done r => .done r
        | _ => .done none
      batch := s.batch.filter fun h => match h with | .task t => t == 0 | _ => true
      ready := s.ready.filter fun h => match h with | .task t => t == 0 | _ => true
      waiters := fun e => (s.waiters e).filter (· == 0)
      getters := fun q => (s.getters q).filter (· == 0)
      joiners := fun u => (s.joiners u).filter (· == 0) }

/-- The clock task runs until it next suspends (`asynchronous.py` 81-89, 103-112, 161-174).
`.inl s`: it suspends in `s` without stepping; `.inr s`: it calls `dut.Step(1)` in state `s`. -/
def clockTurn (sys : Sys σ G V) (s : St σ G V) : St σ G V ⊕ St σ G V :=
  match s.clock with
  | .off => .inl s
  | .begin => .inl (clockYield s)
  | .check =>
    if hasUnwait s || s.flag then .inl (clockYield s)
    else
      match raising (Priority.sorted s.hooks) [] s with
      | some r => .inl (die r.1 r.2)
      | none =>
        let r := callbacks sys s
        if r.1 then .inl (clockYield r.2)
        else if r.2.testDone then .inl (push .clock { cancelAll r.2 with clock := .afterCancel })
        else .inr r.2
  | .afterCancel => .inr s
  | .dead => .inl s

/-- `dut.Step(1); dut.event.set(); dut.event.clear()` and back to `__run_once`. -/
def doStep (sys : Sys σ G V) (s : St σ G V) : St σ G V :=
  let s1 := note .step { s with g := sys.dutStep s.g, cycles := s.cycles + 1 }
  let s2 := setEv 0 s1
  clockYield { s2 with ev := upd s2.ev 0 false }

def runClock (sys : Sys σ G V) (s : St σ G V) : St σ G V :=
  match clockTurn sys s with
  | .inl s' => s'
  | .inr s' => doStep sys s'

/-- Run one handle. -/
def runHandle (sys : Sys σ G V) (h : Handle) (s : St σ G V) : St σ G V :=
  match h with
  | .task t => resume t s
  | .clock => runClock sys s
  | .stop => { s with stopping := true }
  | .fire t =>
    match s.st t with
    | .pend (.timer _) => wake [t] s
    | _ => s

/-- One micro step; `due` are the timers that are due if a new loop iteration starts.  After the
loop was told to stop it finishes the current iteration and then does nothing. -/
def step (sys : Sys σ G V) (due : List Nat) (s : St σ G V) : St σ G V :=
  match s.cur with
  | some (t, k) => exec t (sys.prog k s.g) s
  | none =>
    match s.batch with
    | h :: rest => runHandle sys h { s with batch := rest }
    | [] => if s.stopping then s else { s with batch := s.ready ++ due.map .fire, ready := [] }

/-- `asyncio.run(main_coro(..))`: the loop with the one task `main_coro`. -/
def init (g : G) (k : σ) : St σ G V where
  g := g
  n := 1
  st := fun t => if t = 0 then .ready k else .done none
  batch := []
  ready := [.task 0]
  ev := fun _ => false
  waiters := fun _ => []
  q := fun _ => []
  getters := fun _ => []
  joiners := fun _ => []
  hooks := []
  nextHook := 0
  flag := false
  testDone := false
  clock := .off
  cur := none
  stopping := false
  failed := fun _ => false
  aborted := false
  cycles := 0
  orig := fun t => if t = 0 then some k else none
  putH := fun _ => []
  gotH := fun _ => []
  log := []

/-- The next `toffee.run` in the same process, after a run that ended in `s`: everything belongs to
the new event loop, except `__priority_tasks` (`executor.py` 14), a list of the module.  (The hook
numbers are ghost and go on counting.) -/
def nextRun (s : St σ G V) (g : G) (k : σ) : St σ G V :=
  { init g k with hooks := s.hooks, nextHook := s.nextHook }

/-- Reachable states: any number of micro steps with any timer oracle. -/
inductive Reach (sys : Sys σ G V) (g : G) (k : σ) : St σ G V → Prop where
  | init : Reach sys g k (init g k)
  | step {s} (due : List Nat) : Reach sys g k s → Reach sys g k (step sys due s)

/-- The loop has stopped: `asyncio.run` returns. -/
def halted (s : St σ G V) : Prop := s.stopping = true ∧ s.cur = none ∧ s.batch = []

end Toffee.Loop
