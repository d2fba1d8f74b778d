/-!
Several clocks on one event loop: `start_clock` called for several DUTs (or several times for one)
(`toffee/asynchronous.py` 55-112, 161-189, 217-264).

The event loop is that of `Verif.Model.Loop` (one iteration runs the handles that were there when it
began), with any number of clock tasks.  Clock event `d` is `dut.event` of DUT `d`; events of DUTs and of
user code have numbers of one kind.

Simplified: queues, timers, hooks, delayers, `await task` and exceptions are left out (see `Loop` for
them with one clock); `cancel_all_tasks` ends tasks at once, as in `Loop`.  It also ends the other clock
tasks: it spares only the current task and `main_coro` (92-100).
-/

namespace Toffee.Clocks

/-- Function update. -/
def upd {α : Type} (f : Nat → α) (k : Nat) (v : α) : Nat → α := fun i => if i = k then v else f i

/-- What a task does next. -/
inductive Cmd (σ G : Type) where
  /-- the coroutine returns -/
  | ret
  /-- plain Python computation -/
  | comp (g : G) (k : σ)
  /-- `task_run()` (47-52), the last thing `Event.wait` of toffee does (124-126) -/
  | taskRun (k : σ)
  /-- `asyncio.sleep(0)` -/
  | yield (k : σ)
  /-- `asyncio.Event.wait`; `bundle.step()` waits for the clock event with it -/
  | waitEv (e : Nat) (k : σ)
  /-- `asyncio.Event.set` -/
  | setEv (e : Nat) (k : σ)
  /-- `asyncio.Event.clear` -/
  | clearEv (e : Nat) (k : σ)
  /-- `create_task` -/
  | spawn (s : σ) (k : σ)
  /-- `start_clock(dut)` (180-189) -/
  | startClock (d : Nat) (k : σ)

/-- What a task waits for: an event (with the continuation), or, in `main_coro` after the test, the
clock event (256-257). -/
inductive Wait (σ : Type) where
  | ev (e : Nat) (k : σ)
  | final (e : Nat)

/-- `ready`: `_fut_waiter is None`; `pend`, `fin`: its state is `"PENDING"`, `"FINISHED"`; also used for
tasks that do not exist yet: `done`. -/
inductive Status (σ : Type) where
  | ready (k : σ)
  | pend (w : Wait σ)
  | fin (w : Wait σ)
  | running
  | done

/-- Entries of the loop's deque: a step of a task, a step of a clock task, the end of the loop. -/
inductive Handle where
  | task (t : Nat)
  | clock (c : Nat)
  | stop
deriving DecidableEq, Repr

/-- Where a clock task is: does not exist, before its first step, in the `sleep(0)` of `__run_once`, in
the `sleep(0)` after `cancel_all_tasks`, cancelled. -/
inductive Pc where
  | off | begin | check | afterCancel | dead
deriving DecidableEq, Repr

/-- The whole state.  Task 0 is `main_coro`. -/
structure St (σ G : Type) where
  g : G
  /-- number of tasks created so far -/
  n : Nat
  st : Nat → Status σ
  batch : List Handle
  ready : List Handle
  ev : Nat → Bool
  waiters : Nat → List Nat
  /-- `loop.new_task_run` -/
  flag : Bool
  /-- `loop.test_done` -/
  testDone : Bool
  /-- number of clock tasks, where they are, and their DUTs -/
  nc : Nat
  clk : Nat → Pc
  dut : Nat → Nat
  /-- `loop.global_clock_event` -/
  glob : Option Nat
  cur : Option (Nat × σ)
  stopping : Bool
  /-- number of `Step(1)` calls of each DUT -/
  steps : Nat → Nat

/-- The program of the tasks, and what a step of a DUT does to the shared state. -/
structure Sys (σ G : Type) where
  prog : σ → G → Cmd σ G
  dutStep : Nat → G → G

variable {σ G : Type}

/-- `loop.call_soon`. -/
def push (h : Handle) (s : St σ G) : St σ G := { s with ready := s.ready ++ [h] }

def Status.finish : Status σ → Status σ
  | .pend w => .fin w
  | x => x

/-- Set the result of the futures of the tasks `ts`; each schedules its task. -/
def wake (ts : List Nat) (s : St σ G) : St σ G :=
  { s with
    st := fun t => if t ∈ ts then (s.st t).finish else s.st t
    ready := s.ready ++ ts.map .task }

/-- `asyncio.Event.set`. -/
def setEv (e : Nat) (s : St σ G) : St σ G :=
  if s.ev e then s
  else { wake (s.waiters e) s with ev := upd s.ev e true, waiters := upd s.waiters e [] }

/-- `main_coro` returns: `_run_until_complete_cb` is scheduled; other tasks just end. -/
def finish (t : Nat) (s : St σ G) : St σ G :=
  let s1 := { s with st := upd s.st t .done, cur := none }
  if t = 0 then push .stop s1 else s1

/-- The current task waits for event `e`. -/
def block (t e : Nat) (w : Wait σ) (s : St σ G) : St σ G :=
  { s with st := upd s.st t (.pend w), cur := none, waiters := upd s.waiters e (s.waiters e ++ [t]) }

/-- One primitive of the current task. -/
def exec (t : Nat) (c : Cmd σ G) (s : St σ G) : St σ G :=
  match c with
  | .ret =>
    -- `main_coro` (251-261)
    if t = 0 then
      match s.glob with
      | none => finish t { s with testDone := true }
      | some e =>
        if s.ev e then finish t { s with testDone := true }
        else block t e (.final e) { s with testDone := true }
    else finish t s
  | .comp g k => { s with g := g, cur := some (t, k) }
  | .taskRun k => { s with flag := true, cur := some (t, k) }
  | .yield k => push (.task t) { s with st := upd s.st t (.ready k), cur := none }
  | .waitEv e k => if s.ev e then { s with cur := some (t, k) } else block t e (.ev e k) s
  | .setEv e k => { setEv e s with cur := some (t, k) }
  | .clearEv e k => { s with ev := upd s.ev e false, cur := some (t, k) }
  | .spawn s0 k =>
    push (.task s.n) { s with st := upd s.st s.n (.ready s0), n := s.n + 1, cur := some (t, k) }
  | .startClock d k =>
    push (.clock s.nc)
      { s with clk := upd s.clk s.nc .begin, dut := upd s.dut s.nc d, nc := s.nc + 1, glob := some d,
               cur := some (t, k) }

/-- A step or wake-up of a task. -/
def resume (t : Nat) (s : St σ G) : St σ G :=
  match s.st t with
  | .ready k => { s with st := upd s.st t .running, cur := some (t, k) }
  | .fin (.ev _ k) => { s with st := upd s.st t .running, cur := some (t, k) }
  | .fin (.final _) => finish t s
  | _ => s

/-- `__has_unwait_task` (55-68): clock tasks are skipped. -/
def hasUnwait (s : St σ G) : Bool :=
  (List.range s.n).any fun t =>
    match s.st t with
    | .ready _ | .running | .fin _ => true
    | .pend _ | .done => false

/-- `__run_once` (71-78) in clock task `c`. -/
def clockYield (c : Nat) (s : St σ G) : St σ G :=
  push (.clock c) { s with flag := false, clk := upd s.clk c .check }

/-- `cancel_all_tasks` (92-100) in clock task `c`. -/
def cancelAll (c : Nat) (s : St σ G) : St σ G :=
  { s with
    st := fun t => if t = 0 then s.st t else .done
    clk := fun c' => if c' = c ∨ s.clk c' = .off then s.clk c' else .dead
    batch := s.batch.filter fun h => match h with | .task t => t == 0 | .clock _ => false | .stop => true
    ready := s.ready.filter fun h => match h with | .task t => t == 0 | .clock _ => false | .stop => true
    waiters := fun e => (s.waiters e).filter (· == 0) }

/-- `dut.Step(1); dut.event.set(); dut.event.clear()` (172-174), and on to `__run_once`. -/
def doStep (sys : Sys σ G) (c : Nat) (s : St σ G) : St σ G :=
  let s1 := { s with g := sys.dutStep (s.dut c) s.g,
                     steps := upd s.steps (s.dut c) (s.steps (s.dut c) + 1) }
  let s2 := setEv (s.dut c) s1
  clockYield c { s2 with ev := upd s2.ev (s.dut c) false }

/-- Clock task `c` runs until it next suspends (81-89, 103-112, 161-174). -/
def runClock (sys : Sys σ G) (c : Nat) (s : St σ G) : St σ G :=
  match s.clk c with
  | .begin => clockYield c s
  | .check =>
    if hasUnwait s || s.flag then clockYield c s
    else if s.testDone then
      let s1 := cancelAll c s
      push (.clock c) { s1 with clk := upd s1.clk c .afterCancel }
    else doStep sys c s
  | .afterCancel => doStep sys c s
  | .off | .dead => s

def runHandle (sys : Sys σ G) (h : Handle) (s : St σ G) : St σ G :=
  match h with
  | .task t => resume t s
  | .clock c => runClock sys c s
  | .stop => { s with stopping := true }

/-- One micro step of the loop. -/
def step (sys : Sys σ G) (s : St σ G) : St σ G :=
  match s.cur with
  | some (t, k) => exec t (sys.prog k s.g) s
  | none =>
    match s.batch with
    | h :: rest => runHandle sys h { s with batch := rest }
    | [] => if s.stopping then s else { s with batch := s.ready, ready := [] }

/-- `asyncio.run(main_coro(...))`. -/
def init (g : G) (k : σ) : St σ G where
  g := g
  n := 1
  st := fun t => if t = 0 then .ready k else .done
  batch := []
  ready := [.task 0]
  ev := fun _ => false
  waiters := fun _ => []
  flag := false
  testDone := false
  nc := 0
  clk := fun _ => .off
  dut := fun _ => 0
  glob := none
  cur := none
  stopping := false
  steps := fun _ => 0

/-- The state after `m` micro steps. -/
def run (sys : Sys σ G) (s : St σ G) : Nat → St σ G
  | 0 => s
  | m + 1 => step sys (run sys s m)

/-- `asyncio.run` returns. -/
def halted (s : St σ G) : Prop := s.stopping = true ∧ s.cur = none ∧ s.batch = []

end Toffee.Clocks
