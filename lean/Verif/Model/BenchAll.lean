import Verif.Model.BenchMon

/-! A whole test bench with drivers and monitors on the event loop of `Verif.Model.Loop`: `toffee.run(test, env_handle)`.

`env_handle` starts the clock and makes an environment with drivers and monitors; reference models are attached with hooks
for the driver calls, which run before the driver method, and hooks for what the monitors see.  The test calls driver
methods, uses what they return, drives pins itself and waits for clock cycles in any way, as long as it comes to its end.
All hooks work on one state, so that a model may be told of the calls by one hook and check the outputs in another one.

Simplified: one driver call at a time, no `dut_first` hooks, no ports, no queues for the values of the monitors, no
components. -/

namespace Toffee.BenchAll

open Toffee.Loop

export Toffee.Bench (Meth)
export Toffee.BenchMon (Chk Mon)

/-- A driver hook or agent hook, for a given call: what it does to the models, what it returns (perhaps `None`), whether it
raises, and its `__priority__`. -/
structure Ref (Y M : Type) where
  model : M → M × Option Y
  fails : M → Bool
  prio : Int

/-- A test. -/
inductive Tst (X Y D : Type)
  | ret
  | read (k : D → Tst X Y D)
  | write (f : D → D) (k : Tst X Y D)
  | step (k : Tst X Y D)
  /-- `y = await agent.method(..)`; `x` says which method, and its arguments -/
  | call (x : X) (k : Y → Tst X Y D)

/-- What is being verified and with what: `refs x` are the hooks for the call `x` in the order of
`process_driver_call` (`_base_agent.py` 125-156); `eq` is the `==` of the results (`_compare.py` 8-9). -/
structure Bench (X Y O D M : Type) where
  clk : D → D
  method : X → Meth Y D
  refs : X → List (Ref Y M)
  eq : Y → Y → Bool
  mons : List (Mon O D M)
  test : Tst X Y D

/-- The state that tasks share: the DUT, the reference models, and the lists `model_results` of the driver
calls (`_base_agent.py` 119). -/
structure G (Y D M : Type) where
  dut : D
  ref : M
  results : Nat → List (Option Y)

/-- Where a task is.  The number `e` of a call is that of its list of results and of its first event. -/
inductive Pc (X Y O D : Type)
  /-- `main_coro` calls `env_handle` (`asynchronous.py` 241-242), which starts the clock -/
  | start
  /-- the monitors are created, each with its task (`_base_agent.py` 202-208); the next one is number `j` -/
  | create (j : Nat)
  /-- `await create_task(test(*args))` (`asynchronous.py` 245) -/
  | await (t : Nat)
  | finish
  /-- `await self.agent.monitor_step()` (`_base_agent.py` 240) -/
  | step (j : Nat)
  /-- the monitor method (242) -/
  | mon (j : Nat) (m : Meth (Option O) D)
  /-- `process_monitor_call` (244), the next hook is number `i` -/
  | ask (j : Nat) (o : O) (i : Nat)
  /-- the test; `e` is the number of the next call -/
  | test (e : Nat) (t : Tst X Y D)
  /-- the loops over the models and their hooks (`_base_agent.py` 125-156): the next hook is number `j` -/
  | hooks (e : Nat) (x : X) (k : Y → Tst X Y D) (j : Nat)
  /-- `gather` (`asynchronous.py` 297-309) of the waits for the hooks: creating the tasks -/
  | gather (e : Nat) (x : X) (k : Y → Tst X Y D) (j : Nat) (ts : List Nat)
  /-- the task of `event.wait()` (`asynchronous.py` 123-125) -/
  | wait (e : Nat)
  | wait1
  | wait2
  /-- `gather`: awaiting the tasks -/
  | join (e : Nat) (x : X) (k : Y → Tst X Y D) (ts : List Nat)
  /-- the driver method (`_base_agent.py` 160) -/
  | meth (e : Nat) (x : X) (k : Y → Tst X Y D) (p : Meth Y D)
  /-- `background_exec` (163-192) -/
  | background (e : Nat) (y : Y)
  | failed

variable {X Y O D M : Type}

/-- `async_wrapper(hook, ret)` (`_base_agent.py` 218-219, 228-236): no done event. -/
def mhook (o : O) (c : Chk O M) : Hook (Pc X Y O D) (G Y D M) Unit where
  run := fun g => ({ g with ref := c.run g.ref o }, [])
  done := none
  fails := fun g => c.fails g.ref o

/-- `driver_hook_wrapper` (`_base_agent.py` 73-74), `agent_hook_wrapper` (93-97): hook `j` of call `e`. -/
def dhook (e j : Nat) (r : Ref Y M) : Hook (Pc X Y O D) (G Y D M) Unit where
  run := fun g => ({ g with
    ref := (r.model g.ref).1
    results := upd g.results e (g.results e ++ [(r.model g.ref).2]) }, [])
  done := some (e + j)
  fails := fun g => r.fails g.ref

/-- The comparison of one result (`_base_agent.py` 181-188). -/
def agrees (b : Bench X Y O D M) (y : Y) : Option Y → Bool
  | none => true
  | some z => b.eq y z

/-- The program. -/
def prog (b : Bench X Y O D M) : Pc X Y O D → G Y D M → Cmd (Pc X Y O D) (G Y D M) Unit
  | .start, _ => .startClock (.create 0)
  | .create j, _ =>
    if j < b.mons.length then .spawn (.step j) (fun _ => .create (j + 1))
    else .spawn (.test 1 b.test) (fun t => .await t)
  | .await t, _ => .join t (fun _ => .finish) .failed
  | .finish, _ => .ret ()
  | .step j, _ =>
    match b.mons[j]? with
    | some mo => .waitEv 0 (.mon j mo.method)
    | none => .raise true
  | .mon j (.ret none), g => .comp g (.step j)
  | .mon j (.ret (some o)), g => .comp g (.ask j o 0)
  | .mon j (.read k), g => .comp g (.mon j (k g.dut))
  | .mon j (.write f k), g => .comp { g with dut := f g.dut } (.mon j k)
  | .mon j (.step k), _ => .waitEv 0 (.mon j k)
  | .ask j o i, g =>
    match b.mons[j]? with
    | some mo =>
      match mo.hooks[i]? with
      | some c => .addHook (mhook o c) c.prio (.ask j o (i + 1))
      | none => .comp g (.step j)
    | none => .raise true
  | .test _ .ret, _ => .ret ()
  | .test e (.read k), g => .comp g (.test e (k g.dut))
  | .test e (.write f k), g => .comp { g with dut := f g.dut } (.test e k)
  | .test e (.step k), _ => .waitEv 0 (.test e k)
  | .test e (.call x k), g => .comp g (.hooks e x k 0)
  | .hooks e x k j, g =>
    match (b.refs x)[j]? with
    | some r => .addHook (dhook e j r) r.prio (.hooks e x k (j + 1))
    | none => .comp g (.gather e x k 0 [])
  | .gather e x k j ts, g =>
    if j < (b.refs x).length then .spawn (.wait (e + j)) (fun t => .gather e x k (j + 1) (ts ++ [t]))
    else .comp g (.join e x k ts)
  | .wait e, _ => .waitEv e .wait1
  | .wait1, _ => .taskRun .wait2
  | .wait2, _ => .ret ()
  | .join e x k (t :: ts), _ => .join t (fun _ => .join e x k ts) .failed
  | .join e x k [], g => .comp g (.meth e x k (b.method x))
  | .meth e x k (.read p), g => .comp g (.meth e x k (p g.dut))
  | .meth e x k (.write f p), g => .comp { g with dut := f g.dut } (.meth e x k p)
  | .meth e x k (.step p), _ => .waitEv 0 (.meth e x k p)
  | .meth e x k (.ret y), _ => .spawn (.background e y) (fun _ => .test (e + (b.refs x).length + 1) (k y))
  | .background e y, g => if (g.results e).all (agrees b y) then .ret () else .raise false
  | .failed, _ => .raise true

def sys (b : Bench X Y O D M) : Sys (Pc X Y O D) (G Y D M) Unit where
  prog := prog b
  dutStep := fun g => { g with dut := b.clk g.dut }
  sample := id

/-- The run of the test: `toffee.run(test, env_handle)`. -/
def start (d : D) (m : M) : St (Pc X Y O D) (G Y D M) Unit := init ⟨d, m, fun _ => []⟩ .start

end Toffee.BenchAll
