import Verif.Model.Bench

/-! A whole test bench with monitors on the event loop of `Verif.Model.Loop`: `toffee.run(test, env_handle)`.

`env_handle` starts the clock and makes an environment with any number of monitors; reference models are attached
with hooks for what the monitors see, and these hooks check it (they raise if it is wrong).  The test drives the
pins and waits for clock cycles in any way, as long as it comes to its end.

Simplified: no driver hooks, no ports, no queues for the values of the monitors, no components. -/

namespace Toffee.BenchMon

open Toffee.Loop

export Toffee.Bench (Meth)

/-- A hook for the values of a monitor: what it does to the reference models, whether it raises, and its
`__priority__`. -/
structure Chk (Y M : Type) where
  run : M → Y → M
  fails : M → Y → Bool
  prio : Int

/-- A monitor method, and the hooks it serves, in the order in which `process_monitor_call` asks for them
(`_base_agent.py` 221-236: for every model its agent hooks and then its monitor hook).  The method may return
`None`. -/
structure Mon (Y D M : Type) where
  method : Meth (Option Y) D
  hooks : List (Chk Y M)

/-- What is being verified and with what. -/
structure Bench (Y D M : Type) where
  clk : D → D
  mons : List (Mon Y D M)
  test : Meth Unit D

/-- The state that tasks share: the DUT and the reference models. -/
structure G (D M : Type) where
  dut : D
  ref : M

/-- Where a task is. -/
inductive Pc (Y D : Type)
  /-- `main_coro` calls `env_handle` (`asynchronous.py` 241-242), which starts the clock -/
  | start
  /-- the monitors are created, each with its task (`_base_agent.py` 202-208); the next one is number `j` -/
  | create (j : Nat)
  /-- `await create_task(test(*args))` (`asynchronous.py` 245) -/
  | await (t : Nat)
  | finish
  /-- `await self.agent.monitor_step()` (`_base_agent.py` 240) -/
  | step (j : Nat)
  /-- the monitor method (242) -/
  | mon (j : Nat) (m : Meth (Option Y) D)
  /-- `process_monitor_call` (244), the next hook is number `i` -/
  | hooks (j : Nat) (y : Y) (i : Nat)
  | test (m : Meth Unit D)
  | failed

variable {Y D M : Type}

/-- `async_wrapper(hook, ret)` (`_base_agent.py` 218-219, 228-236): no done event. -/
def hook (y : Y) (c : Chk Y M) : Hook (Pc Y D) (G D M) Unit where
  run := fun g => ({ g with ref := c.run g.ref y }, [])
  done := none
  fails := fun g => c.fails g.ref y

/-- The program. -/
def prog (b : Bench Y D M) : Pc Y D → G D M → Cmd (Pc Y D) (G D M) Unit
  | .start, _ => .startClock (.create 0)
  | .create j, _ =>
    if j < b.mons.length then .spawn (.step j) (fun _ => .create (j + 1))
    else .spawn (.test b.test) (fun t => .await t)
  | .await t, _ => .join t (fun _ => .finish) .failed
  | .finish, _ => .ret ()
  | .step j, _ =>
    match b.mons[j]? with
    | some mo => .waitEv 0 (.mon j mo.method)
    | none => .raise true
  | .mon j (.ret none), g => .comp g (.step j)
  | .mon j (.ret (some y)), g => .comp g (.hooks j y 0)
  | .mon j (.read k), g => .comp g (.mon j (k g.dut))
  | .mon j (.write f k), g => .comp { g with dut := f g.dut } (.mon j k)
  | .mon j (.step k), _ => .waitEv 0 (.mon j k)
  | .hooks j y i, g =>
    match b.mons[j]? with
    | some mo =>
      match mo.hooks[i]? with
      | some c => .addHook (hook y c) c.prio (.hooks j y (i + 1))
      | none => .comp g (.step j)
    | none => .raise true
  | .test (.ret _), _ => .ret ()
  | .test (.read k), g => .comp g (.test (k g.dut))
  | .test (.write f k), g => .comp { g with dut := f g.dut } (.test k)
  | .test (.step k), _ => .waitEv 0 (.test k)
  | .failed, _ => .raise true

def sys (b : Bench Y D M) : Sys (Pc Y D) (G D M) Unit where
  prog := prog b
  dutStep := fun g => { g with dut := b.clk g.dut }
  sample := id

/-- The run of the test: `toffee.run(test, env_handle)`. -/
def start (d : D) (m : M) : St (Pc Y D) (G D M) Unit := init ⟨d, m⟩ .start

end Toffee.BenchMon
