/-! Hooks that are coroutine functions (`toffee/_base_agent.py` 66-194, 217-236).

A driver hook, agent hook or monitor hook is declared by decorating a method of a model; the decorators
return the method unchanged (`model.py` 62, 121, 173), so that a method written with `async def` is
accepted and attached like any other.  Here is what a driver call and a monitored value do with it.

A log lists the effects in the order in which they are made.  A hook in the log of a driver call has
been handed to `add_priority_task`; the clock runs it at the next edge (`Verif.Model.Priority`), whatever
becomes of the call.  Simplified: waiting for hooks takes no step (its cycles are in
`Verif.Model.Driver`), hooks that are not coroutine functions do not raise (`Verif.Model.DriverRaise`),
and the results are compared in one effect. -/

namespace Toffee.AsyncHook

/-- A hook: the function, whether it is a coroutine function, and whether its `__sche_order__` is
`"model_first"`. -/
structure Hook where
  id : Nat
  async : Bool
  modelFirst : Bool
  deriving DecidableEq

/-- A value of `Driver.model_infos`: the agent ports and the driver port, the driver hook, the agent
hooks. -/
structure Info where
  ports : List Nat
  hook : Option Hook
  agentHooks : List Hook

/-- `Driver.sche_order`. -/
inductive Order
  | unset
  | modelFirst
  | dutFirst
  deriving DecidableEq

/-- The condition of 131-134 and 144-147. -/
def early (o : Order) (h : Hook) : Bool :=
  (h.modelFirst && o != .dutFirst) || o == .modelFirst

inductive Effect
  | port (p : Nat)
  | hook (h : Nat)
  | method
  | compare
  deriving DecidableEq

/-- What `process_driver_call` has collected so far: the effects made, `dut_first_driver_hooks` and
`dut_first_agent_hooks`. -/
structure Front where
  log : List Effect
  lateDriver : List Hook
  lateAgent : List Hook

/-- `__drive_single_driver_hook` and `__drive_single_agent_hook` (67-104): a coroutine function fails
the assertion, otherwise the hook is requested. -/
def request (log : List Effect) (h : Hook) : List Effect × Bool :=
  if h.async then (log, false) else (log ++ [.hook h.id], true)

/-- The driver hook of one model (130-141).  The flag says whether the call goes on. -/
def frontDriver (o : Order) (f : Front) : Option Hook → Front × Bool
  | none => (f, true)
  | some h =>
    if early o h then
      let (l, ok) := request f.log h
      ({ f with log := l }, ok)
    else ({ f with lateDriver := f.lateDriver ++ [h] }, true)

/-- The agent hooks of one model (143-154). -/
def frontAgent (o : Order) (f : Front) : List Hook → Front × Bool
  | [] => (f, true)
  | h :: hs =>
    if early o h then
      match request f.log h with
      | (l, true) => frontAgent o { f with log := l } hs
      | (l, false) => ({ f with log := l }, false)
    else frontAgent o { f with lateAgent := f.lateAgent ++ [h] } hs

/-- One model (127-154). -/
def frontInfo (o : Order) (f : Front) (i : Info) : Front × Bool :=
  if i.ports ≠ [] then ({ f with log := f.log ++ i.ports.map .port }, true)
  else
    match frontDriver o f i.hook with
    | (f, true) => frontAgent o f i.agentHooks
    | (f, false) => (f, false)

/-- All models (126). -/
def frontAll (o : Order) (f : Front) : List Info → Front × Bool
  | [] => (f, true)
  | i :: is =>
    match frontInfo o f i with
    | (f, true) => frontAll o f is
    | (f, false) => (f, false)

/-- The two loops of `background_exec` (165-176), one after the other. -/
def requestAll (log : List Effect) : List Hook → List Effect × Bool
  | [] => (log, true)
  | h :: hs =>
    match request log h with
    | (l, true) => requestAll l hs
    | (l, false) => (l, false)

/-- Where the `AssertionError` appears. -/
inductive Where
  | call
  | background
  deriving DecidableEq

structure Outcome where
  log : List Effect
  raised : Option Where
  deriving DecidableEq

/-- `process_driver_call` (106-194) with its background task. -/
def driverCall (o : Order) (is : List Info) : Outcome :=
  match frontAll o ⟨[], [], []⟩ is with
  | (f, false) => ⟨f.log, some .call⟩
  | (f, true) =>
    match requestAll (f.log ++ [.method]) (f.lateDriver ++ f.lateAgent) with
    | (l, false) => ⟨l, some .background⟩
    | (l, true) => ⟨l ++ [.compare], none⟩

/-- A value of `Monitor.model_infos`. -/
structure MInfo where
  agentPorts : List Nat
  port : Option Nat
  agentHooks : List Hook
  hook : Option Hook

/-- What is left of a requested hook of a monitor after the clock has run it: `async_wrapper` (218-219)
calls the function; the call of a coroutine function makes a coroutine object, which is returned and
dropped. -/
inductive Ran
  | body (h : Nat)
  | unawaited (h : Nat)
  deriving DecidableEq

def runHook (h : Hook) : Ran := if h.async then .unawaited h.id else .body h.id

/-- What `process_monitor_call` (217-236) does for one value: the deliveries to ports, the hooks in the
order in which they are requested with what comes of them, and whether an exception was raised. -/
structure MOutcome where
  puts : List Nat
  ran : List Ran
  raised : Bool
  deriving DecidableEq

def monitorInfo (out : MOutcome) (i : MInfo) : MOutcome :=
  { out with
    puts := out.puts ++ i.agentPorts ++ i.port.toList
    ran := out.ran ++ i.agentHooks.map runHook ++ i.hook.toList.map runHook }

def monitorCall (is : List MInfo) : MOutcome := is.foldl monitorInfo ⟨[], [], false⟩

end Toffee.AsyncHook
