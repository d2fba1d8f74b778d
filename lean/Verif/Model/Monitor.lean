import Verif.Model.Priority

/-! Monitors (`Monitor` in `toffee/_base_agent.py` 197-252): what the attached models receive.

Any number of monitors run concurrently. A step is one round of `__monitor_forever` after the monitor
method has returned (no `await` in it suspends, because ports drop instead of blocking), or the clock
loop running the priority tasks. The queue that `start_monitor` creates is in `Verif.Model.Port`.

Not modelled: hooks that raise, hooks that are coroutine functions (`Verif.Model.AsyncHook`), that a hook requests a priority
task while the hooks run. What a port does with a value that is put into it is in `Verif.Model.Port`. -/

namespace Toffee.Monitor

abbrev Name := List Char

/-- Results of monitor methods. -/
inductive Val
  | none
  | int (n : Int)
  | list (l : List Int)
  deriving DecidableEq

/-- An agent hook or monitor hook with its `__priority__`. -/
structure Hook where
  id : Nat
  prio : Int
  deriving DecidableEq

/-- An element of `model_infos.values()` for a monitor. -/
structure Info where
  agentPorts : List Nat
  monitorPort : Option Nat
  agentHooks : List Hook
  monitorHook : Option Hook
  deriving DecidableEq

/-- Where a value can go. -/
inductive Sink
  | agentPort (p : Nat)
  | monitorPort (p : Nat)
  | agentHook (h : Hook)
  | monitorHook (h : Hook)
  deriving DecidableEq

/-- A value goes from a monitor to a sink; agent ports and agent hooks also get the path. -/
structure Ev where
  mon : Nat
  sink : Sink
  path : Option Name
  val : Val
  deriving DecidableEq

structure St where
  /-- `__priority_tasks` -/
  pending : List (Ev × Int)
  log : List Ev

/-- A monitor: its path and its `model_infos`. -/
structure Mon where
  path : Name
  infos : List Info

inductive Act
  | ret (m : Nat) (v : Val)
  | callbacks

def init : St := ⟨[], []⟩

/-- `agent_port.put(..)` and `monitor_port.put(..)` for one model (222-226). -/
def putsOf (path : Name) (m : Nat) (v : Val) (i : Info) : List Ev :=
  i.agentPorts.map (fun p => ⟨m, .agentPort p, some path, v⟩) ++
    i.monitorPort.toList.map fun p => ⟨m, .monitorPort p, .none, v⟩

/-- The priority tasks for one model (228-236). -/
def requestsOf (path : Name) (m : Nat) (v : Val) (i : Info) : List (Ev × Int) :=
  i.agentHooks.map (fun h => (⟨m, .agentHook h, some path, v⟩, h.prio)) ++
    i.monitorHook.toList.map fun h => (⟨m, .monitorHook h, .none, v⟩, h.prio)

/-- `process_monitor_call` (217-236). -/
def processCall (path : Name) (m : Nat) (v : Val) (infos : List Info) (s : St) : St :=
  infos.foldl (fun s i =>
    ⟨s.pending ++ requestsOf path m v i, s.log ++ putsOf path m v i⟩) s

/-- One step. `if ret is not None` (243). -/
def step (mon : Nat → Mon) (s : St) : Act → St
  | .ret m v => if v ≠ .none then processCall (mon m).path m v (mon m).infos s else s
  | .callbacks => ⟨[], s.log ++ (Priority.sorted s.pending).map Prod.fst⟩

def run (mon : Nat → Mon) (s : St) (as : List Act) : St := as.foldl (step mon) s

end Toffee.Monitor
