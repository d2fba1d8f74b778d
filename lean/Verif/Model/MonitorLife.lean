/-! The life of a monitor task (`toffee/_base_agent.py` 184-252) with the attribute `path`, which only
`Env.__config_agent_name` sets (`toffee/env.py` 93-108): `BaseAgent.__init__` sets `path_name` instead
(`_base_agent.py` 17-24).

Left out: what hooks and ports do with the values (`Monitor`), tasks that wait for a value (`Readers`).  `error`
only logs. -/

namespace Toffee.MonitorLife

variable {V : Type}

/-- A monitor: whether it has the attribute `path`, whether a model gives it agent ports or agent hooks
(`model_infos`), `get_queue_max_size` (`none` while `get_queue` is `None`), the queue, and whether the task of
`__monitor_forever` still runs. -/
structure Mon (V : Type) where
  path : Bool
  agentItems : Bool
  size : Option Int
  queue : List V
  alive : Bool

/-- A monitor after `Monitor.__init__` (189-195). -/
def Mon.init (path agentItems : Bool) : Mon V := ⟨path, agentItems, none, [], true⟩

/-- What happens to a monitor: its method returns (`none` for `None`), `start_monitor(name, maxsize)`, or a reader
takes a value. -/
inductive Op (V : Type)
  | ret (v : Option V)
  | start (maxsize : Int)
  | read

/-- The end of the loop body (240-252) for a value that is not `None`. -/
def Mon.put (s : Mon V) (v : V) : Mon V :=
  match s.size with
  | none => s
  | some n =>
    if n ≤ s.queue.length then
      if s.path then s else { s with alive := false }
    else { s with queue := s.queue ++ [v] }

/-- One operation.  The loop body (234-252) evaluates `self.path` for agent ports and agent hooks (219-231) and for
the message of a full queue (247-250), which raises `AttributeError` if there is none and ends the task. -/
def Mon.step (s : Mon V) : Op V → Mon V
  | .ret none => s
  | .ret (some v) =>
    if s.alive then
      if s.agentItems && !s.path then { s with alive := false } else s.put v
    else s
  | .start n => { s with size := some n, queue := [] }
  | .read => { s with queue := s.queue.drop 1 }

/-- A history. -/
def Mon.run (s : Mon V) (ops : List (Op V)) : Mon V := ops.foldl Mon.step s

end Toffee.MonitorLife
