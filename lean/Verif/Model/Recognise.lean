import Verif.Model.Agent
import Verif.Model.Executor

/-! How the executor recognises driver calls (`toffee/executor.py` 248-261) among the coroutines that
it is given.

A coroutine that has not begun is modelled by what `__get_driver` looks at: its `__name__` and the
local variable `agent` of its frame, which is a parameter or a variable of an enclosing function. -/

namespace Toffee.Recognise

open Toffee.Agent (Name Class Func)

/-- An agent: its class hierarchy, and the `agent_name` of its drivers (`env.py` 91-108). -/
structure AgentObj where
  mro : List Class
  name : Name

/-- The local variable `agent` in the frame of a coroutine: there is none, it is `None`, an agent, or
something else, which has no attribute `drivers`. -/
inductive Var
  | absent
  | none
  | agent (a : AgentObj)
  | other

structure CoroObj where
  name : Name
  var : Var

/-- The coroutine of `agent.n(..)` (`k = 0`) or `super().n(..)` (see `Agent.call`) for a driver or
monitor method: the wrapper (`agent.py` 129-132, 155-158) calls its first parameter `agent`, and
`functools.wraps` gives it the name of the function. -/
def method (a : AgentObj) (k : Nat) (n : Name) : Option CoroObj :=
  match Agent.lookup (a.mro.drop k) n with
  | some (.driver f) => some ⟨f.name, .agent a⟩
  | some (.monitor f) => some ⟨f.name, .agent a⟩
  | _ => Option.none

/-- `__get_driver` (248-261): `none` if it raises `AttributeError`, otherwise the agent and the
function of the driver, if any. -/
def getDriver (c : CoroObj) : Option (Option (AgentObj × Func)) :=
  match c.var with
  | .absent => some Option.none
  | .none => some Option.none
  | .agent a => some (((Agent.drivers a.mro).get? c.name).map fun f => (a, f))
  | .other => Option.none

/-- What `__call__` makes of a coroutine (188-193): see `Executor.Coro`. -/
def toCoro (id : Nat) (c : CoroObj) : Option Executor.Coro :=
  (getDriver c).map fun d => ⟨id, c.name, d.map fun x => x.1.name⟩

end Toffee.Recognise
