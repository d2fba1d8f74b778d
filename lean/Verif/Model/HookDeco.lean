/-!
Model of the priority parameter of the decorators of reference-model hooks (`toffee/model.py` 15-64 agent
hooks, 67-123 driver hooks, 126-174 monitor hooks).
-/

namespace Toffee.HookDeco

/-- `@agent_hook`, `@driver_hook`, `@monitor_hook`. -/
inductive Kind where
  | agent | driver | monitor
deriving DecidableEq, Repr

/-- The default of the parameter `priority` (`model.py` 21, 72, 131). -/
def defaultPriority : Kind → Int
  | .agent => 99
  | .driver => 99
  | .monitor => 0

/-- `func.__priority__` (59, 118, 169) of a function decorated with `priority=p` (`none`: the argument is
left out), `none` if the assertion `priority in range(0, 100)` fails (41, 97, 154).  Simplified: only
integers are given. -/
def declared (k : Kind) (p : Option Int) : Option Int :=
  let q := p.getD (defaultPriority k)
  if 0 ≤ q ∧ q < 100 then some q else none

end Toffee.HookDeco
