/-! Path resolution of hooks and ports (`toffee/model.py`).

Strings are lists of characters.  `assert` failures are `none`.  The decorators `agent_hook`,
`driver_hook` and `monitor_hook` are closures whose captured arguments the application to a function
changes (`nonlocal`), so a decorator object is modelled by its current captured arguments. -/

namespace Toffee.Paths

abbrev Name := List Char

/-- `s.replace("__", ".")`: occurrences from the left, not overlapping (113, 166, 240, 309). -/
def replaceDunder : Name → Name
  | '_' :: '_' :: t => '.' :: replaceDunder t
  | c :: t => c :: replaceDunder t
  | [] => []

/-- The arguments of `driver_hook`, `monitor_hook`, `DriverPort` and `MonitorPort` that concern the
path (67-71, 126-130, 208-213, 277-282): path, agent name, method name; `""` when not given. -/
structure Args where
  path : Name
  agent : Name
  method : Name

/-- The two assertions (89-95, 146-152, 216-222, 285-291). -/
def Args.check (a : Args) : Bool :=
  (a.path = [] || (a.agent = [] && a.method = [])) && (a.agent ≠ [] || a.method = [])

/-- The path for an object called `own` (106-113, 159-166, 233-240, 302-309). -/
def Args.resolve (a : Args) (own : Name) : Name :=
  if a.path = [] then
    if a.agent ≠ [] then
      if a.method ≠ [] then a.agent ++ '.' :: a.method
      else a.agent ++ '.' :: own
    else replaceDunder own
  else a.path

/-- Calling `driver_hook(...)`/`monitor_hook(...)`: the decorator, or the assertion fails. -/
def mkDecorator (a : Args) : Option Args := if a.check then some a else none

/-- Applying the decorator to a function called `own`: the function's path and the decorator with
its captured `driver_path` overwritten (104-116, 157-170). -/
def decorate (d : Args) (own : Name) : Name × Args :=
  let p := d.resolve own
  (p, { d with path := p })

/-- Constructing a `DriverPort`/`MonitorPort` and asking for its path once it is called `own`
(208-242, 277-311). -/
def portPath (a : Args) (own : Name) : Option Name := if a.check then some (a.resolve own) else none

/-- The arguments of `agent_hook` that concern the path (16-20). -/
structure AgentArgs where
  agent : Name
  agents : List Name
  methods : List Name

/-- `agent_hook(...)` (38-40). -/
def mkAgentDecorator (a : AgentArgs) : Option AgentArgs :=
  if a.agent = [] ∨ a.agents = [] then some a else none

/-- Applying it to a function called `own`: `__agent_name__` and the decorator afterwards (48-54). -/
def agentDecorate (d : AgentArgs) (own : Name) : Name × AgentArgs :=
  let n := if d.agent = [] ∧ d.agents = [] ∧ d.methods = [] then own else d.agent
  (n, { d with agent := n })

/-- `AgentPort.get_path` (265-266). -/
def agentPortPath (agent name : Name) : Name := if agent ≠ [] then agent else name

end Toffee.Paths
