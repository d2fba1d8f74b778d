import Verif.Model.HookDeco

/-! A function of a reference model under several hook decorators (`toffee/model.py` 16-175), and how `collect_all`
(334-366) classifies it.

Every decorator writes attributes on the function and returns the function itself (53-62, 115-121, 168-173), so a
decorator that is applied later finds, and may overwrite, what the earlier ones wrote.  Simplified: what a decorator
names (`agent_name`, `agents` and `methods`; `driver_path`; `monitor_path`) is a value of any type `τ` — the model
`Paths` resolves it —, and the flags `__matched__` are left out (`ClearMatched`). -/

namespace Toffee.HookStack

open Toffee.HookDeco (Kind)

/-- One decorator: its kind, what it names, `priority`, and whether `sche_order` is "model_first" (not a parameter
of `monitor_hook`, 126-132: there the field is not read). -/
structure Deco (τ : Type) where
  kind : Kind
  names : τ
  priority : Nat
  modelFirst : Bool

/-- The attributes of a function object that decorators write; `none`: the attribute does not exist. -/
structure Func (τ : Type) where
  /-- `__is_agent_hook__`, `__agent_name__`, `__agents__`, `__methods__` -/
  agent : Option τ := none
  /-- `__is_driver_hook__`, `__driver_path__` -/
  driver : Option τ := none
  /-- `__is_monitor_hook__`, `__monitor_path__` -/
  monitor : Option τ := none
  /-- `__priority__` -/
  priority : Option Nat := none
  /-- `__sche_order__` -/
  modelFirst : Option Bool := none

/-- `decorator(func)` (47-62 agent hooks, 103-121 driver hooks, 156-173 monitor hooks). -/
def apply {τ : Type} (f : Func τ) (d : Deco τ) : Func τ :=
  match d.kind with
  | .agent => { f with agent := some d.names, priority := some d.priority, modelFirst := some d.modelFirst }
  | .driver => { f with driver := some d.names, priority := some d.priority, modelFirst := some d.modelFirst }
  | .monitor => { f with monitor := some d.names, priority := some d.priority }

/-- The function under the decorators `ds`, the innermost first: Python applies them in this order. -/
def decorated {τ : Type} (ds : List (Deco τ)) : Func τ := ds.foldl apply {}

/-- The list in which `collect_all` puts the function, with what it is then matched against (360-366: the `elif`
chain asks for a driver hook, then for an agent hook, then for a monitor hook). -/
def collected {τ : Type} (f : Func τ) : Option (Kind × τ) :=
  match f.driver with
  | some t => some (.driver, t)
  | none =>
    match f.agent with
    | some t => some (.agent, t)
    | none => f.monitor.map fun t => (.monitor, t)

end Toffee.HookStack
