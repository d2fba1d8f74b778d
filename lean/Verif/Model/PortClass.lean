import Verif.Model.PortAlias

/-! Driver ports and monitor ports that several attached models share, as instances of a model class do whose ports
are written in the class body: `getattr` finds the same object for all of them (`toffee/model.py` 346-356).

For one method of an agent, a model is represented by the port that `get_driver_port` or `get_monitor_port` found
for it at `attach` (447-467; `env.py` 188, 209), `none` if there is none.  The messages of one call are put before
any other task runs, because the queue under a port is unbounded and `put` never waits (194-199). -/

namespace Toffee.PortClass

/-- One call of the driver method, or one value of the monitor method: the message is put into the port of every
model, in the order in which they were attached (`_base_agent.py` 126-128, 62-65; 221-226). -/
def message {V : Type} (models : List (Option Nat)) (q : Nat → Port.Port V) (v : V) : Nat → Port.Port V :=
  PortAlias.deliver v (models.filterMap id) q

/-- Several calls, nobody reads in between. -/
def messages {V : Type} (models : List (Option Nat)) (q : Nat → Port.Port V) (vs : List V) : Nat → Port.Port V :=
  vs.foldl (message models) q

/-- A model that reads its port (`await port()`, `model.py` 244-245, 313-314) `n` times while no other task reads it:
what it gets. -/
def reads {V : Type} : Nat → Port.Port V → List V
  | 0, _ => []
  | n + 1, p =>
    match p.get with
    | (p', some v) => v :: reads n p'
    | (_, none) => []

end Toffee.PortClass
