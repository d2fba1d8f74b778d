import Verif.Model.Attach
import Verif.Model.Port

/-! Agent ports that are several attributes of a model, or attributes of several models (`toffee/model.py` 334-356,
248-266), and the messages they are given (`toffee/_base_agent.py` 57-60, 217-225).

A port is given by its identity; `collect_all` visits the attributes in the order of `dir()`.  Only the attributes
that are agent ports are represented.  Not modelled: a subclass of `AgentPort` with its own `get_path`. -/

namespace Toffee.PortAlias

open Toffee.Paths (Name)
open Toffee.Attach (AgentPort Method Flags agentPortsFor)

/-- The arguments `agent_name`, `agents`, `methods` of an `AgentPort` (`model.py` 249-256). -/
structure Spec where
  agent : Name
  agents : List Name
  methods : List Name

/-- The attribute `name` of every port; empty after the constructor (190, 258). -/
abbrev Names := Nat → Name

/-- `collect_all` (346-356) for agent ports: the names afterwards, and `all_agent_ports`. -/
def collect : List (Name × Nat) → Names → Names × List Nat
  | [], n => (n, [])
  | a :: as, n =>
    let r := collect as fun i => if i = a.2 ∧ n i = [] then a.1 else n i
    (r.1, a.2 :: r.2)

/-- The ports in `all_agent_ports`; they are objects, so all of them have the names that hold at the end. -/
def ports (spec : Nat → Spec) (attrs : List (Name × Nat)) (n : Names) : List AgentPort :=
  (collect attrs n).2.map fun i =>
    ⟨i, (collect attrs n).1 i, (spec i).agent, (spec i).agents, (spec i).methods⟩

/-- `model_info["agent_port"]` of the method `m` after `attach` (`env.py` 161-170, 183-185, 204-206). -/
def wired (spec : Nat → Spec) (attrs : List (Name × Nat)) (n : Names) (m : Method) (f : Flags) : List Nat :=
  (agentPortsFor m (ports spec attrs n) f).1

/-- One call of a driver method, or one value of a monitor method: the message `v` is put into the ports one after
the other (`_base_agent.py` 58-60, 221-223). -/
def deliver {V : Type} (v : V) : List Nat → (Nat → Port.Port V) → Nat → Port.Port V
  | [], q => q
  | i :: is, q => deliver v is fun j => if j = i then ((q j).put v).1 else q j

end Toffee.PortAlias
