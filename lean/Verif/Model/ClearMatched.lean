import Verif.Model.Attach

/-! `Model.clear_matched` (`toffee/model.py` 368-391).

The lists it walks are those of the last `collect_all`, which `attach` calls (`env.py` 44); of a model
never attached they are empty (`model.py` 326-332).  The hooks in them are bound methods (343, 360-366):
reading an attribute of a bound method reads it from the function, assigning one raises
`AttributeError`.  Not modelled: hooks that are static methods or functions stored in the instance,
which are no bound methods. -/

namespace Toffee.Attach

/-- `x.matched = False` and `x.__matched__[0] = False`. -/
def Flags.unmark (f : Flags) (id : Nat) : Flags :=
  { f with matched := fun i => if i = id then false else f.matched i }

/-- `agent_port.methods_matched = [False] * len(agent_port.methods)` (391). -/
def Flags.unmarkMethods (f : Flags) (id : Nat) : Flags :=
  { f with methods := fun i j => if i = id then false else f.methods i j }

/-- A loop over ports or hooks that only have the one mark (373-383). -/
def unmarkAll (f : Flags) (xs : List PathItem) : Flags := xs.foldl (fun f x => f.unmark x.id) f

/-- The loop over the agent hooks (385-387): the mark goes, then the assignment to
`agent_hook.__methods_matched__` raises. -/
def clearAgentHooks (f : Flags) : List AgentHook → Flags × Option Err
  | [] => (f, none)
  | h :: _ => (f.unmark h.id, some .attribute)

/-- The loop over the agent ports (389-391). -/
def clearAgentPorts (f : Flags) (ps : List AgentPort) : Flags :=
  ps.foldl (fun f p => (f.unmark p.id).unmarkMethods p.id) f

/-- `clear_matched` (368-391) of a model whose lists hold what `collect_all` collected. -/
def clearMatched (md : Model) (f : Flags) : Flags × Option Err :=
  let f := unmarkAll f md.driverPorts
  let f := unmarkAll f md.monitorPorts
  let f := unmarkAll f md.driverHooks
  let f := unmarkAll f md.monitorHooks
  match clearAgentHooks f md.agentHooks with
  | (f, some e) => (f, some e)
  | (f, none) => (clearAgentPorts f md.agentPorts, none)

/-- A call of `attach`, `unattach` or `clear_matched`. -/
inductive COp
  | attach (e x : Nat)
  | unattach (e x : Nat)
  | clear (x : Nat)

/-- The state with the models for which `collect_all` was called. -/
structure CWorld where
  world : World
  collected : List Nat

def CWorld.init : CWorld := ⟨World.init, []⟩

/-- One call; exceptions are caught by the caller. -/
def cstep (env : Nat → Env) (md : Nat → Model) (c : CWorld) : COp → CWorld
  | .attach e x => ⟨(attach (env e) (md x) c.world e x).1, x :: c.collected⟩
  | .unattach e x => ⟨(unattach c.world e x).1, c.collected⟩
  | .clear x =>
    if x ∈ c.collected then
      ⟨{ c.world with flags := (clearMatched (md x) c.world.flags).1 }, c.collected⟩
    else c

/-- A history of calls. -/
def crun (env : Nat → Env) (md : Nat → Model) (c : CWorld) (ops : List COp) : CWorld :=
  ops.foldl (cstep env md) c

end Toffee.Attach
