import Verif.Model.Attach

/-! `attach` (`toffee/env.py` 32-56, 172-226) of environments in which one agent object is the value of several
attributes.

Left out: `attached_models` (`Attach` has it). -/

namespace Toffee.Attach

/-- A driver or monitor object: `agent.drivers[name]` or `agent.monitors[name]` (`env.py` 281-295) of an agent
object. -/
structure Obj where
  kind : Kind
  agent : Nat
  name : Paths.Name
  deriving DecidableEq

/-- `__get_driver`, `__get_monitor` (`env.py` 281-295); `who` is the agent object under an attribute name. -/
def Method.obj (who : Paths.Name → Nat) (m : Method) : Obj := ⟨m.kind, who m.agent, m.name⟩

/-- `__inject_all` (`env.py` 214-226) with the `model_infos` of the objects. -/
def injectAlias (who : Paths.Name → Nat) (md : Model) (x : Nat) :
    List Method → Flags → (Obj → List (Nat × Info)) → Flags × (Obj → List (Nat × Info))
  | [], f, s => (f, s)
  | m :: ms, f, s =>
    let (i, f) := info md m f
    injectAlias who md x ms f fun o => if o = m.obj who then dictSet (s o) x i else s o

/-- `attach` (`env.py` 32-56): marks, `model_infos`, and the exception if there is one. -/
def attachAlias (env : Env) (who : Paths.Name → Nat) (md : Model) (x : Nat) (f : Flags)
    (s : Obj → List (Nat × Info)) : (Flags × (Obj → List (Nat × Info))) × Option Err :=
  (injectAlias who md x env.methods f s, ensureModelMatch env md (injectAlias who md x env.methods f s).1)

end Toffee.Attach
