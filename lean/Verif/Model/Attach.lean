import Verif.Model.Paths

/-! Attaching models to environments (`toffee/env.py`, and `Model` in `toffee/model.py`).

An environment is given by its attribute names and its agents with their driver and monitor methods,
in the order of `dir()`.  A model is given by its hooks and ports, in the order of `dir()`, with
resolved paths (`Verif.Model.Paths`) and an identity.  The identity of a hook is that of the function
object, which all instances of a model class share; the identity of a port is that of the port.

The state consists of the `matched` marks of hooks and ports and, for every environment, the
`model_infos` of its methods and the list `attached_models`.

Not modelled: the same agent object under two attributes of an environment (`AttachAlias`); a method under two
attributes of an agent; subclasses of `Env` or `Model` that themselves define `attached_model`,
`attached_agent` or `attached_env`; the warnings. -/

namespace Toffee.Attach

open Toffee.Paths (Name)

inductive Kind
  | driver
  | monitor
  deriving DecidableEq

/-- A driver or monitor method of an agent. -/
structure Method where
  kind : Kind
  agent : Name
  name : Name
  deriving DecidableEq

/-- `f"{agent_name}.{method_name}"` (`env.py` 177, 198). -/
def Method.path (m : Method) : Name := m.agent ++ '.' :: m.name

/-- An agent: its attribute name, its driver methods, its monitor methods. -/
structure Agent where
  name : Name
  drivers : List Name
  monitors : List Name

/-- An environment: the names for which `hasattr` holds, and the agents among them. -/
structure Env where
  attrs : List Name
  agents : List Agent

/-- The methods in the order in which `__inject_all` visits them (`env.py` 219-226). -/
def Env.methods (e : Env) : List Method :=
  e.agents.flatMap fun a =>
    a.drivers.map (fun n => ⟨.driver, a.name, n⟩) ++ a.monitors.map fun n => ⟨.monitor, a.name, n⟩

/-- `__agent_name__`, `__agents__`, `__methods__` of an agent hook (`model.py` 53-58). -/
structure AgentHook where
  id : Nat
  agent : Name
  agents : List Name
  methods : List Name

/-- An `AgentPort` (`model.py` 248-263); `name` is the name of its attribute (350-351). -/
structure AgentPort where
  id : Nat
  name : Name
  agent : Name
  agents : List Name
  methods : List Name

/-- A driver hook, driver port, monitor hook or monitor port with its path. -/
structure PathItem where
  id : Nat
  path : Name

/-- What `collect_all` collects (`model.py` 334-366). -/
structure Model where
  agentHooks : List AgentHook
  driverHooks : List PathItem
  monitorHooks : List PathItem
  agentPorts : List AgentPort
  driverPorts : List PathItem
  monitorPorts : List PathItem

/-- The marks: `__matched__[0]`/`matched` and `__methods_matched__`/`methods_matched`. -/
structure Flags where
  matched : Nat → Bool
  methods : Nat → Nat → Bool

def Flags.none : Flags := ⟨fun _ => false, fun _ _ => false⟩

def Flags.mark (f : Flags) (id : Nat) : Flags :=
  { f with matched := fun i => if i = id then true else f.matched i }

def Flags.markMethod (f : Flags) (id idx : Nat) : Flags :=
  { f with methods := fun i j => if i = id ∧ j = idx then true else f.methods i j }

/-- `__is_agent_hook_contain_method` and `__is_agent_port_contain_method` (`env.py` 113-146); `key` is
`__agent_name__` or `get_path()`. -/
def contain (id : Nat) (key : Name) (agents methods : List Name) (m : Method) (f : Flags) :
    Bool × Flags :=
  if m.agent = key ∨ m.agent ∈ agents then (true, f.mark id)
  else if m.path ∈ methods then (true, (f.mark id).markMethod id (methods.idxOf m.path))
  else (false, f)

/-- `__all_agent_hooks_contain_method` (149-158). -/
def agentHooksFor (m : Method) : List AgentHook → Flags → List Nat × Flags
  | [], f => ([], f)
  | h :: hs, f =>
    let (c, f) := contain h.id h.agent h.agents h.methods m f
    let (r, f) := agentHooksFor m hs f
    (if c then h.id :: r else r, f)

/-- `__all_agent_ports_contain_method` (161-170). -/
def agentPortsFor (m : Method) : List AgentPort → Flags → List Nat × Flags
  | [], f => ([], f)
  | p :: ps, f =>
    let (c, f) := contain p.id (Paths.agentPortPath p.agent p.name) p.agents p.methods m f
    let (r, f) := agentPortsFor m ps f
    (if c then p.id :: r else r, f)

/-- `get_driver_hook`, `get_driver_port`, `get_monitor_hook`, `get_monitor_port` with
`mark_matched=True` (`model.py` 447-489). -/
def getFirst (path : Name) : List PathItem → Flags → Option Nat × Flags
  | [], f => (none, f)
  | x :: xs, f => if x.path = path then (some x.id, f.mark x.id) else getFirst path xs f

/-- A value of `model_infos` (`env.py` 179-188, 200-209). -/
structure Info where
  agentHooks : List Nat
  agentPorts : List Nat
  hook : Option Nat
  port : Option Nat
  deriving DecidableEq

/-- The dictionary of `__inject_driver_method` and `__inject_monitor_method` (172-212), and the marks
it leaves. -/
def info (md : Model) (m : Method) (f : Flags) : Info × Flags :=
  let (ah, f) := agentHooksFor m md.agentHooks f
  let (ap, f) := agentPortsFor m md.agentPorts f
  let (h, f) := getFirst m.path
    (match m.kind with | .driver => md.driverHooks | .monitor => md.monitorHooks) f
  let (p, f) := getFirst m.path
    (match m.kind with | .driver => md.driverPorts | .monitor => md.monitorPorts) f
  (⟨ah, ap, h, p⟩, f)

/-- `d[k] = v` for a dictionary as a list of entries. -/
def dictSet {α : Type} : List (Nat × α) → Nat → α → List (Nat × α)
  | [], k, v => [(k, v)]
  | e :: r, k, v => if e.1 = k then (k, v) :: r else e :: dictSet r k v

/-- The state of one environment. -/
structure EnvState where
  infos : Method → List (Nat × Info)
  attached : List Nat

def EnvState.init : EnvState := ⟨fun _ => [], []⟩

/-- `driver.model_infos[model] = model_info` (191, 212). -/
def EnvState.setInfo (s : EnvState) (m : Method) (x : Nat) (i : Info) : EnvState :=
  { s with infos := fun m' => if m' = m then dictSet (s.infos m) x i else s.infos m' }

/-- `__inject_all` (214-226). -/
def injectAll (md : Model) (x : Nat) : List Method → Flags → EnvState → Flags × EnvState
  | [], f, s => (f, s)
  | m :: ms, f, s =>
    let (i, f) := info md m f
    injectAll md x ms f (s.setInfo m x i)

inductive Err
  | value
  | attribute
  deriving DecidableEq

/-- All of the first `n` marks are set. -/
def allMarked (f : Flags) (id n : Nat) : Bool := (List.range n).all fun j => f.methods id j

/-- The first error of a list of checks. -/
def firstErr {α : Type} (chk : α → Option Err) : List α → Option Err
  | [] => none
  | a :: as => match chk a with
    | some e => some e
    | none => firstErr chk as

/-- Two checks one after the other. -/
def andThen (a b : Option Err) : Option Err :=
  match a with
  | some e => some e
  | none => b

/-- `ensure_all_matched` (`model.py` 400-445). -/
def ensureAllMatched (md : Model) (f : Flags) : Option Err :=
  andThen (firstErr (fun h => if allMarked f h.id h.methods.length then none else some .value)
    md.agentHooks) <|
  andThen (firstErr (fun h => if f.matched h.id then none else some .value) md.driverHooks) <|
  andThen (firstErr (fun h => if f.matched h.id then none else some .value) md.monitorHooks) <|
  andThen (firstErr (fun p =>
    if f.matched p.id then
      if allMarked f p.id p.methods.length then none else some .value
    else some .value) md.agentPorts) <|
  andThen (firstErr (fun p => if f.matched p.id then none else some .value) md.driverPorts) <|
  firstErr (fun p => if f.matched p.id then none else some .value) md.monitorPorts

/-- `__ensure_model_match` (`env.py` 244-279).  The message for a missing agent of an agent port
evaluates `agent_port.__name__`, which raises `AttributeError` (274). -/
def ensureModelMatch (e : Env) (md : Model) (f : Flags) : Option Err :=
  andThen (ensureAllMatched md f) <|
  andThen (firstErr (fun h =>
    andThen (firstErr (fun a => if a ∈ e.attrs then none else some .value) h.agents)
      (if h.agent = [] ∨ h.agent ∈ e.attrs then none else some .value)) md.agentHooks) <|
  firstErr (fun p =>
    andThen (firstErr (fun a => if a ∈ e.attrs then none else some .attribute) p.agents)
      (if p.name = [] ∨ p.name ∈ e.attrs then none else some .value)) md.agentPorts

/-- The whole state: the marks, and the state of every environment. -/
structure World where
  flags : Flags
  envs : Nat → EnvState

def World.init : World := ⟨Flags.none, fun _ => EnvState.init⟩

def World.setEnv (w : World) (e : Nat) (s : EnvState) : Nat → EnvState :=
  fun e' => if e' = e then s else w.envs e'

/-- `attach` (`env.py` 32-56).  `is_attached()` tests `attached_agent`, which nothing ever sets
(`model.py` 324, 393-398), so its branch is never taken. -/
def attach (env : Env) (md : Model) (w : World) (e x : Nat) : World × Option Err :=
  let (f, s) := injectAll md x env.methods w.flags (w.envs e)
  match ensureModelMatch env md f with
  | some err => (⟨f, w.setEnv e s⟩, some err)
  | none => (⟨f, w.setEnv e { s with attached := s.attached ++ [x] }⟩, none)

/-- `unattach` (58-77): `self.attached_model` does not exist (`__init__` sets `attached_models`). -/
def unattach (w : World) (_e _x : Nat) : World × Option Err := (w, some .attribute)

/-- `__uninject_all` (228-242), which `unattach` would call. -/
def uninjectAll (ms : List Method) (x : Nat) (s : EnvState) : EnvState :=
  { s with infos := fun m => if m ∈ ms then (s.infos m).filter fun p => p.1 ≠ x else s.infos m }

/-- A call of `attach` or `unattach` with the environment and the model. -/
inductive Op
  | attach (e x : Nat)
  | unattach (e x : Nat)

/-- One call; exceptions are caught by the caller. -/
def step (env : Nat → Env) (md : Nat → Model) (w : World) : Op → World
  | .attach e x => (attach (env e) (md x) w e x).1
  | .unattach e x => (unattach w e x).1

/-- A history of calls. -/
def run (env : Nat → Env) (md : Nat → Model) (w : World) (ops : List Op) : World :=
  ops.foldl (step env md) w

end Toffee.Attach
