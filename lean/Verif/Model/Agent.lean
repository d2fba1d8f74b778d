import Verif.Model.Dict

/-! Agents and how they get their drivers and monitors (`toffee/agent.py`), and how an environment
names them (`toffee/env.py` 13-30, 79-108).

A class hierarchy is given by the method resolution order: the dictionaries of the classes, most
derived first.  Not modelled: instance attributes and properties that are decorated functions;
functions that are decorated twice; class attributes that hide those of `Agent` and `Env`. -/

namespace Toffee.Agent

abbrev Name := List Char

/-- A function in the source code and its `__name__`. -/
structure Func where
  id : Nat
  name : Name
  deriving DecidableEq

/-- A class attribute: decorated with `driver_method()` (126-149), with `monitor_method()` (152-175),
or anything else.  `functools.wraps` gives the wrapper the `__name__` and the mark of the function. -/
inductive Attr
  | driver (f : Func)
  | monitor (f : Func)
  | other
  deriving DecidableEq

abbrev Class := Dict Name Attr

/-- Attribute look-up along the method resolution order. -/
def lookup : List Class → Name → Option Attr
  | [], _ => none
  | c :: cs, n =>
    match c.get? n with
    | some a => some a
    | none => lookup cs n

/-- Insertion into a sorted list without duplicates. -/
def insertName (n : Name) : List Name → List Name
  | [] => [n]
  | m :: ms => if n = m then m :: ms else if n < m then n :: m :: ms else m :: insertName n ms

/-- `dir(self)`: the names of all classes, sorted, without duplicates. -/
def dir (mro : List Class) : List Name := (mro.flatMap Dict.keys).foldr insertName []

/-- `all_driver_method` (80-90): the functions of the driver methods in the order of `dir`. -/
def driverMethods (mro : List Class) : List Func :=
  (dir mro).filterMap fun n =>
    match lookup mro n with
    | some (.driver f) => some f
    | _ => none

/-- `all_monitor_method` (92-102). -/
def monitorMethods (mro : List Class) : List Func :=
  (dir mro).filterMap fun n =>
    match lookup mro n with
    | some (.monitor f) => some f
    | _ => none

/-- `__create_all_drivers` (35-42): `self.drivers`, each driver with its function. -/
def drivers (mro : List Class) : Dict Name Func :=
  (driverMethods mro).foldl (fun d f => d.set f.name f) []

/-- `__create_all_monitors` (44-51): every `Monitor` creates its task; the tasks with their functions
in order of creation, and `self.monitors` with the number of the task of each monitor. -/
def monitors (mro : List Class) : List Func × Dict Name Nat :=
  (monitorMethods mro).foldl (fun s f => (s.1 ++ [f], s.2.set f.name s.1.length)) ([], [])

/-- What the call of a method does. -/
inductive Outcome
  /-- the driver runs this function (`Driver.process_driver_call`) -/
  | runs (f : Func)
  /-- takes a value from the queue of this monitor -/
  | reads (task : Nat)
  | keyError
  | attributeError
  | plain
  deriving DecidableEq

/-- `agent.n(..)` for `k = 0`; `super().n(..)` in a method of the class at position `k - 1`.  The
wrapper (129-132, 155-158) looks the driver or the monitor up by the name of the function. -/
def call (mro : List Class) (k : Nat) (n : Name) : Outcome :=
  match lookup (mro.drop k) n with
  | none => .attributeError
  | some .other => .plain
  | some (.driver f) =>
    match (drivers mro).get? f.name with
    | some g => .runs g
    | none => .keyError
  | some (.monitor f) =>
    match (monitors mro).2.get? f.name with
    | some i => .reads i
    | none => .keyError

/-! ### Environments -/

/-- The body of an `__init__`: `self.n = agent` (agents are numbered), `super().__init__(..)`. -/
inductive Stmt
  | assign (n : Name) (agent : Nat)
  | super
  deriving DecidableEq

/-- The agent attributes of an environment, and the `agent_name` of the drivers and monitors of every
agent. -/
structure EnvSt where
  attrs : Dict Name Nat
  names : Nat → Name

/-- `all_agent_names` (`env.py` 79-89). -/
def agentNames (s : EnvSt) : List Name := s.attrs.keys.foldr insertName []

/-- `__config_agent_name` (`env.py` 91-108). -/
def config (s : EnvSt) : EnvSt :=
  { s with names := (agentNames s).foldl (fun nm n =>
      match s.attrs.get? n with
      | some a => fun b => if b = a then n else nm b
      | none => nm) s.names }

/-- `__init__` of the first class of a list of subclasses of `Env`, most derived first.  Every one of
them was wrapped by `__init_subclass__` (`env.py` 18-30); the last `super().__init__()` is that of
`Env` itself.  A class without an `__init__` of its own is `[super]`. -/
def initEnv : List (List Stmt) → EnvSt → EnvSt
  | [], s => s
  | body :: rest, s =>
    config (body.foldl (fun s st =>
      match st with
      | .assign n a => { s with attrs := s.attrs.set n a }
      | .super => initEnv rest s) s)

/-- A new environment; drivers and monitors have the empty agent name (`_base_agent.py` 19). -/
def newEnv (bodies : List (List Stmt)) : EnvSt := initEnv bodies ⟨[], fun _ => []⟩

end Toffee.Agent
