import Verif.Model.Driver

/-! The payload of ports for driver calls (`Driver.__get_args_dict` and `__drive_single_model_ports`
in `toffee/_base_agent.py` 38-65), with the part of `inspect.Signature.bind` and
`BoundArguments.apply_defaults` of the standard library that handles parameters that can be given by
position or by keyword and parameters that can be given by keyword only.

Not modelled: `*args`, `**kwargs` and positional-only parameters in the signature of a driver method.
A keyword dictionary is a list of pairs with distinct names, in the order of the call. -/

namespace Toffee.Args

open Toffee.Driver (Info Name)

structure Param (V : Type) where
  name : Name
  default : Option V
  kwOnly : Bool
  deriving DecidableEq

inductive Err
  | typeError
  | keyError
  deriving DecidableEq

variable {V : Type}

def keys (kw : List (Name × V)) : List Name := kw.map Prod.fst

def lookup (kw : List (Name × V)) (n : Name) : Option V :=
  (kw.find? fun x => decide (x.1 = n)).map Prod.snd

/-- The first loop of `Signature._bind`: positional arguments. `none` is `TypeError`; otherwise the
bound arguments and the parameters that are left (`itertools.chain(parameters_ex, parameters)`). -/
def bindPos (kw : List (Name × V)) : List (Param V) → List V →
    Option (List (Name × V) × List (Param V))
  | [], [] => some ([], [])
  | p :: ps, [] => if p.name ∈ keys kw ∨ p.default.isSome then some ([], p :: ps) else none
  | [], _ :: _ => none
  | p :: ps, v :: vs =>
    if p.kwOnly then none
    else if p.name ∈ keys kw then none
    else match bindPos kw ps vs with
      | some (b, r) => some ((p.name, v) :: b, r)
      | none => none

/-- The second loop of `Signature._bind`: keyword arguments. The second component is what is left of
the keyword dictionary. -/
def bindKw : List (Param V) → List (Name × V) → Option (List (Name × V) × List (Name × V))
  | [], kw => some ([], kw)
  | p :: ps, kw =>
    match lookup kw p.name with
    | some v =>
      match bindKw ps (kw.filter fun x => decide (x.1 ≠ p.name)) with
      | some (b, r) => some ((p.name, v) :: b, r)
      | none => none
    | none => if p.default.isNone then none else bindKw ps kw

/-- `Signature.bind`. -/
def bind (ps : List (Param V)) (args : List V) (kw : List (Name × V)) : Option (List (Name × V)) :=
  match bindPos kw ps args with
  | none => none
  | some (b, rest) =>
    match bindKw rest kw with
    | none => none
    | some (b', left) => if left.isEmpty then some (b ++ b') else none

/-- `BoundArguments.apply_defaults`. -/
def applyDefaults (ps : List (Param V)) (b : List (Name × V)) : List (Name × V) :=
  ps.filterMap fun p =>
    match lookup b p.name with
    | some v => some (p.name, v)
    | none => p.default.map fun v => (p.name, v)

/-- `__get_args_dict` (38-55); `pyNone` is bound to the first parameter, which is then deleted as
`arguments["self"]`. -/
def argsDict (pyNone : V) (sig : List (Param V)) (args : List V) (kw : List (Name × V)) :
    Except Err (List (Name × V)) :=
  match bind sig (pyNone :: args) kw with
  | none => .error .typeError
  | some b =>
    let d := applyDefaults sig b
    if "self".toList ∈ keys d then .ok (d.filter fun x => decide (x.1 ≠ "self".toList))
    else .error .keyError

/-- What a port receives: an agent port `(path, arguments)`, a driver port one value or the
arguments. -/
inductive Payload (V : Type)
  | agent (path : Name) (d : List (Name × V))
  | bare (v : V)
  | dict (d : List (Name × V))
  deriving DecidableEq

/-- `next(iter(args_dict.values())) if len(args_dict) == 1 else args_dict` (64). -/
def driverPayload (d : List (Name × V)) : Payload V :=
  match d with
  | [(_, v)] => .bare v
  | d => .dict d

/-- A sequence of `put`s with their payloads, cut off by the first exception. -/
def deliver (dict : Except Err (List (Name × V))) :
    List (Nat × (List (Name × V) → Payload V)) → List (Nat × Payload V) × Option Err
  | [] => ([], none)
  | (port, f) :: todo =>
    match dict with
    | .error e => ([], some e)
    | .ok d =>
      let r := deliver dict todo
      ((port, f d) :: r.1, r.2)

/-- `__drive_single_model_ports` (57-65) for the models that have ports (131-133): what is put where,
one after the other. -/
def puts (path : Name) (infos : List Info) : List (Nat × (List (Name × V) → Payload V)) :=
  infos.flatMap fun i =>
    if i.hasPort then
      i.agentPorts.map (fun p => (p, Payload.agent path)) ++
        i.driverPort.toList.map fun p => (p, driverPayload)
    else []

/-- The ports part of `process_driver_call` and then the call `self.func(agent, *arg_list,
**kwarg_list)` (166), which raises `TypeError` exactly when the arguments do not fit the signature:
what the ports received, and the exception. -/
def driverCall (pyNone : V) (path : Name) (sig : List (Param V)) (infos : List Info) (args : List V)
    (kw : List (Name × V)) : List (Nat × Payload V) × Option Err :=
  match deliver (argsDict pyNone sig args kw) (puts path infos) with
  | (l, some e) => (l, some e)
  | (l, none) => (l, if (bind sig (pyNone :: args) kw).isNone then some .typeError else none)

/-- The wrapper that `@driver_method()` puts around the method (`toffee/agent.py` 126-135): `async def
wrapper(agent, *args, **kwargs)`, so that a keyword argument `agent` is a second value for its first
parameter. -/
def call (pyNone : V) (path : Name) (sig : List (Param V)) (infos : List Info) (args : List V)
    (kw : List (Name × V)) : List (Nat × Payload V) × Option Err :=
  if "agent".toList ∈ keys kw then ([], some .typeError)
  else driverCall pyNone path sig infos args kw

end Toffee.Args
