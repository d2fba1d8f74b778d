import Verif.Model.Args

/-! The payload of ports for driver calls, for all kinds of parameters that Python has
(`Driver.__get_args_dict` and `__drive_single_model_ports` in `toffee/_base_agent.py` 38-65): the
whole of `inspect.Signature._bind` and `BoundArguments.apply_defaults` of the standard library
(CPython 3.11), of which `Verif.Model.Args` has the part without `/`, `*args` and `**kwargs`.

The two models are independent of each other but for `lookup`, `keys`, `puts` and `deliver`. -/

namespace Toffee.Args.Full

open Toffee.Driver (Info Name)
open Toffee.Args (lookup keys Err Payload deliver puts)

/-- `inspect._ParameterKind`. -/
inductive Kind
  | posOnly
  | posOrKw
  | varPos
  | kwOnly
  | varKw
  deriving DecidableEq

structure Param (V : Type) where
  name : Name
  kind : Kind
  default : Option V
  deriving DecidableEq

/-- What is bound to a parameter: a value of the call or a default, the tuple of a `*` parameter or
the dictionary of a `**` parameter. -/
inductive Arg (V : Type)
  | one (v : V)
  | tuple (l : List V)
  | dict (l : List (Name × V))
  deriving DecidableEq

variable {V : Type}

/-- The first loop of `Signature._bind`: positional arguments. `none` is `TypeError`; otherwise the
bound arguments and the parameters that are left (`itertools.chain(parameters_ex, parameters)`). -/
def bindPos (kw : List (Name × V)) : List (Param V) → List V →
    Option (List (Name × Arg V) × List (Param V))
  | [], [] => some ([], [])
  | p :: ps, [] =>
    if p.kind = .varPos then some ([], ps)
    else if p.name ∈ keys kw then
      if p.kind = .posOnly then none else some ([], p :: ps)
    else if p.kind = .varKw ∨ p.default.isSome then some ([], p :: ps)
    else none
  | [], _ :: _ => none
  | p :: ps, v :: vs =>
    if p.kind = .varKw ∨ p.kind = .kwOnly then none
    else if p.kind = .varPos then some ([(p.name, .tuple (v :: vs))], ps)
    else if p.name ∈ keys kw ∧ p.kind ≠ .posOnly then none
    else match bindPos kw ps vs with
      | some (b, r) => some ((p.name, .one v) :: b, r)
      | none => none

/-- The second loop of `Signature._bind`: keyword arguments. What is bound, what is left of the
keyword dictionary, and the `**` parameter if there is one. -/
def bindKw : List (Param V) → List (Name × V) →
    Option (List (Name × Arg V) × List (Name × V) × Option Name)
  | [], kw => some ([], kw, none)
  | p :: ps, kw =>
    if p.kind = .varKw then
      match bindKw ps kw with
      | some (b, left, k) => some (b, left, k.or (some p.name))
      | none => none
    else if p.kind = .varPos then bindKw ps kw
    else match lookup kw p.name with
      | some v =>
        if p.kind = .posOnly then none
        else match bindKw ps (kw.filter fun x => decide (x.1 ≠ p.name)) with
          | some (b, r) => some ((p.name, .one v) :: b, r)
          | none => none
      | none => if p.default.isNone then none else bindKw ps kw

/-- `Signature.bind`. -/
def bind (ps : List (Param V)) (args : List V) (kw : List (Name × V)) :
    Option (List (Name × Arg V)) :=
  match bindPos kw ps args with
  | none => none
  | some (b, rest) =>
    match bindKw rest kw with
    | none => none
    | some (b', left, k) =>
      if left.isEmpty then some (b ++ b')
      else match k with
        | some n => some (b ++ b' ++ [(n, .dict left)])
        | none => none

/-- `BoundArguments.apply_defaults`. -/
def applyDefaults (ps : List (Param V)) (b : List (Name × Arg V)) : List (Name × Arg V) :=
  ps.filterMap fun p =>
    match lookup b p.name with
    | some v => some (p.name, v)
    | none =>
      match p.default with
      | some v => some (p.name, .one v)
      | none =>
        if p.kind = .varPos then some (p.name, .tuple [])
        else if p.kind = .varKw then some (p.name, .dict [])
        else none

/-- `__get_args_dict` (38-55). -/
def argsDict (pyNone : V) (sig : List (Param V)) (args : List V) (kw : List (Name × V)) :
    Except Err (List (Name × Arg V)) :=
  match bind sig (pyNone :: args) kw with
  | none => .error .typeError
  | some b =>
    let d := applyDefaults sig b
    if "self".toList ∈ keys d then .ok (d.filter fun x => decide (x.1 ≠ "self".toList))
    else .error .keyError

/-- The ports part of `process_driver_call` and then the call `self.func(agent, *arg_list,
**kwarg_list)` (166). The call itself is Python's: it raises `TypeError` if the arguments do not fit,
`fits` being the answer. -/
def driverCall (fits : Bool) (pyNone : V) (path : Name) (sig : List (Param V)) (infos : List Info)
    (args : List V) (kw : List (Name × V)) : List (Nat × Payload (Arg V)) × Option Err :=
  match deliver (argsDict pyNone sig args kw) (puts path infos) with
  | (l, some e) => (l, some e)
  | (l, none) => (l, if fits then none else some .typeError)

/-- The wrapper of `@driver_method()` (`toffee/agent.py` 126-135), `async def wrapper(agent, *args,
**kwargs)`. -/
def call (fits : Bool) (pyNone : V) (path : Name) (sig : List (Param V)) (infos : List Info)
    (args : List V) (kw : List (Name × V)) : List (Nat × Payload (Arg V)) × Option Err :=
  if "agent".toList ∈ keys kw then ([], some .typeError)
  else driverCall fits pyNone path sig infos args kw

end Toffee.Args.Full
