import Verif.Model.FunCov

/-!
Model of the argument handling of `CovGroup.add_watch_point` and `CovGroup.mark_function`
(`toffee/funcov.py` 262-303, 331-391) for arguments that `Model/FunCov` takes as prepared: a missing
name, and functions that cannot be marked.
-/

namespace Toffee.FunCovArgs
open Toffee.FunCov

variable {Obs : Type}

/-- The exceptions: those of `Model/FunCov`, and `AttributeError`. -/
inductive Err where
  | base (e : FunCov.Err)
  | attributeError
deriving DecidableEq, Repr

/-- The text of a target and of a `dict_keys` object. -/
structure Texts where
  target : String
  keys : List String → String

/-- The key of a point (`funcov.py` 277-279): the name, or a text made of the target and the bin names;
`bins.keys()` is evaluated before it is known that `bins` is a dict. -/
def pointKey (t : Texts) (bins : RawBins Obs) (name : String) : Except Err String :=
  if name ≠ "" then .ok name
  else match bins with
    | .dict es => .ok (t.target ++ ":" ++ t.keys (Dict.keys (ofList es)))
    | .callable _ => .error .attributeError
    | .invalid => .error .attributeError

/-- `add_watch_point(target, bins, name, once)` (`funcov.py` 262-303): the group afterwards and the
exception, if any. -/
def addPoint (t : Texts) (g : Group Obs) (bins : RawBins Obs) (name : String) (once : Option Bool) :
    Group Obs × Option Err :=
  match pointKey t bins name with
  | .error e => (g, some e)
  | .ok key =>
    match g.add key bins once with
    | .error e => (g, some (.base e))
    | .ok g' => (g', none)

/-- The loop over the functions of one bin (`funcov.py` 385-390): `none` is an object that is not
callable, or a callable without a source (`inspect` raises).  The set, and whether it ended with an
exception. -/
def markFuncs : List (Option String) → List String → List String × Bool
  | [], s => (s, false)
  | none :: _, s => (s, true)
  | some f :: fs, s => markFuncs fs (setAdd s f)

/-- The loop over the matched bins (`funcov.py` 380-390). -/
def markBins (funcs : List (Option String)) :
    List String → Dict String (List String) → Dict String (List String) × Bool
  | [], d => (d, false)
  | b :: bs, d =>
    match markFuncs funcs ((Dict.get? d b).getD []) with
    | (s, true) => (Dict.set d b s, true)
    | (s, false) => markBins funcs bs (Dict.set d b s)

/-- `mark_function` (`funcov.py` 331-391).  `ord` is the order in which `list(set(matched_bins))` is
iterated.  Any exception raised for a function is given as `assertionError`. -/
def mark (m : Matchers) (ord : List String → List String) (g : Group Obs) (name : String)
    (funcs : List (Option String)) (pats : List String) (raiseError : Bool) :
    Group Obs × Option FunCov.Err :=
  match Dict.get? g.points name with
  | none => if raiseError then (g, some .valueError) else (g, none)
  | some p =>
    if pats = [] then (g, some .assertionError)
    else
      let sel := pats.map (m.select (Dict.keys p.bins))
      if sel.any (·.isEmpty) then (g, some .assertionError)
      else
        let r := markBins funcs (ord sel.flatten) p.functions
        ({ g with points := Dict.modify g.points name fun p => { p with functions := r.1 } },
          if r.2 then some .assertionError else none)

end Toffee.FunCovArgs
