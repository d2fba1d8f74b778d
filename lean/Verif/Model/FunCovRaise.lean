import Verif.Model.FunCov

/-!
Model of `CovGroup.sample` (`toffee/funcov.py` 401-426, 463-482) with bin conditions that may raise.

A condition is a partial function on the observation; `none` stands for any exception.  Everything
else is as in `Model/FunCov`; the marks of `mark_function` are left out.
-/

namespace Toffee.FunCovRaise
open FunCov (zeroHints)

variable {Obs : Type}

/-- A bin: a callable or a list of callables. -/
inductive Bin (Obs : Type) where
  | single (c : Obs → Option Bool)
  | many (cs : List (Obs → Option Bool))

/-- The loop over the conditions of a list (`funcov.py` 410-414): it stops at the first one that does
not hold. -/
def evalAll (o : Obs) : List (Obs → Option Bool) → Option Bool
  | [] => some true
  | c :: cs =>
    match c o with
    | none => none
    | some false => some false
    | some true => evalAll o cs

/-- Evaluation of a bin in `__check__` (`funcov.py` 406-414). -/
def Bin.eval : Bin Obs → Obs → Option Bool
  | .single c, o => c o
  | .many cs, o => evalAll o cs

/-- A cover point record (`funcov.py` 293-301). -/
structure Point (Obs : Type) where
  bins : Dict String (Bin Obs)
  hints : Dict String Nat
  hinted : Bool
  once : Bool

/-- A `CovGroup` (`funcov.py` 240-260). -/
structure Group (Obs : Type) where
  points : Dict String (Point Obs)
  hinted : Bool
  allOnce : Bool
  stopSample : Bool
  sampleCount : Nat
  sampleCalln : Nat
  disable : Bool

/-- `CovGroup.__init__` / `init` (`funcov.py` 240-260). -/
def Group.new (Obs : Type) (disable : Bool) : Group Obs := ⟨[], false, false, false, 0, 0, disable⟩

/-- The loop of `__check__` over the bins (`funcov.py` 404-424): the hints, and `hinted` and `onece`
unless a condition raised.  The hints are written bin by bin. -/
def checkLoop (o : Obs) (once : Bool) :
    Dict String (Bin Obs) → Dict String Nat → Bool → Bool → Dict String Nat × Option (Bool × Bool)
  | [], hints, hinted, onece => (hints, some (hinted, onece))
  | (k, b) :: rest, hints, hinted, onece =>
    match b.eval o with
    | none => (hints, none)
    | some c =>
      let h := (Dict.get? hints k).getD 0 + (if c then 1 else 0)
      let hinted := if h = 0 then false else hinted
      let onece := if !(hinted && once) then false else onece
      checkLoop o once rest (Dict.set hints k h) hinted onece

/-- `CovGroup.__check__` (`funcov.py` 400-426): `hinted` of the point is written at the end only. -/
def Point.check (p : Point Obs) (o : Obs) : Point Obs × Option (Bool × Bool) :=
  match checkLoop o p.once p.bins p.hints true true with
  | (hints, none) => ({ p with hints := hints }, none)
  | (hints, some (hinted, onece)) => ({ p with hints := hints, hinted := hinted }, some (hinted, onece))

/-- The loop of `sample` over the points (`funcov.py` 475-480): the points, `self.all_once` (an
attribute, written within the loop) and `all_hinted` (a local variable, lost if a condition raises). -/
def sampleLoop (o : Obs) :
    Dict String (Point Obs) → Bool → Bool → Dict String (Point Obs) × Bool × Option Bool
  | [], allHinted, allOnce => ([], allOnce, some allHinted)
  | (k, p) :: rest, allHinted, allOnce =>
    match p.check o with
    | (p', none) => ((k, p') :: rest, allOnce, none)
    | (p', some (hinted, onece)) =>
      let r := sampleLoop o rest (if !hinted then false else allHinted)
        (if !onece then false else allOnce)
      ((k, p') :: r.1, r.2.1, r.2.2)

/-- `sample_stoped` (`funcov.py` 484-490). -/
def Group.sampleStoped (g : Group Obs) : Bool :=
  if g.stopSample then true else g.hinted && g.allOnce

/-- `sample` (`funcov.py` 463-482): the group afterwards, and whether an exception left the call. -/
def Group.sample (g : Group Obs) (o : Obs) : Group Obs × Bool :=
  let g := { g with sampleCalln := g.sampleCalln + 1 }
  if g.stopSample then (g, false)
  else if g.hinted && g.allOnce then (g, false)
  else
    let g := { g with sampleCount := g.sampleCount + 1 }
    match sampleLoop o g.points true true with
    | (ps, allOnce, none) => ({ g with points := ps, allOnce := allOnce }, true)
    | (ps, allOnce, some allHinted) =>
      ({ g with points := ps, allOnce := allOnce, hinted := allHinted }, false)

/-- `is_point_covered` (`funcov.py` 443-450) of an existing point. -/
def Group.covered (g : Group Obs) (name : String) : Option Bool :=
  (Dict.get? g.points name).map (·.hinted)

/-- The public operations; bins are given validated (`Model/FunCov` has the validation). -/
inductive Op (Obs : Type) where
  | add (key : String) (bins : List (String × Bin Obs)) (once : Option Bool)
  | del (name : String)
  | reset (name : String)
  | sample (o : Obs)
  | setStop (b : Bool)
  | resume
  | clear

/-- One operation.  `add_watch_point` of an existing name and `del_point`/`reset_point` of an unknown
one raise and change nothing (`funcov.py` 262-329, 393-398, 499-505). -/
def Group.step (g : Group Obs) : Op Obs → Group Obs
  | .add key bins once =>
    if Dict.has g.points key then g
    else
      { g with
        points := Dict.set g.points key
          ⟨FunCov.ofList bins, (FunCov.ofList bins).map fun e => (e.1, 0), false,
            once.getD g.disable⟩
        hinted := false }
  | .del name => if Dict.has g.points name then { g with points := Dict.del g.points name } else g
  | .reset name =>
    if Dict.has g.points name then
      { g with
        points := Dict.modify g.points name
          fun p => { p with hints := p.bins.map fun e => (e.1, 0), hinted := false }
        hinted := false }
    else g
  | .sample o => (g.sample o).1
  | .setStop b => { g with stopSample := b }
  | .resume => { g with stopSample := false, allOnce := false }
  | .clear => Group.new Obs g.disable

/-- A history of operations on a group. -/
def Group.run (g : Group Obs) (ops : List (Op Obs)) : Group Obs := ops.foldl Group.step g

end Toffee.FunCovRaise
