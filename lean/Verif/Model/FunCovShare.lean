import Verif.Model.FunCovRaise

/-!
Model of `CovGroup` (`toffee/funcov.py` 235-575) with the dictionaries of bins as objects: a point keeps
a reference to the dictionary that was given to `add_watch_point` (`funcov.py` 295), which the test can
change later, and which can be given to several points.

As in `Model/FunCovRaise` conditions may raise, bins are given validated (this includes the bins that are
put into a dictionary later) and the marks of `mark_function` are left out.  A single condition or
callable given as `bins` (285-288) is a dictionary of its own.  The flag `dynamic_bin` (296, 549) is only
stored and reported, so it is left out.  Conditions do not change dictionaries while a sample is taken.
-/

namespace Toffee.FunCovShare
open FunCovRaise (Bin)

variable {Obs : Type}

/-- A cover point record (`funcov.py` 293-301); `dict` is the reference to the dictionary of bins. -/
structure Point where
  dict : Nat
  hints : Dict String Nat
  hinted : Bool
  once : Bool

/-- A `CovGroup` (`funcov.py` 240-260) and the dictionaries. -/
structure Mem (Obs : Type) where
  heap : Nat → Dict String (Bin Obs)
  points : Dict String Point
  hinted : Bool
  allOnce : Bool
  stopSample : Bool
  sampleCount : Nat
  sampleCalln : Nat
  disable : Bool

/-- `CovGroup.__init__` / `init` (`funcov.py` 240-260); all dictionaries are empty. -/
def Mem.new (Obs : Type) (disable : Bool) : Mem Obs :=
  ⟨fun _ => [], [], false, false, false, 0, 0, disable⟩

/-- The loop of `__check__` over the bins (`funcov.py` 404-424).  `points["hints"][k]` (405) raises
`KeyError` if there is no counter for the bin. -/
def checkLoop (o : Obs) (once : Bool) :
    Dict String (Bin Obs) → Dict String Nat → Bool → Bool → Dict String Nat × Option (Bool × Bool)
  | [], hints, hinted, onece => (hints, some (hinted, onece))
  | (k, b) :: rest, hints, hinted, onece =>
    match Dict.get? hints k with
    | none => (hints, none)
    | some n =>
      match b.eval o with
      | none => (hints, none)
      | some c =>
        let h := n + (if c then 1 else 0)
        let hinted := if h = 0 then false else hinted
        let onece := if !(hinted && once) then false else onece
        checkLoop o once rest (Dict.set hints k h) hinted onece

/-- `CovGroup.__check__` (`funcov.py` 400-426). -/
def Point.check (bins : Dict String (Bin Obs)) (p : Point) (o : Obs) : Point × Option (Bool × Bool) :=
  match checkLoop o p.once bins p.hints true true with
  | (hints, none) => ({ p with hints := hints }, none)
  | (hints, some (hinted, onece)) => ({ p with hints := hints, hinted := hinted }, some (hinted, onece))

/-- The loop of `sample` over the points (`funcov.py` 475-480). -/
def sampleLoop (heap : Nat → Dict String (Bin Obs)) (o : Obs) :
    Dict String Point → Bool → Bool → Dict String Point × Bool × Option Bool
  | [], allHinted, allOnce => ([], allOnce, some allHinted)
  | (k, p) :: rest, allHinted, allOnce =>
    match p.check (heap p.dict) o with
    | (p', none) => ((k, p') :: rest, allOnce, none)
    | (p', some (hinted, onece)) =>
      let r := sampleLoop heap o rest (if !hinted then false else allHinted)
        (if !onece then false else allOnce)
      ((k, p') :: r.1, r.2.1, r.2.2)

/-- `sample_stoped` (`funcov.py` 484-490). -/
def Mem.sampleStoped (m : Mem Obs) : Bool :=
  if m.stopSample then true else m.hinted && m.allOnce

/-- `sample` (`funcov.py` 463-482): the group afterwards, and whether an exception left the call. -/
def Mem.sample (m : Mem Obs) (o : Obs) : Mem Obs × Bool :=
  let m := { m with sampleCalln := m.sampleCalln + 1 }
  if m.stopSample then (m, false)
  else if m.hinted && m.allOnce then (m, false)
  else
    let m := { m with sampleCount := m.sampleCount + 1 }
    match sampleLoop m.heap o m.points true true with
    | (ps, allOnce, none) => ({ m with points := ps, allOnce := allOnce }, true)
    | (ps, allOnce, some allHinted) =>
      ({ m with points := ps, allOnce := allOnce, hinted := allHinted }, false)

/-- What the test does; `put` and `drop` are `d[k] = b` and `del d[k]` of a dictionary of bins. -/
inductive Op (Obs : Type) where
  | put (d : Nat) (k : String) (b : Bin Obs)
  | drop (d : Nat) (k : String)
  | add (key : String) (d : Nat) (once : Option Bool)
  | del (name : String)
  | reset (name : String)
  | sample (o : Obs)
  | setStop (b : Bool)
  | resume
  | clear

/-- `{k: 0 for k in bins.keys()}` (`funcov.py` 297, 324-326). -/
def zeros (bins : Dict String (Bin Obs)) : Dict String Nat := bins.map fun e => (e.1, 0)

/-- One operation (`funcov.py` 262-329, 393-398, 463-482, 499-505). -/
def Mem.step (m : Mem Obs) : Op Obs → Mem Obs
  | .put d k b => { m with heap := fun i => if i = d then Dict.set (m.heap d) k b else m.heap i }
  | .drop d k => { m with heap := fun i => if i = d then Dict.del (m.heap d) k else m.heap i }
  | .add key d once =>
    if Dict.has m.points key then m
    else
      { m with
        points := Dict.set m.points key ⟨d, zeros (m.heap d), false, once.getD m.disable⟩
        hinted := false }
  | .del name => if Dict.has m.points name then { m with points := Dict.del m.points name } else m
  | .reset name =>
    if Dict.has m.points name then
      { m with
        points := Dict.modify m.points name
          fun p => { p with hints := zeros (m.heap p.dict), hinted := false }
        hinted := false }
    else m
  | .sample o => (m.sample o).1
  | .setStop b => { m with stopSample := b }
  | .resume => { m with stopSample := false, allOnce := false }
  | .clear => { Mem.new Obs m.disable with heap := m.heap }

/-- A history of operations. -/
def Mem.run (m : Mem Obs) (ops : List (Op Obs)) : Mem Obs := ops.foldl Mem.step m

/-- The counter of a bin, as reported by `as_dict` (`funcov.py` 540-542). -/
def Mem.count (m : Mem Obs) (name k : String) : Option Nat :=
  (Dict.get? m.points name).bind fun p => Dict.get? p.hints k

/-- `is_point_covered` (`funcov.py` 443-450) of an existing point. -/
def Mem.covered (m : Mem Obs) (name : String) : Option Bool :=
  (Dict.get? m.points name).map (·.hinted)

end Toffee.FunCovShare
