import Verif.Model.Dict

/-!
Model of `toffee/funcov.py` (conditions 101-232, `CovGroup` 235-575).

`Obs` is the state of all watched targets at the moment of a `sample()` call; a bin condition is a
total predicate on it (the `target` argument is folded into the predicate).  Simplification:
conditions that raise are not modelled.
-/

namespace Toffee.FunCov

/-! ### Conditions -/

/-- The comparison conditions on integers, `CovEq … CovIsInRange` (`funcov.py` 114-220).  `CovIn` and
`CovNotIn` take the list of members. -/
inductive Cond where
  | eq (v : Int) | ne (v : Int) | gt (v : Int) | lt (v : Int) | ge (v : Int) | le (v : Int)
  | isIn (vs : List Int) | notIn (vs : List Int) | inRange (low high : Int)
deriving DecidableEq, Repr

/-- The `__check__` methods (`funcov.py` 122-220). -/
def Cond.check : Cond → Int → Bool
  | .eq v, t => t = v
  | .gt v, t => t > v
  | .lt v, t => t < v
  | .ge v, t => t ≥ v
  | .le v, t => t ≤ v
  | .ne v, t => t ≠ v
  | .isIn vs, t => vs.contains t
  | .notIn vs, t => !vs.contains t
  | .inRange low high, t => low ≤ t && t ≤ high

/-! ### Groups -/

/-- A validated bin: a callable or a list of callables (`funcov.py` 407-414). -/
inductive Bin (Obs : Type) where
  | single (c : Obs → Bool)
  | many (cs : List (Obs → Bool))

/-- Evaluation of a bin in `__check__` (`funcov.py` 407-418). -/
def Bin.holds {Obs : Type} : Bin Obs → Obs → Bool
  | .single c, o => c o
  | .many cs, o => cs.all fun c => c o

/-- A bin as passed by the user; `none`/`invalid` stands for a non-callable. -/
inductive RawBin (Obs : Type) where
  | callable (c : Obs → Bool)
  | list (cs : List (Option (Obs → Bool)))
  | invalid

/-- The `bins` argument of `add_watch_point`. -/
inductive RawBins (Obs : Type) where
  | dict (entries : List (String × RawBin Obs))
  | callable (c : Obs → Bool)
  | invalid

/-- A cover point record (`funcov.py` 293-301).  `functions` maps a bin to the set of marked function
names (as a duplicate-free list). -/
structure Point (Obs : Type) where
  bins : Dict String (Bin Obs)
  hints : Dict String Nat
  hinted : Bool
  once : Bool
  functions : Dict String (List String)

/-- A `CovGroup` (`funcov.py` 240-260).  `stopSample` is the *attribute* `stop_sample`. -/
structure Group (Obs : Type) where
  points : Dict String (Point Obs)
  hinted : Bool
  allOnce : Bool
  stopSample : Bool
  sampleCount : Nat
  sampleCalln : Nat
  disable : Bool

/-- `CovGroup.__init__` / `init` (`funcov.py` 240-260). -/
def Group.new (Obs : Type) (disable : Bool) : Group Obs := ⟨[], false, false, false, 0, 0, disable⟩

/-- `clear` (`funcov.py` 393-398): `init` again. -/
def Group.clear {Obs : Type} (g : Group Obs) : Group Obs := Group.new Obs g.disable

/-- The exceptions that can be raised. -/
inductive Err where
  | valueError
  | typeError
  | assertionError
deriving DecidableEq, Repr

/-- A Python dict literal / `dict` argument built from a list of pairs (later entries win). -/
def ofList {ν : Type} (l : List (String × ν)) : Dict String ν :=
  l.foldl (fun d e => Dict.set d e.1 e.2) []

/-- Validation of one bin (`funcov.py` 285-292). -/
def RawBin.validate {Obs : Type} : RawBin Obs → Option (Bin Obs)
  | .callable c => some (.single c)
  | .list cs => (cs.mapM id).map .many
  | .invalid => none

/-- Validation of the whole `bins` argument (`funcov.py` 281-292). -/
def RawBins.validate {Obs : Type} : RawBins Obs → Option (Dict String (Bin Obs))
  | .invalid => none
  | .callable c => some [("anonymous", .single c)]
  | .dict es => (ofList es).mapM fun e => e.2.validate.map fun b => (e.1, b)

/-- `{k: 0 for k in bins.keys()}` (`funcov.py` 297, 324-326). -/
def zeroHints {Obs : Type} (bins : Dict String (Bin Obs)) : Dict String Nat :=
  bins.map fun e => (e.1, 0)

/-- `add_watch_point` (`funcov.py` 262-303) with the key already determined (a given name, or the
text derived from target and bin names).  Raises before any change. -/
def Group.add {Obs : Type} (g : Group Obs) (key : String) (bins : RawBins Obs) (once : Option Bool) :
    Except Err (Group Obs) :=
  if Dict.has g.points key then .error .valueError
  else match bins.validate with
    | none => .error .valueError
    | some bs =>
      .ok { g with
        points := Dict.set g.points key
          ⟨bs, zeroHints bs, false, once.getD g.disable, []⟩
        hinted := false }

/-- `del_point` (`funcov.py` 307-315). -/
def Group.delPoint {Obs : Type} (g : Group Obs) (name : String) : Except Err (Group Obs) :=
  if !Dict.has g.points name then .error .valueError
  else .ok { g with points := Dict.del g.points name }

/-- `reset_point` (`funcov.py` 317-329). -/
def Group.resetPoint {Obs : Type} (g : Group Obs) (name : String) : Except Err (Group Obs) :=
  if !Dict.has g.points name then .error .valueError
  else .ok { g with
    points := Dict.modify g.points name
      fun p => { p with hints := zeroHints p.bins, hinted := false }
    hinted := false }

/-- The loop of `__check__` over the bins (`funcov.py` 404-424): updated hints, `hinted`, `onece`. -/
def checkLoop {Obs : Type} (o : Obs) (once : Bool) :
    Dict String (Bin Obs) → Dict String Nat → Bool → Bool → Dict String Nat × Bool × Bool
  | [], hints, hinted, onece => (hints, hinted, onece)
  | (k, b) :: rest, hints, hinted, onece =>
    let h := (Dict.get? hints k).getD 0 + (if b.holds o then 1 else 0)
    let hinted := if h = 0 then false else hinted
    let onece := if !(hinted && once) then false else onece
    checkLoop o once rest (Dict.set hints k h) hinted onece

/-- `CovGroup.__check__` (`funcov.py` 400-426): the updated point, `hinted` and `onece`. -/
def Point.check {Obs : Type} (p : Point Obs) (o : Obs) : Point Obs × Bool × Bool :=
  let (hints, hinted, onece) := checkLoop o p.once p.bins p.hints true true
  ({ p with hints := hints, hinted := hinted }, hinted, onece)

/-- The loop of `sample` over the points (`funcov.py` 475-480). -/
def sampleLoop {Obs : Type} (o : Obs) :
    Dict String (Point Obs) → Bool → Bool → Dict String (Point Obs) × Bool × Bool
  | [], allHinted, allOnce => ([], allHinted, allOnce)
  | (k, p) :: rest, allHinted, allOnce =>
    let (p', hinted, onece) := p.check o
    let (rest', ah, ao) :=
      sampleLoop o rest (if !hinted then false else allHinted) (if !onece then false else allOnce)
    ((k, p') :: rest', ah, ao)

/-- `sample` (`funcov.py` 463-482). -/
def Group.sample {Obs : Type} (g : Group Obs) (o : Obs) : Group Obs :=
  let g := { g with sampleCalln := g.sampleCalln + 1 }
  if g.stopSample then g
  else if g.hinted && g.allOnce then g
  else
    let (ps, allHinted, allOnce) := sampleLoop o g.points true true
    { g with points := ps, hinted := allHinted, allOnce := allOnce, sampleCount := g.sampleCount + 1 }

/-- `sample_stoped` (`funcov.py` 484-490). -/
def Group.sampleStoped {Obs : Type} (g : Group Obs) : Bool :=
  if g.stopSample then true else g.hinted && g.allOnce

/-- Calling `g.stop_sample()` (`funcov.py` 492-497): `init` (line 257) has stored the boolean
`False` (or `True`) in the instance attribute of the same name, which shadows the method, so the call
is `bool()(…)`: a `TypeError`. -/
def Group.callStopSample {Obs : Type} (_ : Group Obs) : Except Err (Group Obs) := .error .typeError

/-- `resume_sample` (`funcov.py` 499-505). -/
def Group.resumeSample {Obs : Type} (g : Group Obs) : Group Obs :=
  { g with stopSample := false, allOnce := false }

/-- `is_point_covered` (`funcov.py` 443-450). -/
def Group.isPointCovered {Obs : Type} (g : Group Obs) (key : String) : Except Err Bool :=
  match Dict.get? g.points key with
  | none => .error .valueError
  | some p => .ok p.hinted

/-- `is_all_covered` (`funcov.py` 452-461). -/
def Group.isAllCovered {Obs : Type} (g : Group Obs) : Bool :=
  if g.hinted then true else g.points.all fun e => e.2.hinted

/-- The matchers used by `mark_function` for a bin pattern that is not an exact name: `fnmatch`
for patterns containing `*` or `?`, `re.match` otherwise. -/
structure Matchers where
  isWild : String → Bool
  fnmatch : String → String → Bool
  rematch : String → String → Bool

/-- Bins selected by one pattern (`funcov.py` 369-377; `strip()` is taken as done). -/
def Matchers.select (m : Matchers) (available : List String) (pat : String) : List String :=
  if available.contains pat then [pat]
  else if m.isWild pat then available.filter (m.fnmatch pat)
  else available.filter (m.rematch pat)

/-- Adding to a Python `set`. -/
def setAdd (s : List String) (x : String) : List String := if s.contains x then s else s ++ [x]

/-- Recording the functions for one bin (`funcov.py` 381-390). -/
def markBin (funcs : List String) (fs : Dict String (List String)) (b : String) :
    Dict String (List String) :=
  Dict.set fs b (funcs.foldl setAdd ((Dict.get? fs b).getD []))

/-- `mark_function` (`funcov.py` 331-391) for valid functions given by their full names.
`list(set(matched_bins))` is iterated in first-occurrence order here; the code's order is
arbitrary, which only affects the order of entries in `functions`. -/
def Group.mark {Obs : Type} (m : Matchers) (g : Group Obs) (name : String) (funcs : List String)
    (pats : List String) (raiseError : Bool) : Except Err (Group Obs) :=
  match Dict.get? g.points name with
  | none => if raiseError then .error .valueError else .ok g
  | some p =>
    if pats = [] then .error .assertionError
    else
      let sel := pats.map (m.select (Dict.keys p.bins))
      if sel.any (·.isEmpty) then .error .assertionError
      else
        .ok { g with points := Dict.modify g.points name fun p =>
          { p with functions := sel.flatten.eraseDups.foldl (markBin funcs) p.functions } }

/-! ### Reports -/

/-- The counters of `as_dict` (`funcov.py` 507-569). -/
structure Report where
  hinted : Bool
  binTotal : Nat
  binHints : Nat
  pointTotal : Nat
  pointHints : Nat
  hasOnce : Bool
  sampleCount : Nat
  sampleCalln : Nat
  stopSample : Bool
deriving DecidableEq, Repr

/-- `as_dict` (`funcov.py` 507-569): the nested list comprehension visits every point and every
entry of its `hints`. -/
def Group.asDict {Obs : Type} (g : Group Obs) : Report where
  hinted := g.hinted
  binTotal := (g.points.map fun e => e.2.hints.length).sum
  binHints := (g.points.map fun e => (e.2.hints.filter fun h => decide (h.2 > 0)).length).sum
  pointTotal := g.points.length
  pointHints := (g.points.filter fun e => e.2.hinted).length
  hasOnce := g.points.any fun e => e.2.once
  sampleCount := g.sampleCount
  sampleCalln := g.sampleCalln
  stopSample := g.stopSample

/-! ### Histories -/

/-- The public operations; `setStop` is the assignment `g.stop_sample = b`. -/
inductive Op (Obs : Type) where
  | add (key : String) (bins : RawBins Obs) (once : Option Bool)
  | del (name : String)
  | reset (name : String)
  | sample (o : Obs)
  | setStop (b : Bool)
  | callStop
  | resume
  | clear
  | mark (m : Matchers) (name : String) (funcs pats : List String) (raiseError : Bool)

/-- One operation: the group afterwards and the exception raised, if any. -/
def Group.step {Obs : Type} (g : Group Obs) : Op Obs → Group Obs × Option Err
  | .add key bins once => lift (g.add key bins once)
  | .del name => lift (g.delPoint name)
  | .reset name => lift (g.resetPoint name)
  | .sample o => (g.sample o, none)
  | .setStop b => ({ g with stopSample := b }, none)
  | .callStop => lift g.callStopSample
  | .resume => (g.resumeSample, none)
  | .clear => (g.clear, none)
  | .mark m name funcs pats r => lift (g.mark m name funcs pats r)
where
  /-- An exception leaves the group as it is. -/
  lift : Except Err (Group Obs) → Group Obs × Option Err
    | .ok g' => (g', none)
    | .error e => (g, some e)

/-- A history of operations on a group. -/
def Group.run {Obs : Type} (g : Group Obs) (ops : List (Op Obs)) : Group Obs :=
  ops.foldl (fun g op => (g.step op).1) g

end Toffee.FunCov
