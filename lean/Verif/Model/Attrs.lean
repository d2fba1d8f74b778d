/-!
The attributes of a bundle instance (`toffee/bundle.py`): signals, parts, and the methods and data
attributes of `Bundle` itself share one namespace, the `__dict__` of the instance and behind it the
class.  `Verif.Model.Bundle` keeps them apart; here names may clash.

One level of a bundle is modelled.  Which DUT signals match which names is given (`found`; see
`Verif.Model.Bundle`).  Simplified: `dir` is not sorted (no claim here depends on the order); the attributes
with mangled names (`_Bundle__clock_event` …) and `_dummy_signal` are left out; the parts are sub-bundles and
bundle lists, each a number; signal lists are left out; user classes do not override the methods.
-/

namespace Toffee.Attrs

abbrev Name := List Char

/-- What an attribute holds. -/
inductive Val
  /-- a method of `Bundle` -/
  | method
  /-- a string (`name`), a list of names (`current_level_signals`, `signals`) -/
  | str
  | names
  | flag (b : Bool)
  /-- a write mode or `None` -/
  | mode (m : Option Nat)
  /-- `Signal()` of the class body -/
  | placeholder
  | dummy
  | pin (p : Nat)
  /-- a sub-bundle or bundle list -/
  | part (k : Nat)
  deriving DecidableEq, Repr

/-- The class body: the class attribute `signals` and the other attributes (`Signal()`, parts, or anything
else). -/
structure Cls where
  signals : List Name
  body : List (Name × Val)

/-- The methods of `Bundle` (`bundle.py` 425-1060, 1085, 1431-1454, 1532) with public names. -/
def methods : List Name :=
  ["make_requset_response_for", "process_requests", "set_name", "set_prefix", "set_regex", "set_dict",
   "set_write_mode", "set_write_mode_as_imme", "set_write_mode_as_rise", "set_write_mode_as_fall", "step",
   "bind", "as_dict", "set_all", "randomize_all", "assign", "detect_connectivity", "all_signals_rule",
   "detect_specific_connectivity", "from_prefix", "from_regex", "from_dict", "new_class_from_list",
   "new_class_from_xport", "from_xport", "all_signals", "detect_unconnected_signals",
   "detect_multiple_connections", "dut_all_signals"].map String.toList

def nName : Name := "name".toList
def nBound : Name := "bound".toList
def nMode : Name := "write_mode".toList
def nLevel : Name := "current_level_signals".toList
def nSignals : Name := "signals".toList
def nBind : Name := "bind".toList
def nDut : Name := "dut_all_signals".toList
def nAll : Name := "all_signals".toList
def nServe : Name := "make_requset_response_for".toList

/-- An instance: its class, its `__dict__` and the list that `__set_current_level_signal` made. -/
structure Inst where
  cls : Cls
  dict : List (Name × Val)
  current : List Name

def lookup (n : Name) : List (Name × Val) → Option Val
  | [] => none
  | (m, v) :: l => if m = n then some v else lookup n l

/-- Attribute lookup in the class and its base class `Bundle`. -/
def Cls.get (c : Cls) (n : Name) : Option Val :=
  match lookup n c.body with
  | some v => some v
  | none => if n = nSignals then some .names else if n ∈ methods then some .method else none

/-- `getattr(self, n)`; `none`: AttributeError. -/
def Inst.get (i : Inst) (n : Name) : Option Val :=
  match lookup n i.dict with
  | some v => some v
  | none => i.cls.get n

/-- `setattr(self, n, v)`. -/
def Inst.set (i : Inst) (n : Name) (v : Val) : Inst := { i with dict := (n, v) :: i.dict }

/-- `dir(self)`: the names in the `__dict__`, the class and `Bundle`, each once. -/
def Inst.dir (i : Inst) : List Name :=
  (i.dict.map (·.1) ++ i.cls.body.map (·.1) ++ nSignals :: methods).eraseDups

/-- `__all_sub_bundles`, `__all_bundle_lists` (1196-1207, 1222-1233). -/
def Inst.parts (i : Inst) : List (Name × Nat) :=
  i.dir.filterMap fun n => match i.get n with
    | some (.part k) => some (n, k)
    | _ => none

/-- `__init__` up to `__set_current_level_signal` (395-407). -/
def init0 (c : Cls) : Inst :=
  ⟨c, [(nName, .str), (nBound, .flag false), (nMode, .mode none), (nLevel, .names)], []⟩

/-- `__set_current_level_signal` (1074-1083). -/
def level (i : Inst) : List Name :=
  i.cls.signals ++ i.dir.filter fun n => i.get n == some .placeholder

/-- The rest of `__init__` (409-423): every part is made anew and becomes an attribute of the instance. -/
def init (c : Cls) : Inst :=
  let i := { init0 c with current := level (init0 c) }
  i.parts.foldl (fun i p => i.set p.1 (.part p.2)) i

/-- `__add_signal_attr` (1130-1143) for the matched signals, in order; `none`: TypeError, since
`current_level_signals` is no longer a list. -/
def connect (i : Inst) : List (Name × Nat) → Option Inst
  | [] => some i
  | (n, p) :: l => if i.get nLevel = some .names then connect (i.set n (.pin p)) l else none

/-- `__detect_missing_signals` (1255-1268): what is not connected becomes the dummy signal. -/
def missing (access : Bool) (connected : List Name) (i : Inst) : Option Inst :=
  if i.get nLevel = some .names then
    some (i.current.foldl (fun i n => if n ∈ connected ∨ access = false then i else i.set n .dummy) i)
  else none

/-- The result of `bind`: an exception, or the instance and the parts that were bound. -/
inductive Res
  | raised
  | ok (i : Inst) (bound : List (Name × Nat))

/-- The call `self.n(…)` of a method: TypeError if the attribute is something else. -/
def Inst.call (i : Inst) (n : Name) (k : Res) : Res :=
  if i.get n = some .method then k else .raised

/-- `bind` after the connections (704-715), with `__set_all_signals_write_mode` (617-634): ValueError for
something that is not a write mode, if there is a connected input pin.  `inputs` are the input pins among all
signals. -/
def finish (inputs : List Nat) (i : Inst) (parts : List (Name × Nat)) : Res :=
  match i.get nMode with
  | some (.mode none) => i.call nServe (.ok i parts)
  | some (.mode (some _)) => i.call nAll (i.call nServe (.ok i parts))
  | _ => i.call nAll (if inputs = [] then i.call nServe (.ok i parts) else .raised)

/-- `bundle.bind(dut, access)` (681-715) of a bundle that is not bound, with the order of
`__bind_from_signal_list` (1303-1402): the signals of this level, the missing ones, then the parts. -/
def bind (access : Bool) (found : List (Name × Nat)) (inputs : List Nat) (i : Inst) : Res :=
  i.call nBind <| i.call nDut <|
    match connect i found with
    | none => .raised
    | some i1 =>
      match missing access (found.map (·.1)) i1 with
      | none => .raised
      | some i2 => finish inputs (i2.set nBound (.flag true)) i2.parts

end Toffee.Attrs
