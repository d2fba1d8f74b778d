/-!
How an instance of a bundle class gets its parts (`toffee/bundle.py` 119-133, 148-154, 388-423, 543-615,
962-1021): the sub-bundles and bundle lists written in the class body are objects, made when the class was
defined; `Bundle.__init__` makes new ones from them for every instance.

Simplified: connect methods, write modes and signals are only stored, not used (see `Bundle`,
`WriteMode`).  Signal lists and the objects' identity are left out (see `Instances`).
-/

namespace Toffee.Config

abbrev Name := List Char

/-- The attribute a part is found under: a sub-bundle, or an element of a bundle list. -/
inductive Label where
  | sub (n : Name)
  | elem (n : Name) (i : Nat)
deriving DecidableEq, Repr

/-- A connect method (`BindMethod`, 157-378). -/
inductive Method where
  | pre (p : Name)
  | regex (r : Name)
  | dict (d : List (Name × Name))
deriving DecidableEq, Repr

inductive Mode where
  | imme | rise | fall
deriving DecidableEq, Repr

mutual
/-- A bundle class: whether its `__init__` needs arguments, its signals, and the bundles and bundle lists
in its body. -/
inductive Cls where
  | mk (args : Bool) (signals : List Name) (parts : Parts)
/-- A bundle object: its class, `__connect_method`, `write_mode`, `name`, `current_level_signals`, and its
own parts. -/
inductive Obj where
  | mk (cls : Cls) (method : Method) (mode : Option Mode) (name : Name) (signals : List Name) (parts : Parts)
/-- Parts of a class or an object. -/
inductive Parts where
  | nil
  | cons (l : Label) (o : Obj) (rest : Parts)
end

def Obj.cls : Obj → Cls | .mk c _ _ _ _ _ => c
def Obj.method : Obj → Method | .mk _ m _ _ _ _ => m
def Obj.mode : Obj → Option Mode | .mk _ _ m _ _ _ => m
def Obj.name : Obj → Name | .mk _ _ _ n _ _ => n
def Obj.signals : Obj → List Name | .mk _ _ _ _ s _ => s
def Obj.parts : Obj → Parts | .mk _ _ _ _ _ p => p
def Cls.parts : Cls → Parts | .mk _ _ p => p

/-- The part with a label. -/
def Parts.find : Parts → Label → Option Obj
  | .nil, _ => none
  | .cons l o rest, l' => if l = l' then some o else rest.find l'

/-- Replace the connect method (`set_prefix`, `set_regex`, `set_dict`, 557-598). -/
def Obj.setMethod (m : Method) : Obj → Obj
  | .mk c _ w n s p => .mk c m w n s p

/-- `set_write_mode` of a bundle that is not bound (600-615). -/
def Obj.setMode (w : Mode) : Obj → Obj
  | .mk c m _ n s p => .mk c m (some w) n s p

/-- `set_name` (543-555). -/
def Obj.setName (n : Name) : Obj → Obj
  | .mk c m w _ s p => .mk c m w n s p

/-- Change the part with a label. -/
def Parts.modify (f : Obj → Obj) (l : Label) : Parts → Parts
  | .nil => .nil
  | .cons l' o rest => if l' = l then .cons l' (f o) rest else .cons l' o (rest.modify f l)

/-- `obj.part.…`: change what is found under an attribute of the object. -/
def Obj.modify (f : Obj → Obj) (l : Label) : Obj → Obj
  | .mk c m w n s p => .mk c m w n s (p.modify f l)

mutual
/-- `cls()` (388-423); `none`: `TypeError`, an `__init__` needs arguments. -/
def create : Cls → Option Obj
  | .mk args signals parts =>
    if args then none
    else (recreateAll parts).map fun ps =>
      .mk (.mk args signals parts) (.pre []) none [] signals ps
/-- A new sub-bundle for one in the class body (409-413). -/
def recreate : Obj → Option Obj
  | .mk c m _ _ s _ => (create c).map fun
    | .mk c' _ w n _ p => .mk c' m w n s p
/-- The loops over sub-bundles (409-413) and bundle lists (420-423).  `from_bundlelist` (148-154) first
makes a list of one bundle of the class of element 0, to which it then gives the old elements. -/
def recreateAll : Parts → Option Parts
  | .nil => some .nil
  | .cons (.sub n) o rest =>
    match recreate o, recreateAll rest with
    | some o', some rest' => some (.cons (.sub n) o' rest')
    | _, _ => none
  | .cons (.elem n 0) o rest =>
    match recreate o, recreateAll rest with
    | some _, some rest' => some (.cons (.elem n 0) o rest')
    | _, _ => none
  | .cons (.elem n (i + 1)) o rest => (recreateAll rest).map (.cons (.elem n (i + 1)) o)
end

/-- `cls.from_prefix(p)`, `cls.from_regex(r)`, `cls.from_dict(d)` (962-1021). -/
def from' (m : Method) (c : Cls) : Option Obj := (create c).map (Obj.setMethod m)

/-- The elements of `BundleList(bundle, format, limit, rule)` (119-133), from index `i` on; `names` are the
names made from the format.  `bundle` may be an instance: `bundle.from_prefix` is a class method. -/
def bundleList (attr : Name) (bundle : Obj) : Nat → List Name → Option Parts
  | _, [] => some .nil
  | i, n :: ns =>
    match from' (.pre n) bundle.cls, bundleList attr bundle (i + 1) ns with
    | some o, some rest => some (.cons (.elem attr i) o rest)
    | _, _ => none

end Toffee.Config
