import Verif.Model.Bundle
/-! The write mode of a bundle (`toffee/bundle.py` 37-44, 600-664, and the end of `bind` 712-713).

Every bundle object has an attribute `write_mode`; the mode of a pin belongs to the pin (picker's
`AsImmWrite`, `AsRiseWrite`, `AsFallWrite`).  Bundle objects of one tree are addressed by child
indices.  A DUT pin is the same object for all bundles. -/

namespace Toffee.WriteMode

open Toffee.Bundle

/-- `WriteMode` (37-44); `bad` is any other value. -/
inductive Mode
  | imme | rise | fall | bad
  deriving DecidableEq, Repr

/-- The children of a bundle by index. -/
def child : Kids → Nat → Option Bundle
  | .nil, _ => none
  | .cons _ b _, 0 => some b
  | .cons _ _ ks, i + 1 => child ks i

/-- The bundle object at a path. -/
def node : Bundle → List Nat → Option Bundle
  | b, [] => some b
  | b, i :: is => (child b.kids i).bind fun c => node c is

/-- A bundle tree, whether its root is bound, the attribute `write_mode` of its bundle objects, and
the modes of all pins. -/
structure Obj where
  tree : Bundle
  bound : Bool
  own : List Nat → Option Mode
  pins : Nat → Mode

/-- `__set_all_signals_write_mode` (618-635) over the yielded signals: the modes of the pins
afterwards, and whether it raised `ValueError`.  `out` is `IsOutIO`. -/
def setAll (out : Nat → Bool) (m : Mode) : List (Name × Slot) → (Nat → Mode) → (Nat → Mode) × Bool
  | [], pins => (pins, false)
  | (_, .pin q) :: rest, pins =>
    if out q then setAll out m rest pins
    else if m = .bad then (pins, true)
    else setAll out m rest fun i => if i = q then m else pins i
  | (_, _) :: rest, pins => setAll out m rest pins

/-- `set_write_mode` (600-616) of the bundle object at a path: the state afterwards, and whether it
raised `ValueError`.  (No object at the path: nothing.) -/
def setMode (out : Nat → Bool) (path : List Nat) (m : Mode) (o : Obj) : Obj × Bool :=
  match node o.tree path with
  | none => (o, false)
  | some b =>
    let r := setAll out m (b.allSignals []) o.pins
    ({ o with own := fun p => if p = path then some m else o.own p, pins := r.1 }, r.2)

/-- The end of `bind` (711-713): the `write_mode` of the root is applied. -/
def applyOwn (out : Nat → Bool) (o : Obj) : Obj × Bool :=
  match o.own [] with
  | none => (o, false)
  | some m =>
    let r := setAll out m (o.tree.allSignals []) o.pins
    ({ o with pins := r.1 }, r.2)

/-- `bind` (681-715) of the root: `none` if unbinding raises, otherwise the state afterwards and
whether `ValueError` was raised. -/
def bind (out : Nat → Bool) (access : Bool) (dut : List DutSig) (o : Obj) : Option (Obj × Bool) :=
  if o.bound then
    (o.tree.rebind access dut).map fun r => applyOwn out { o with tree := r.1 }
  else some (applyOwn out { o with tree := (o.tree.bind access dut).1, bound := true })

/-- A new bundle, and the modes that the pins have to begin with. -/
def start (b : Bundle) (pins : Nat → Mode) : Obj :=
  { tree := b, bound := false, own := fun _ => none, pins := pins }

/-- `set_write_mode` calls, in order; the caller goes on after a `ValueError`. -/
def setModes (out : Nat → Bool) (h : List (List Nat × Mode)) (o : Obj) : Obj :=
  h.foldl (fun o c => (setMode out c.1 c.2 o).1) o

end Toffee.WriteMode
