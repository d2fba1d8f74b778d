/-!
Model of `toffee/delay.py`.
-/

namespace Toffee.Delayer

/-- A `Delayer` object (`delay.py` 22-32): its delay and its `value_list`.  `V` is the type of
signal values (for an unconnected signal `V` itself may contain `None`). -/
structure Delayer (V : Type) where
  delay : Nat
  values : List V
deriving DecidableEq, Repr

/-- `Delayer.__init__` (`delay.py` 22-34): `assert delay >= 0`, empty list.  The registration in
`loop.delayer_list` is modelled by the list passed to `processDelayers`. -/
def new (V : Type) (delay : Int) : Except String (Delayer V) :=
  if delay ≥ 0 then .ok ⟨delay.toNat, []⟩ else .error "AssertionError"

/-- `Delayer.sample` (`delay.py` 36-44); `v` is `self.signal.value` at that moment. -/
def sample {V : Type} (d : Delayer V) (v : V) : Delayer V :=
  let values := if d.values.length ≥ d.delay + 1 then d.values.tail else d.values
  { d with values := values ++ [v] }

/-- The property `Delayer.value` (`delay.py` 46-55). -/
def value {V : Type} (d : Delayer V) : Option V :=
  if d.values.length ≠ d.delay + 1 then none else d.values.head?

/-- `__process_delayer` (`delay.py` 8-11): every registered delayer samples its own signal once.
`sig i` is the current value of the signal of the `i`-th delayer; the constant result `False`
(no rerun) is dropped. -/
def processDelayers {V : Type} (ds : List (Delayer V)) (sig : Nat → V) : List (Delayer V) :=
  ds.mapIdx fun i d => sample d (sig i)

/-- A delayer after a history of samples, oldest first. -/
def run {V : Type} (d : Delayer V) (history : List V) : Delayer V := history.foldl sample d

end Toffee.Delayer
