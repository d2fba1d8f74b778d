import Verif.Model.Bundle
/-!
The clock event of a DUT and `run` on the Python versions that the package supports
(`toffee/asynchronous.py` 165-205, 264-292; `pyproject.toml` 19: `>=3.8`).

Events are numbers; the clock sets the event that `dut.event` refers to in every cycle (172-174), and no
other.  Simplified: one DUT; of a run only the part that concerns the events is modelled (what tasks do is
in `Verif.Model.Loop`), so the test of a run is the list of actions up to the next run; a `bind` that raises
leaves everything as it was (this is so for the events, which `__unbind_all` does not touch).
-/

namespace Toffee.OldRun

open Toffee.Bundle (DutSig)

/-- `sys.version_info[:3]`. -/
structure Version where
  major : Nat
  minor : Nat
  micro : Nat
  deriving DecidableEq, Repr

/-- `sys.version_info >= (3, 10, 1)` (282). -/
def Version.fresh (v : Version) : Bool :=
  3 < v.major || (v.major = 3 && (10 < v.minor || (v.minor = 10 && 1 ≤ v.micro)))

/-- `asyncio.Event(loop=...)` raises `TypeError`: the parameter was removed in Python 3.10. -/
def Version.noLoop (v : Version) : Bool := 3 < v.major || (v.major = 3 && 10 ≤ v.minor)

/-- The DUT and the bundles made so far, each with its attribute `bound`. -/
structure World where
  /-- number of the next event -/
  next : Nat
  /-- `dut.event` -/
  event : Nat
  /-- `dut.xclock._step_event` -/
  step : Nat
  /-- the pins with their events -/
  sigs : List DutSig
  bundles : List (Bundle.Bundle × Bool)

/-- What a script does. -/
inductive Act
  /-- construct a bundle -/
  | make (b : Bundle.Bundle)
  /-- `bind` of the `i`-th bundle -/
  | bind (i : Nat) (access : Bool)
  /-- `run(test, dut=dut)` or `run(test)` -/
  | run (withDut : Bool)

/-- `set_clock_event` (192-205). -/
def setClockEvent (w : World) : World :=
  { w with
    next := w.next + 1
    step := w.next
    event := w.next
    sigs := w.sigs.map fun d => { d with event := w.next } }

/-- The beginning of `run` (279-290); `none`: it raises. -/
def run (v : Version) (withDut : Bool) (w : World) : Option World :=
  if v.fresh then some w
  else if withDut = false then none
  else if v.noLoop then none
  else some (setClockEvent w)

/-- `bundle.bind(dut, access)` (681-715); `none`: it raises. -/
def bindOne (sigs : List DutSig) (access : Bool) (x : Bundle.Bundle × Bool) : Option (Bundle.Bundle × Bool) :=
  if x.2 then (x.1.rebind access sigs).map fun r => (r.1, true)
  else some ((x.1.bind access sigs).1, true)

/-- One action; what raises changes nothing. -/
def act (v : Version) (w : World) : Act → World
  | .make b => { w with bundles := w.bundles ++ [(b, false)] }
  | .bind i access =>
    match (w.bundles[i]?).bind (bindOne w.sigs access) with
    | some x => { w with bundles := w.bundles.set i x }
    | none => w
  | .run withDut => (run v withDut w).getD w

/-- A script. -/
def script (v : Version) (w : World) (as : List Act) : World := as.foldl (act v) w

end Toffee.OldRun
