import Verif.Model.Driver

/-! Driver methods that raise (`process_driver_call` in `toffee/_base_agent.py` 106-194).

`dut_result = await self.func(agent, *arg_list, **kwarg_list)` (166) may end with an exception, which
then leaves `process_driver_call`: nothing below line 166 is executed for this call.  The machine is
that of `Verif.Model.Driver` with this possibility added.  (Exceptions of hooks end the clock loop, see
`Verif.Model.Loop`; a comparison function that raises leaves the loop of comparisons like a mismatch.) -/

namespace Toffee.Driver.Raise

variable {A D R : Type}

/-- What can be observed: events of driver calls, and that the method of a call raised. -/
inductive Obs (A D R : Type)
  | ev (e : Ev A D R)
  | raised (c : Nat)
  deriving DecidableEq

/-- The state of the drivers, the calls whose method has raised, and everything observed so far. -/
structure StR (A D R : Type) where
  base : St A D R
  failed : List Nat
  log : List (Obs A D R)

/-- What can happen: a step of `Verif.Model.Driver`, or the driver method of a call raises. -/
inductive ActR (A D R : Type)
  | act (a : Act A D R)
  | raises (c : Nat)

def initR : StR A D R := ⟨init, [], []⟩

/-- A method that has raised does not return. -/
def blocked (s : StR A D R) : Act A D R → Bool
  | .bodyEnd c _ => s.failed.contains c
  | _ => false

/-- The driver method of the call is running (166). -/
def running (s : StR A D R) (c : Nat) : Bool :=
  match s.base.calls[c]? with
  | some ⟨_, _, .body _, _⟩ => !s.failed.contains c
  | _ => false

/-- One step. -/
def stepR (drv : Nat → Drv D R) (s : StR A D R) : ActR A D R → StR A D R
  | .act a =>
    if blocked s a then s
    else
      let b := step drv s.base a
      { s with base := b, log := s.log ++ (b.log.drop s.base.log.length).map .ev }
  | .raises c =>
    if running s c then { s with failed := c :: s.failed, log := s.log ++ [.raised c] } else s

/-- A run. -/
def runR (drv : Nat → Drv D R) (s : StR A D R) (as : List (ActR A D R)) : StR A D R :=
  as.foldl (stepR drv) s

end Toffee.Driver.Raise
