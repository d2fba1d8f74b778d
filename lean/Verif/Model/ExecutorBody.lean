import Verif.Model.Executor

/-! What comes out of an `async with Executor(..)` block (`toffee/executor.py` 69-72). -/

namespace Toffee.Executor

/-- How a block ends: normally, with the exception of its body, with the exception of a coroutine, or
with `ValueError` for an unknown exit mode. -/
inductive Ending
  | normal
  | body
  | coro (c : Nat)
  | value
  deriving DecidableEq

/-- `__aexit__` (71-72) executes the coroutines whether or not the body has raised an exception, and
returns `None`: the exception of the body (`raised = true`) goes on unless another one was raised.
`none` while the block is still waiting. -/
def ending (raised : Bool) : Phase → Option Ending
  | .inside => none
  | .leaving => none
  | .left => some (if raised then .body else .normal)
  | .waiting => some (if raised then .body else .normal)
  | .error => some .value
  | .raised c => some (.coro c)

end Toffee.Executor
