/-!
Model of the priority task list (`toffee/executor.py` 10-41).
-/

namespace Toffee.Priority

variable {α : Type}

/-- Insert keeping the list sorted by the key, after entries with an equal key that are already
there: building block of Python's stable `sorted`. Entries are (thing, priority). -/
def insertStable (x : α × Int) : List (α × Int) → List (α × Int)
  | [] => [x]
  | y :: ys => if y.2 ≤ x.2 then y :: insertStable x ys else x :: y :: ys

/-- `sorted(tasks, key=lambda x: x[1])` (`executor.py` 31).  Python's sort is modelled by
insertion sort; that any stable sort gives this same result is part of C14's theorem. -/
def sorted (xs : List (α × Int)) : List (α × Int) :=
  xs.foldl (fun acc x => insertStable x acc) []

/-- A pending entry of `__priority_tasks` (`executor.py` 14, 22): the hook coroutine, tagged by a
request number, and whether a done event is attached. -/
structure Task where
  id : Nat
  hasDone : Bool
deriving DecidableEq, Repr

/-- `add_priority_task` (`executor.py` 17-22). -/
def add (pending : List (Task × Int)) (t : Task) (prio : Int) : List (Task × Int) :=
  pending ++ [(t, prio)]

/-- `__execute_priority_tasks` (`executor.py` 25-38): the hooks run in sorted order, then the list
is cleared.  Result: the order of execution, the return value, the list afterwards.
(Simplified: hooks do not themselves call `add_priority_task` while running; what they would add
is dropped by `clear()`.) -/
def execute (pending : List (Task × Int)) : List Task × Bool × List (Task × Int) :=
  let order := (sorted pending).map (·.1)
  (order, order.any (·.hasDone), [])

end Toffee.Priority
