import Verif.Model.Executor

/-! The whole life of an `Executor` object (`toffee/executor.py` 48-261): calls at any time, any number
of `async with` blocks on the same object, `wait_all()` at any time, and exceptions that the test
catches.  `Verif.Model.Executor` is one block; `C101_first_block` connects the two.

Nothing is ever removed from `__coros`, so a second block awaits the coroutines of the first one again.
Not modelled: handing over a coroutine that has already begun; changing `exec.exit`; two tests that use
one executor at the same time. -/

namespace Toffee.ExecutorLife

open Toffee.Executor (Name Coro Call Entry Res call)

/-- The exceptions that come out of a block or of `wait_all()`: that of a coroutine; `AttributeError`
(`cr_frame` is `None`) or `RuntimeError` (it is being awaited already) for a coroutine that has already
begun; `IndexError` of `__set_results`; `ValueError` of `__execute`. -/
inductive Exc
  | coro (c : Nat)
  | reuse (c : Nat)
  | index
  | value
  deriving DecidableEq

/-- A task running `__sequential_execution_all` (217-246), see `Executor.Task`. -/
structure Task (V : Type) where
  todo : List Entry
  cur : Option Coro
  results : List V
  done : Bool
  err : Option Exc
  deriving DecidableEq

/-- The test: not waiting in the executor, waiting at the end of a block or in `wait_all()`, or an
exception came out of one of them. -/
inductive Phase
  | idle
  | leaving
  | waiting
  | raised (e : Exc)
  deriving DecidableEq

/-- What can be observed: coroutines begin, return and raise, a block is left without exception,
`wait_all()` returns without exception. -/
inductive Ev (V : Type)
  | start (c : Nat)
  | finish (c : Nat) (v : V)
  | raise (c : Nat)
  | left
  | waited
  deriving DecidableEq

/-- `tasks` are the tasks of all blocks; those from `base` on are the ones of the last block.
`__uncompleted` (130, 141) holds all of them, and none with `exit="all"`. -/
structure St (V : Type) where
  coros : Dict Name (List Entry)
  tasks : List (Task V)
  base : Nat
  results : Dict Name (Res V)
  event : Bool
  phase : Phase
  log : List (Ev V)

/-- `__init__` (53-67). -/
def init (V : Type) : St V := ⟨[], [], 0, [], false, .idle, []⟩

/-- What can happen; see `Executor.Act`.  `exit`: an `async with` block ends; `handle`: the test catches
the exception and goes on. -/
inductive Act (V : Type)
  | call (c : Call)
  | exit
  | start (i : Nat)
  | finish (i : Nat) (v : V)
  | raise (i : Nat)
  | complete (i : Nat)
  | waitAll
  | proceed
  | handle

variable {V : Type}

/-- One value of `__set_results` (97-101): `none` if an index is out of range. -/
def res (es : List Entry) : Option (List V) → Option (Res V)
  | none => none
  | some vs => if es.length = 1 then vs[0]?.map .one else some (.many vs)

/-- `__set_results` (88-103): the results are looked up by the position of the group; `none` for
`IndexError`. -/
def setResults : Dict Name (List Entry) → List (List V) → Option (Dict Name (Res V))
  | [], _ => some []
  | g :: gs, rs =>
    match res g.2 rs.head?, setResults gs rs.tail with
    | some r, some d => some ((g.1, r) :: d)
    | _, _ => none

/-- The coroutines that have begun. -/
def starts (log : List (Ev V)) : List Nat :=
  log.filterMap fun e => match e with | .start c => some c | _ => none

/-- `__get_sche_group` (105-113) and 139-147: one task per group, with the coroutines that are in the
group now (`*tasks[1]`). -/
def newTasks (gs : Dict Name (List Entry)) : List (Task V) :=
  gs.map fun g => ⟨g.2, none, [], false, none⟩

/-- Awaiting tasks one after the other, see `Executor.await`. -/
def await : List (Task V) → Option (Option Exc)
  | [] => some none
  | t :: ts =>
    if t.done then await ts
    else match t.err with
      | some e => some (some e)
      | none => none

/-- Go on when the tasks were awaited (120-122, 158-161). -/
def awaited (s : St V) (ts : List (Task V)) (ev : Ev V) : St V :=
  match await ts with
  | some none =>
    match setResults s.coros (ts.map (·.results)) with
    | some d => { s with results := d, phase := .idle, log := s.log ++ [ev] }
    | none => { s with phase := .raised .index }
  | some (some e) => { s with phase := .raised e }
  | none => s

/-- One step; a step that is not possible leaves the state. -/
def step (exit : Name) (s : St V) : Act V → St V
  | .call c => if s.phase = .idle then { s with coros := (call s.coros c).1 } else s
  | .exit =>
    if s.phase = .idle then
      if exit = "all".toList then
        { s with tasks := s.tasks ++ newTasks s.coros, base := s.tasks.length, phase := .leaving }
      else if exit = "none".toList then
        { s with tasks := s.tasks ++ newTasks s.coros, base := s.tasks.length, log := s.log ++ [.left] }
      else if exit = "any".toList then
        { s with tasks := s.tasks ++ newTasks s.coros, base := s.tasks.length, event := false,
                 phase := .leaving }
      else { s with phase := .raised .value }
    else s
  | .start i =>
    match s.tasks[i]? with
    | some ⟨e :: es, none, rs, false, none⟩ =>
      -- a coroutine that has begun cannot be awaited again (`__get_driver` in 228, or 241)
      if e.coro.id ∈ starts s.log then
        { s with tasks := s.tasks.set i ⟨e :: es, none, rs, false, some (.reuse e.coro.id)⟩ }
      else
        { s with tasks := s.tasks.set i ⟨es, some e.coro, rs, false, none⟩
                 log := s.log ++ [.start e.coro.id] }
    | _ => s
  | .finish i v =>
    match s.tasks[i]? with
    | some ⟨es, some c, rs, false, none⟩ =>
      { s with tasks := s.tasks.set i ⟨es, none, rs ++ [v], false, none⟩
               log := s.log ++ [.finish c.id v] }
    | _ => s
  | .raise i =>
    match s.tasks[i]? with
    | some ⟨es, some c, rs, false, none⟩ =>
      { s with tasks := s.tasks.set i ⟨es, none, rs, false, some (.coro c.id)⟩
               log := s.log ++ [.raise c.id] }
    | _ => s
  | .complete i =>
    match s.tasks[i]? with
    | some ⟨[], none, rs, false, none⟩ =>
      { s with tasks := s.tasks.set i ⟨[], none, rs, true, none⟩
               event := if exit = "any".toList then true else s.event }
    | _ => s
  | .waitAll =>
    if s.phase = .idle then
      if exit = "all".toList ∨ s.tasks = [] then { s with log := s.log ++ [.waited] }
      else { s with phase := .waiting }
    else s
  | .proceed =>
    match s.phase with
    | .leaving =>
      if exit = "all".toList then awaited s (s.tasks.drop s.base) .left
      else if s.event then { s with phase := .idle, log := s.log ++ [.left] } else s
    | .waiting => awaited s s.tasks .waited
    | _ => s
  | .handle =>
    match s.phase with
    | .raised _ => { s with phase := .idle }
    | _ => s

/-- A run. -/
def run (exit : Name) (s : St V) (as : List (Act V)) : St V := as.foldl (step exit) s

/-- The life of an executor. -/
def life (exit : Name) (as : List (Act V)) : St V := run exit (init V) as

end Toffee.ExecutorLife
