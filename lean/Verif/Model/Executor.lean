import Verif.Model.Dict

/-! The executor (`toffee/executor.py` 48-261).

The tasks that the executor creates run concurrently with everything else; a step below is any point
at which control may move, and all interleavings are allowed (the event loop of `Verif.Model.Loop`
allows only some).  Coroutines are opaque: they are started, and at some later point they return some
value or raise.

This is one `async with` block; calls behind it and further blocks of the same executor are in
`Verif.Model.ExecutorLife`, a body that raises in `Verif.Model.ExecutorBody`, what a driver call is in
`Verif.Model.Recognise`.  Not modelled: coroutines that are cancelled; what the override of priority and
order does (`Verif.Model.Driver`). -/

namespace Toffee.Executor

abbrev Name := List Char

/-- A coroutine: the object, its `__name__` and, if it is the call of a driver method, the
`agent_name` of the driver (`__get_driver`, 248-261). -/
structure Coro where
  id : Nat
  name : Name
  agent : Option Name
  deriving DecidableEq

/-- The arguments of `exec(coro, priority=.., sche_order=.., sche_group=..)`. -/
structure Call where
  coro : Coro
  priority : Option Int
  order : Option Name
  group : Option Name
  deriving DecidableEq

/-- An element of a list in `__coros`: `(coro, sche_order, priority)` (215). -/
structure Entry where
  coro : Coro
  order : Option Name
  priority : Option Int
  deriving DecidableEq

/-- The group of a call (188-193). -/
def Call.groupName (c : Call) : Name :=
  match c.group with
  | some g => g
  | none =>
    match c.coro.agent with
    | some a => a ++ '.' :: c.coro.name
    | none => c.coro.name

/-- The assertions (198-205, 207-213). -/
def Call.ok (c : Call) : Bool :=
  (match c.priority with
    | none => true
    | some p => decide (0 ≤ p ∧ p ≤ 99) && c.coro.agent.isSome) &&
  (match c.order with
    | none => true
    | some _ => c.coro.agent.isSome)

/-- `"parallel"` is read as `"model_first"` (208-209). -/
def readOrder : Option Name → Option Name
  | some o => if o = "parallel".toList then some "model_first".toList else some o
  | none => none

/-- `__call__` (173-215): the group is created, then the assertions are checked, then the coroutine is
appended. -/
def call (gs : Dict Name (List Entry)) (c : Call) : Dict Name (List Entry) × Bool :=
  let gs := if gs.has c.groupName then gs else gs.set c.groupName []
  if c.ok then (gs.modify c.groupName (· ++ [⟨c.coro, readOrder c.order, c.priority⟩]), true)
  else (gs, false)

/-- What `get_results()` holds for a group. -/
inductive Res (V : Type)
  | one (v : V)
  | many (vs : List V)
  deriving DecidableEq

/-- One value of `__set_results` (97-101). -/
def res {V : Type} (es : List Entry) (vs : List V) : Res V :=
  match es, vs with
  | [_], v :: _ => .one v
  | _, vs => .many vs

/-- `__set_results` (88-103). -/
def setResults {V : Type} (gs : Dict Name (List Entry)) (rs : List (List V)) : Dict Name (Res V) :=
  List.zipWith (fun g vs => (g.1, res g.2 vs)) gs rs

/-- A task running `__sequential_execution_all` (217-246): the entries not yet begun, the coroutine
that is being awaited, the results so far, whether it has returned, and the coroutine whose exception
ended it. -/
structure Task (V : Type) where
  todo : List Entry
  cur : Option Coro
  results : List V
  done : Bool
  err : Option Nat
  deriving DecidableEq

/-- The code that uses the executor: in the block, waiting at its end, behind it, in `wait_all()`,
`ValueError` was raised, or the exception of a coroutine was raised by the end of the block or by
`wait_all()`. -/
inductive Phase
  | inside
  | leaving
  | left
  | waiting
  | error
  | raised (c : Nat)
  deriving DecidableEq

/-- What can be observed of the coroutines. -/
inductive Ev (V : Type)
  | start (c : Nat)
  | finish (c : Nat) (v : V)
  | raise (c : Nat)
  deriving DecidableEq

structure St (V : Type) where
  coros : Dict Name (List Entry)
  tasks : List (Task V)
  results : Dict Name (Res V)
  event : Bool
  phase : Phase
  log : List (Ev V)

/-- `__init__` (53-67) and `__aenter__`. -/
def init (V : Type) : St V := ⟨[], [], [], false, .inside, []⟩

/-- What can happen: the test calls `exec(..)`, the block ends, a group task awaits its next coroutine,
a coroutine returns or raises, a group task returns, the test calls `wait_all()`, or a waiting test goes on. -/
inductive Act (V : Type)
  | call (c : Call)
  | exit
  | start (i : Nat)
  | finish (i : Nat) (v : V)
  | raise (i : Nat)
  | complete (i : Nat)
  | waitAll
  | proceed

variable {V : Type}

/-- `__get_sche_group` (105-113): one task per group. -/
def newTasks (gs : Dict Name (List Entry)) : List (Task V) := 
  gs.map fun g => ⟨g.2, none, [], false, none⟩

/-- All group tasks have returned. -/
def allDone (s : St V) : Bool := s.tasks.all (·.done)

/-- Awaiting tasks one after the other (`asynchronous.py` 304-306, `executor.py` 158-160): the phase
behind it, `none` if it is still waiting. -/
def await : List (Task V) → Option Phase
  | [] => some .left
  | t :: ts =>
    if t.done then await ts
    else match t.err with
      | some c => some (.raised c)
      | none => none

/-- Go on when the tasks were awaited: set the results, or raise. -/
def awaited (s : St V) : St V :=
  match await s.tasks with
  | some .left => { s with results := setResults s.coros (s.tasks.map (·.results)), phase := .left }
  | some p => { s with phase := p }
  | none => s

/-- One step; a step that is not possible leaves the state. -/
def step (exit : Name) (s : St V) : Act V → St V
  | .call c => if s.phase = .inside then { s with coros := (call s.coros c).1 } else s
  | .exit =>
    if s.phase = .inside then
      -- `__exit_all` (115-123): `gather`
      if exit = "all".toList then { s with tasks := newTasks s.coros, phase := .leaving }
      -- `__exit_none` (125-132)
      else if exit = "none".toList then { s with tasks := newTasks s.coros, phase := .left }
      -- `__exit_any` (134-148)
      else if exit = "any".toList then
        { s with tasks := newTasks s.coros, event := false, phase := .leaving }
      -- `__execute` (86)
      else { s with phase := .error }
    else s
  | .start i =>
    match s.tasks[i]? with
    | some ⟨e :: es, none, rs, false, none⟩ =>
      { s with tasks := s.tasks.set i ⟨es, some e.coro, rs, false, none⟩
               log := s.log ++ [.start e.coro.id] }
    | _ => s
  | .finish i v =>
    match s.tasks[i]? with
    | some ⟨es, some c, rs, false, none⟩ =>
      { s with tasks := s.tasks.set i ⟨es, none, rs ++ [v], false, none⟩
               log := s.log ++ [.finish c.id v] }
    | _ => s
  | .raise i =>
    match s.tasks[i]? with
    -- the exception leaves `__sequential_execution_all` in 241; no event is set
    | some ⟨es, some c, rs, false, none⟩ =>
      { s with tasks := s.tasks.set i ⟨es, none, rs, false, some c.id⟩, log := s.log ++ [.raise c.id] }
    | _ => s
  | .complete i =>
    match s.tasks[i]? with
    -- `complete_event.set()` (243-244)
    | some ⟨[], none, rs, false, none⟩ =>
      { s with tasks := s.tasks.set i ⟨[], none, rs, true, none⟩
               event := if exit = "any".toList then true else s.event }
    | _ => s
  | .waitAll =>
    -- `wait_all` (150-161); `__uncompleted` is empty after `__exit_all`
    if s.phase = .left then
      if exit = "all".toList ∨ s.tasks = [] then s else { s with phase := .waiting }
    else s
  | .proceed =>
    match s.phase with
    | .leaving =>
      if exit = "all".toList then awaited s
      else if s.event then { s with phase := .left } else s
    | .waiting => awaited s
    | _ => s

/-- A run. -/
def run (exit : Name) (s : St V) (as : List (Act V)) : St V := as.foldl (step exit) s

end Toffee.Executor
