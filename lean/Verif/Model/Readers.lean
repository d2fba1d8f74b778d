/-! The queue of a monitor and the tasks that read from it (`Monitor.enable_get_queue`,
`get_queue_size` and the end of `__monitor_forever` in `toffee/_base_agent.py` 210-215, 242-252;
`start_monitor` and the monitor method in `toffee/agent.py` 67-78, 152-158).

`start_monitor` makes a new `Queue` each time.  A reader is a task that awaits the monitor method; it
holds on to the queue it found.  The queue is `asyncio.Queue` of Python (`Queue.get`, `put_nowait`,
`get_nowait`, `_wakeup_next` in `asyncio/queues.py`; the queue has no size of its own, so that `put`
never waits): a put wakes one waiting reader; the woken reader runs later, and if another reader has
taken the value meanwhile it waits again.  The order in which tasks run is left open.

toffee's `Queue` (`asynchronous.py` 128-145) adds `task_run()` behind `put` and `get`, which is in `Verif.Model.Loop`.

`Verif.Model.Port` has the queue without readers that wait.  Not modelled: readers that are cancelled. -/

namespace Toffee.Readers

/-- A `Queue` object: its items, the readers with a pending future in `_getters`, and those that have
been woken and have not run since. -/
structure Q (V : Type) where
  items : List V
  getters : List Nat
  woken : List Nat
  deriving DecidableEq

/-- `get_queue_max_size`, the current `get_queue`, and the queues that it was before, which only their
readers still know. -/
structure St (V : Type) where
  max : Int
  cur : Option (Q V)
  old : List (Q V)
  deriving DecidableEq

def St.init (V : Type) : St V := ⟨0, none, []⟩

inductive Op (V : Type)
  /-- `start_monitor(name, maxsize)`. -/
  | start (max : Int)
  /-- A round of `__monitor_forever` in which the method returned `v`, not `None`. -/
  | produce (v : V)
  /-- The task `r` awaits the monitor method. -/
  | read (r : Nat)
  /-- The task `r`, which has been woken, runs. -/
  | resume (r : Nat)
  deriving DecidableEq

inductive Ev (V : Type)
  | started
  | queued (v : V)
  | dropped (v : V)
  | ignored
  | received (r : Nat) (v : V)
  | waits (r : Nat)
  | attributeError (r : Nat)
  /-- Not possible: the task is inside a read, or has not been woken. -/
  | skip
  deriving DecidableEq

variable {V : Type}

/-- The reader is inside `Queue.get` of this queue. -/
def Q.has (q : Q V) (r : Nat) : Bool := decide (r ∈ q.getters) || decide (r ∈ q.woken)

def St.busy (s : St V) (r : Nat) : Bool := s.cur.toList.any (·.has r) || s.old.any (·.has r)

/-- `put_nowait` and `_wakeup_next`. -/
def Q.put (q : Q V) (v : V) : Q V :=
  match q.getters with
  | [] => { q with items := q.items ++ [v] }
  | r :: rs => { items := q.items ++ [v], getters := rs, woken := q.woken ++ [r] }

/-- A turn of the loop of `Queue.get` by the reader `r`. -/
def Q.take (q : Q V) (r : Nat) : Q V × Ev V :=
  match q.items with
  | [] => ({ q with getters := q.getters ++ [r] }, .waits r)
  | v :: vs => ({ q with items := vs }, .received r v)

/-- The woken reader runs. -/
def Q.resume (q : Q V) (r : Nat) : Q V × Ev V := { q with woken := q.woken.erase r }.take r

/-- The woken reader runs, on whichever queue it waited. -/
def resumeOld (r : Nat) : List (Q V) → List (Q V) × Ev V
  | [] => ([], .skip)
  | q :: qs =>
    if r ∈ q.woken then
      let (q', e) := q.resume r
      (q' :: qs, e)
    else
      let (qs', e) := resumeOld r qs
      (q :: qs', e)

/-- One step.  `start`: `enable_get_queue` (210-212); `produce`: 244-252; `read`: `agent.py` 156-158. -/
def step (s : St V) : Op V → St V × Ev V
  | .start m => (⟨m, some ⟨[], [], []⟩, s.cur.toList ++ s.old⟩, .started)
  | .produce v =>
    match s.cur with
    | none => (s, .ignored)
    | some q =>
      if (q.items.length : Int) ≥ s.max then (s, .dropped v)
      else ({ s with cur := some (q.put v) }, .queued v)
  | .read r =>
    if s.busy r then (s, .skip)
    else
      match s.cur with
      | none => (s, .attributeError r)
      | some q =>
        let (q', e) := q.take r
        ({ s with cur := some q' }, e)
  | .resume r =>
    match s.cur with
    | none => (s, .skip)
    | some q =>
      if r ∈ q.woken then
        let (q', e) := q.resume r
        ({ s with cur := some q' }, e)
      else
        let (o, e) := resumeOld r s.old
        ({ s with old := o }, e)

def run (s : St V) : List (Op V) → St V × List (Ev V)
  | [] => (s, [])
  | op :: ops =>
    let (s1, e) := step s op
    let (s2, es) := run s1 ops
    (s2, e :: es)

/-- `get_queue_size` (214-215). -/
def St.size (s : St V) : Nat :=
  match s.cur with
  | none => 0
  | some q => q.items.length

end Toffee.Readers
