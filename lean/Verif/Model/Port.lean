/-!
Model of `Port` (`toffee/model.py` 176-200) and of the message queue of a `Monitor`
(`toffee/_base_agent.py` 210-215, 246-252; `toffee/agent.py` 53-78, 152-161).
-/

namespace Toffee.Port

/-- A `Port`: the underlying unbounded `asyncio.Queue` (oldest first) and `__maxsize`.
Simplification: waiting consumers are not represented; a value put while a consumer waits stays in
the queue until the consumer runs, exactly as in `asyncio.Queue`. -/
structure Port (V : Type) where
  maxsize : Int
  items : List V
deriving DecidableEq, Repr

/-- `Port.__init__` (`model.py` 177-192). -/
def Port.new (V : Type) (maxsize : Int) : Except String (Port V) :=
  if maxsize > 0 ∨ maxsize = -1 then .ok ⟨maxsize, []⟩ else .error "AssertionError"

/-- `Port.put` (`model.py` 194-199): the new port and whether the value was accepted (a dropped value
is reported with an error log). -/
def Port.put {V : Type} (p : Port V) (v : V) : Port V × Bool :=
  if (p.items.length : Int) ≥ p.maxsize ∧ p.maxsize ≠ -1 then (p, false)
  else ({ p with items := p.items ++ [v] }, true)

/-- `await port()` / `Queue.get`: takes the oldest value; `none` means the consumer has to wait. -/
def Port.get {V : Type} (p : Port V) : Port V × Option V :=
  match p.items with
  | [] => (p, none)
  | v :: rest => ({ p with items := rest }, some v)

/-- Operations on a port. -/
inductive Op (V : Type) where
  | put (v : V)
  | get
deriving DecidableEq, Repr

/-- What the user of a port sees. -/
inductive Out (V : Type) where
  | accepted (v : V)
  | dropped (v : V)
  | received (v : V)
  | empty
deriving DecidableEq, Repr

/-- One operation with its visible outcome. -/
def Port.step {V : Type} (p : Port V) : Op V → Port V × Out V
  | .put v => match p.put v with
    | (p', true) => (p', .accepted v)
    | (p', false) => (p', .dropped v)
  | .get => match p.get with
    | (p', some v) => (p', .received v)
    | (p', none) => (p', .empty)

/-- A history of operations: final port and outcomes in order. -/
def Port.run {V : Type} (p : Port V) : List (Op V) → Port V × List (Out V)
  | [] => (p, [])
  | op :: ops =>
    let (p', o) := p.step op
    let (p'', os) := p'.run ops
    (p'', o :: os)

/-! ### Monitor message queue -/

/-- The `get_queue` of a `Monitor`: `none` before `start_monitor` (`_base_agent.py` 205), then the
queue with its maximum size. -/
structure MonitorQueue (V : Type) where
  queue : Option (List V × Int)
deriving DecidableEq, Repr

/-- Operations: `start_monitor(name, maxsize)`, one round of `__monitor_forever` in which the
monitor method returned `ret`, and awaiting the monitor method. -/
inductive MOp (V : Type) where
  | start (maxsize : Int)
  | produce (ret : Option V)
  | read
deriving DecidableEq, Repr

/-- Visible outcomes. -/
inductive MOut (V : Type) where
  | started
  | queued (v : V)
  | dropped (v : V)
  | ignored
  | received (v : V)
  | blocked
  | attributeError
deriving DecidableEq, Repr

/-- `enable_get_queue` (`_base_agent.py` 210-212, `agent.py` 67-78), the queue part of
`__monitor_forever` (`_base_agent.py` 242-252) and the monitor method wrapper
(`agent.py` 156-158).  Reading before `start_monitor` is `None.get()`, an `AttributeError`. -/
def MonitorQueue.step {V : Type} (m : MonitorQueue V) : MOp V → MonitorQueue V × MOut V
  | .start maxsize => (⟨some ([], maxsize)⟩, .started)
  | .produce none => (m, .ignored)
  | .produce (some v) =>
    match m.queue with
    | none => (m, .ignored)
    | some (q, mx) =>
      if (q.length : Int) ≥ mx then (m, .dropped v) else (⟨some (q ++ [v], mx)⟩, .queued v)
  | .read =>
    match m.queue with
    | none => (m, .attributeError)
    | some ([], _) => (m, .blocked)
    | some (v :: q, mx) => (⟨some (q, mx)⟩, .received v)

/-- `Agent.monitor_size` / `get_queue_size` (`agent.py` 53-65, `_base_agent.py` 214-215). -/
def MonitorQueue.size {V : Type} (m : MonitorQueue V) : Nat :=
  match m.queue with
  | none => 0
  | some (q, _) => q.length

/-- A history of operations. -/
def MonitorQueue.run {V : Type} (m : MonitorQueue V) : List (MOp V) → MonitorQueue V × List (MOut V)
  | [] => (m, [])
  | op :: ops =>
    let (m', o) := m.step op
    let (m'', os) := m'.run ops
    (m'', o :: os)

end Toffee.Port
