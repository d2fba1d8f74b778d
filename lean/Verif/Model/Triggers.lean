/-!
Model of `toffee/triggers.py` (and `Bundle.step`): coroutines that wait for clock events.

A trigger coroutine only ever suspends on the clock event (`event.wait()`), so it is a state
machine: it is started once and then resumed once per clock event, each time looking at the pins'
current values (`V` is the snapshot of everything it can look at).
-/

namespace Toffee.Triggers

/-- What a coroutine does when run: return, suspend on the next clock event, or raise. -/
inductive Res (σ : Type) where
  | done
  | wait (s : σ)
  | raise (msg : String)
deriving DecidableEq, Repr

/-- A coroutine that only awaits clock events. -/
structure Trigger (V σ : Type) where
  start : V → Res σ
  resume : σ → V → Res σ

/-- State of the coroutine after `k` clock events; `tr j` is the snapshot seen at the call (`j = 0`)
and at the `j`-th resumption.  A returned or raised coroutine is not resumed any more. -/
def Trigger.after {V σ : Type} (t : Trigger V σ) (tr : Nat → V) : Nat → Res σ
  | 0 => t.start (tr 0)
  | k + 1 =>
    match t.after tr k with
    | .wait s => t.resume s (tr (k + 1))
    | r => r

/-- The coroutine returns after exactly `k` clock events. -/
def Trigger.returnsAt {V σ : Type} (t : Trigger V σ) (tr : Nat → V) (k : Nat) : Prop :=
  t.after tr k = .done ∧ ∀ j, j < k → t.after tr j ≠ .done

/-- `for _ in range(n): await event.wait()` followed by `next`; the state is the number of waits
left after the current one. -/
def waitLoop {V σ : Type} (inj : Nat → σ) (next : V → Res σ) : Nat → V → Res σ
  | 0, v => next v
  | n + 1, _ => .wait (inj n)

/-- `ClockCycles` (`triggers.py` 14-35).  The three branches (pin, bundle via `Bundle.step`
`bundle.py` 666-679, DUT) run the same loop over their clock event; a non-positive count
waits for nothing (`range`). -/
def clockCycles (V : Type) (ncycles : Int) : Trigger V Nat where
  start := waitLoop id (fun _ => .done) ncycles.toNat
  resume s v := waitLoop id (fun _ => .done) s v

/-- States of the coroutines that wait `delay` cycles and then poll. -/
inductive Poll where
  | delaying (left : Nat)
  | polling
deriving DecidableEq, Repr

/-- `Value` (`triggers.py` 38-51); the snapshot is the pin's value. -/
def value {V : Type} [DecidableEq V] (target : V) (delay : Int) : Trigger V Poll where
  start := waitLoop .delaying (fun v => if v ≠ target then .wait .polling else .done) delay.toNat
  resume s v := match s with
    | .delaying n =>
      waitLoop .delaying (fun v => if v ≠ target then .wait .polling else .done) n v
    | .polling => if v ≠ target then .wait .polling else .done

/-- The truth value of a pin value in `all(pin.value for pin in pins)`: `None` and `0` are false. -/
def truthy : Option Int → Bool
  | none => false
  | some v => v ≠ 0

/-- `await pins[0].event.wait()`: raises `IndexError` without pins. -/
def waitFirst {σ : Type} (pins : List (Option Int)) (s : σ) : Res σ :=
  if pins = [] then .raise "IndexError" else .wait s

/-- `AllValid` (`triggers.py` 54-67); the snapshot is the list of the pins' values. -/
def allValid (delay : Int) : Trigger (List (Option Int)) Poll where
  start pins := match delay.toNat with
    | 0 => if !pins.all truthy then waitFirst pins .polling else .done
    | n + 1 => waitFirst pins (.delaying n)
  resume s pins := match s with
    | .delaying 0 => if !pins.all truthy then waitFirst pins .polling else .done
    | .delaying (n + 1) => waitFirst pins (.delaying n)
    | .polling => if !pins.all truthy then waitFirst pins .polling else .done

/-- `Condition` (`triggers.py` 70-82): `ClockCycles(item, delay)`, then `ClockCycles(item)` until
the predicate holds.  The snapshot is the item. -/
def condition {V : Type} (f : V → Bool) (delay : Int) : Trigger V Poll where
  start := waitLoop .delaying (fun v => if !f v then .wait .polling else .done) delay.toNat
  resume s v := match s with
    | .delaying n => waitLoop .delaying (fun v => if !f v then .wait .polling else .done) n v
    | .polling => if !f v then .wait .polling else .done

/-- `Change` (`triggers.py` 85-95); the state is `old_value`. -/
def change {V : Type} [DecidableEq V] : Trigger V V where
  start v := let old := v; if v = old then .wait old else .done
  resume old v := if v = old then .wait old else .done

/-- `RisingEdge` (`triggers.py` 98-110); the state is `old_value`. -/
def risingEdge : Trigger Int Int where
  start v := let old := v; if old ≠ 0 ∨ v = old then .wait v else .done
  resume old v := if old ≠ 0 ∨ v = old then .wait v else .done

/-- `FallingEdge` (`triggers.py` 113-125); the state is `old_value`. -/
def fallingEdge : Trigger Int Int where
  start v := let old := v; if v ≠ 0 ∨ v = old then .wait v else .done
  resume old v := if v ≠ 0 ∨ v = old then .wait v else .done

end Toffee.Triggers
