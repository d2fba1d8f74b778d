import Verif.Model.Port
import Verif.Lemmas.PortSpec
/-!
Model of a reference model that reads bounded ports (`toffee/model.py` 178-314) while drivers and monitors
send into them.

That the model goes on until it waits for an empty port before the DUT is stepped again is C125; here this
is one event (`run`).
-/

namespace Toffee.PortBoard

open Toffee.Port (Act)

variable {V S : Type}

/-- The ports of the model, the state of its `main`, and the values for which "the value .. is dropped" was
logged. -/
structure Board (V S : Type) where
  ports : Nat → Port.Port V
  a : S
  lost : List (Nat × V)

/-- What happens: a value is sent to a port (`__drive_single_model_ports`, `process_monitor_call`:
`await port.put(..)`, `_base_agent.py` 57-65, 217-236), or the model runs. -/
inductive Ev (V : Type) where
  | send (q : Nat) (v : V)
  | run

/-- `Port.put` of port `q` (`model.py` 195-200). -/
def Board.send (b : Board V S) (q : Nat) (v : V) : Board V S :=
  match (b.ports q).put v with
  | (p, true) => { b with ports := fun i => if i = q then p else b.ports i }
  | (_, false) => { b with lost := b.lost ++ [(q, v)] }

/-- `main` goes on as long as the port it reads is not empty. -/
inductive Drain (A : S → Act V S) : Board V S → Board V S → Prop where
  | ended {b} : (∀ q k, A b.a ≠ .get q k) → Drain A b b
  | empty {b q k p} : A b.a = .get q k → (b.ports q).get = (p, none) → Drain A b b
  | read {b b' q k p v} : A b.a = .get q k → (b.ports q).get = (p, some v) →
      Drain A { b with ports := fun i => if i = q then p else b.ports i, a := k v } b' → Drain A b b'

/-- One event. -/
inductive Step (A : S → Act V S) : Ev V → Board V S → Board V S → Prop where
  | send (q : Nat) (v : V) (b : Board V S) : Step A (.send q v) b (b.send q v)
  | run {b b'} : Drain A b b' → Step A .run b b'

/-- New ports with the maximum sizes `m` (`model.py` 179-193). -/
def Board.new (m : Nat → Int) (a0 : S) : Board V S := ⟨fun q => ⟨m q, []⟩, a0, []⟩

/-- The events `l` lead from new ports to `b`. -/
inductive Exec (A : S → Act V S) (m : Nat → Int) (a0 : S) : List (Ev V) → Board V S → Prop where
  | nil : Exec A m a0 [] (.new m a0)
  | snoc {l e b b'} : Exec A m a0 l b → Step A e b b' → Exec A m a0 (l ++ [e]) b'

end Toffee.PortBoard
