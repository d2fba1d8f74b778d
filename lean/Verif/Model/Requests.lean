/-! `Bundle.process_requests` and the callback that it relies on (`toffee/bundle.py` 425-541, 714).

Request dictionaries are objects with an identity, because the callback changes them. What the
condition functions, the callable requests and the return bundles give is arbitrary and may depend on
the cycle.

Not modelled: `__funcs__` (called after the assignment, their results are added to the result), what
`assign` does with the rest of the dictionary (`Verif.Model.BundleData`), exceptions, and other
callbacks of the device. `Step(1)` calls every registered callback once, with the number of the cycle,
which it then increases. -/

namespace Toffee.Requests

/-- A request dictionary: does it have the keys `__condition_func__` and `__return_bundles__`, and what
do `__return_values__` and `__return_cycles__` say. -/
structure Obj (V : Type) where
  cond : Bool
  ret : Bool
  result : Option (V × Nat)
  deriving DecidableEq

/-- An element of the list of requests: `None`, a dictionary, a callable object. -/
inductive Item
  | none
  | dict (r : Nat)
  | call (f : Nat)
  deriving DecidableEq

/-- The functions that the requests contain: a condition, what a callable request returns, the values
of the return bundles. -/
structure Env (V : Type) where
  cond : Nat → Nat → Bool
  res : Nat → Nat → Option Nat
  sample : Nat → Nat → V

/-- What can be observed: a callable request is called; a dictionary is applied to the bundle. -/
inductive Ev
  | called (f cycle : Nat)
  | applied (r cycle : Nat)
  deriving DecidableEq

structure St (V : Type) where
  /-- `__dut_requests__` -/
  queue : List Item
  /-- `__blocked_request__` -/
  blocked : Option Nat
  heap : Nat → Obj V
  cycle : Nat
  log : List Ev

variable {V : Type}

/-- From the removal of the special keys to the end of the callback (464-491). -/
def apply (E : Env V) (c r : Nat) (s : St V) : St V :=
  let o := s.heap r
  let o' : Obj V :=
    ⟨false, false, if o.ret then some (E.sample r c, c) else o.result⟩
  { s with
    heap := fun r' => if r' = r then o' else s.heap r'
    log := s.log ++ [.applied r c] }

/-- From the check of the condition (456-463). -/
def check (E : Env V) (c r : Nat) (s : St V) : St V :=
  if (s.heap r).cond then
    if E.cond r c then apply E c r s else { s with blocked := some r }
  else apply E c r s

/-- `___dut_call_on_rise__` (425-491). -/
def onRise (E : Env V) (c : Nat) (s : St V) : St V :=
  match s.blocked with
  | some r =>
    if E.cond r c then apply E c r { s with blocked := none } else s
  | none =>
    match s.queue with
    | [] => s
    | .none :: q => { s with queue := q }
    | .dict r :: q => check E c r { s with queue := q }
    | .call f :: q =>
      let s := { s with queue := q, log := s.log ++ [.called f c] }
      match E.res f c with
      | none => s
      | some r => check E c r s

/-- `Step(1)` when the callback was registered `k` times. -/
def step (E : Env V) (k : Nat) (s : St V) : St V :=
  let s' := (List.range k).foldl (fun s _ => onRise E s.cycle s) s
  { s' with cycle := s.cycle + 1 }

/-- The state of the loop of `process_requests` (530-531) after `n` rounds, when the requests `items`
were put into the queue (525-529). -/
def after (E : Env V) (k : Nat) (items : List Item) (s : St V) : Nat → St V
  | 0 => { s with queue := items }
  | n + 1 => step E k (after E k items s n)

/-- The loop ends after `n` rounds. -/
def Ends (E : Env V) (k : Nat) (items : List Item) (s : St V) (n : Nat) : Prop :=
  (after E k items s n).queue = [] ∧ ∀ m, m < n → (after E k items s m).queue ≠ []

/-- The list that `process_requests` returns (532-541). -/
def results (items : List Item) (s : St V) : List (V × Nat) :=
  items.filterMap fun i =>
    match i with
    | .dict r => (s.heap r).result
    | _ => none

/-- `make_requset_response_for` (493-503), called by every `bind` (714): the callback is registered
once more, even if it was registered before (501-502 only log). -/
def registrations (binds : Nat) : Nat := binds

end Toffee.Requests
