import Verif.Model.Priority

/-! Calls of driver methods (`Driver` in `toffee/_base_agent.py` 26-194, `compare_once` in
`toffee/_compare.py`, and the part of `toffee/executor.py` that touches drivers).

Any number of calls of any number of drivers run concurrently; a step below is a stretch of code
without `await` that suspends, and all interleavings are allowed (the event loop allows only some).
The hooks that the attached models provide (`model_infos`, see `Verif.Model.Attach`) are fixed.

Not modelled: driver methods that raise (`Verif.Model.DriverRaise`) and hooks that raise; a comparison
function that raises counts as one that says no (an exception leaves the loop of comparisons at the same
place); hooks that are coroutine
functions (an assertion fails); the payload of ports (`Verif.Model.Args`); that a priority task
requested by a hook while the hooks run is dropped. -/

namespace Toffee.Driver

abbrev Name := List Char

/-- A driver hook or agent hook with its `__sche_order__` and `__priority__`. -/
structure Hook where
  id : Nat
  first : Bool
  prio : Int
  deriving DecidableEq

/-- An element of `model_infos.values()` for a driver. -/
structure Info where
  driverHook : Option Hook
  agentHooks : List Hook
  driverPort : Option Nat
  agentPorts : List Nat
  deriving DecidableEq

/-- What the executor sets before it awaits the call: `driver.priority` and `driver.sche_order`. -/
structure Setting where
  prio : Option Int
  order : Option Name
  deriving DecidableEq

/-- A driver: its `model_infos` and its `compare_func` (or `==`) applied to the result of the DUT and
a result of a hook. -/
structure Drv (D R : Type) where
  infos : List Info
  cmp : D → R → Bool

/-- How far a call has come: waiting for the hooks that go first, running the driver method, the
background task was created, the background task waits for the hooks that go last, the background task
has ended (`false`: with an `AssertionError`). -/
inductive Stage (D : Type)
  | waiting (later : List Hook)
  | body (later : List Hook)
  | created (later : List Hook) (d : D)
  | checking (d : D)
  | done (ok : Bool)
  deriving DecidableEq

/-- A call: the driver, the arguments, how far it has come, `model_results`. -/
structure Call (A D R : Type) where
  drv : Nat
  args : A
  stage : Stage D
  results : List (Option R)
  deriving DecidableEq

/-- What can be observed: the call number comes first. -/
inductive Ev (A D R : Type)
  | invoke (c drv : Nat) (args : A) (exec : Option Setting)
  | put (c port : Nat)
  | request (c : Nat) (h : Hook) (prio : Int)
  | exec (c : Nat) (h : Hook) (args : A) (r : Option R)
  | bodyStart (c : Nat)
  | bodyEnd (c : Nat) (d : D)
  | checked (c : Nat) (ok : Bool)
  deriving DecidableEq

/-- A priority task of a driver hook or agent hook. -/
structure Req (A : Type) where
  call : Nat
  hook : Hook
  args : A
  deriving DecidableEq

structure St (A D R : Type) where
  /-- `driver.priority` and `driver.sche_order` -/
  set : Nat → Setting
  calls : List (Call A D R)
  /-- `__priority_tasks` -/
  pending : List (Req A × Int)
  log : List (Ev A D R)

/-- What can happen: a call of a driver method, by the executor with a setting or directly; the clock
loop runs the priority tasks, with these results; the hooks that go first have run; the driver method
returns; the background task begins; the hooks that go last have run. -/
inductive Act (A D R : Type)
  | invoke (drv : Nat) (args : A) (exec : Option Setting)
  | callbacks (ret : Nat → Hook → Option R)
  | proceed (c : Nat)
  | bodyEnd (c : Nat) (d : D)
  | background (c : Nat)
  | check (c : Nat)

variable {A D R : Type}

def init : St A D R := ⟨fun _ => ⟨none, none⟩, [], [], []⟩

/-- Whether a hook goes first (136-139, 149-152). -/
def goesFirst (order : Option Name) (h : Hook) : Bool :=
  (h.first && decide (order ≠ some "dut_first".toList)) || decide (order = some "model_first".toList)

/-- `self.priority if self.priority is not None else hook.__priority__` (77-79, 99-101). -/
def prioOf (prio : Option Int) (h : Hook) : Int := prio.getD h.prio

/-- `model_info["driver_port"] or model_info["agent_port"]` (132). -/
def Info.hasPort (i : Info) : Bool := i.driverPort.isSome || !i.agentPorts.isEmpty

/-- The hooks of one model in the order in which they are visited (135-161). -/
def Info.hooks (i : Info) : List Hook := i.driverHook.toList ++ i.agentHooks

/-- The ports that are served (131-133, 57-65). -/
def ports (infos : List Info) : List Nat :=
  infos.flatMap fun i => if i.hasPort then i.agentPorts ++ i.driverPort.toList else []

/-- The hooks that go first (131-161). -/
def firstHooks (order : Option Name) (infos : List Info) : List Hook :=
  infos.flatMap fun i => if i.hasPort then [] else i.hooks.filter (goesFirst order)

/-- `dut_first_driver_hooks` and then `dut_first_agent_hooks` (131-161, 172-185). -/
def laterHooks (order : Option Name) (infos : List Info) : List Hook :=
  (infos.flatMap fun i => if i.hasPort then [] else
    i.driverHook.toList.filter fun h => !goesFirst order h) ++
  infos.flatMap fun i => if i.hasPort then [] else i.agentHooks.filter fun h => !goesFirst order h

/-- `__drive_single_driver_hook`, `__drive_single_agent_hook` (67-104). -/
def request (c : Nat) (args : A) (prio : Option Int) (hs : List Hook) (s : St A D R) : St A D R :=
  { s with
    pending := s.pending ++ hs.map fun h => (⟨c, h, args⟩, prioOf prio h)
    log := s.log ++ hs.map fun h => .request c h (prioOf prio h) }

/-- `driver.priority = ..; driver.sche_order = ..` (`executor.py` 229-239). -/
def setting (s : St A D R) (d : Nat) (x : Setting) : St A D R :=
  { s with set := fun d' => if d' = d then x else s.set d' }

/-- One priority task (`executor.py` 31-35; 73-74, 91-97). -/
def runReq (ret : Nat → Hook → Option R) (s : St A D R) (r : Req A × Int) : St A D R :=
  let v := ret r.1.call r.1.hook
  { s with
    calls := s.calls.modify r.1.call fun k => { k with results := k.results ++ [v] }
    log := s.log ++ [.exec r.1.call r.1.hook r.1.args v] }

/-- The loop of `compare_once` (184-192): stops at the first mismatch. -/
def compareAll (cmp : D → R → Bool) (d : D) : List (Option R) → Bool
  | [] => true
  | none :: rs => compareAll cmp d rs
  | some v :: rs => if cmp d v then compareAll cmp d rs else false

/-- All requested hooks of the call have run: all its events are set. -/
def idle (s : St A D R) (c : Nat) : Bool := s.pending.all fun r => r.1.call ≠ c

def setStage (s : St A D R) (c : Nat) (x : Stage D) (e : List (Ev A D R)) : St A D R :=
  { s with calls := s.calls.modify c fun k => { k with stage := x }, log := s.log ++ e }

/-- One step; a step that is not possible leaves the state. -/
def step (drv : Nat → Drv D R) (s : St A D R) : Act A D R → St A D R
  | .invoke d args exec =>
    -- the executor sets the driver's fields and then begins to await the coroutine
    let s := match exec with
      | some x => setting s d x
      | none => s
    let c := s.calls.length
    let x := s.set d
    request c args x.prio (firstHooks x.order (drv d).infos)
      { s with
        calls := s.calls ++ [⟨d, args, .waiting (laterHooks x.order (drv d).infos), []⟩]
        log := s.log ++ .invoke c d args exec :: (ports (drv d).infos).map (.put c) }
  | .callbacks ret =>
    { (Priority.sorted s.pending).foldl (runReq ret) s with pending := [] }
  | .proceed c =>
    match s.calls[c]? with
    | some ⟨_, _, .waiting later, _⟩ =>
      if idle s c then setStage s c (.body later) [.bodyStart c] else s
    | _ => s
  | .bodyEnd c d =>
    match s.calls[c]? with
    | some ⟨_, _, .body later, _⟩ => setStage s c (.created later d) [.bodyEnd c d]
    | _ => s
  | .background c =>
    match s.calls[c]? with
    | some ⟨dr, args, .created later d, _⟩ =>
      setStage (request c args (s.set dr).prio later s) c (.checking d) []
    | _ => s
  | .check c =>
    match s.calls[c]? with
    | some ⟨dr, _, .checking d, rs⟩ =>
      if idle s c then
        let ok := compareAll (drv dr).cmp d rs
        let s := setStage s c (.done ok) [.checked c ok]
        -- not reached after a mismatch (193-194)
        if ok then setting s dr ⟨none, none⟩ else s
      else s
    | _ => s

/-- A run. -/
def run (drv : Nat → Drv D R) (s : St A D R) (as : List (Act A D R)) : St A D R :=
  as.foldl (step drv) s

end Toffee.Driver
