import Verif.Model.Loop

/-! A whole test bench on the event loop of `Verif.Model.Loop`.

The test starts the clock and makes a list of driver calls one after the other, as `test_random` and
`test_boundary` of `example/adder/test_adder.py` (14-29) do.  Reference models are attached, with any number
of hooks that run before the method (`AdderModelWithDriverHook`, `example/adder/env/refmodel.py`).
The driver method reads and writes pins and waits for clock cycles in any way, as long as it comes to its end
(`exec_add`, `example/adder/env/agent.py` 8-15).  DUT, reference models, stimuli and results are arbitrary.

Simplified: the environment is complete when the test begins; there are no monitors and no components, no
`dut_first` hooks and no ports. -/

namespace Toffee.Bench

open Toffee.Loop

/-- A driver method: what it does with the DUT until it returns.  Reading the pins may decide what comes
next (a handshake). -/
inductive Meth (Y D : Type)
  | ret (y : Y)
  | read (k : D → Meth Y D)
  | write (f : D → D) (k : Meth Y D)
  /-- `await bundle.step()` -/
  | step (k : Meth Y D)

/-- A driver hook or agent hook of a reference model, with its `__priority__`.  It may return `None`.  All
hooks work on one state, so that one model may have several hooks, and models may share things. -/
structure Ref (X Y M : Type) where
  model : M → X → M × Option Y
  prio : Int

/-- What is being verified and with what: `method` is the driver method, `clk` is one clock step of the DUT;
`eq` is the `==` of the results (`_compare.py` 8-9). -/
structure Bench (X Y D M : Type) where
  method : X → Meth Y D
  clk : D → D
  refs : List (Ref X Y M)
  eq : Y → Y → Bool

/-- The state that tasks share: the DUT, the reference models, and the list `model_results` of every driver
call (`_base_agent.py` 119). -/
structure G (Y D M : Type) where
  dut : D
  ref : M
  results : Nat → List (Option Y)

/-- Where a task is.  The driver call number `i` is `process_driver_call` (`_base_agent.py` 106-194). -/
inductive Pc (Y D : Type)
  | start
  /-- the next call of the test, or the end of the test -/
  | call (i : Nat)
  /-- the loops over the models and their hooks (`_base_agent.py` 125-156): the next hook is number `j` -/
  | hooks (i j : Nat)
  /-- `gather` (`asynchronous.py` 297-309) of the waits for the hooks: creating the tasks -/
  | gather (i j : Nat) (ts : List Nat)
  /-- the task of `event.wait()` (`asynchronous.py` 123-125) -/
  | wait (e : Nat)
  | wait1
  | wait2
  /-- `gather`: awaiting the tasks -/
  | join (i : Nat) (ts : List Nat)
  /-- the driver method -/
  | drive (i : Nat)
  | meth (i : Nat) (p : Meth Y D)
  /-- `background_exec` (163-192) -/
  | background (i : Nat) (y : Y)
  | failed

variable {X Y D M : Type}

/-- The number of the event of hook `j` of call `i`; event 0 is the clock. -/
def evNum (b : Bench X Y D M) (i j : Nat) : Nat := 1 + i * b.refs.length + j

/-- The hook `j` of call `i`: `driver_hook_wrapper` (`_base_agent.py` 73-74), `agent_hook_wrapper` (93-97). -/
def hook (b : Bench X Y D M) (i : Nat) (x : X) (j : Nat) (r : Ref X Y M) : Hook (Pc Y D) (G Y D M) Unit where
  run := fun g => ({ g with
    ref := (r.model g.ref x).1
    results := upd g.results i (g.results i ++ [(r.model g.ref x).2]) }, [])
  done := some (evNum b i j)

/-- The comparison of one result (`_base_agent.py` 181-188). -/
def agrees (b : Bench X Y D M) (y : Y) : Option Y → Bool
  | none => true
  | some z => b.eq y z

/-- The program. -/
def prog (b : Bench X Y D M) (xs : List X) : Pc Y D → G Y D M → Cmd (Pc Y D) (G Y D M) Unit
  | .start, _ => .startClock (.call 0)
  | .call i, g =>
    match xs[i]? with
    | some _ => .comp g (.hooks i 0)
    | none => .ret ()
  | .hooks i j, g =>
    match xs[i]?, b.refs[j]? with
    | some x, some r => .addHook (hook b i x j r) r.prio (.hooks i (j + 1))
    | _, _ => .comp g (.gather i 0 [])
  | .gather i j ts, g =>
    if j < b.refs.length then .spawn (.wait (evNum b i j)) (fun t => .gather i (j + 1) (ts ++ [t]))
    else .comp g (.join i ts)
  | .wait e, _ => .waitEv e .wait1
  | .wait1, _ => .taskRun .wait2
  | .wait2, _ => .ret ()
  | .join i (t :: ts), _ => .join t (fun _ => .join i ts) .failed
  | .join i [], g => .comp g (.drive i)
  | .drive i, g =>
    match xs[i]? with
    | some x => .comp g (.meth i (b.method x))
    | none => .raise true
  | .meth i (.read k), g => .comp g (.meth i (k g.dut))
  | .meth i (.write f k), g => .comp { g with dut := f g.dut } (.meth i k)
  | .meth i (.step k), _ => .waitEv 0 (.meth i k)
  | .meth i (.ret y), _ => .spawn (.background i y) (fun _ => .call (i + 1))
  | .background i y, g => if (g.results i).all (agrees b y) then .ret () else .raise false
  | .failed, _ => .raise true

def sys (b : Bench X Y D M) (xs : List X) : Sys (Pc Y D) (G Y D M) Unit where
  prog := prog b xs
  dutStep := fun g => { g with dut := b.clk g.dut }
  sample := id

/-- The run of the test: `toffee.run(test)`. -/
def start (d : D) (m : M) : St (Pc Y D) (G Y D M) Unit := init ⟨d, m, fun _ => []⟩ .start

/-- The state after `n` micro steps; the oracle says which timers are due at a step. -/
def runFor {σ G V : Type} (sys : Sys σ G V) (due : Nat → List Nat) (s : St σ G V) : Nat → St σ G V
  | 0 => s
  | n + 1 => step sys (due n) (runFor sys due s n)

end Toffee.Bench
