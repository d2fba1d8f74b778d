import Verif.Model.Bench

/-! The test bench of `Verif.Model.Bench`, with reference models some of whose hooks run before the driver
method (`sche_order` `model_first`) and some after it (`dut_first`).

Simplified: the environment is complete when the test begins; there are no monitors, no components and no
ports; all calls are of one driver method, with no `sche_order` or `priority` from an executor. -/

namespace Toffee.BenchMix

open Toffee.Loop

export Toffee.Bench (Meth Ref G)

/-- What is being verified and with what.  `pre` are the hooks that run before the method; `post` are those
that run after it, in the order in which `background_exec` asks for them (`_base_agent.py` 122-123, 139,
154, 165-176: all driver hooks, then all agent hooks). -/
structure Bench (X Y D M : Type) where
  method : X → Meth Y D
  clk : D → D
  pre : List (Ref X Y M)
  post : List (Ref X Y M)
  eq : Y → Y → Bool

/-- Where a task is.  The driver call number `i` is `process_driver_call` (`_base_agent.py` 106-194). -/
inductive Pc (Y D : Type)
  | start
  /-- the next call of the test, or the end of the test -/
  | call (i : Nat)
  /-- the loops over the models and their hooks (`_base_agent.py` 125-156): the next `model_first` hook is
  number `j` -/
  | hooks (i j : Nat)
  /-- `gather` (`asynchronous.py` 297-309) of the waits for these hooks: creating the tasks -/
  | gather (i j : Nat) (ts : List Nat)
  /-- the task of `event.wait()` (`asynchronous.py` 123-125) -/
  | wait (e : Nat)
  | wait1
  | wait2
  /-- `gather`: awaiting the tasks -/
  | join (i : Nat) (ts : List Nat)
  /-- the driver method -/
  | drive (i : Nat)
  | meth (i : Nat) (p : Meth Y D)
  /-- `background_exec` (163-192), the loops over the `dut_first` hooks (165-176): the next one is number
  `j` -/
  | background (i : Nat) (y : Y) (j : Nat)
  /-- `gather` of the waits for these hooks (177) -/
  | bgather (i : Nat) (y : Y) (j : Nat) (ts : List Nat)
  | bjoin (i : Nat) (y : Y) (ts : List Nat)
  /-- the comparison (180-188) -/
  | compare (i : Nat) (y : Y)
  | failed

variable {X Y D M : Type}

/-- The number of the event of hook `j` of call `i`, the hooks in `post` being numbered after those in
`pre`; event 0 is the clock. -/
def evNum (b : Bench X Y D M) (i j : Nat) : Nat := 1 + i * (b.pre.length + b.post.length) + j

/-- A hook of call `i`: `driver_hook_wrapper` (`_base_agent.py` 73-74), `agent_hook_wrapper` (93-97). -/
def hook (b : Bench X Y D M) (i : Nat) (x : X) (j : Nat) (r : Ref X Y M) : Hook (Pc Y D) (G Y D M) Unit where
  run := fun g => ({ g with
    ref := (r.model g.ref x).1
    results := upd g.results i (g.results i ++ [(r.model g.ref x).2]) }, [])
  done := some (evNum b i j)

/-- The comparison of one result (`_base_agent.py` 181-188). -/
def agrees (b : Bench X Y D M) (y : Y) : Option Y → Bool
  | none => true
  | some z => b.eq y z

/-- The program. -/
def prog (b : Bench X Y D M) (xs : List X) : Pc Y D → G Y D M → Cmd (Pc Y D) (G Y D M) Unit
  | .start, _ => .startClock (.call 0)
  | .call i, g =>
    match xs[i]? with
    | some _ => .comp g (.hooks i 0)
    | none => .ret ()
  | .hooks i j, g =>
    match xs[i]?, b.pre[j]? with
    | some x, some r => .addHook (hook b i x j r) r.prio (.hooks i (j + 1))
    | _, _ => .comp g (.gather i 0 [])
  | .gather i j ts, g =>
    if j < b.pre.length then .spawn (.wait (evNum b i j)) (fun t => .gather i (j + 1) (ts ++ [t]))
    else .comp g (.join i ts)
  | .wait e, _ => .waitEv e .wait1
  | .wait1, _ => .taskRun .wait2
  | .wait2, _ => .ret ()
  | .join i (t :: ts), _ => .join t (fun _ => .join i ts) .failed
  | .join i [], g => .comp g (.drive i)
  | .drive i, g =>
    match xs[i]? with
    | some x => .comp g (.meth i (b.method x))
    | none => .raise true
  | .meth i (.read k), g => .comp g (.meth i (k g.dut))
  | .meth i (.write f k), g => .comp { g with dut := f g.dut } (.meth i k)
  | .meth i (.step k), _ => .waitEv 0 (.meth i k)
  | .meth i (.ret y), _ => .spawn (.background i y 0) (fun _ => .call (i + 1))
  | .background i y j, g =>
    match xs[i]?, b.post[j]? with
    | some x, some r => .addHook (hook b i x (b.pre.length + j) r) r.prio (.background i y (j + 1))
    | _, _ => .comp g (.bgather i y 0 [])
  | .bgather i y j ts, g =>
    if j < b.post.length then
      .spawn (.wait (evNum b i (b.pre.length + j))) (fun t => .bgather i y (j + 1) (ts ++ [t]))
    else .comp g (.bjoin i y ts)
  | .bjoin i y (t :: ts), _ => .join t (fun _ => .bjoin i y ts) .failed
  | .bjoin i y [], g => .comp g (.compare i y)
  | .compare i y, g => if (g.results i).all (agrees b y) then .ret () else .raise false
  | .failed, _ => .raise true

def sys (b : Bench X Y D M) (xs : List X) : Sys (Pc Y D) (G Y D M) Unit where
  prog := prog b xs
  dutStep := fun g => { g with dut := b.clk g.dut }
  sample := id

/-- The run of the test: `toffee.run(test)`. -/
def start (d : D) (m : M) : St (Pc Y D) (G Y D M) Unit := init ⟨d, m, fun _ => []⟩ .start

end Toffee.BenchMix
