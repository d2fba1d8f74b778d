import Verif.Model.BenchAll
import Verif.Lemmas.BenchMonSpec

/-! What a test run with drivers and monitors is about, without the event loop and without tasks: the specification of C124.
What the monitors do in one clock cycle (`cycle`) is the same as in C122. -/

namespace Toffee.BenchAll

export Toffee.BenchMon (cycle watch upto)

variable {X Y O D M : Type}

/-- What a model is told: that a monitor saw something, or that a driver was called. -/
inductive Req (Y O M : Type)
  | saw (o : O) (c : Chk O M)
  | called (r : Ref Y M)

def Req.prio : Req Y O M → Int
  | .saw _ c => c.prio
  | .called r => r.prio

/-- One hook: the models, and the results of the call so far; `none` if it raises. -/
def serve (s : M × List (Option Y)) : Req Y O M → Option (M × List (Option Y))
  | .saw o c => if c.fails s.1 o then none else some (c.run s.1 o, s.2)
  | .called r => if r.fails s.1 then none else some ((r.model s.1).1, s.2 ++ [(r.model s.1).2])

/-- All hooks that were asked for, by priority. -/
def serveAll (m : M) (l : List (Req Y O M)) : Option (M × List (Option Y)) :=
  (l.mergeSort fun a a' => decide (a.prio ≤ a'.prio)).foldlM serve (m, [])

/-- The state of affairs: where the monitors are, the pins, the models, what the monitors have seen in this cycle and the
models have not been told yet, and the number of clock cycles. -/
structure W (O D M : Type) where
  mons : List (Mon O D M × Meth (Option O) D)
  dut : D
  ref : M
  seen : List (O × Chk O M)
  cycles : Nat

def saws (l : List (O × Chk O M)) : List (Req Y O M) := l.map fun q => .saw q.1 q.2

/-- One clock cycle: before it the models are told what was seen in the last one. -/
def tick (b : Bench X Y O D M) (w : W O D M) : Option (W O D M) :=
  (serveAll (Y := Y) w.ref (saws w.seen)).map fun s =>
    ⟨(cycle w.mons (b.clk w.dut)).2.1, (cycle w.mons (b.clk w.dut)).1, s.1, (cycle w.mons (b.clk w.dut)).2.2, w.cycles + 1⟩

/-- A driver method. -/
def drive (b : Bench X Y O D M) : Meth Y D → W O D M → Option (Y × W O D M)
  | .ret y, w => some (y, w)
  | .read k, w => drive b (k w.dut) w
  | .write f k, w => drive b k { w with dut := f w.dut }
  | .step k, w => (tick b w).bind fun w => drive b k w

/-- A driver call: the models are told, together with what the monitors have seen; then the method runs; its result must be
what the models expect. -/
def call (b : Bench X Y O D M) (x : X) (w : W O D M) : Option (Y × W O D M) :=
  if b.refs x = [] then drive b (b.method x) w
  else
    (serveAll w.ref (saws w.seen ++ (b.refs x).map Req.called)).bind fun s =>
      (drive b (b.method x) { w with ref := s.1, seen := [] }).bind fun r =>
        if s.2.all (fun z => z.all (b.eq r.1)) then some r else none

/-- The test; `none` if a hook raises or a result is not what a model expects. -/
def play (b : Bench X Y O D M) : Tst X Y D → W O D M → Option (W O D M)
  | .ret, w => (serveAll (Y := Y) w.ref (saws w.seen)).map fun s => { w with ref := s.1, seen := [] }
  | .read k, w => play b (k w.dut) w
  | .write f k, w => play b k { w with dut := f w.dut }
  | .step k, w => (tick b w).bind fun w => play b k w
  | .call x k, w => (call b x w).bind fun r => play b (k r.1) r.2

/-- The whole test: every monitor begins with its method. -/
def spec (b : Bench X Y O D M) (d : D) (m : M) : Option (W O D M) :=
  play b b.test ⟨b.mons.map fun mo => (mo, mo.method), d, m, [], 0⟩

end Toffee.BenchAll
