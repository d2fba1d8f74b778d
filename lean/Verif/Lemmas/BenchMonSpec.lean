import Verif.Model.BenchMon

/-! What a test run with monitors is about, without the event loop and without tasks: the specification of C122. -/

namespace Toffee.BenchMon

variable {Y D M : Type}

/-- A method up to where it returns or waits for the next clock cycle. -/
def upto {R : Type} : Meth R D → D → D × (R ⊕ Meth R D)
  | .ret y, d => (d, .inl y)
  | .read k, d => upto (k d) d
  | .write f k, d => upto k (f d)
  | .step k, d => (d, .inr k)

/-- What a monitor does in one clock cycle: the pins, how it goes on in the next cycle, and the checks it asks for. -/
def watch (mo : Mon Y D M) (k : Meth (Option Y) D) (d : D) : D × Meth (Option Y) D × List (Y × Chk Y M) :=
  match upto k d with
  | (d', .inl none) => (d', mo.method, [])
  | (d', .inl (some y)) => (d', mo.method, mo.hooks.map fun c => (y, c))
  | (d', .inr k') => (d', k', [])

/-- The monitors in one clock cycle, in the order in which they were created. -/
def cycle : List (Mon Y D M × Meth (Option Y) D) → D →
    D × List (Mon Y D M × Meth (Option Y) D) × List (Y × Chk Y M)
  | [], d => (d, [], [])
  | q :: l, d =>
    ((cycle l (watch q.1 q.2 d).1).1, (q.1, (watch q.1 q.2 d).2.1) :: (cycle l (watch q.1 q.2 d).1).2.1,
      (watch q.1 q.2 d).2.2 ++ (cycle l (watch q.1 q.2 d).1).2.2)

/-- The checks of one clock cycle, by priority; `none` if one of them raises. -/
def checks (m : M) (l : List (Y × Chk Y M)) : Option M :=
  (l.mergeSort fun a a' => decide (a.2.prio ≤ a'.2.prio)).foldlM
    (fun m q => if q.2.fails m q.1 then none else some (q.2.run m q.1)) m

/-- The test: the pins and the reference models when it returns, and the clock cycles it takes; `none` if a check
raises. -/
def play (clk : D → D) : Meth Unit D → List (Mon Y D M × Meth (Option Y) D) → D → M → Option (D × M × Nat)
  | .ret _, _, d, m => some (d, m, 0)
  | .read k, ms, d, m => play clk (k d) ms d m
  | .write f k, ms, d, m => play clk k ms (f d) m
  | .step k, ms, d, m =>
    match checks m (cycle ms (clk d)).2.2 with
    | none => none
    | some m' => (play clk k (cycle ms (clk d)).2.1 (cycle ms (clk d)).1 m').map fun r => (r.1, r.2.1, r.2.2 + 1)

/-- The whole test: every monitor begins with its method. -/
def spec (b : Bench Y D M) (d : D) (m : M) : Option (D × M × Nat) :=
  play b.clk b.test (b.mons.map fun mo => (mo, mo.method)) d m

end Toffee.BenchMon
