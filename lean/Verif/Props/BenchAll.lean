import Verif.Lemmas.BenchAllBegin

/-! C124: the verdict of a whole test run with drivers and monitors.  The specification (`spec`, without event loop and tasks)
is in `Verif.Lemmas.BenchAllSpec`. -/

namespace Toffee.BenchAll

open Toffee.Loop
open Toffee.Bench (runFor)

variable {X Y O D M : Type}

/-- **C124.** If no hook raises and every result of a driver is what the models expect, the run comes to its end and passes,
whatever the timers do.  Every hook has run, also those for what the monitors saw in the cycle in which the test returned;
the DUT has got the cycles of the test and two more. -/
theorem C124_pass (b : Bench X Y O D M) (d : D) (m : M) (due : Nat → List Nat) (w : W O D M) (h : spec b d m = some w) :
    ∃ n, ∀ k, n ≤ k →
      Passes (runFor (sys b) due (start d m) k) ∧
      (runFor (sys b) due (start d m) k).g.dut = b.clk (b.clk w.dut) ∧
      (runFor (sys b) due (start d m) k).g.ref = w.ref ∧
      (runFor (sys b) due (start d m) k).cycles = w.cycles + 2 := by
  obtain ⟨n, hn⟩ := whole_run b d m due
  refine ⟨n, fun k hk => ?_⟩
  have := hn k hk
  rw [h] at this
  exact this

/-- **C124.** If a hook raises, or a driver has a result a model does not expect, be it the last one of the test, then the run
comes to its end and fails, whatever the timers do. -/
theorem C124_fail (b : Bench X Y O D M) (d : D) (m : M) (due : Nat → List Nat) (h : spec b d m = none) :
    ∃ n, ∀ k, n ≤ k → Fails (runFor (sys b) due (start d m) k) := by
  obtain ⟨n, hn⟩ := whole_run b d m due
  refine ⟨n, fun k hk => ?_⟩
  have := hn k hk
  rw [h] at this
  exact this

/-- **C124.** The verdict is right. -/
theorem C124_verdict (b : Bench X Y O D M) (d : D) (m : M) (due : Nat → List Nat) :
    (∃ n, Passes (runFor (sys b) due (start d m) n)) ↔ ∃ w, spec b d m = some w := by
  constructor
  · rintro ⟨n, hn⟩
    cases h : spec b d m with
    | some r => exact ⟨r, rfl⟩
    | none =>
      exfalso
      obtain ⟨n', hn'⟩ := C124_fail b d m due h
      have h1 := hn' (max n n') (by omega)
      rw [LoopStutter.stay _ _ _ n hn.1 _ (by omega)] at h1
      have := h1.2.1
      rw [hn.2.1] at this
      cases this
  · rintro ⟨w, h⟩
    obtain ⟨n, hn⟩ := C124_pass b d m due w h
    exact ⟨n, (hn n (Nat.le_refl n)).1⟩

/-! ### Checking does not change what is checked -/

/-- A method that only looks at the pins. -/
def Looks : Meth Y D → Prop
  | .ret _ => True
  | .read k => ∀ d, Looks (k d)
  | .write _ _ => False
  | .step k => Looks k

/-- What a driver method does to the DUT, and how long it takes. -/
def runMeth (clk : D → D) : Meth Y D → D × Nat → Y × D × Nat
  | .ret y, s => (y, s)
  | .read k, s => runMeth clk (k s.1) s
  | .write f k, s => runMeth clk k (f s.1, s.2)
  | .step k, s => runMeth clk k (clk s.1, s.2 + 1)

/-- What a test does to the DUT, and how long it takes. -/
def runTest (clk : D → D) (method : X → Meth Y D) : Tst X Y D → D × Nat → D × Nat
  | .ret, s => s
  | .read k, s => runTest clk method (k s.1) s
  | .write f k, s => runTest clk method k (f s.1, s.2)
  | .step k, s => runTest clk method k (clk s.1, s.2 + 1)
  | .call x k, s => runTest clk method (k (runMeth clk (method x) s).1) (runMeth clk (method x) s).2

theorem upto_looks {R : Type} (p : Meth R D) : Looks p → ∀ d : D, (upto p d).1 = d ∧ ∀ q, (upto p d).2 = .inr q → Looks q := by
  induction p with
  | ret y => intro _ d; exact ⟨rfl, fun q h => by cases h⟩
  | read k ih => intro h d; exact ih d (h d) d
  | write f k ih => intro h; exact h.elim
  | step k ih => intro h d; refine ⟨rfl, fun q hq => ?_⟩; cases hq; exact h

/-- Monitors that only look, wherever they are. -/
def AllLook (l : List (Mon O D M × Meth (Option O) D)) : Prop := ∀ q ∈ l, Looks q.1.method ∧ Looks q.2

theorem watch_looks (mo : Mon O D M) (k : Meth (Option O) D) (h1 : Looks mo.method) (h2 : Looks k) (d : D) :
    (watch mo k d).1 = d ∧ Looks (watch mo k d).2.1 := by
  have h := upto_looks k h2 d
  unfold watch
  revert h
  cases upto k d with
  | mk d' r =>
    rintro ⟨h3, h4⟩
    match r, h4 with
    | .inl none, _ => exact ⟨h3, h1⟩
    | .inl (some y), _ => exact ⟨h3, h1⟩
    | .inr k', h4 => exact ⟨h3, h4 k' rfl⟩

theorem cycle_looks (l : List (Mon O D M × Meth (Option O) D)) : AllLook l → ∀ d, (cycle l d).1 = d ∧ AllLook (cycle l d).2.1 := by
  induction l with
  | nil => intro _ d; exact ⟨rfl, fun q h => by cases h⟩
  | cons q l ih =>
    intro h d
    have hq := h q (List.mem_cons_self ..)
    have h1 := watch_looks q.1 q.2 hq.1 hq.2 d
    have h2 := ih (fun q' h' => h q' (List.mem_cons_of_mem _ h')) d
    simp only [cycle, h1.1]
    refine ⟨h2.1, fun q' h' => ?_⟩
    rcases List.mem_cons.1 h' with h' | h'
    · rw [h']; exact ⟨hq.1, h1.2⟩
    · exact h2.2 q' h'

theorem tick_looks {b : Bench X Y O D M} {w w' : W O D M} (h : AllLook w.mons) (ht : tick b w = some w') :
    AllLook w'.mons ∧ (w'.dut, w'.cycles) = (b.clk w.dut, w.cycles + 1) := by
  unfold tick at ht
  cases hs : serveAll (Y := Y) w.ref (saws w.seen) with
  | none => rw [hs] at ht; cases ht
  | some s =>
    rw [hs] at ht
    cases ht
    have := cycle_looks w.mons h (b.clk w.dut)
    exact ⟨this.2, by rw [this.1]⟩

theorem drive_looks {b : Bench X Y O D M} (p : Meth Y D) : ∀ {w : W O D M} {r : Y × W O D M}, AllLook w.mons →
    drive b p w = some r → AllLook r.2.mons ∧ (r.1, r.2.dut, r.2.cycles) = runMeth b.clk p (w.dut, w.cycles) := by
  induction p with
  | ret y => intro w r h hd; cases hd; exact ⟨h, rfl⟩
  | read k ih => intro w r h hd; exact ih w.dut h hd
  | write f k ih => intro w r h hd; exact ih (w := { w with dut := f w.dut }) h hd
  | step k ih =>
    intro w r h hd
    simp only [drive] at hd
    cases ht : tick b w with
    | none => rw [ht] at hd; cases hd
    | some w' =>
      rw [ht] at hd
      obtain ⟨h1, h2⟩ := tick_looks h ht
      have := ih h1 hd
      rw [h2] at this
      exact this

theorem call_looks {b : Bench X Y O D M} {x : X} {w : W O D M} {r : Y × W O D M} (h : AllLook w.mons) (hc : call b x w = some r) :
    AllLook r.2.mons ∧ (r.1, r.2.dut, r.2.cycles) = runMeth b.clk (b.method x) (w.dut, w.cycles) := by
  unfold call at hc
  split at hc
  · exact drive_looks _ h hc
  · cases hs : serveAll w.ref (saws w.seen ++ (b.refs x).map Req.called) with
    | none => rw [hs] at hc; cases hc
    | some s =>
      rw [hs, Option.bind_some] at hc
      cases hd : drive b (b.method x) { w with ref := s.1, seen := [] } with
      | none => rw [hd] at hc; cases hc
      | some r' =>
        rw [hd, Option.bind_some] at hc
        split at hc
        · cases hc
          exact drive_looks (w := { w with ref := s.1, seen := [] }) _ h hd
        · cases hc

theorem play_looks {b : Bench X Y O D M} (t : Tst X Y D) : ∀ {w w' : W O D M}, AllLook w.mons → play b t w = some w' →
    (w'.dut, w'.cycles) = runTest b.clk b.method t (w.dut, w.cycles) := by
  induction t with
  | ret =>
    intro w w' h hp
    simp only [play] at hp
    cases hs : serveAll (Y := Y) w.ref (saws w.seen) with
    | none => rw [hs] at hp; cases hp
    | some s => rw [hs] at hp; cases hp; rfl
  | read k ih => intro w w' h hp; exact ih w.dut h hp
  | write f k ih => intro w w' h hp; exact ih (w := { w with dut := f w.dut }) h hp
  | step k ih =>
    intro w w' h hp
    simp only [play] at hp
    cases ht : tick b w with
    | none => rw [ht] at hp; cases hp
    | some w1 =>
      rw [ht] at hp
      obtain ⟨h1, h2⟩ := tick_looks h ht
      have := ih h1 hp
      rw [h2] at this
      exact this
  | call x k ih =>
    intro w w' h hp
    simp only [play] at hp
    cases hc : call b x w with
    | none => rw [hc] at hp; cases hp
    | some r =>
      rw [hc] at hp
      obtain ⟨h1, h2⟩ := call_looks h hc
      have := ih r.1 h1 hp
      simp only [runTest, ← h2]
      exact this

/-- **C124.** Checking does not change what is checked: if the monitors only look at the pins, then in a run that passes the
DUT has got just the inputs and clock cycles of the test and of the driver methods, and two clock cycles more, whatever
models and monitors there are. -/
theorem C124_undisturbed (b : Bench X Y O D M) (d : D) (m : M) (due : Nat → List Nat) (hl : ∀ mo ∈ b.mons, Looks mo.method) (n : Nat)
    (h : Passes (runFor (sys b) due (start d m) n)) :
    (runFor (sys b) due (start d m) n).g.dut = b.clk (b.clk (runTest b.clk b.method b.test (d, 0)).1) ∧
    (runFor (sys b) due (start d m) n).cycles = (runTest b.clk b.method b.test (d, 0)).2 + 2 := by
  obtain ⟨w, hw⟩ := (C124_verdict b d m due).1 ⟨n, h⟩
  obtain ⟨n', hn'⟩ := C124_pass b d m due w hw
  have h1 := hn' (max n n') (by omega)
  rw [LoopStutter.stay _ _ _ n h.1 _ (by omega)] at h1
  have h2 := play_looks b.test (w := ⟨b.mons.map fun mo => (mo, mo.method), d, m, [], 0⟩) (fun q hq => by
    obtain ⟨mo, hmo, rfl⟩ := List.mem_map.1 hq
    exact ⟨hl mo hmo, hl mo hmo⟩) hw
  dsimp only at h2
  rw [← h2]
  exact ⟨h1.2.1, h1.2.2.2⟩

/-! ### Examples -/

/-- A queue with a delay: input, whether it is to be taken, and what is on its way. -/
abbrev ExD := Option Nat × List Nat × Option Nat

/-- What is put in comes out two cycles later. -/
def exClk (d : ExD) : ExD := (none, d.1.toList, d.2.1.head?)

/-- `put(v)`: drives the input and waits for one cycle; returns what comes out. -/
def exPut (v : Nat) : Meth (Option Nat) ExD := .write (fun d => (some v, d.2)) (.step (.read fun d => .ret d.2.2))

/-- The model: what is still to come out.  `put` adds to it; the driver's result is not compared. -/
def exRef (v : Nat) : Ref (Option Nat) (List Nat) := ⟨fun m => (m ++ [v], none), fun _ => false, 0⟩

/-- A monitor of the output; its hook takes what it is given from the list and raises if it is something else. -/
def exMon : Mon Nat ExD (List Nat) :=
  ⟨.read fun d => .ret d.2.2, [⟨fun m _ => m.tail, fun m v => m.head? != some v, 1⟩]⟩

def exTest : Tst Nat (Option Nat) ExD := .call 7 fun _ => .call 8 fun y => if y = some 7 then .step .ret else .ret

def exBench (clk : ExD → ExD) : Bench Nat (Option Nat) Nat ExD (List Nat) := ⟨clk, exPut, fun v => [exRef v], fun a b => a == b, [exMon], exTest⟩

/-- All of it comes out, and the model has nothing left to expect; the last value is seen in the cycle in which the test
returns. -/
example : spec (exBench exClk) (none, [], none) [] = some ⟨[(exMon, exMon.method)], (none, [], some 8), [], [], 3⟩ := by
  simp [spec, exBench, exTest, play, call, drive, tick, serveAll, saws, serve, exPut, exRef, exMon, exClk, cycle, watch, upto]

/-- A queue that gives the second value wrong. -/
example : spec (exBench fun d => exClk (d.1, d.2.1.map (fun v => if v = 8 then 9 else v), d.2.2)) (none, [], none) [] = none := by
  simp [spec, exBench, exTest, play, call, drive, tick, serveAll, saws, serve, exPut, exRef, exMon, exClk, cycle, watch, upto]

/-- A model that says what `put` is to return: the last `put` is the one that differs. -/
example : ∀ v, (spec (O := Nat) { exBench exClk with
      refs := fun v => [⟨fun m => (m, some (if v = 8 then m.head? else none)), fun _ => false, 0⟩, exRef v], mons := [] }
    (none, [], none) [v]).isSome = (v == 7) := by
  intro v
  by_cases h : v = 7 <;>
  simp [h, eq_comm (a := 7), spec, exBench, exTest, play, call, drive, tick, serveAll, saws, serve, exPut, exRef, exClk, cycle, List.mergeSort, Req.prio]

example : ∀ mo ∈ (exBench exClk).mons, Looks mo.method := by simp [exBench, exMon, Looks]

example : runTest exClk exPut exTest (((none, [], none) : ExD), 0) = ((none, [], some 8), 3) := by
  simp [runTest, runMeth, exTest, exPut, exClk]

end Toffee.BenchAll
