import Verif.Lemmas.BenchMonBegin

/-! C122: the verdict of a whole test run with monitors.  The specification (`spec`, without event loop and tasks) is in
`Verif.Lemmas.BenchMonSpec`. -/

namespace Toffee.BenchMon

open Toffee.Loop
open Toffee.Bench (runFor)

variable {Y D M : Type}

/-- **C122.** If no check raises, the run comes to its end and passes, whatever the timers do.  Every monitor has run in
every clock cycle of the test; every check has been made, also those of the cycle in which the test returned; the DUT has
got the cycles of the test and two more. -/
theorem C122_pass (b : Bench Y D M) (d : D) (m : M) (due : Nat → List Nat) (d' : D) (m' : M) (c : Nat)
    (h : spec b d m = some (d', m', c)) :
    ∃ n, ∀ k, n ≤ k →
      Passes (runFor (sys b) due (start d m) k) ∧
      (runFor (sys b) due (start d m) k).g.dut = b.clk (b.clk d') ∧
      (runFor (sys b) due (start d m) k).g.ref = m' ∧
      (runFor (sys b) due (start d m) k).cycles = c + 2 := by
  obtain ⟨n, hn⟩ := whole_run b d m due
  refine ⟨n, fun k hk => ?_⟩
  have := hn k hk
  rw [h] at this
  obtain ⟨h1, h2, h3, h4⟩ := this
  exact ⟨h1, h2, h3, by rw [h4]; show 0 + c + 2 = c + 2; omega⟩

/-- **C122.** If a check raises, be it in the cycle in which the test returned, the run comes to its end and fails, whatever
the timers do. -/
theorem C122_fail (b : Bench Y D M) (d : D) (m : M) (due : Nat → List Nat) (h : spec b d m = none) :
    ∃ n, ∀ k, n ≤ k → Fails (runFor (sys b) due (start d m) k) := by
  obtain ⟨n, hn⟩ := whole_run b d m due
  refine ⟨n, fun k hk => ?_⟩
  have := hn k hk
  rw [h] at this
  exact this

/-- **C122.** The verdict is right: the run passes if and only if no check raises. -/
theorem C122_verdict (b : Bench Y D M) (d : D) (m : M) (due : Nat → List Nat) :
    (∃ n, Passes (runFor (sys b) due (start d m) n)) ↔ ∃ r, spec b d m = some r := by
  constructor
  · rintro ⟨n, hn⟩
    cases h : spec b d m with
    | some r => exact ⟨r, rfl⟩
    | none =>
      exfalso
      obtain ⟨n', hn'⟩ := C122_fail b d m due h
      have h1 := hn' (max n n') (by omega)
      rw [LoopStutter.stay _ _ _ n hn.1 _ (by omega)] at h1
      have := h1.2.1
      rw [hn.2.1] at this
      cases this
  · rintro ⟨⟨d', m', c⟩, h⟩
    obtain ⟨n, hn⟩ := C122_pass b d m due d' m' c h
    exact ⟨n, (hn n (Nat.le_refl n)).1⟩

/-! ### Monitors that look at the pins once in every cycle -/

/-- The DUT right after each clock step the test waits for. -/
def states (clk : D → D) : Meth Unit D → D → List D
  | .ret _, _ => []
  | .read k, d => states clk (k d) d
  | .write f k, d => states clk k (f d)
  | .step k, d => clk d :: states clk k (clk d)

/-- `@monitor_method async def f(self): return ...`: the value of the cycle, `None` if there is none. -/
def sampler (f : D → Option Y) (hooks : List (Chk Y M)) : Mon Y D M := ⟨.read fun d => .ret (f d), hooks⟩

/-- What the monitors see in a cycle, each value with each check for it. -/
def seen (qs : List ((D → Option Y) × List (Chk Y M))) (d : D) : List (Y × Chk Y M) :=
  qs.flatMap fun q => match q.1 d with
    | some y => q.2.map fun c => (y, c)
    | none => []

theorem cycle_samplers (qs : List ((D → Option Y) × List (Chk Y M))) (d : D) :
    cycle (qs.map fun q => (sampler q.1 q.2, (sampler q.1 q.2).method)) d =
      (d, qs.map fun q => (sampler q.1 q.2, (sampler q.1 q.2).method), seen qs d) := by
  induction qs with
  | nil => rfl
  | cons q qs ih =>
    have hw : watch (sampler q.1 q.2) (sampler q.1 q.2).method d = (d, (sampler q.1 q.2).method,
        match q.1 d with
        | some y => q.2.map fun c => (y, c)
        | none => []) := by
      simp only [watch, sampler, upto]
      cases q.1 d <;> rfl
    simp only [List.map_cons, cycle, hw, ih, seen, List.flatMap_cons]

theorem play_samplers (clk : D → D) (qs : List ((D → Option Y) × List (Chk Y M))) (test : Meth Unit D) : ∀ (d : D) (m : M),
    (∀ m', (states clk test d).foldlM (fun m d => checks m (seen qs d)) m = some m' →
      ∃ d', play clk test (qs.map fun q => (sampler q.1 q.2, (sampler q.1 q.2).method)) d m =
        some (d', m', (states clk test d).length)) ∧
    ((states clk test d).foldlM (fun m d => checks m (seen qs d)) m = none →
      play clk test (qs.map fun q => (sampler q.1 q.2, (sampler q.1 q.2).method)) d m = none) := by
  induction test with
  | ret u =>
    intro d m
    refine ⟨fun m' h => ⟨d, ?_⟩, fun h => by cases h⟩
    cases h; rfl
  | read k ih => intro d m; exact ih d d m
  | write f k ih => intro d m; exact ih (f d) m
  | step k ih =>
    intro d m
    simp only [states, List.foldlM_cons, play, cycle_samplers, List.length_cons]
    cases h1 : checks m (seen qs (clk d)) with
    | none => exact ⟨fun m' h => (by cases h), fun _ => rfl⟩
    | some m1 =>
      refine ⟨fun m' h => ?_, fun h => ?_⟩
      · obtain ⟨d', h2⟩ := (ih (clk d) m1).1 m' h
        exact ⟨d', by dsimp only; rw [h2]; rfl⟩
      · dsimp only
        rw [(ih (clk d) m1).2 h]; rfl

/-- **C122.** Monitors that look at the pins once in every cycle: the checks get what the monitors see right after each
clock step the test waits for, every cycle once, in order, none left out, none after the test has returned. -/
theorem C122_samples (clk : D → D) (qs : List ((D → Option Y) × List (Chk Y M))) (test : Meth Unit D) (d : D) (m : M)
    (due : Nat → List Nat) :
    ∃ n, ∀ k, n ≤ k →
      match (states clk test d).foldlM (fun m d => checks m (seen qs d)) m with
      | none => Fails (runFor (sys ⟨clk, qs.map fun q => sampler q.1 q.2, test⟩) due (start d m) k)
      | some m' =>
        Passes (runFor (sys ⟨clk, qs.map fun q => sampler q.1 q.2, test⟩) due (start d m) k) ∧
        (runFor (sys ⟨clk, qs.map fun q => sampler q.1 q.2, test⟩) due (start d m) k).g.ref = m' ∧
        (runFor (sys ⟨clk, qs.map fun q => sampler q.1 q.2, test⟩) due (start d m) k).cycles =
          (states clk test d).length + 2 := by
  have hs : spec ⟨clk, qs.map fun q => sampler q.1 q.2, test⟩ d m =
      play clk test (qs.map fun q => (sampler q.1 q.2, (sampler q.1 q.2).method)) d m := by
    simp only [spec, List.map_map, Function.comp_def]
  cases h : (states clk test d).foldlM (fun m d => checks m (seen qs d)) m with
  | none => exact C122_fail _ d m due (by rw [hs]; exact (play_samplers clk qs test d m).2 h)
  | some m' =>
    obtain ⟨d', h1⟩ := (play_samplers clk qs test d m).1 m' h
    obtain ⟨n, hn⟩ := C122_pass _ d m due d' m' _ (hs.trans h1)
    exact ⟨n, fun k hk => ⟨(hn k hk).1, (hn k hk).2.2.1, (hn k hk).2.2.2⟩⟩

/-- A hook that writes down what it is given. -/
def recorder : Chk Y (List Y) := ⟨fun l y => l ++ [y], fun _ _ => false, 0⟩

/-- **C122.** In particular a hook that writes down what it is given ends up with the values of all cycles of the test. -/
theorem C122_recorded (clk : D → D) (f : D → Option Y) (test : Meth Unit D) (d : D) (due : Nat → List Nat) :
    ∃ n, ∀ k, n ≤ k →
      Passes (runFor (sys ⟨clk, [sampler f [recorder]], test⟩) due (start d []) k) ∧
      (runFor (sys ⟨clk, [sampler f [recorder]], test⟩) due (start d []) k).g.ref = (states clk test d).filterMap f := by
  have key : ∀ (ds : List D) (l : List Y),
      ds.foldlM (fun m d => checks m (seen [(f, [recorder])] d)) l = some (l ++ ds.filterMap f) := by
    intro ds
    induction ds with
    | nil => intro l; simp
    | cons a ds ih =>
      intro l
      rw [List.foldlM_cons]
      cases h : f a with
      | none =>
        have : checks l (seen [(f, [recorder])] a) = some l := by simp [checks, seen, h]
        rw [this]
        simpa [List.filterMap_cons, h] using ih l
      | some y =>
        have : checks l (seen [(f, [recorder])] a) = some (l ++ [y]) := by simp [checks, seen, h, recorder]
        rw [this]
        simpa [List.filterMap_cons, h] using ih (l ++ [y])
  obtain ⟨n, hn⟩ := C122_samples clk [(f, [recorder])] test d ([] : List Y) due
  rw [key] at hn
  exact ⟨n, fun k hk => ⟨(hn k hk).1, (hn k hk).2.1⟩⟩

/-! ### Examples -/

/-- A counter with an enable pin: (enable, count). -/
def exClk (d : Bool × Nat) : Bool × Nat := (d.1, if d.1 then d.2 + 1 else d.2)

/-- The test enables the counter for two cycles, waits once more, and lets it count once again just before it returns. -/
def exTest : Meth Unit (Bool × Nat) :=
  .write (fun d => (true, d.2)) (.step (.step (.write (fun d => (false, d.2)) (.step
    (.write (fun d => (true, d.2)) (.step (.ret ())))))))

/-- The count, in cycles in which the counter is enabled; it must be one more than last time. -/
def exChk : Chk Nat Nat := ⟨fun _ y => y, fun m y => y != m + 1, 0⟩

def exMon : Mon Nat (Bool × Nat) Nat := sampler (fun d => if d.1 then some d.2 else none) [exChk]

/-- A monitor that takes two cycles, with two hooks; the one requested first runs last. -/
def exSlow : Mon Nat (Bool × Nat) Nat :=
  ⟨.read fun d => .step (.read fun d' => .ret (if d.2 = d'.2 then none else some 0)),
    [⟨fun m _ => m, fun m _ => decide (m < 103), 1⟩, ⟨fun m _ => m + 100, fun _ _ => false, 0⟩]⟩

set_option maxRecDepth 4000 in
example : spec ⟨exClk, [exMon], exTest⟩ (false, 0) 0 = some ((true, 3), 3, 4) := by
  simp [spec, play, exTest, exClk, cycle, watch, upto, exMon, sampler, exChk, checks]

/-- The counter skips a value, in the last cycle of the test. -/
example : spec ⟨fun d => if d.2 = 2 then (exClk (exClk d)) else exClk d, [exMon], exTest⟩ (false, 0) 0 = none := by
  simp [spec, play, exTest, exClk, cycle, watch, upto, exMon, sampler, exChk, checks]

example : spec ⟨exClk, [exSlow], exTest⟩ (false, 0) 3 = some ((true, 3), 203, 4) ∧
    spec ⟨exClk, [exSlow], exTest⟩ (false, 0) 2 = none := by
  simp [spec, play, exTest, exClk, cycle, watch, upto, exSlow, checks, List.mergeSort]

example : states exClk exTest (false, 0) = [(true, 1), (true, 2), (false, 2), (true, 3)] := by
  simp [states, exTest, exClk]

end Toffee.BenchMon
