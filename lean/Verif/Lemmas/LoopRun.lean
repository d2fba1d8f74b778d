import Verif.Lemmas.LoopLog
/-! Running concrete systems of the event-loop model (for witnesses and examples). -/

namespace Toffee.Loop

variable {σ G V : Type}

/-- Run `n` micro steps without due timers. -/
def iter (sys : Sys σ G V) : Nat → St σ G V → St σ G V
  | 0, s => s
  | n + 1, s => iter sys n (step sys [] s)

theorem reach_iter {sys : Sys σ G V} {g : G} {k : σ} (n : Nat) {s : St σ G V}
    (h : Reach sys g k s) : Reach sys g k (iter sys n s) := by
  induction n generalizing s with
  | zero => exact h
  | succ n ih => exact ih (.step [] h)

/-- The state in which the clock's turn calls `dut.Step(1)`, if it does. -/
def stepState (sys : Sys σ G V) (s : St σ G V) : Option (St σ G V) :=
  match s.cur, s.batch with
  | none, .clock :: rest =>
    match clockTurn sys { s with batch := rest } with
    | .inl _ => none
    | .inr s' => some s'
  | _, _ => none

theorem stepsAt_of_stepState {sys : Sys σ G V} {s s' : St σ G V}
    (h : stepState sys s = some s') : StepsAt sys s s' := by
  unfold stepState at h
  split at h
  · rename_i rest hc hb
    split at h
    · cases h
    · rename_i s1 h1
      cases h
      exact ⟨hc, rest, hb, h1⟩
  · cases h

theorem stepsAt_of_isSome {sys : Sys σ G V} {s : St σ G V}
    (h : (stepState sys s).isSome = true) : StepsAt sys s ((stepState sys s).get h) :=
  stepsAt_of_stepState (by simp)

end Toffee.Loop
