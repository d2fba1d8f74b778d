import Verif.Model.TwoBits

/-!
Property C03: the two-bit saturating counter.
-/

namespace Toffee.TwoBits

/-- C03, range: the counter stays in `0..3`. -/
theorem C03_range (init : Int) (h0 : 0 ≤ init) (h3 : init ≤ 3) (hist : List Bool) :
    0 ≤ run init hist ∧ run init hist ≤ 3 := by
  induction hist generalizing init with
  | nil => exact ⟨h0, h3⟩
  | cons t hist ih =>
    have : 0 ≤ update init t ∧ update init t ≤ 3 := by
      unfold update; split <;> omega
    exact ih _ this.1 this.2

/-- C03: two consecutive equal outcomes force the prediction to that outcome. -/
theorem C03_two_equal_outcomes_decide (init : Int) (h0 : 0 ≤ init) (h3 : init ≤ 3)
    (hist : List Bool) (t : Bool) :
    prediction (run init (hist ++ [t, t])) = t.toNat := by
  have ⟨a, b⟩ := C03_range init h0 h3 hist
  simp only [run, List.foldl_append] at *
  generalize hist.foldl update init = c at *
  cases t
  · simp [update, prediction]; omega
  · simp [update, prediction]; omega

/-- C03: in a strong state (three equal outcomes in a row seen, or counter 0/3), one opposite
outcome does not change the prediction. -/
theorem C03_strong_state_hysteresis (c : Int) (h : c = 0 ∨ c = 3) (t : Bool) :
    prediction (update c t) = prediction c := by
  rcases h with rfl | rfl <;> cases t <;> decide

/-- C03: a run of three equal outcomes reaches the corresponding strong state, and further equal
outcomes stay there. -/
theorem C03_three_equal_outcomes_saturate (init : Int) (h0 : 0 ≤ init) (h3 : init ≤ 3)
    (hist : List Bool) (t : Bool) (k : Nat) :
    run init (hist ++ List.replicate (k + 3) t) = if t then 3 else 0 := by
  have ⟨a, b⟩ := C03_range init h0 h3 hist
  simp only [run, List.foldl_append] at *
  generalize hist.foldl update init = c at *
  induction k with
  | zero =>
    cases t <;> simp [List.replicate, update] <;> omega
  | succ k ih =>
    rw [show k + 1 + 3 = (k + 3) + 1 by omega, List.replicate_succ', List.foldl_append, ih]
    cases t <;> decide

/-- C03: the prediction is taken exactly in the upper half of the range. -/
theorem C03_prediction_values (c : Int) (h0 : 0 ≤ c) (h3 : c ≤ 3) :
    (prediction c = 1 ↔ c = 2 ∨ c = 3) ∧ (prediction c = 0 ↔ c = 0 ∨ c = 1) := by
  unfold prediction; split <;> constructor <;> constructor <;> intro _ <;> first | omega | rfl

/-- C03, single steps: an outcome moves the counter by one towards its side unless saturated. -/
theorem C03_moves_by_one (c : Int) (h0 : 0 ≤ c) (h3 : c ≤ 3) :
    (c < 3 → update c true = c + 1) ∧ (c = 3 → update c true = 3) ∧
    (0 < c → update c false = c - 1) ∧ (c = 0 → update c false = 0) := by
  unfold update; refine ⟨?_, ?_, ?_, ?_⟩ <;> intro _ <;> simp <;> omega

/-- Non-vacuity: the default initial value 2 is admissible and all four states are reachable. -/
example : (0 : Int) ≤ 2 ∧ (2 : Int) ≤ 3 ∧ run 2 [true] = 3 ∧ run 2 [] = 2 ∧ run 2 [false] = 1 ∧
    run 2 [false, false] = 0 := by decide

end Toffee.TwoBits
