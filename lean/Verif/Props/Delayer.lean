import Verif.Model.Delayer

/-!
Property C07: a `Delayer` returns the value sampled `delay` samples ago.
-/

namespace Toffee.Delayer
variable {V : Type}

/-- Invariant: the buffer holds the last `delay + 1` samples. -/
theorem values_run (delay : Nat) (hist : List V) :
    run ⟨delay, []⟩ hist = ⟨delay, hist.drop (hist.length - (delay + 1))⟩ := by
  suffices h : ∀ (rev : List V),
      run ⟨delay, []⟩ rev.reverse = ⟨delay, rev.reverse.drop (rev.length - (delay + 1))⟩ by
    have := h hist.reverse
    simpa using this
  intro rev
  induction rev with
  | nil => simp [run]
  | cons v rev ih =>
    rw [List.reverse_cons]
    simp only [run, List.foldl_append, List.foldl_cons, List.foldl_nil] at ih ⊢
    rw [ih]
    simp only [sample, List.length_drop, List.length_reverse, List.length_cons]
    congr 1
    by_cases h : delay + 1 ≤ rev.length
    · rw [if_pos (by omega), List.tail_drop, List.drop_append_of_le_length (by simp)]
      congr 2; omega
    · rw [if_neg (by omega)]
      rw [show rev.length - (delay + 1) = 0 by omega,
        show rev.length + 1 - (delay + 1) = 0 by omega]
      simp

/-- C07.  After the samples `hist` (oldest first), `value` is `None` while at most `delay` samples
were taken, and afterwards the sample taken `delay` samples before the last one. -/
theorem C07_value_is_delayed_sample (delay : Nat) (hist : List V) :
    value (run ⟨delay, []⟩ hist) =
      if hist.length ≤ delay then none else hist[hist.length - 1 - delay]? := by
  rw [values_run]
  simp only [value, List.length_drop]
  by_cases h : hist.length ≤ delay
  · rw [if_pos (by omega), if_pos h]
  · rw [if_neg (by omega), if_neg h, List.head?_drop]
    congr 1; omega

/-- C07: once enough samples exist, the value is never `None`. -/
theorem C07_value_available (delay : Nat) (hist : List V) (h : delay < hist.length) :
    value (run ⟨delay, []⟩ hist) = some (hist[hist.length - 1 - delay]'(by omega)) := by
  rw [C07_value_is_delayed_sample, if_neg (by omega), List.getElem?_eq_getElem]

/-- C07: the buffer never exceeds `delay + 1` values. -/
theorem C07_buffer_bounded (delay : Nat) (hist : List V) :
    (run ⟨delay, []⟩ hist).values.length ≤ delay + 1 := by
  rw [values_run]; simp; omega

/-- C07: a negative delay is rejected, any other starts empty. -/
theorem C07_constructor (delay : Int) :
    (delay < 0 → ∃ e, new V delay = .error e) ∧
    (0 ≤ delay → ∃ d, new V delay = .ok d ∧ (d.delay : Int) = delay ∧ value d = none) := by
  constructor
  · intro h; exact ⟨_, by unfold new; rw [if_neg (by omega)]⟩
  · intro h
    refine ⟨⟨delay.toNat, []⟩, by unfold new; rw [if_pos (by omega)], by simp; omega, ?_⟩
    simp [value]

/-- Several registered delayers do not influence each other. -/
theorem C07_delayers_independent (ds : List (Delayer V)) (sig : Nat → V) (i : Nat) :
    (processDelayers ds sig)[i]? = ds[i]?.map fun d => sample d (sig i) := by
  simp [processDelayers]

/-- Non-vacuity: delay 2 after one, three and five samples; delay 0 follows the signal. -/
example : value (run ⟨2, []⟩ [10]) = none ∧ value (run ⟨2, []⟩ [10, 11, 12]) = some 10 ∧
    value (run ⟨2, []⟩ [10, 11, 12, 13, 14]) = some 12 ∧ value (run ⟨0, []⟩ [10, 11]) = some 11 := by
  decide

end Toffee.Delayer
