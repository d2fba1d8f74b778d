import Verif.Model.ExecutorBody
import Verif.Props.ExecutorFail

/-! Exceptions in the body of an executor block (`toffee/executor.py`): C100.

`cs` are the calls of the executor in the body, before it raised its exception. -/

namespace Toffee.Executor

variable {V : Type}

/-- Only what happens while the block waits, not calls of `wait_all()` behind it. -/
def Blocked (as : List (Act V)) : Prop := .waitAll ∉ as

/-- **C100.** The exception of the body is not swallowed: the block ends with an exception if it ends. -/
theorem C100_not_swallowed (exit : Name) (cs : List Call) (as : List (Act V)) :
    ending true (after exit cs as).phase ≠ some .normal := by
  cases (after exit cs as).phase <;> simp [ending]

/-- **C100**, provided that all coroutines that were handed over return and that there is one if the
exit mode is `"any"`: the exception of the body comes out of the block.  Whatever the schedule, only
finitely many steps are possible, and when none is possible the block has ended with it.
Missing: `exit="any"` and no coroutine yet (`C100_any_violated`), coroutines that raise
(`C100_masked`). -/
theorem C100_reaches_partial (exit : Name) (cs : List Call) (as : List (Act V)) (v : V)
    (hv : ValidExit exit) (hd : Distinct cs) (hne : exit = "any".toList → cs ≠ []) :
    ∃ n, ∀ as', Effective exit (after exit cs as) as' → as'.length ≤ n ∧
      ((∀ a, Progress a → step exit (run exit (after exit cs as) as') a =
          run exit (after exit cs as) as') →
        (∀ c, .raise c ∉ (run exit (after exit cs as) as').log) →
        ending true (run exit (after exit cs as) as').phase = some .body) := by
  obtain ⟨n, h⟩ := C68_ends_partial exit cs as v hv hd hne
  refine ⟨n, fun as' he => ⟨(h as' he).1, fun h1 h2 => ?_⟩⟩
  rw [(h as' he).2 h1 h2]
  rfl

/-- **C100.** With `exit="all"` the coroutines that were handed over before the exception are all
executed to the end first: when the exception comes out, every one of them has returned. -/
theorem C100_executes_first (cs : List Call) (as : List (Act V)) (hd : Distinct cs)
    (hw : Blocked as)
    (h : ending true (after "all".toList cs as).phase = some .body) :
    ∀ c ∈ cs, Legal c → ∃ v, .finish c.coro.id v ∈ (after "all".toList cs as).log := by
  refine (C19_results cs as hd ?_).1
  have hnw : (after "all".toList cs as).phase ≠ .waiting := by
    clear h hd
    induction as using snoc_ind with
    | h0 =>
      obtain ⟨_, _, _, _, _, _, h7⟩ := after_nil (V := V) cs (.inl rfl)
      rw [h7, if_neg (by decide)]
      simp
    | h1 as a ih =>
      have h1 : Blocked as := fun h => hw (List.mem_append_left _ h)
      have h2 : a ≠ .waitAll := fun h => hw (by rw [h]; simp)
      have ih := ih h1
      rw [after_append]
      generalize after "all".toList cs as = s at ih
      show (step _ s a).phase ≠ .waiting
      cases a with
      | waitAll => exact absurd rfl h2
      | proceed =>
        rcases proceed_cases "all".toList s with h1 | ⟨_, _, _, h1⟩ | ⟨_, _, h1⟩ |
          ⟨_, _, _, _, _, _, _, _, _, h1⟩ <;> rw [h1]
        · exact ih
        all_goals simp
      | call c => simp only [step]; split <;> exact ih
      | exit =>
        simp only [step]
        split
        · simp
        · exact ih
      | start i => simp only [step]; split <;> exact ih
      | finish i v => simp only [step]; split <;> exact ih
      | raise i => simp only [step]; split <;> exact ih
      | complete i => simp only [step]; split <;> exact ih
  cases hp : (after "all".toList cs as).phase with
  | left => rfl
  | waiting => exact absurd hp hnw
  | inside => rw [hp] at h; cases h
  | leaving => rw [hp] at h; cases h
  | error => rw [hp] at h; cases h
  | raised c => rw [hp] at h; cases h

/-- **C100.** If a coroutine raises, its exception comes out of an `Executor()` block instead of the
one of the body (Python keeps the latter as its context). -/
theorem C100_masked (cs : List Call) (as : List (Act V)) (v : V) (hd : Distinct cs) :
    ∃ n, ∀ as', Effective "all".toList (after "all".toList cs as) as' → as'.length ≤ n ∧
      ((∀ a, Progress a → step "all".toList (run "all".toList (after "all".toList cs as) as') a =
          run "all".toList (after "all".toList cs as) as') →
        Failed (run "all".toList (after "all".toList cs as) as').log →
        ∃ c, ending true (run "all".toList (after "all".toList cs as) as').phase =
          some (.coro c)) := by
  obtain ⟨n, h⟩ := C78_reported cs as v hd
  refine ⟨n, fun as' he => ⟨(h as' he).1, fun h1 h2 => ?_⟩⟩
  obtain ⟨c, hc⟩ := (h as' he).2 h1 h2
  exact ⟨c, by rw [hc]; rfl⟩

/-- **C100 is false** for `exit="any"` if the body raises before it has handed over a coroutine: the
block never ends, and the exception is never seen. -/
theorem C100_any_violated (as : List (Act V)) :
    ending true (after "any".toList [] as).phase = none := by
  rw [C68_any_violated]
  rfl

/-- Two coroutines were handed over, then the body raised: its exception comes out when both have
returned. -/
example :
    let cs : List Call := [⟨⟨0, "f".toList, none⟩, none, none, none⟩, ⟨⟨1, "g".toList, none⟩, none, none, none⟩]
    let as : List (Act Nat) :=
      [.start 0, .start 1, .finish 1 7, .complete 1, .finish 0 8, .complete 0, .proceed]
    Distinct cs ∧ Blocked as ∧
      ending true (after "all".toList cs (as.take 6)).phase = none ∧
      ending true (after "all".toList cs as).phase = some .body ∧
      (∀ c, .raise c ∉ (after "all".toList cs as).log) := by
  refine ⟨by unfold Distinct; decide, by simp [Blocked], by decide +kernel, by decide +kernel, ?_⟩
  intro c
  have : (after "all".toList [⟨⟨0, "f".toList, none⟩, none, none, none⟩, ⟨⟨1, "g".toList, none⟩, none, none, none⟩]
      ([.start 0, .start 1, .finish 1 7, .complete 1, .finish 0 8, .complete 0, .proceed] :
        List (Act Nat))).log = [.start 0, .start 1, .finish 1 7, .finish 0 8] := by decide +kernel
  rw [this]
  simp

end Toffee.Executor
