import Verif.Props.LoopHookFail
import Verif.Lemmas.LoopRun
/-!
C73: tests in one process are independent: a hook requested in one `toffee.run` is not executed in
a later one.
-/

namespace Toffee.Props.LoopRuns

open Toffee.Loop Toffee.Props.LoopEnd Toffee.Props.LoopFail Toffee.Props.LoopHookFail

variable {σ G V : Type}

/-- C73, part: if the test returns (task `main_coro` reaches `ret` in `s0`) and a clock was started,
then at the end of the run nothing is left behind, and the next run starts like the first one of a
process.  Missing with respect to the full statement: runs without a clock
(`C73_no_clock_violated`) and runs that end with an exception (`C73_abort_violated`). -/
theorem C73_clean_partial (sys : Sys σ G V) (g g' : G) (k0 k k' : σ) (s0 s : St σ G V) (v : V)
    (hp : ClockPrivate sys) (h0 : Reach sys g k0 s0) (hc : s0.cur = some (0, k))
    (hret : sys.prog k s0.g = .ret v) (hclk : s0.clock ≠ .off) (due : List Nat)
    (hpath : Path sys (step sys due s0) s) (hna : s.aborted = false) (hh : halted s) :
    s.hooks = [] ∧ nextRun s g' k' = { init g' k' with nextHook := s.nextHook } := by
  suffices h : s.hooks = [] from ⟨h, by unfold nextRun; rw [h]; rfl⟩
  obtain ⟨b, rk, hl, hph⟩ := path_phase hp h0 hc hret hclk due hpath hna
  have hr : Reach sys g k0 s := hpath.reach (.step due h0)
  obtain ⟨hs, _, hb⟩ := hh
  generalize hm : marks b = m at hph
  have hns := reach_noStop hr hna
  cases hph with
  | p1 h =>
    rcases hns with h' | h'
    · rw [h] at h'; cases h'
    · rw [h'.2] at hs; cases hs
  | p1a F hr => exact hr.hooks
  | p1b F F' hr => exact hr.hooks
  | p2a hr => exact hr.hooks
  | p2b F F' hr => exact hr.hooks
  | p3 F' hr => exact hr.hooks
  | p4a hr => exact hr.hooks
  | p4b F F' hr => exact hr.hooks
  | p5 F' hr => exact hr.hooks
  | p6 hr => exact hr.hooks

/-! ### Runs after one in which a hook raised -/

/-- One of the remaining hooks raises whatever happens, and the clock is not past the hooks. -/
structure Poisoned (s : St σ G V) : Prop where
  hook : ∃ h ∈ s.hooks, ∀ g, h.1.2.fails g = true
  clock : s.clock ≠ .afterCancel

theorem Poisoned.keep {s s' : St σ G V} (h : Poisoned s) (hh : ∀ x ∈ s.hooks, x ∈ s'.hooks)
    (hc : s'.clock ≠ .afterCancel) : Poisoned s' := by
  obtain ⟨x, hx, hf⟩ := h.hook
  exact ⟨⟨x, hh x hx, hf⟩, hc⟩

theorem Poisoned.neutral {s s' : St σ G V} (h : Poisoned s) (hn : Neutral s s') :
    Poisoned s' ∧ s'.cycles = s.cycles := by
  refine ⟨h.keep (by rw [hn.hooks]; exact fun _ h => h) ?_, hn.cycles⟩
  rcases hn.clk with h1 | ⟨_, h1⟩
  · rw [h1]; exact h.clock
  · rw [h1]; simp

/-- Some hook raises in every round. -/
theorem poisoned_raising {s : St σ G V} (h : Poisoned s) (l : List Nat) :
    raising (Priority.sorted s.hooks) l s ≠ none := by
  intro hn
  obtain ⟨x, hx, hf⟩ := h.hook
  obtain ⟨pre, post, hs⟩ := List.append_of_mem (Priority.mem_sorted.2 hx)
  have := raising_none hn hs
  rw [hf] at this
  cases this

theorem spend_poisoned {hs : List ((Nat × Hook σ G V) × Int)} (ran : List Nat)
    (h : ∃ x ∈ hs, ∀ g, x.1.2.fails g = true) : ∃ x ∈ spend ran hs, ∀ g, x.1.2.fails g = true := by
  obtain ⟨x, hx, hf⟩ := h
  by_cases hr : x.1.1 ∈ ran
  · exact ⟨((x.1.1, spent x.1.2), x.2), List.mem_map.2 ⟨x, hx, if_pos hr⟩, fun _ => rfl⟩
  · exact ⟨x, List.mem_map.2 ⟨x, hx, if_neg hr⟩, hf⟩

theorem raised_poisoned {s : St σ G V} {pre : List ((Nat × Hook σ G V) × Int)}
    {x : (Nat × Hook σ G V) × Int} {rest : List Handle} (h : Raises s pre x rest) :
    Poisoned (raised pre x { s with batch := rest }) := by
  obtain ⟨_, _, _, _, _, ⟨post, hs⟩, _⟩ := h
  refine ⟨?_, (by intro h; cases h)⟩
  rw [(raised_frame pre x _).1]
  have hx : x ∈ s.hooks := Priority.mem_sorted.1 (by rw [hs]; simp)
  exact ⟨((x.1.1, spent x.1.2), x.2), List.mem_map.2 ⟨x, hx, if_pos (by simp)⟩, fun _ => rfl⟩

theorem Poisoned.clockTurn {sys : Sys σ G V} {s : St σ G V} (h : Poisoned s) :
    Poisoned (runClock sys s) ∧ (runClock sys s).cycles = s.cycles := by
  have hy : Poisoned (clockYield s) ∧ (clockYield s).cycles = s.cycles :=
    ⟨⟨h.hook, (by simp [clockYield, push])⟩, rfl⟩
  unfold runClock Loop.clockTurn
  cases hc : s.clock with
  | off => exact ⟨h, rfl⟩
  | begin => exact hy
  | dead => exact ⟨h, rfl⟩
  | afterCancel => exact absurd hc h.clock
  | check =>
    cases hu : hasUnwait s || s.flag with
    | true => exact hy
    | false =>
      cases hr : raising (Priority.sorted s.hooks) [] s with
      | none => exact absurd hr (poisoned_raising h [])
      | some r =>
        obtain ⟨pre, x, post, hs, hx, rfl⟩ := raising_spec hr
        rw [if_neg (by simp)]
        show Poisoned (raised pre x s) ∧ (raised pre x s).cycles = s.cycles
        obtain ⟨f1, f2, f3, _⟩ := raised_frame pre x s
        refine ⟨⟨?_, (by intro h; cases h)⟩, f3⟩
        rw [f1]
        exact spend_poisoned _ h.hook

theorem Poisoned.step {sys : Sys σ G V} (due : List Nat) {s : St σ G V} (h : Poisoned s) :
    Poisoned (Loop.step sys due s) ∧ (Loop.step sys due s).cycles = s.cycles := by
  have hsc := step_case sys due s
  generalize Loop.step sys due s = s' at hsc
  cases hsc with
  | exec t k hc =>
    by_cases hh : ∃ h p k', sys.prog k s.g = .addHook h p k'
    · obtain ⟨hk, p, k', hpr⟩ := hh
      rw [hpr]
      refine ⟨h.keep ?_ h.clock, rfl⟩
      intro x hx
      show x ∈ s.hooks ++ [((s.nextHook, hk), p)]
      simp [hx]
    · exact h.neutral (exec_neutral t _ s fun h p k' hp => hh ⟨h, p, k', hp⟩)
  | task t rest hc hb =>
    have h' : Poisoned ({ s with batch := rest } : St σ G V) := ⟨h.hook, h.clock⟩
    exact h'.neutral (resume_neutral t _)
  | clock rest hc hb =>
    exact Poisoned.clockTurn (sys := sys) (s := { s with batch := rest }) ⟨h.hook, h.clock⟩
  | stop rest hc hb => exact ⟨⟨h.hook, h.clock⟩, rfl⟩
  | fire u k rest hc hb _ => exact ⟨⟨h.hook, h.clock⟩, rfl⟩
  | miss u rest hc hb _ => exact ⟨⟨h.hook, h.clock⟩, rfl⟩
  | halt hc hb _ => exact ⟨h, rfl⟩
  | turn due hc hb _ => exact ⟨⟨h.hook, h.clock⟩, rfl⟩

theorem Poisoned.path {sys : Sys σ G V} {s s' : St σ G V} (h : Poisoned s) (hp : Path sys s s') :
    Poisoned s' ∧ s'.cycles = s.cycles := by
  induction hp with
  | refl => exact ⟨h, rfl⟩
  | step due _ ih =>
    obtain ⟨h1, h2⟩ := ih.1.step (sys := sys) due
    exact ⟨h1, h2.trans ih.2⟩

/-- The states of later runs in the process of a run that ended in `s`: any number of runs, of any
tests on any DUTs, each up to any point. -/
inductive Later (s : St σ G V) : St σ G V → Prop where
  | next {s'} (sys : Sys σ G V) (g : G) (k : σ) (h : Path sys (nextRun s g k) s') : Later s s'
  | again {s1 s'} (sys : Sys σ G V) (g : G) (k : σ) (h1 : Later s s1)
      (h : Path sys (nextRun s1 g k) s') : Later s s'

/-- C73 is false, for every test: once a hook has raised in some run, no later run of the process
ever steps its DUT.  The list of hooks is not cleared, it contains a coroutine that was awaited
before, and awaiting that again raises before every first step. -/
theorem C73_failed_hook_violated (sys : Sys σ G V) (g : G) (k : σ) (s s' : St σ G V) (i : Nat)
    (hr : Reach sys g k s) (h : Ev.hookRaise i ∈ s.log) (hl : Later s s') : s'.cycles = 0 := by
  have hp : Poisoned s := by
    clear hl
    induction hr with
    | init => simp [init] at h
    | @step s due hr ih =>
      rcases raise_case due hr h with h1 | ⟨pre, x, rest, hra, h1⟩
      · exact ((ih h1).step due).1
      · rw [h1]; exact raised_poisoned hra
  have hn : ∀ {s : St σ G V} (g k), Poisoned s → Poisoned (nextRun s g k) := fun g k h =>
    ⟨h.hook, by simp [nextRun, init]⟩
  have : Poisoned s' ∧ s'.cycles = 0 := by
    induction hl with
    | next sys g k h => exact (hn g k hp).path h
    | again sys g k _ h ih => exact (hn g k ih.1).path h
  exact this.2

/-- A test that requests a hook and returns without having started the clock (state 0), a test that
starts the clock and requests a hook and returns (state 10), one that raises an exception instead
(state 30), and a test that requests nothing and waits for one clock cycle (state 20). -/
def demo : Sys Nat Nat Nat where
  prog k _ := match k with
    | 0 => .addHook { run := fun g => (g + 100, []), done := none } 0 1
    | 10 => .startClock 11
    | 11 => .addHook { run := fun g => (g + 100, []), done := none } 0 12
    | 12 => .comp 5 13
    | 30 => .startClock 31
    | 31 => .addHook { run := fun g => (g + 100, []), done := none } 0 32
    | 32 => .raise false
    | 20 => .startClock 21
    | 21 => .waitEv 0 22
    | _ => .ret 7
  dutStep g := g + 1
  sample g := g

/-- C73 is false: the run of a test without a clock ends with its hook still pending, and the next
run, whose test requests no hook, executes it in its first clock cycle. -/
theorem C73_no_clock_violated : ∃ s n, Reach demo 0 0 s ∧ halted s ∧ s.hooks ≠ [] ∧
    Ev.exec 0 false ∈ (iter demo n (nextRun s 0 20)).log ∧
    (∀ i p, Ev.req i p ∉ (iter demo n (nextRun s 0 20)).log) ∧
    100 ≤ (iter demo n (nextRun s 0 20)).g :=
  ⟨iter demo 6 (init 0 0), 12, reach_iter 6 .init, ⟨by decide, by decide, by decide⟩,
    by intro h; have := congrArg List.length h; revert this; decide,
    by decide, by
      intro i p h
      have hl : (iter demo 12 (nextRun (iter demo 6 (init 0 0)) 0 20)).log.filterMap
        (fun e => match e with | .req i _ => some i | _ => none) = [] := by decide
      exact absurd (List.filterMap_eq_nil_iff.1 hl _ h) (by simp),
    by decide⟩

/-- C73 is false also with a clock: when the test raises an exception the run ends at once, and the
hook it had requested is executed by the next run. -/
theorem C73_abort_violated : ∃ s n, Reach demo 0 30 s ∧ halted s ∧ s.failed 0 = true ∧
    s.clock ≠ .off ∧ s.hooks ≠ [] ∧
    Ev.exec 0 false ∈ (iter demo n (nextRun s 0 20)).log ∧
    (∀ i p, Ev.req i p ∉ (iter demo n (nextRun s 0 20)).log) ∧
    100 ≤ (iter demo n (nextRun s 0 20)).g :=
  ⟨iter demo 10 (init 0 30), 12, reach_iter 10 .init, ⟨by decide, by decide, by decide⟩, by decide,
    by decide, by intro h; have := congrArg List.length h; revert this; decide,
    by decide, by
      intro i p h
      have hl : (iter demo 12 (nextRun (iter demo 10 (init 0 30)) 0 20)).log.filterMap
        (fun e => match e with | .req i _ => some i | _ => none) = [] := by decide
      exact absurd (List.filterMap_eq_nil_iff.1 hl _ h) (by simp),
    by decide⟩

/-- The hypotheses of `C73_failed_hook_violated` are met by `checked`, whose second hook
raises; the same test of `demo` that steps the DUT in a fresh process does not step it after that. -/
example : ∃ s, Reach checked 0 0 s ∧ halted s ∧ Ev.hookRaise 1 ∈ s.log ∧
    Later s (iter demo 30 (nextRun s 0 20)) ∧ halted (iter demo 30 (nextRun s 0 20)) ∧
    (iter demo 30 (nextRun s 0 20)).cycles = 0 ∧ (iter demo 30 (init 0 20)).cycles = 3 :=
  ⟨iter checked 20 (init 0 0), reach_iter 20 .init, ⟨by decide, by decide, by decide⟩, by decide,
    .next demo 0 20 (path_iter 30 .refl), ⟨by decide, by decide, by decide⟩, by decide, by decide⟩

/-- The hypotheses of `C73_clean_partial` are met by the same test when it goes on. -/
example : ∃ s0 s, Reach demo 0 10 s0 ∧ s0.cur = some (0, 13) ∧ s0.hooks ≠ [] ∧
    demo.prog 13 s0.g = .ret 7 ∧ s0.clock ≠ .off ∧ Path demo (step demo [] s0) s ∧
    s.aborted = false ∧ halted s :=
  ⟨iter demo 5 (init 0 10), iter demo 30 (step demo [] (iter demo 5 (init 0 10))),
    reach_iter 5 .init, by decide,
    by intro h; have := congrArg List.length h; revert this; decide,
    rfl, by decide, path_iter 30 .refl, by decide, ⟨by decide, by decide, by decide⟩⟩

example : ClockPrivate demo := by
  intro k g
  unfold demo
  dsimp only
  split <;> simp
  all_goals exact ⟨by simp, by simp⟩

end Toffee.Props.LoopRuns
