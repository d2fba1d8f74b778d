import Verif.Props.LoopClock
import Verif.Lemmas.LoopDone
import Verif.Lemmas.LoopCase
/-!
C09: `ClockCycles(item, n)` / `bundle.step(n)` on the event loop: called in cycle `c` it resumes
the caller in cycle `c + n`, whatever else runs.
-/

namespace Toffee.Props.LoopCycles

open Toffee.Loop Toffee.Props.LoopClock

variable {σ G V : Type}

/-- The loop `for _ in range(n): await event.wait()` (`triggers.py` 24-35, `bundle.py` 678-679)
inside a task: `f j` is the task's state when `j` iterations of `n` are left, `f 0` is the code after
the loop. -/
structure CycleLoop (sys : Sys σ G V) (f : Nat → σ) (n : Nat) : Prop where
  wait : ∀ j g, j < n → sys.prog (f (j + 1)) g = .waitEv 0 (f j)
  after : ∀ j, j < n → f (j + 1) ≠ f 0

/-- The executions from `s0` up to the moment when task `t` first gets to `k`. -/
inductive Until (sys : Sys σ G V) (t : Nat) (k : σ) (s0 : St σ G V) : St σ G V → Prop where
  | refl : Until sys t k s0 s0
  | step {s} (due : List Nat) : Until sys t k s0 s → s.cur ≠ some (t, k) →
      Until sys t k s0 (step sys due s)

theorem Until.reach {sys : Sys σ G V} {g : G} {k0 k : σ} {t : Nat} {s0 s : St σ G V}
    (h : Until sys t k s0 s) (h0 : Reach sys g k0 s0) : Reach sys g k0 s := by
  induction h with
  | refl => exact h0
  | step due _ _ ih => exact .step due ih

/-- Task `t` is in the loop that it entered in cycle `c` with `n` iterations to go. -/
inductive In (f : Nat → σ) (t c n : Nat) (s : St σ G V) : Prop where
  | at (j : Nat) (hj : j ≤ n) (h : s.cur = some (t, f j)) (hc : s.cycles + j = c + n)
  | pend (j : Nat) (hj : j < n) (h : s.st t = .pend (.ev 0 (f j))) (hc : s.cycles + j + 1 = c + n)
  | fin (j : Nat) (hj : j < n) (h : s.st t = .fin (.ev 0 (f j))) (hc : s.cycles + j = c + n)
  | cancelled (h : DoneAs t none s) (ht : Ev.cancelAll ∈ s.log)

theorem exec_cycles (t : Nat) (c : Cmd σ G V) (s : St σ G V) :
    (exec t c s).cycles = s.cycles := by
  by_cases hh : ∃ h p k', c = .addHook h p k'
  · obtain ⟨h, p, k', hpr⟩ := hh
    rw [hpr]; rfl
  · exact (exec_neutral t c s (fun h p k' hp => hh ⟨h, p, k', hp⟩)).cycles

theorem log_mono {sys : Sys σ G V} {g : G} {k : σ} {s : St σ G V} (due : List Nat)
    (hr : Reach sys g k s) {e : Ev} (h : e ∈ s.log) : e ∈ (step sys due s).log := by
  cases log_case due hr with
  | quiet l hl => rw [hl]; simp [h]
  | req _ _ hl => rw [hl]; simp [h]
  | rerun hl => rw [hl]; simp [h]
  | step hl => rw [hl]; simp [h]
  | cancel hl => rw [hl]; simp [h]
  | last hl => rw [hl]; simp [h]
  | raise _ _ _ _ hl => rw [hl]; simp [h]

/-- A waiter of the clock event survives every step of another task. -/
theorem exec_keep {sys : Sys σ G V} {s : St σ G V} {t u : Nat} {k : σ} (hp : ClockPrivate sys)
    (hi : Inv s) (hev : s.ev 0 = false) (hc : s.cur = some (u, k)) (hk : keep (s.st t)) :
    (exec u (sys.prog k s.g) s).st t = s.st t := by
  have hut : t ≠ u := by
    rintro rfl
    exact not_keep_running ((hi.core.hcur t).2 (by rw [hc]; rfl)) hk
  rcases exec_case0 hi hc (sys.prog k s.g) (hp k s.g).1 hev with ⟨hf, _⟩ | ⟨hf, _⟩
  · exact hf.st t hk
  · obtain ⟨w, hw, _⟩ := hf.st
    rw [hw, upd_ne _ _ _ _ hut]

theorem resume_keep {s : St σ G V} {t u : Nat} {rest : List Handle}
    (hi : Inv s) (hc : s.cur = none) (hb : s.batch = .task u :: rest) (hut : t ≠ u)
    (hk : keep (s.st t)) : (resume u { s with batch := rest }).st t = s.st t := by
  have h1 : (taken u rest s).st t = s.st t := upd_ne _ _ _ _ hut
  rw [← h1]
  exact (resume_case0 hi hc hb).1.st t (by rw [h1]; exact hk)

/-- At the clock's turn no task woken by the clock is still waiting to run. -/
theorem no_fin {s : St σ G V} {t : Nat} {k : σ} {rest : List Handle} (hi : Inv s) (hw : WInv s)
    (hb : s.batch = .clock :: rest) (h : s.st t = .fin (.ev 0 k)) : False := by
  have h1 := turn_woken hw hb
  have h2 := hi.core.hq t
  rw [h, hb] at h2
  have h3 : (rest ++ s.ready).count (Handle.task t) = 1 := by
    simpa [qExp, List.count_cons] using h2
  have h4 : Handle.task t ∈ rest ++ s.ready := by
    rw [← List.one_le_count_iff]; omega
  have h5 : t ∈ woken s.st (rest ++ s.ready) :=
    List.mem_filterMap.2 ⟨_, h4, by simp [woken1, is0, h]⟩
  rw [h1] at h5
  cases h5

theorem doStep_pend (sys : Sys σ G V) {s : St σ G V} {t : Nat} {k : σ} {x : List Handle}
    (hi : InvX x s) (hev : s.ev 0 = false) (h : s.st t = .pend (.ev 0 k)) :
    (doStep sys s).st t = .fin (.ev 0 k) := by
  have hst : (Loop.doStep sys s).st = wakeSt s.st (s.waiters 0) := by
    unfold Loop.doStep Loop.setEv
    simp only [note, hev]
    rfl
  have hm : t ∈ s.waiters 0 := by
    rw [← List.one_le_count_iff, hi.core.hw 0 t, h]
    simp [wExp]
  rw [hst]
  simp [wakeSt, hm, h, Status.finish]

/-- One step of the loop while `t` waits for the clock event. -/
theorem pend_step {sys : Sys σ G V} {g : G} {k0 k : σ} {t : Nat} (hp : ClockPrivate sys)
    {s : St σ G V} (hr : Reach sys g k0 s) (h : s.st t = .pend (.ev 0 k)) (due : List Nat) :
    ((step sys due s).st t = .pend (.ev 0 k) ∧ (step sys due s).cycles = s.cycles) ∨
    ((step sys due s).st t = .fin (.ev 0 k) ∧ (step sys due s).cycles = s.cycles + 1) ∨
    (DoneAs t none (step sys due s) ∧ Ev.cancelAll ∈ (step sys due s).log) := by
  have hi := reach_inv hr
  have hw := reach_WInv hp hr
  have hac := reach_AC hr
  have hk : keep (s.st t) := .inr (by rw [h]; simp [wExp])
  have hsc := step_case sys due s
  generalize step sys due s = s' at hsc
  cases hsc with
  | exec u k hcu => exact .inl ⟨by rw [exec_keep hp hi hw.ev hcu hk, h], by rw [exec_cycles]⟩
  | task u rest hcu hb =>
    have hut : t ≠ u := by
      rintro rfl
      have := qExp_one_of_head hi hb
      rw [h] at this
      cases this
    exact .inl ⟨by rw [resume_keep hi hcu hb hut hk, h],
      by rw [(resume_neutral u { s with batch := rest }).cycles]⟩
  | clock rest hcu hb =>
    have hpop := InvX.pop hi hb
    have hfc := callbacks_frame0 sys hpop hw.hooks
    have hic := callbacks_inv sys hpop
    obtain ⟨f1, f2, f3, f4, f5, _⟩ := callbacks_frame sys { s with batch := rest }
    have hcb : (callbacks sys { s with batch := rest }).2.st t = .pend (.ev 0 k) := by
      rw [hfc.st t hk]; exact h
    unfold runClock
    have hcc := clock_case sys { s with batch := rest }
    generalize clockTurn sys { s with batch := rest } = r at hcc
    cases hcc with
    | off _ => exact .inl ⟨h, rfl⟩
    | dead _ => exact .inl ⟨h, rfl⟩
    | raise _ _ _ pre x _ hs _ =>
      exact .inl ⟨((raised_frame0 hpop (raises_priv hw.hooks hs)).st t hk).trans h,
        (raised_frame pre x _).2.2.1⟩
    | begin _ => exact .inl ⟨h, rfl⟩
    | busy _ _ => exact .inl ⟨h, rfl⟩
    | rerun _ _ _ _ => exact .inl ⟨hcb, f3⟩
    | cancel _ _ _ _ htd =>
      have htd : s.testDone = true := htd
      have ht0 : t ≠ 0 := by
        rintro rfl
        have := hi.main htd
        rw [h] at this
        cases this
      refine .inr (.inr ⟨⟨?_, ?_⟩, ?_⟩)
      · show cancelSt (callbacks sys { s with batch := rest }).2.st t = _
        unfold cancelSt
        rw [if_neg ht0, hcb]
      · show t < (callbacks sys { s with batch := rest }).2.n
        exact hic.core.lt_of_not_done (by rw [hcb]; rfl)
      · show Ev.cancelAll ∈ _ ++ [Ev.cancelAll]
        simp
    | step _ _ _ _ _ =>
      refine .inr (.inl ⟨doStep_pend sys hic (hfc.ev.trans hw.ev) hcb, ?_⟩)
      obtain ⟨d1, d2, d3, _⟩ := doStep_frame sys (callbacks sys { s with batch := rest }).2
      rw [d3, f3]
    | last hlast =>
      have := hac.st hlast t
      rw [h] at this
      cases this
  | stop rest _ _ => exact .inl ⟨h, rfl⟩
  | fire u k rest _ _ hs' =>
    refine .inl ⟨?_, rfl⟩
    show (if t ∈ [u] then (s.st t).finish else s.st t) = _
    rw [if_neg, h]
    simp only [List.mem_singleton]
    rintro rfl
    rw [h] at hs'
    cases hs'
  | miss u rest _ _ _ => exact .inl ⟨h, rfl⟩
  | halt _ _ _ => exact .inl ⟨h, rfl⟩
  | turn due _ _ _ => exact .inl ⟨h, rfl⟩

/-- One step of the loop after the clock has woken `t`. -/
theorem fin_step {sys : Sys σ G V} {g : G} {k0 k : σ} {t : Nat} (hp : ClockPrivate sys)
    {s : St σ G V} (hr : Reach sys g k0 s) (h : s.st t = .fin (.ev 0 k)) (due : List Nat) :
    (step sys due s).cycles = s.cycles ∧ ((step sys due s).st t = .fin (.ev 0 k) ∨
      s.cur = none ∧ (step sys due s).cur = some (t, k)) := by
  have hi := reach_inv hr
  have hw := reach_WInv hp hr
  have hk : keep (s.st t) := .inl (by rw [h]; rfl)
  have hsc := step_case sys due s
  generalize step sys due s = s' at hsc
  cases hsc with
  | exec u k hcu => exact ⟨by rw [exec_cycles], .inl (by rw [exec_keep hp hi hw.ev hcu hk, h])⟩
  | task u rest hcu hb =>
    refine ⟨by rw [(resume_neutral u { s with batch := rest }).cycles], ?_⟩
    by_cases hut : t = u
    · subst hut
      refine .inr ⟨hcu, ?_⟩
      unfold resume
      simp only [h]
    · exact .inl (by rw [resume_keep hi hcu hb hut hk, h])
  | clock rest hcu hb => exact (no_fin hi hw hb h).elim
  | stop rest _ _ => exact ⟨rfl, .inl h⟩
  | fire u k rest _ _ hs' =>
    refine ⟨rfl, .inl ?_⟩
    show (if t ∈ [u] then (s.st t).finish else s.st t) = _
    rw [h]
    split <;> rfl
  | miss u rest _ _ _ => exact ⟨rfl, .inl h⟩
  | halt _ _ _ => exact ⟨rfl, .inl h⟩
  | turn due _ _ _ => exact ⟨rfl, .inl h⟩

/-- A task that awaits the clock event is suspended, in the same cycle. -/
theorem wait_exec {sys : Sys σ G V} {g : G} {k0 k k' : σ} {t : Nat} (hp : ClockPrivate sys)
    {s : St σ G V} (hr : Reach sys g k0 s) (h : s.cur = some (t, k))
    (hk : sys.prog k s.g = .waitEv 0 k') (due : List Nat) :
    (step sys due s).st t = .pend (.ev 0 k') ∧ (step sys due s).cycles = s.cycles := by
  have hst : step sys due s = exec t (.waitEv 0 k') s := by
    unfold step; rw [h]; simp only [hk]
  rw [hst]
  refine ⟨?_, exec_cycles ..⟩
  unfold exec
  simp only [(reach_WInv hp hr).ev, note]
  exact upd_self s.st t _

theorem until_in {sys : Sys σ G V} {g : G} {k0 : σ} {f : Nat → σ} {t n : Nat}
    (hp : ClockPrivate sys) (hl : CycleLoop sys f n) {s0 s : St σ G V} (h0 : Reach sys g k0 s0)
    (hs : s0.cur = some (t, f n)) (hu : Until sys t (f 0) s0 s) : In f t s0.cycles n s := by
  induction hu with
  | refl => exact .at n (Nat.le_refl _) hs rfl
  | @step s due hu hne ih =>
    have hr := hu.reach h0
    cases ih with
    | cancelled h ht => exact .cancelled (step_done sys due (reach_inv hr) h) (log_mono due hr ht)
    | «at» j hj h hc =>
      cases j with
      | zero => exact absurd h hne
      | succ j =>
        obtain ⟨h1, h2⟩ := wait_exec hp hr h (hl.wait j _ hj) due
        exact .pend j (by omega) h1 (by omega)
    | pend j hj h hc =>
      rcases pend_step hp hr h due with ⟨h1, h2⟩ | ⟨h1, h2⟩ | ⟨h1, h2⟩
      · exact .pend j hj h1 (by omega)
      · exact .fin j hj h1 (by omega)
      · exact .cancelled h1 h2
    | fin j hj h hc =>
      obtain ⟨h1, h2 | ⟨_, h2⟩⟩ := fin_step hp hr h due
      · exact .fin j hj h2 (by omega)
      · exact .at j (by omega) h2 (by omega)

/-- C09: a task that calls `ClockCycles(item, n)` / `bundle.step(n)` in cycle `c` continues behind
the call in cycle `c + n` and in no other, whatever the other tasks, hooks and timers do. -/
theorem C09_resumes_in_cycle (sys : Sys σ G V) (g : G) (k0 : σ) (f : Nat → σ) (t n : Nat)
    (hp : ClockPrivate sys) (hl : CycleLoop sys f n) (s0 s : St σ G V) (h0 : Reach sys g k0 s0)
    (hs : s0.cur = some (t, f n)) (hu : Until sys t (f 0) s0 s) (ha : s.cur = some (t, f 0)) :
    s.cycles = s0.cycles + n := by
  have hi := reach_inv (hu.reach h0)
  have hrun : isRunning (s.st t) = true := (hi.core.hcur t).2 (by rw [ha]; rfl)
  cases until_in hp hl h0 hs hu with
  | «at» j hj h hc =>
    rw [ha] at h
    injection h with h
    injection h with _ h
    cases j with
    | zero => exact hc
    | succ j => exact absurd h.symm (hl.after j hj)
  | pend j hj h hc => rw [h] at hrun; cases hrun
  | fin j hj h hc => rw [h] at hrun; cases hrun
  | cancelled h ht => rw [h.1] at hrun; cases hrun

/-- C09: the clock never gets beyond cycle `c + n` before the task continues (unless the test is
over and the task is cancelled). -/
theorem C09_not_later (sys : Sys σ G V) (g : G) (k0 : σ) (f : Nat → σ) (t n : Nat)
    (hp : ClockPrivate sys) (hl : CycleLoop sys f n) (s0 s s' : St σ G V) (h0 : Reach sys g k0 s0)
    (hs : s0.cur = some (t, f n)) (hu : Until sys t (f 0) s0 s) :
    (s.cycles ≤ s0.cycles + n ∧ (StepsAt sys s s' → s.cycles < s0.cycles + n)) ∨
    (s.st t = .done none ∧ Ev.cancelAll ∈ s.log) := by
  have hr := hu.reach h0
  cases until_in hp hl h0 hs hu with
  | «at» j hj h hc =>
    refine .inl ⟨by omega, ?_⟩
    rintro ⟨hc', _⟩
    rw [h] at hc'; cases hc'
  | pend j hj h hc => exact .inl ⟨by omega, fun _ => by omega⟩
  | fin j hj h hc =>
    refine .inl ⟨by omega, ?_⟩
    rintro ⟨_, rest, hb, _⟩
    exact (no_fin (reach_inv hr) (reach_WInv hp hr) hb h).elim
  | cancelled h ht => exact .inr ⟨h.1, ht⟩

/-! ### A concrete system -/

/-- Task 0 starts the clock and task 1, and calls `ClockCycles(dut, 3)`; task 1 keeps waiting for
the clock.  States `(true, j)` are the loop with `j` iterations left. -/
def demo : Sys (Bool × Nat) Nat Nat where
  prog k _ := match k with
    | (true, j + 1) => .waitEv 0 (true, j)
    | (true, 0) => .ret 7
    | (false, 0) => .startClock (false, 1)
    | (false, 1) => .spawn (false, 2) (fun _ => (true, 3))
    | (false, k) => .waitEv 0 (false, k)
  dutStep g := g + 1
  sample g := g

theorem until_iter {sys : Sys σ G V} {t : Nat} {k : σ} (m : Nat) {s0 s : St σ G V}
    (h : Until sys t k s0 s) (hn : ∀ i, i < m → (iter sys i s).cur ≠ some (t, k)) :
    Until sys t k s0 (iter sys m s) := by
  induction m generalizing s with
  | zero => exact h
  | succ m ih =>
    refine ih (.step [] h (hn 0 (by omega))) ?_
    intro i hi
    exact hn (i + 1) (by omega)

/-- The hypotheses of both theorems are met by an execution that arrives: it enters the loop in
cycle 0 and leaves it in cycle 3. -/
example : ClockPrivate demo ∧ CycleLoop demo (fun j => (true, j)) 3 ∧
    ∃ s0 s, Reach demo 0 (false, 0) s0 ∧ s0.cur = some (0, (true, 3)) ∧
      Until demo 0 (true, 0) s0 s ∧ s.cur = some (0, (true, 0)) ∧ s0.cycles = 0 ∧ s.cycles = 3 := by
  refine ⟨?_, ⟨fun _ _ _ => rfl, fun j _ h => by cases h⟩,
    iter demo 4 (init 0 (false, 0)), iter demo 21 (iter demo 4 (init 0 (false, 0))),
    reach_iter 4 .init, by decide, until_iter 21 .refl (by decide), by decide, by decide,
    by decide⟩
  intro k g
  unfold demo
  dsimp only
  split <;> simp

end Toffee.Props.LoopCycles
