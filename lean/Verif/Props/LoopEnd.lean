import Verif.Props.LoopCycles
import Verif.Lemmas.LoopFail
/-!
C17: what happens after the test coroutine returns.
-/

namespace Toffee.Props.LoopEnd

open Toffee.Loop Toffee.Props.LoopClock Toffee.Props.LoopCycles

variable {σ G V : Type}

/-- Executions from `s0`. -/
inductive Path (sys : Sys σ G V) (s0 : St σ G V) : St σ G V → Prop where
  | refl : Path sys s0 s0
  | step {s} (due : List Nat) : Path sys s0 s → Path sys s0 (step sys due s)

theorem Path.reach {sys : Sys σ G V} {g : G} {k0 : σ} {s0 s : St σ G V}
    (h : Path sys s0 s) (h0 : Reach sys g k0 s0) : Reach sys g k0 s := by
  induction h with
  | refl => exact h0
  | step due _ ih => exact .step due ih

/-- The events that matter here: clock steps, the last wake-up of `main_coro`, cancellations. -/
def marks (l : List Ev) : List Ev :=
  l.filter fun e => e == .step || e == .resume 0 || e == .cancelAll

/-! ### The loop is not told to stop before `main_coro` is done -/

def NoStop (s : St σ G V) : Prop := Handle.stop ∉ s.batch ++ s.ready ∧ s.stopping = false

theorem NoStop.of {s s' : St σ G V} (h : NoStop s) (l : List Handle)
    (hq : s'.batch ++ s'.ready = s.batch ++ s.ready ++ l) (hl : Handle.stop ∉ l)
    (hs : s'.stopping = s.stopping) : NoStop s' := by
  refine ⟨?_, hs.trans h.2⟩
  rw [hq]
  intro hm
  rcases List.mem_append.1 hm with hm | hm
  · exact h.1 hm
  · exact hl hm

theorem wake_noStop {ts : List Nat} {s : St σ G V} (h : NoStop s) : NoStop (wake ts s) :=
  h.of (ts.map .task) (by simp [wake]) (by simp) rfl

theorem setEv_noStop {e : Nat} {s : St σ G V} (h : NoStop s) : NoStop (setEv e s) := by
  unfold setEv
  split
  · exact h
  · exact wake_noStop h

theorem putQ_noStop {y : Nat} {v : V} {s : St σ G V} (h : NoStop s) : NoStop (putQ y v s) := by
  unfold putQ
  dsimp only
  split
  · exact h
  · exact wake_noStop (s := { s with q := _ }) h

theorem spawn_noStop {k : σ} {s : St σ G V} (h : NoStop s) : NoStop (spawn k s) :=
  h.of [.task s.n] (by simp [spawn, push]) (by simp) rfl

theorem finish_noStop {t : Nat} {r : Option V} {s : St σ G V} (h : NoStop s) (ht : t ≠ 0) :
    NoStop (finish t r s) := by
  unfold finish
  dsimp only
  rw [if_neg ht]
  exact wake_noStop (s := { s with st := _, cur := none }) h

theorem runEff_noStop {s : St σ G V} {e : Eff σ V} (h : NoStop s) : NoStop (runEff s e) := by
  cases e with
  | setEv e => exact setEv_noStop h
  | put q v => exact putQ_noStop h
  | spawn k => exact spawn_noStop h

theorem runHook_noStop {s : St σ G V} {x : (Nat × Hook σ G V) × Int} (h : NoStop s) :
    NoStop (runHook s x) := by
  unfold runHook
  dsimp only
  have h1 : NoStop ((x.1.2.run (note (.exec x.1.1 x.1.2.done.isSome) s).g).2.foldl runEff
      { note (.exec x.1.1 x.1.2.done.isSome) s with
        g := (x.1.2.run (note (.exec x.1.1 x.1.2.done.isSome) s).g).1 }) :=
    foldl_inv NoStop runEff (fun _ _ h => runEff_noStop h) _ _ h
  split
  · exact setEv_noStop h1
  · exact h1

theorem callbacks_noStop (sys : Sys σ G V) {s : St σ G V} (h : NoStop s) :
    NoStop (callbacks sys s).2 :=
  foldl_inv NoStop runHook (fun _ _ h => runHook_noStop h) _ _ h

theorem finish_main (r : Option V) (s : St σ G V) :
    (finish 0 r s).st 0 = .done r := by
  unfold finish
  dsimp only
  show (if 0 ∈ s.joiners 0 then (upd s.st 0 (.done r) 0).finish else upd s.st 0 (.done r) 0) = _
  rw [upd_self]
  split <;> rfl

theorem exec_noStop {t : Nat} {c : Cmd σ G V} {s : St σ G V} (h : NoStop s)
    (ha : (exec t c s).aborted = false) :
    NoStop (exec t c s) ∨ isDone ((exec t c s).st 0) = true := by
  have hfin : ∀ (r : Option V) (s : St σ G V), NoStop s →
      NoStop (finish t r s) ∨ isDone ((finish t r s).st 0) = true := by
    intro r s h
    by_cases ht : t = 0
    · subst ht; right; rw [finish_main]; rfl
    · exact .inl (finish_noStop h ht)
  cases c with
  | ret v =>
    unfold exec
    dsimp only
    split
    · split
      · exact hfin _ (note .testDone { s with testDone := true }) h
      · exact .inl h
    · exact hfin _ _ h
  | raise held =>
    change (fail t held s).aborted = false at ha
    show NoStop (fail t held s) ∨ isDone ((fail t held s).st 0) = true
    have h1 := hfin none { s with failed := upd s.failed t true } h
    unfold fail at ha ⊢
    dsimp only at ha ⊢
    split at ha
    · rename_i hh
      rw [if_pos hh]; exact h1
    · cases ha
  | comp g k => exact .inl h
  | taskRun k => exact .inl h
  | yield k => exact .inl (h.of [.task t] (by simp [exec, push, block]) (by simp) rfl)
  | sleep k => exact .inl h
  | waitEv e k =>
    unfold exec
    dsimp only
    split
    · exact .inl h
    · split <;> exact .inl h
  | setEv e k => exact .inl (setEv_noStop (e := e) h)
  | clearEv e k => exact .inl h
  | put q v k => exact .inl (putQ_noStop (y := q) (v := v) h)
  | get q k =>
    unfold exec
    dsimp only
    split <;> exact .inl h
  | spawn s0 k => exact .inl (spawn_noStop (k := s0) h)
  | join w k kx =>
    unfold exec
    dsimp only
    split
    · exact .inl h
    · split
      · exact .inl h
      · exact hfin _ _ h
    · exact .inl h
  | addHook hk p k => exact .inl h
  | startClock k =>
    unfold exec
    dsimp only
    split
    · exact .inl (h.of [.clock] (by simp [push]) (by simp) rfl)
    · exact .inl h

theorem resume_noStop {t : Nat} {s : St σ G V} (h : NoStop s) :
    NoStop (resume t s) ∨ isDone ((resume t s).st 0) = true := by
  have hfin : ∀ (r : Option V) (s : St σ G V), NoStop s →
      NoStop (finish t r s) ∨ isDone ((finish t r s).st 0) = true := by
    intro r s h
    by_cases ht : t = 0
    · subst ht; right; rw [finish_main]; rfl
    · exact .inl (finish_noStop h ht)
  unfold resume
  dsimp only
  split
  · exact .inl h
  · split <;> exact .inl h
  · exact .inl h
  · split <;> exact .inl h
  · split
    · exact .inl h
    · split
      · exact .inl h
      · exact hfin _ _ h
  · exact hfin _ (note _ s) h
  · exact .inl h

theorem doStep_noStop (sys : Sys σ G V) {s : St σ G V} (h : NoStop s) : NoStop (doStep sys s) := by
  have h1 : NoStop (setEv 0 (note .step { s with g := sys.dutStep s.g, cycles := s.cycles + 1 })) :=
    setEv_noStop h
  exact h1.of [.clock] (by simp [doStep, clockYield, push]) (by simp) rfl

theorem noStop_tail {s s' : St σ G V} {x : Handle} {rest : List Handle} (h : NoStop s)
    (hb : s.batch = x :: rest) (h' : s'.batch = rest) (hr : s'.ready = s.ready)
    (hs : s'.stopping = s.stopping) : NoStop s' := by
  refine ⟨?_, hs.trans h.2⟩
  have := h.1
  rw [hb] at this
  rw [h', hr]
  intro hm
  exact this (List.mem_cons_of_mem _ hm)

theorem cancel_noStop {s : St σ G V} (h : NoStop s) :
    NoStop (push .clock { cancelAll s with clock := .afterCancel }) := by
  refine ⟨?_, h.2⟩
  show Handle.stop ∉ s.batch.filter keepMain ++ (s.ready.filter keepMain ++ [Handle.clock])
  have := h.1
  intro hm
  simp at hm
  apply this
  rcases hm with hm | hm
  · exact List.mem_append_left _ hm.1
  · exact List.mem_append_right _ hm.1

/-- Unless `handle_exception` stops it, the loop is told to stop only after `main_coro` finished. -/
theorem reach_noStop {sys : Sys σ G V} {g : G} {k : σ} {s : St σ G V} (h : Reach sys g k s)
    (ha : s.aborted = false) : isDone (s.st 0) = true ∨ NoStop s := by
  induction h with
  | init => right; simp [NoStop, init]
  | @step s due hr ih =>
    have hi := reach_inv hr
    have ih := ih (not_aborted sys due ha)
    rcases ih with ih | ih
    · left
      cases hs : s.st 0 with
      | done r =>
        have := (step_done sys due hi (t := 0) (r := r) ⟨hs, hi.core.hpos⟩).1
        rw [this]; rfl
      | _ => rw [hs] at ih; cases ih
    · have hsc := step_case sys due s
      generalize step sys due s = s' at hsc ha
      cases hsc with
      | exec t k hc => exact (exec_noStop ih ha).symm
      | task t rest hc hb =>
        exact (resume_noStop (s := { s with batch := rest }) (noStop_tail ih hb rfl rfl rfl)).symm
      | clock rest hc hb =>
        right
        have h1 : NoStop ({ s with batch := rest } : St σ G V) := noStop_tail ih hb rfl rfl rfl
        have hy : ∀ s : St σ G V, NoStop s → NoStop (clockYield s) := fun s h =>
          h.of [.clock] (by simp [clockYield, push]) (by simp) rfl
        unfold runClock at ha ⊢
        have hcc := clock_case sys { s with batch := rest }
        generalize clockTurn sys { s with batch := rest } = x at hcc ha
        cases hcc with
        | off _ => exact h1
        | dead _ => exact h1
        | raise _ _ _ pre x _ _ _ => cases ha
        | begin _ => exact hy _ h1
        | busy _ _ => exact hy _ h1
        | rerun _ _ _ _ => exact hy _ (callbacks_noStop sys h1)
        | cancel _ _ _ _ _ => exact cancel_noStop (callbacks_noStop sys h1)
        | step _ _ _ _ _ => exact doStep_noStop sys (callbacks_noStop sys h1)
        | last _ => exact doStep_noStop sys h1
      | stop rest hc hb => exact absurd (by rw [hb]; simp) ih.1
      | fire t k rest hc hb hs =>
        exact .inr (wake_noStop (s := { s with batch := rest }) (noStop_tail ih hb rfl rfl rfl))
      | miss t rest hc hb hs => exact .inr (noStop_tail ih hb rfl rfl rfl)
      | halt hc hb hs => exact .inr ih
      | turn due hc hb hs =>
        refine .inr ⟨?_, ih.2⟩
        have := ih.1
        rw [hb] at this
        show Handle.stop ∉ (s.ready ++ due.map Handle.fire) ++ []
        simpa using this

/-! ### The end of a test -/

def Fires (l : List Handle) : Prop := ∀ x ∈ l, ∃ t, x = Handle.fire t

/-- Everything except `main_coro` and the clock has ended. -/
structure Rest (s : St σ G V) : Prop where
  cur : s.cur = none
  hooks : s.hooks = []
  td : s.testDone = true
  others : ∀ t, t ≠ 0 → isDone (s.st t) = true

/-- What has happened since the test returned `v` with the clock running. -/
inductive Phase (v : V) : List Ev → Nat → St σ G V → Prop where
  /-- tasks still run -/
  | p1 {s} (h0 : s.st 0 = .pend (.final v)) (hc : s.clock = .begin ∨ s.clock = .check)
      (ht : s.testDone = true) : Phase v [] 9 s
  | p1a {s} (F : List Handle) (hr : Rest s) (h0 : s.st 0 = .pend (.final v))
      (hc : s.clock = .afterCancel) (hs : s.stopping = false) (hb : Fires s.batch)
      (hF : Fires F) (hrd : s.ready = F ++ [.clock]) : Phase v [.cancelAll] 8 s
  | p1b {s} (F F' : List Handle) (hr : Rest s) (h0 : s.st 0 = .pend (.final v))
      (hc : s.clock = .afterCancel) (hs : s.stopping = false)
      (hF : Fires F) (hF' : Fires F') (hb : s.batch = F ++ .clock :: F') (hrd : s.ready = []) :
      Phase v [.cancelAll] 7 s
  | p2a {s} (hr : Rest s) (h0 : s.st 0 = .fin (.final v))
      (hc : s.clock = .check) (hf : s.flag = false) (hs : s.stopping = false) (hb : Fires s.batch)
      (hrd : s.ready = [.task 0, .clock]) : Phase v [.cancelAll, .step] 6 s
  | p2b {s} (F F' : List Handle) (hr : Rest s) (h0 : s.st 0 = .fin (.final v))
      (hc : s.clock = .check) (hf : s.flag = false) (hs : s.stopping = false)
      (hF : Fires F) (hF' : Fires F') (hb : s.batch = F ++ .task 0 :: .clock :: F')
      (hrd : s.ready = []) : Phase v [.cancelAll, .step] 5 s
  | p3 {s} (F' : List Handle) (hr : Rest s) (h0 : s.st 0 = .done (some v))
      (hc : s.clock = .check) (hf : s.flag = false) (hs : s.stopping = false)
      (hF' : Fires F') (hb : s.batch = .clock :: F') (hrd : s.ready = [.stop]) :
      Phase v [.cancelAll, .step, .resume 0] 4 s
  | p4a {s} (hr : Rest s) (h0 : s.st 0 = .done (some v))
      (hc : s.clock = .afterCancel) (hs : s.stopping = false) (hb : Fires s.batch)
      (hrd : s.ready = [.stop, .clock]) : Phase v [.cancelAll, .step, .resume 0, .cancelAll] 3 s
  | p4b {s} (F F' : List Handle) (hr : Rest s) (h0 : s.st 0 = .done (some v))
      (hc : s.clock = .afterCancel) (hs : s.stopping = false)
      (hF : Fires F) (hF' : Fires F') (hb : s.batch = F ++ .stop :: .clock :: F')
      (hrd : s.ready = []) : Phase v [.cancelAll, .step, .resume 0, .cancelAll] 2 s
  | p5 {s} (F' : List Handle) (hr : Rest s) (h0 : s.st 0 = .done (some v))
      (hc : s.clock = .afterCancel) (hs : s.stopping = true)
      (hF' : Fires F') (hb : s.batch = .clock :: F') :
      Phase v [.cancelAll, .step, .resume 0, .cancelAll] 1 s
  | p6 {s} (hr : Rest s) (h0 : s.st 0 = .done (some v))
      (hs : s.stopping = true) (hb : Fires s.batch) :
      Phase v [.cancelAll, .step, .resume 0, .cancelAll, .step] 0 s

theorem Fires.tail {x : Handle} {l : List Handle} (h : Fires (x :: l)) : Fires l :=
  fun y hy => h y (List.mem_cons_of_mem _ hy)

theorem fires_map (due : List Nat) : Fires (due.map Handle.fire) := by
  intro x hx
  obtain ⟨t, _, ht⟩ := List.mem_map.1 hx
  exact ⟨t, ht.symm⟩

/-- Nothing sleeps: a timer that fires has no effect. -/
theorem rest_fire {sys : Sys σ G V} (due : List Nat) {s : St σ G V} {x : Handle}
    {l : List Handle} (hr : Rest s) (h0 : finalOrDone (s.st 0) = true)
    (hx : ∃ t, x = Handle.fire t) (hb : s.batch = x :: l) :
    step sys due s = { s with batch := l } := by
  obtain ⟨t, rfl⟩ := hx
  have hsc := step_case sys due s
  generalize step sys due s = s' at hsc
  cases hsc with
  | fire u k rest hc hb' hs =>
    exfalso
    by_cases hu : u = 0
    · subst hu; rw [hs] at h0; cases h0
    · have := hr.others u hu
      rw [hs] at this; cases this
  | miss u rest hc hb' hs =>
    rw [hb] at hb'
    cases hb'
    rfl
  | exec t k hc => rw [hr.cur] at hc; cases hc
  | task u rest hc hb' => rw [hb] at hb'; cases hb'
  | clock rest hc hb' => rw [hb] at hb'; cases hb'
  | stop rest hc hb' => rw [hb] at hb'; cases hb'
  | halt hc hb' => rw [hb] at hb'; cases hb'
  | turn due hc hb' => rw [hb] at hb'; cases hb'

theorem rest_turn {sys : Sys σ G V} (due : List Nat) {s : St σ G V} (hr : Rest s)
    (hb : s.batch = []) (hs : s.stopping = false) :
    step sys due s = { s with batch := s.ready ++ due.map .fire, ready := [] } := by
  unfold step
  rw [hr.cur]
  simp [hb, hs]

theorem rest_halt {sys : Sys σ G V} (due : List Nat) {s : St σ G V} (hr : Rest s)
    (hb : s.batch = []) (hs : s.stopping = true) : step sys due s = s := by
  unfold step
  rw [hr.cur]
  simp [hb, hs]

theorem rest_handle {sys : Sys σ G V} (due : List Nat) {s : St σ G V} (hr : Rest s)
    {x : Handle} {l : List Handle} (hb : s.batch = x :: l) :
    step sys due s = runHandle sys x { s with batch := l } := by
  unfold step
  rw [hr.cur]
  simp [hb]

/-- The end comes nearer: a later phase, or fewer handles left in this iteration of the loop. -/
def Nearer (rk rk' : Nat) (s s' : St σ G V) : Prop :=
  rk' < rk ∨ (rk' = rk ∧ s'.batch.length < s.batch.length) ∨ rk = 9 ∨ halted s

/-- Extension of the trace by `l` with marks `m`. -/
def Next (v : V) (m : List Ev) (rk : Nat) (s s' : St σ G V) : Prop :=
  ∃ l rk', s'.log = s.log ++ l ∧ Phase v (m ++ marks l) rk' s' ∧ Nearer rk rk' s s'

theorem Next.quiet {v : V} {m : List Ev} {rk rk' : Nat} {s s' : St σ G V} (hl : s'.log = s.log)
    (h : Phase v m rk' s') (hn : Nearer rk rk' s s') : Next v m rk s s' :=
  ⟨[], rk', by rw [hl, List.append_nil], by simpa [marks] using h, hn⟩

theorem Next.q9 {v : V} {m : List Ev} {rk' : Nat} {s s' : St σ G V} (hl : s'.log = s.log)
    (h : Phase v m rk' s') : Next v m 9 s s' := Next.quiet hl h (.inr (.inr (.inl rfl)))

theorem Next.down {v : V} {m : List Ev} {rk rk' : Nat} {s s' : St σ G V} (hl : s'.log = s.log)
    (h : Phase v m rk' s') (hn : rk' < rk) : Next v m rk s s' := Next.quiet hl h (.inl hn)

theorem Next.pop {v : V} {m : List Ev} {rk : Nat} {s s' : St σ G V} {x : Handle}
    (hb : s.batch = x :: s'.batch) (hl : s'.log = s.log) (h : Phase v m rk s') :
    Next v m rk s s' := Next.quiet hl h (.inr (.inl ⟨rfl, by rw [hb]; simp⟩))

theorem marks_quiet {l : List Ev}
    (h : ∀ e ∈ l, clockEv e = false ∧ e ≠ .step ∧ e ≠ .cancelAll) : marks l = [] := by
  apply List.filter_eq_nil_iff.2
  intro e he
  have := h e he
  cases e <;> simp_all [clockEv]

theorem marks_append (a b : List Ev) : marks (a ++ b) = marks a ++ marks b :=
  List.filter_append _ _

theorem rest_waiters {x : List Handle} {s : St σ G V} {v : V} (hi : InvX x s) (hr : Rest s)
    (h0 : s.st 0 = .pend (.final v)) : s.waiters 0 = [0] := by
  have h1 : (s.waiters 0).count 0 = 1 := by rw [hi.core.hw 0 0, h0]; rfl
  have h2 : ∀ t ∈ s.waiters 0, t = 0 := by
    intro t ht
    apply Classical.byContradiction
    intro hne
    have h3 := List.one_le_count_iff.2 ht
    rw [hi.core.hw 0 t] at h3
    have := hr.others t hne
    cases hs : s.st t with
    | done r => rw [hs] at h3; simp [wExp] at h3
    | _ => rw [hs] at this; cases this
  generalize s.waiters 0 = w at h1 h2
  match w, h1, h2 with
  | [a], _, h2 => rw [h2 a (by simp)]
  | a :: b :: l, h1, h2 =>
    exfalso
    have ha := h2 a (by simp)
    have hb := h2 b (by simp)
    subst ha
    subst hb
    simp at h1

theorem rest_callbacks (sys : Sys σ G V) {s : St σ G V} (h : s.hooks = []) :
    callbacks sys s = (false, note .sample { s with g := sys.sample s.g }) := by
  cases s
  simp only at h
  subst h
  rfl

theorem rest_cancel (sys : Sys σ G V) {s s1 : St σ G V} (hc : s.clock = .check) (hh : s.hooks = [])
    (hu : hasUnwait s = false) (hf : s.flag = false) (hcb : callbacks sys s = (false, s1))
    (ht : s1.testDone = true) :
    runClock sys s = push .clock { cancelAll s1 with clock := .afterCancel } := by
  unfold runClock clockTurn
  rw [hc]
  simp only [hu, hf, hcb, ht, hh]
  rfl

theorem rest_noUnwait {s : St σ G V} (hr : Rest s) (h0 : isDone (s.st 0) = true) :
    hasUnwait s = false := by
  unfold hasUnwait
  apply List.any_eq_false.2
  intro t _
  have : isDone (s.st t) = true := by
    by_cases ht : t = 0
    · subst ht; exact h0
    · exact hr.others t ht
  cases hs : s.st t with
  | done r => simp
  | _ => rw [hs] at this; cases this

theorem exec_testDone {t : Nat} {c : Cmd σ G V} {s : St σ G V} (h : s.testDone = true) :
    (exec t c s).testDone = true := by
  cases c with
  | ret v =>
    unfold exec
    dsimp only
    split
    · split
      · rw [(finish_frame _ _ _).2.2.2.2.2.1]; rfl
      · rfl
    · rw [(finish_frame _ _ _).2.2.2.2.2.1]; exact h
  | raise held => rw [show exec t (.raise held) s = fail t held s from rfl,
      (fail_frame _ _ _).2.2.2.2.2.1]; exact h
  | comp g k => exact h
  | taskRun k => exact h
  | yield k => exact h
  | sleep k => exact h
  | waitEv e k =>
    unfold exec
    dsimp only
    split
    · exact h
    · split <;> exact h
  | setEv e k =>
    show (setEv e s).testDone = true
    rw [(setEv_frame e s).2.2.2.2.2.1]; exact h
  | clearEv e k => exact h
  | put q v k =>
    show (putQ q v s).testDone = true
    rw [(putQ_frame q v s).2.2.2.2.2.1]; exact h
  | get q k =>
    unfold exec
    dsimp only
    split <;> exact h
  | spawn s0 k => exact h
  | join w k kx =>
    unfold exec
    dsimp only
    split
    · exact h
    · split
      · exact h
      · rw [(finish_frame _ _ _).2.2.2.2.2.1]; exact h
    · exact h
  | addHook hk p k => exact h
  | startClock k =>
    unfold exec
    dsimp only
    split <;> exact h

theorem resume_testDone {t : Nat} {s : St σ G V} (h : s.testDone = true) :
    (resume t s).testDone = true := by
  unfold resume
  dsimp only
  split
  · exact h
  · split <;> exact h
  · exact h
  · split <;> exact h
  · split
    · exact h
    · split
      · exact h
      · rw [(finish_frame _ _ _).2.2.2.2.2.1]; exact h
  · rw [(finish_frame _ _ _).2.2.2.2.2.1]; exact h
  · exact h

theorem exec_on {t : Nat} {c : Cmd σ G V} {s : St σ G V}
    (h : s.clock = .begin ∨ s.clock = .check) :
    (exec t c s).clock = .begin ∨ (exec t c s).clock = .check := by
  by_cases hh : ∃ h p k', c = .addHook h p k'
  · obtain ⟨_, p, k', hpr⟩ := hh
    rw [hpr]; exact h
  · rcases (exec_neutral t c s (fun h p k' hp => hh ⟨h, p, k', hp⟩)).clk with h1 | ⟨h1, _⟩
    · rw [h1]; exact h
    · rw [h1] at h; simp at h

/-- Everything in the queue except the clock and task handles are timers. -/
theorem fires_of {s : St σ G V} (hn : NoStop s) (hclk : Handle.clock ∉ s.batch ++ s.ready)
    (h0 : Handle.task 0 ∉ s.batch ++ s.ready) :
    Fires (s.batch.filter keepMain) ∧ Fires (s.ready.filter keepMain) := by
  have key : ∀ x ∈ s.batch ++ s.ready, keepMain x = true → ∃ t, x = Handle.fire t := by
    intro x hx hk
    cases x with
    | task t =>
      simp [keepMain] at hk
      subst hk
      exact absurd hx h0
    | clock => exact absurd hx hclk
    | stop => exact absurd hx hn.1
    | fire t => exact ⟨t, rfl⟩
  constructor
  · intro x hx
    obtain ⟨h1, h2⟩ := List.mem_filter.1 hx
    exact key x (List.mem_append_left _ h1) h2
  · intro x hx
    obtain ⟨h1, h2⟩ := List.mem_filter.1 hx
    exact key x (List.mem_append_right _ h1) h2

theorem phase_step {sys : Sys σ G V} {g : G} {k0 : σ} {s : St σ G V} (hp : ClockPrivate sys)
    (hr : Reach sys g k0 s) (due : List Nat) {v : V} {m : List Ev} {rk : Nat} (h : Phase v m rk s)
    (hna : (step sys due s).aborted = false ∨ rk < 9) : Next v m rk s (step sys due s) := by
  have hi := reach_inv hr
  have hw := reach_WInv hp hr
  cases h with
  | p1 h0 hc ht =>
    have hk : keep (s.st 0) := .inr (by rw [h0]; rfl)
    have hns : NoStop s := by
      rcases reach_noStop hr (not_aborted sys due (hna.resolve_right (Nat.lt_irrefl 9))) with h | h
      · rw [h0] at h; cases h
      · exact h
    have hna := hna.resolve_right (Nat.lt_irrefl 9)
    have hsc := step_case sys due s
    generalize step sys due s = s' at hsc hna
    cases hsc with
    | exec u k hcu =>
      have hst := exec_keep hp hi hw.ev hcu hk
      have hph : Phase v [] 9 (exec u (sys.prog k s.g) s) :=
        .p1 (hst.trans h0) (exec_on hc) (exec_testDone ht)
      rcases exec_case0 hi hcu (sys.prog k s.g) (hp k s.g).1 hw.ev with
        ⟨_, l, hl, hn⟩ | ⟨_, l, hl, hn⟩
      · exact ⟨l, 9, hl, by rw [marks_quiet hn]; exact hph, .inr (.inr (.inl rfl))⟩
      · refine ⟨_, 9, hl, ?_, .inr (.inr (.inl rfl))⟩
        rw [marks_append, marks_quiet hn]
        exact hph
    | task u rest hcu hb =>
      have hu : 0 ≠ u := by
        rintro rfl
        have := qExp_one_of_head hi hb
        rw [h0] at this
        cases this
      refine ⟨_, 9, (resume_case0 hi hcu hb).2, ?_, .inr (.inr (.inl rfl))⟩
      have hm : marks (if is0 (s.st u) then [Ev.resume u] else []) = [] := by
        split
        · simp [marks, Ne.symm hu]
        · rfl
      rw [hm]
      refine .p1 ((resume_keep hi hcu hb hu hk).trans h0) ?_ (resume_testDone ht)
      rcases (resume_neutral u { s with batch := rest }).clk with h1 | ⟨h1, _⟩
      · rw [h1]; exact hc
      · have h1 : s.clock = .off := h1
        rw [h1] at hc; simp at hc
    | clock rest hcu hb =>
      have hpop := InvX.pop hi hb
      have hfc := callbacks_frame0 sys hpop hw.hooks
      have hic := callbacks_inv sys hpop
      obtain ⟨f1, f2, f3, f4, f5, f6, f7⟩ := callbacks_frame sys { s with batch := rest }
      have hcb : (callbacks sys { s with batch := rest }).2.st 0 = .pend (.final v) := by
        rw [hfc.st 0 hk]; exact h0
      have hlog : (callbacks sys { s with batch := rest }).2.log =
          s.log ++ ((Priority.sorted s.hooks).map execEv ++ [.sample]) := by
        rw [f4, List.append_assoc]
      have hn1 : NoStop ({ s with batch := rest } : St σ G V) := noStop_tail hns hb rfl rfl rfl
      unfold runClock at hna ⊢
      have hcc := clock_case sys { s with batch := rest }
      generalize clockTurn sys { s with batch := rest } = r at hcc hna
      cases hcc with
      | off h => have h : s.clock = .off := h; rw [h] at hc; simp at hc
      | dead h => have h : s.clock = .dead := h; rw [h] at hc; simp at hc
      | raise _ _ _ pre x _ _ _ => cases hna
      | begin _ => exact Next.q9 rfl (.p1 h0 (.inr rfl) ht)
      | busy _ _ => exact Next.q9 rfl (.p1 h0 (.inr rfl) ht)
      | rerun _ _ _ _ =>
        refine ⟨_, 9, hlog, ?_, .inr (.inr (.inl rfl))⟩
        rw [marks_quiet round_quiet]
        exact .p1 hcb (.inr rfl) (f5.trans ht)
      | cancel _ _ _ _ htd =>
        refine ⟨(Priority.sorted s.hooks).map execEv ++ [.sample] ++ [.cancelAll], 8, ?_, ?_, .inr (.inr (.inl rfl))⟩
        · show (callbacks sys { s with batch := rest }).2.log ++ [Ev.cancelAll] = _
          rw [hlog, List.append_assoc]
        · rw [marks_append, marks_quiet round_quiet]
          have hclk := pop_clock hic rfl
          have ht0 : Handle.task 0 ∉ (callbacks sys { s with batch := rest }).2.batch ++
              (callbacks sys { s with batch := rest }).2.ready := by
            intro hm
            have := hic.keep_of_mem hm
            rw [hcb] at this
            cases this
          obtain ⟨hF1, hF2⟩ := fires_of (callbacks_noStop sys hn1) hclk ht0
          refine .p1a _ ⟨?_, f1, f5.trans ht, ?_⟩ ?_ rfl ?_ hF1 hF2 rfl
          · show (callbacks sys { s with batch := rest }).2.cur = none
            rw [callbacks_cur]; exact hcu
          · intro t ht
            exact cancelSt_done _ t ht
          · exact hcb
          · exact f6.trans hns.2
      | step _ _ _ _ htd =>
        have htd : s.testDone = false := htd
        rw [ht] at htd; cases htd
      | last h => have h : s.clock = .afterCancel := h; rw [h] at hc; simp at hc
    | stop rest _ hb => exact absurd (by rw [hb]; simp) hns.1
    | fire u k rest _ _ hs' =>
      refine Next.q9 rfl (.p1 ?_ hc ht)
      show (if 0 ∈ [u] then (s.st 0).finish else s.st 0) = _
      rw [if_neg, h0]
      simp only [List.mem_singleton]
      rintro rfl
      rw [h0] at hs'
      cases hs'
    | miss u rest _ _ _ => exact Next.q9 rfl (.p1 h0 hc ht)
    | halt _ _ _ => exact Next.q9 rfl (.p1 h0 hc ht)
    | turn due _ _ _ => exact Next.q9 rfl (.p1 h0 hc ht)
  | p1a F hre h0 hc hs hb hF hrd =>
    cases hbb : s.batch with
    | nil =>
      rw [rest_turn due hre hbb hs]
      refine Next.down rfl (.p1b F (due.map .fire) ⟨hre.cur, hre.hooks, hre.td, hre.others⟩ h0 hc
        hs hF (fires_map due) ?_ rfl) (by decide)
      show s.ready ++ due.map Handle.fire = _
      rw [hrd]; simp
    | cons x l =>
      rw [hbb] at hb
      rw [rest_fire due hre (by rw [h0]; rfl) (hb x (by simp)) hbb]
      exact Next.pop hbb rfl (.p1a F ⟨hre.cur, hre.hooks, hre.td, hre.others⟩ h0 hc hs hb.tail hF hrd)
  | p1b F F' hre h0 hc hs hF hF' hb hrd =>
    cases F with
    | cons x l =>
      rw [rest_fire due hre (by rw [h0]; rfl) (hF x (by simp)) (by rw [hb]; rfl)]
      exact Next.pop hb rfl (.p1b l F' ⟨hre.cur, hre.hooks, hre.td, hre.others⟩ h0 hc hs hF.tail hF'
        rfl hrd)
    | nil =>
      have hb : s.batch = .clock :: F' := hb
      rw [rest_handle due hre hb]
      have hpop := InvX.pop hi hb
      have hww : s.waiters 0 = [0] := rest_waiters hi hre h0
      have hrun : runHandle sys .clock { s with batch := F' } = doStep sys { s with batch := F' } := by
        show runClock sys _ = _
        unfold runClock clockTurn
        simp only [hc]
      rw [hrun]
      obtain ⟨d1, d2, d3, d4, d5, d6, d7, d8, d9, d10⟩ := doStep_frame sys { s with batch := F' }
      refine ⟨[.step], _, d4, ?_, .inl (Nat.lt_succ_self _)⟩
      have hst : (doStep sys { s with batch := F' }).st = wakeSt s.st [0] := by
        unfold doStep setEv
        simp only [note, hw.ev, hww]
        rfl
      have hrdy : (doStep sys { s with batch := F' }).ready = [.task 0, .clock] := by
        unfold doStep setEv
        simp only [note, hw.ev, hww, clockYield, push, wake, hrd]
        rfl
      refine .p2a ⟨d8.trans hre.cur, d1.trans hre.hooks, d5.trans hre.td, ?_⟩ ?_ d6 d7
        (d9.trans hs) (by rw [d10]; exact hF') hrdy
      · intro t ht
        rw [hst]
        unfold wakeSt
        rw [if_neg (by simpa using ht)]
        exact hre.others t ht
      · rw [hst]
        simp [wakeSt, h0, Status.finish]
  | p2a hre h0 hc hf hs hb hrd =>
    cases hbb : s.batch with
    | nil =>
      rw [rest_turn due hre hbb hs]
      refine Next.down rfl (.p2b [] (due.map .fire) ⟨hre.cur, hre.hooks, hre.td, hre.others⟩ h0 hc
        hf hs (by intro x hx; cases hx) (fires_map due) ?_ rfl) (by decide)
      show s.ready ++ due.map Handle.fire = _
      rw [hrd]; simp
    | cons x l =>
      rw [hbb] at hb
      rw [rest_fire due hre (by rw [h0]; rfl) (hb x (by simp)) hbb]
      exact Next.pop hbb rfl (.p2a ⟨hre.cur, hre.hooks, hre.td, hre.others⟩ h0 hc hf hs hb.tail hrd)
  | p2b F F' hre h0 hc hf hs hF hF' hb hrd =>
    cases F with
    | cons x l =>
      rw [rest_fire due hre (by rw [h0]; rfl) (hF x (by simp)) (by rw [hb]; rfl)]
      exact Next.pop hb rfl (.p2b l F' ⟨hre.cur, hre.hooks, hre.td, hre.others⟩ h0 hc hf hs hF.tail
        hF' rfl hrd)
    | nil =>
      have hb : s.batch = .task 0 :: .clock :: F' := hb
      rw [rest_handle due hre hb]
      have hj : s.joiners 0 = [] := by
        apply List.eq_nil_iff_forall_not_mem.2
        intro t ht
        have h3 := List.one_le_count_iff.2 ht
        rw [hi.core.hj 0 t] at h3
        by_cases ht0 : t = 0
        · subst ht0; rw [h0] at h3; simp [jExp] at h3
        · have := hre.others t ht0
          cases hs' : s.st t with
          | done r => rw [hs'] at h3; simp [jExp] at h3
          | _ => rw [hs'] at this; cases this
      have hrun : runHandle sys (.task 0) { s with batch := .clock :: F' } =
          finish 0 (some v) (note (.resume 0) { s with batch := .clock :: F' }) := by
        show resume 0 _ = _
        unfold resume
        simp only [h0]
      rw [hrun]
      obtain ⟨e1, e2, e3, e4, e5, e6, e7, e8, e9⟩ :=
        finish_frame 0 (some v) (note (.resume 0) { s with batch := .clock :: F' })
      refine ⟨[.resume 0], _, e4, ?_, .inl (Nat.lt_succ_self _)⟩
      refine .p3 F' ⟨e8, e1.trans hre.hooks, e6.trans hre.td, ?_⟩ (finish_main _ _) (e5.trans hc)
        ?_ (e7.trans hs) hF' e9 ?_
      · intro t ht
        have := hre.others t ht
        rw [finish_st]
        simp only [note, hj]
        show isDone (wakeSt (upd s.st 0 _) [] t) = true
        unfold wakeSt
        rw [if_neg (by simp), upd_ne _ _ _ _ ht]
        exact this
      · show (finish 0 (some v) (note (.resume 0) { s with batch := .clock :: F' })).flag = false
        exact hf
      · unfold finish
        simp [note, push, wake, hj, hrd]
  | p3 F' hre h0 hc hf hs hF' hb hrd =>
    rw [rest_handle due hre hb]
    have hre' : Rest ({ s with batch := F' } : St σ G V) :=
      ⟨hre.cur, hre.hooks, hre.td, hre.others⟩
    have hun : hasUnwait ({ s with batch := F' } : St σ G V) = false :=
      rest_noUnwait hre' (by show isDone (s.st 0) = true; rw [h0]; rfl)
    have hcb := rest_callbacks sys hre'.hooks
    have hrun : runHandle sys .clock { s with batch := F' } =
        push .clock { cancelAll (note .sample { s with batch := F', g := sys.sample s.g }) with
          clock := .afterCancel } := by
      exact rest_cancel sys hc hre.hooks hun hf hcb hre.td
    rw [hrun]
    refine ⟨[.sample, .cancelAll], _, by simp [push, cancelAll, note], ?_, .inl (Nat.lt_succ_self _)⟩
    refine .p4a ⟨hre.cur, hre.hooks, hre.td, ?_⟩ h0 rfl hs ?_ ?_
    · intro t ht
      exact cancelSt_done _ t ht
    · show Fires (F'.filter keepMain)
      intro x hx
      exact hF' x (List.mem_filter.1 hx).1
    · show s.ready.filter keepMain ++ [Handle.clock] = _
      rw [hrd]; rfl
  | p4a hre h0 hc hs hb hrd =>
    cases hbb : s.batch with
    | nil =>
      rw [rest_turn due hre hbb hs]
      refine Next.down rfl (.p4b [] (due.map .fire) ⟨hre.cur, hre.hooks, hre.td, hre.others⟩ h0 hc
        hs (by intro x hx; cases hx) (fires_map due) ?_ rfl) (by decide)
      show s.ready ++ due.map Handle.fire = _
      rw [hrd]; simp
    | cons x l =>
      rw [hbb] at hb
      rw [rest_fire due hre (by rw [h0]; rfl) (hb x (by simp)) hbb]
      exact Next.pop hbb rfl (.p4a ⟨hre.cur, hre.hooks, hre.td, hre.others⟩ h0 hc hs hb.tail hrd)
  | p4b F F' hre h0 hc hs hF hF' hb hrd =>
    cases F with
    | cons x l =>
      rw [rest_fire due hre (by rw [h0]; rfl) (hF x (by simp)) (by rw [hb]; rfl)]
      exact Next.pop hb rfl (.p4b l F' ⟨hre.cur, hre.hooks, hre.td, hre.others⟩ h0 hc hs hF.tail
        hF' rfl hrd)
    | nil =>
      rw [rest_handle due hre hb]
      exact Next.down rfl (.p5 F' ⟨hre.cur, hre.hooks, hre.td, hre.others⟩ h0 hc rfl hF' rfl) (by decide)
  | p5 F' hre h0 hc hs hF' hb =>
    rw [rest_handle due hre hb]
    have hrun : runHandle sys .clock { s with batch := F' } = doStep sys { s with batch := F' } := by
      show runClock sys _ = _
      unfold runClock clockTurn
      simp only [hc]
    rw [hrun]
    obtain ⟨d1, d2, d3, d4, d5, d6, d7, d8, d9, d10⟩ := doStep_frame sys { s with batch := F' }
    have hdone : ∀ t, isDone (s.st t) = true →
        (doStep sys { s with batch := F' }).st t = s.st t := by
      intro t ht
      unfold doStep setEv
      simp only [note, hw.ev]
      show (if t ∈ s.waiters 0 then (s.st t).finish else s.st t) = _
      cases hst : s.st t with
      | done r => split <;> rfl
      | _ => rw [hst] at ht; cases ht
    refine ⟨[.step], _, d4, ?_, .inl (Nat.lt_succ_self _)⟩
    refine .p6 ⟨d8.trans hre.cur, d1.trans hre.hooks, d5.trans hre.td, ?_⟩ ?_ (d9.trans hs)
      (by rw [d10]; exact hF')
    · intro t ht
      rw [hdone t (hre.others t ht)]
      exact hre.others t ht
    · rw [hdone 0 (by rw [h0]; rfl)]; exact h0
  | p6 hre h0 hs hb =>
    cases hbb : s.batch with
    | nil =>
      rw [rest_halt due hre hbb hs]
      exact Next.quiet rfl (.p6 hre h0 hs hb) (.inr (.inr (.inr ⟨hs, hre.cur, hbb⟩)))
    | cons x l =>
      rw [hbb] at hb
      rw [rest_fire due hre (by rw [h0]; rfl) (hb x (by simp)) hbb]
      exact Next.pop hbb rfl (.p6 ⟨hre.cur, hre.hooks, hre.td, hre.others⟩ h0 hs hb.tail)

theorem path_phase {sys : Sys σ G V} {g : G} {k0 k : σ} {s0 s : St σ G V} {v : V}
    (hp : ClockPrivate sys) (h0 : Reach sys g k0 s0) (hc : s0.cur = some (0, k))
    (hret : sys.prog k s0.g = .ret v) (hclk : s0.clock ≠ .off) (due : List Nat)
    (hpath : Path sys (step sys due s0) s) (hna : s.aborted = false) :
    ∃ b rk, s.log = s0.log ++ [.testDone, .wait 0] ++ b ∧ Phase v (marks b) rk s := by
  have hi := reach_inv h0
  have hw := reach_WInv hp h0
  have hac := reach_AC h0
  induction hpath with
  | refl =>
    have hst : step sys due s0 = exec 0 (.ret v) s0 := by
      unfold step; rw [hc]; simp only [hret]
    have hex : exec 0 (.ret v) s0 = note (.wait 0)
        { block 0 (.pend (.final v)) (note .testDone { s0 with testDone := true }) with
          waiters := upd s0.waiters 0 (s0.waiters 0 ++ [0]) } := by
      unfold exec
      simp [hclk, hw.ev]
    rw [hst, hex]
    refine ⟨[], 9, by simp [note, block], .p1 ?_ ?_ rfl⟩
    · exact upd_self s0.st 0 _
    · show s0.clock = _ ∨ s0.clock = _
      cases hcl : s0.clock with
      | off => exact absurd hcl hclk
      | begin => exact .inl rfl
      | check => exact .inr rfl
      | afterCancel => have := hac.cur hcl; rw [hc] at this; cases this
      | dead =>
        have := dead_aborted h0 hcl
        rw [not_aborted sys due hna] at this; cases this
  | @step s due' hpath ih =>
    obtain ⟨b, rk, hl, hph⟩ := ih (not_aborted sys due' hna)
    have hr : Reach sys g k0 s := hpath.reach (.step due h0)
    obtain ⟨l, rk', hl', hph', _⟩ := phase_step hp hr due' hph (.inl hna)
    refine ⟨b ++ l, rk', ?_, ?_⟩
    · rw [hl', hl, List.append_assoc]
    · rw [marks_append]; exact hph'

/-- C17 (partial): after the test returned `v` in state `s0` with the clock running: when
`main_coro` finishes, its result is `v`, and between the return of the test and the last wake-up of
`main_coro` the remaining tasks are first cancelled (at a moment when they all have run to a
blocking point, `C13_cancel_quiescent`) and the DUT is then stepped exactly once.
Missing with respect to the full statement: that no further step follows before `toffee.run`
returns; this is false, see `C17_second_step_violated`. -/
theorem C17_one_step_partial (sys : Sys σ G V) (g : G) (k0 k : σ) (s0 s : St σ G V) (v : V)
    (hp : ClockPrivate sys) (h0 : Reach sys g k0 s0) (hc : s0.cur = some (0, k))
    (hret : sys.prog k s0.g = .ret v) (hclk : s0.clock ≠ .off) (due : List Nat)
    (hpath : Path sys (step sys due s0) s) (hna : s.aborted = false) (r : Option V) (hd : s.st 0 = .done r) :
    r = some v ∧ ∃ b, s.log = s0.log ++ [.testDone, .wait 0] ++ b ∧
      ∃ rest, marks b = [.cancelAll, .step, .resume 0] ++ rest := by
  obtain ⟨b, rk, hl, hph⟩ := path_phase hp h0 hc hret hclk due hpath hna
  generalize hm : marks b = m at hph
  cases hph with
  | p1 h => rw [h] at hd; cases hd
  | p1a F _ h => rw [h] at hd; cases hd
  | p1b F F' _ h => rw [h] at hd; cases hd
  | p2a _ h => rw [h] at hd; cases hd
  | p2b F F' _ h => rw [h] at hd; cases hd
  | p3 F' _ h => rw [h] at hd; cases hd; exact ⟨rfl, b, hl, [], hm⟩
  | p4a _ h => rw [h] at hd; cases hd; exact ⟨rfl, b, hl, [.cancelAll], hm⟩
  | p4b F F' _ h => rw [h] at hd; cases hd; exact ⟨rfl, b, hl, [.cancelAll], hm⟩
  | p5 F' _ h => rw [h] at hd; cases hd; exact ⟨rfl, b, hl, [.cancelAll], hm⟩
  | p6 _ h => rw [h] at hd; cases hd; exact ⟨rfl, b, hl, [.cancelAll, .step], hm⟩

theorem count_marks (b : List Ev) : (marks b).count .step = b.count .step := by
  induction b with
  | nil => rfl
  | cons e b ih => cases e <;> simp_all [marks, List.filter_cons] <;> split <;> simp_all

/-- C17 is false as stated: in *every* test that starts a clock the DUT is stepped exactly twice
between the return of the test and the end of the loop (the clock task gets another turn in the
loop iteration that stops the loop). -/
theorem C17_second_step_violated (sys : Sys σ G V) (g : G) (k0 k : σ) (s0 s : St σ G V) (v : V)
    (hp : ClockPrivate sys) (h0 : Reach sys g k0 s0) (hc : s0.cur = some (0, k))
    (hret : sys.prog k s0.g = .ret v) (hclk : s0.clock ≠ .off) (due : List Nat)
    (hpath : Path sys (step sys due s0) s) (hna : s.aborted = false) (hh : halted s) :
    s.st 0 = .done (some v) ∧ s.cycles = s0.cycles + 2 ∧
    ∃ b, s.log = s0.log ++ [.testDone, .wait 0] ++ b ∧
      marks b = [.cancelAll, .step, .resume 0, .cancelAll, .step] := by
  obtain ⟨b, rk, hl, hph⟩ := path_phase hp h0 hc hret hclk due hpath hna
  have hr : Reach sys g k0 s := hpath.reach (.step due h0)
  have hcnt := (reach_WInv hp hr).cnt
  have hcnt0 := (reach_WInv hp h0).cnt
  obtain ⟨hs, _, hb⟩ := hh
  generalize hm : marks b = m at hph
  have hns := reach_noStop hr hna
  cases hph with
  | p1 h =>
    rcases hns with h' | h'
    · rw [h] at h'; cases h'
    · rw [h'.2] at hs; cases hs
  | p1a F _ _ _ h => rw [h] at hs; cases hs
  | p1b F F' _ _ _ h => rw [h] at hs; cases hs
  | p2a _ _ _ _ h => rw [h] at hs; cases hs
  | p2b F F' _ _ _ _ h => rw [h] at hs; cases hs
  | p3 F' _ _ _ _ h => rw [h] at hs; cases hs
  | p4a _ _ _ h => rw [h] at hs; cases hs
  | p4b F F' _ _ _ h => rw [h] at hs; cases hs
  | p5 F' _ _ _ _ _ h => rw [h] at hb; cases hb
  | p6 _ h =>
    refine ⟨h, ?_, b, hl, hm⟩
    have := count_marks b
    rw [hm] at this
    rw [hcnt, hl, List.count_append, List.count_append, ← this, ← hcnt0]
    rfl

/-- `m` micro steps with the given timer oracle. -/
def runs (sys : Sys σ G V) : Nat → (Nat → List Nat) → St σ G V → St σ G V
  | 0, _, s => s
  | m + 1, dues, s => runs sys m (fun i => dues (i + 1)) (step sys (dues 0) s)

theorem phase_halts {sys : Sys σ G V} {g : G} {k0 : σ} (hp : ClockPrivate sys) {v : V} :
    ∀ (rk n : Nat) (m : List Ev) (s : St σ G V), s.batch.length = n → Reach sys g k0 s →
      Phase v m rk s → rk < 9 → ∀ dues, ∃ N, halted (runs sys N dues s) := by
  intro rk
  induction rk using Nat.strongRecOn with
  | _ rk ihr =>
    intro n
    induction n using Nat.strongRecOn with
    | _ n ihn =>
      intro m s hn hr hph hrk dues
      obtain ⟨l, rk', _, hph', hnear⟩ := phase_step hp hr (dues 0) hph (.inr hrk)
      rcases hnear with h | ⟨h, h'⟩ | h | h
      · obtain ⟨N, hN⟩ := ihr rk' h _ _ _ rfl (.step _ hr) hph' (by omega) (fun i => dues (i + 1))
        exact ⟨N + 1, hN⟩
      · subst h
        obtain ⟨N, hN⟩ := ihn _ (by omega) _ _ rfl (.step _ hr) hph' hrk (fun i => dues (i + 1))
        exact ⟨N + 1, hN⟩
      · omega
      · exact ⟨0, h⟩

/-- C17: once the remaining tasks have been cancelled (they all have come to rest), `toffee.run`
returns, whatever timers fire. -/
theorem C17_returns (sys : Sys σ G V) (g : G) (k0 k : σ) (s0 s : St σ G V) (v : V)
    (hp : ClockPrivate sys) (h0 : Reach sys g k0 s0) (hc : s0.cur = some (0, k))
    (hret : sys.prog k s0.g = .ret v) (hclk : s0.clock ≠ .off) (due : List Nat)
    (hpath : Path sys (step sys due s0) s) (hna : s.aborted = false) (b : List Ev)
    (hl : s.log = s0.log ++ [.testDone, .wait 0] ++ b) (hca : Ev.cancelAll ∈ b)
    (dues : Nat → List Nat) : ∃ N, halted (runs sys N dues s) := by
  obtain ⟨b', rk, hl', hph⟩ := path_phase hp h0 hc hret hclk due hpath hna
  have hbb : b' = b := List.append_cancel_left (hl'.symm.trans hl)
  subst hbb
  have hr : Reach sys g k0 s := hpath.reach (.step due h0)
  have hm : Ev.cancelAll ∈ marks b' := List.mem_filter.2 ⟨hca, by decide⟩
  refine phase_halts hp rk _ _ s rfl hr hph ?_ dues
  generalize marks b' = m at hph hm
  cases hph <;> first | decide | cases hm

/-! ### A concrete system -/

theorem path_iter {sys : Sys σ G V} (m : Nat) {s0 s : St σ G V} (h : Path sys s0 s) :
    Path sys s0 (iter sys m s) := by
  induction m generalizing s with
  | zero => exact h
  | succ m ih => exact ih (.step [] h)

/-- The test of `LoopClock.demo` returns 7 while task 2 is still running; the hypotheses of the
theorems are met and the loop halts. -/
example : ∃ s0 s k, Reach LoopClock.demo 0 0 s0 ∧ s0.cur = some (0, k) ∧
    LoopClock.demo.prog k s0.g = .ret 7 ∧ s0.clock ≠ .off ∧
    Path LoopClock.demo (step LoopClock.demo [] s0) s ∧ s.aborted = false ∧ halted s ∧ s0.cycles = 2 ∧ s.cycles = 4 :=
  ⟨iter LoopClock.demo 24 (init 0 0),
    iter LoopClock.demo 40 (step LoopClock.demo [] (iter LoopClock.demo 24 (init 0 0))), 5,
    reach_iter 24 .init, by decide, rfl, by decide, path_iter 40 .refl, by decide,
    ⟨by decide, by decide, by decide⟩, by decide, by decide⟩

end Toffee.Props.LoopEnd
