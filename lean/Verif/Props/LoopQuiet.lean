import Verif.Lemmas.LoopRun
/-!
C13: the clock only steps when nothing else can run.
-/

namespace Toffee.Props.LoopQuiet

open Toffee.Loop

variable {σ G V : Type}

/-- The task is finished, or blocked on something that has not happened yet: an event that is not
set, an empty queue, an unfinished task, a timer that has not fired. -/
def Blocked (s : St σ G V) (t : Nat) : Prop :=
  match s.st t with
  | .done _ => True
  | .pend (.ev e _) => s.ev e = false
  | .pend (.get q _) => s.q q = []
  | .pend (.join u _ _) => ∀ r, s.st u ≠ .done r
  | .pend (.timer _) => True
  | .pend (.final _) => s.ev 0 = false
  | _ => False

/-- Hooks without a done event (monitor hooks) do not themselves set events, put into queues or
create tasks. -/
def HooksQuiet (sys : Sys σ G V) : Prop :=
  ∀ k g h p k', sys.prog k g = .addHook h p k' → h.done = none → ∀ g', (h.run g').2 = []

theorem hooks_quiet {sys : Sys σ G V} {g : G} {k : σ} {s : St σ G V} (hq : HooksQuiet sys)
    (h : Reach sys g k s) : ∀ x ∈ s.hooks, x.1.2.done = none → ∀ g', (x.1.2.run g').2 = [] := by
  induction h with
  | init => simp [init]
  | @step s due hr ih =>
    have hsc := step_case sys due s
    generalize step sys due s = s' at hsc
    cases hsc with
    | exec t k hc =>
      by_cases hh : ∃ h p k', sys.prog k s.g = .addHook h p k'
      · obtain ⟨h, p, k', hp⟩ := hh
        rw [hp]
        intro x hx
        have hx : x ∈ s.hooks ++ [((s.nextHook, h), p)] := hx
        rcases List.mem_append.1 hx with hx | hx
        · exact ih x hx
        · rw [List.mem_singleton] at hx
          subst hx
          exact hq k s.g h p k' hp
      · rw [(exec_neutral t (sys.prog k s.g) s (fun h p k' hp => hh ⟨h, p, k', hp⟩)).hooks]
        exact ih
    | task t rest hc hb => rw [(resume_neutral t _).hooks]; exact ih
    | clock rest hc hb =>
      unfold runClock
      have hcc := clock_case sys { s with batch := rest }
      have hf := (callbacks_frame sys { s with batch := rest }).1
      generalize clockTurn sys { s with batch := rest } = r at hcc
      cases hcc with
      | off h => exact ih
      | dead h => exact ih
      | begin h => exact ih
      | busy h => exact ih
      | raise h hu hx pre y post hs hy =>
        intro x hx
        have hx : x ∈ (raised pre y { s with batch := rest }).hooks := hx
        rw [(raised_frame pre y _).1] at hx
        rcases mem_spend hx with hx | ⟨z, hz, rfl⟩
        · exact ih x hx
        · exact fun _ _ => rfl
      | rerun h =>
        intro x hx
        have hx : x ∈ (callbacks sys { s with batch := rest }).2.hooks := hx
        rw [hf] at hx; cases hx
      | cancel h =>
        intro x hx
        have hx : x ∈ (callbacks sys { s with batch := rest }).2.hooks := hx
        rw [hf] at hx; cases hx
      | step h =>
        intro x hx
        simp only [(doStep_frame sys _).1] at hx
        rw [hf] at hx; cases hx
      | last h =>
        intro x hx
        simp only [(doStep_frame sys _).1] at hx
        exact ih x hx
    | stop rest hc hb => exact ih
    | fire t k rest hc hb hs => exact ih
    | miss t rest hc hb hs => exact ih
    | halt hc hb hs => exact ih
    | turn due hc hb hs => exact ih

/-- Quiet hooks without done event only change the shared state and the log. -/
theorem runHooks_quiet (l : List ((Nat × Hook σ G V) × Int)) (s : St σ G V)
    (h : ∀ x ∈ l, x.1.2.done = none ∧ ∀ g', (x.1.2.run g').2 = []) :
    ∃ g lg, l.foldl runHook s = { s with g := g, log := lg } := by
  induction l generalizing s with
  | nil => exact ⟨s.g, s.log, rfl⟩
  | cons x l ih =>
    obtain ⟨h1, h2⟩ := h x (by simp)
    have hx : runHook s x = { s with g := (x.1.2.run s.g).1, log := s.log ++ [execEv x] } := by
      unfold runHook
      simp only [h1]
      have : (x.1.2.run (note (.exec x.1.1 (none : Option Nat).isSome) s).g).2 = [] := h2 _
      rw [this]
      simp [note, execEv, h1]
    obtain ⟨g, lg, hl⟩ := ih (runHook s x) (fun y hy => h y (by simp [hy]))
    refine ⟨g, lg, ?_⟩
    rw [List.foldl_cons, hl, hx]

/-- No task is runnable: everything follows from the bookkeeping invariant. -/
theorem blocked_of_idle {x : List Handle} {s : St σ G V} (h : InvX x s)
    (hid : ∀ t, (∃ w, s.st t = .pend w) ∨ ∃ r, s.st t = .done r) :
    (∀ t, Blocked s t) ∧ ∀ t, Handle.task t ∉ s.batch ++ s.ready := by
  have hnot : ∀ t, Handle.task t ∉ x ++ (s.batch ++ s.ready) := by
    intro t
    rw [← List.count_eq_zero, h.core.hq]
    rcases hid t with ⟨w, hw⟩ | ⟨r, hr⟩
    · rw [hw]; rfl
    · rw [hr]; rfl
  constructor
  · intro t
    unfold Blocked
    have hw := fun e => h.core.hw e t
    have hg := fun e => h.core.hg e t
    have hj := fun e => h.core.hj e t
    rcases hid t with ⟨w, hst⟩ | ⟨r, hst⟩
    · simp only [hst] at hw hg hj ⊢
      cases w with
      | ev e k =>
        simp only
        cases he : s.ev e
        · rfl
        · have h1 := h.core.hev e he
          have h2 := hw e
          rw [h1] at h2
          simp [wExp] at h2
      | final v =>
        simp only
        cases he : s.ev 0
        · rfl
        · have h1 := h.core.hev 0 he
          have h2 := hw 0
          rw [h1] at h2
          simp [wExp] at h2
      | get q k =>
        simp only
        have h1 : s.getters q ≠ [] := by
          intro h0
          have h2 := hg q
          rw [h0] at h2
          simp [gExp] at h2
        have h2 := h.core.hgetq q h1
        have h3 : (x ++ (s.batch ++ s.ready)).countP (isGet q s.st) = 0 := by
          rw [List.countP_eq_zero]
          intro a ha
          cases a with
          | task u => exact absurd ha (hnot u)
          | _ => simp [isGet]
        rw [h3] at h2
        exact List.length_eq_zero_iff.1 (Nat.le_zero.1 h2)
      | join u k kx =>
        simp only
        intro r hr
        have h1 := h.core.hdone u (by rw [hr]; rfl)
        have h2 := hj u
        rw [h1] at h2
        simp [jExp] at h2
      | timer k => trivial
    · rw [hst]; trivial
  · intro t ht
    exact hnot t (List.mem_append_right _ ht)

theorem idle_of_hasUnwait {x : List Handle} {s : St σ G V} (h : InvX x s)
    (hu : hasUnwait s = false) (t : Nat) :
    (∃ w, s.st t = .pend w) ∨ ∃ r, s.st t = .done r := by
  rcases Nat.lt_or_ge t s.n with hlt | hge
  · unfold hasUnwait at hu
    rw [List.any_eq_false] at hu
    have := hu t (List.mem_range.2 hlt)
    cases hs : s.st t with
    | pend w => exact .inl ⟨w, rfl⟩
    | done r => exact .inr ⟨r, rfl⟩
    | ready k => rw [hs] at this; simp at this
    | fin w => rw [hs] at this; simp at this
    | running => rw [hs] at this; simp at this
  · exact .inr ⟨none, h.core.hborn t hge⟩

/-- The callbacks leave the tasks alone if they do not ask for another round. -/
theorem callbacks_quiet {sys : Sys σ G V} {s : St σ G V}
    (hq : ∀ x ∈ s.hooks, x.1.2.done = none → ∀ g', (x.1.2.run g').2 = [])
    (hr : (callbacks sys s).1 = false) :
    ∃ g lg, (callbacks sys s).2 = { s with hooks := [], g := g, log := lg } := by
  have hnone : ∀ x ∈ s.hooks, x.1.2.done = none := by
    intro x hx
    have : (s.hooks.any fun h => h.1.2.done.isSome) = false := hr
    rw [List.any_eq_false] at this
    have := this x hx
    cases hd : x.1.2.done with
    | none => rfl
    | some e => rw [hd] at this; simp at this
  obtain ⟨g, lg, hl⟩ := runHooks_quiet (Priority.sorted s.hooks) s (by
    intro x hx
    have hx := Priority.mem_sorted.1 hx
    exact ⟨hnone x hx, hq x hx (hnone x hx)⟩)
  refine ⟨sys.sample g, lg ++ [.sample], ?_⟩
  unfold callbacks
  simp only [hl, note]

/-- Main is not woken between `cancel_all_tasks` and the clock's next turn. -/
theorem afterCancel_pend {sys : Sys σ G V} {g : G} {k : σ} {s : St σ G V} (hq : HooksQuiet sys)
    (h : Reach sys g k s) : s.clock = .afterCancel →
      ∀ t, (∃ w, s.st t = .pend w) ∨ ∃ r, s.st t = .done r := by
  induction h with
  | init => intro h; simp [init] at h
  | @step s due hr ih =>
    have hinv := reach_inv hr
    have hac := reach_AC hr
    have hsc := step_case sys due s
    generalize step sys due s = s' at hsc
    cases hsc with
    | exec t k hc =>
      intro h
      exfalso
      refine exec_clock_ne t _ s ?_ h
      intro h
      have := hac.cur h
      rw [hc] at this; cases this
    | task t rest hc hb =>
      intro h
      by_cases hcl : s.clock = .afterCancel
      · obtain ⟨v, hv, _⟩ := resume_final hinv hb (hac.st hcl t)
        rcases ih hcl t with ⟨w, hw⟩ | ⟨r, hr⟩
        · rw [hv] at hw; cases hw
        · rw [hv] at hr; cases hr
      · exfalso
        rcases (resume_neutral t { s with batch := rest }).clk with h1 | ⟨h1, h2⟩
        · rw [h1] at h; exact hcl h
        · rw [h2] at h; cases h
    | clock rest hc hb =>
      unfold runClock
      have hcc := clock_case sys { s with batch := rest }
      generalize clockTurn sys { s with batch := rest } = r at hcc
      cases hcc with
      | off h => intro h'; have h' : s.clock = _ := h'; have h : s.clock = _ := h; rw [h] at h'; cases h'
      | dead h => intro h'; have h' : s.clock = _ := h'; have h : s.clock = _ := h; rw [h] at h'; cases h'
      | raise h => intro h'; cases h'
      | begin h => intro h'; cases h'
      | busy h => intro h'; cases h'
      | rerun h => intro h'; cases h'
      | step h =>
        intro h'
        simp only [(doStep_frame sys _).2.2.2.2.2.1] at h'
        cases h'
      | last h =>
        intro h'
        simp only [(doStep_frame sys _).2.2.2.2.2.1] at h'
        cases h'
      | cancel h hu hf hrr ht =>
        intro _ t
        have hqs : ∀ x ∈ s.hooks, x.1.2.done = none → ∀ g', (x.1.2.run g').2 = [] :=
          hooks_quiet hq hr
        obtain ⟨g, lg, hcb⟩ := callbacks_quiet (sys := sys) (s := { s with batch := rest }) hqs hrr
        show (∃ w, cancelSt (callbacks sys { s with batch := rest }).2.st t = .pend w) ∨
          ∃ r, cancelSt (callbacks sys { s with batch := rest }).2.st t = .done r
        rw [hcb]
        by_cases h0 : t = 0
        · subst h0
          exact idle_of_hasUnwait (InvX.pop hinv hb) hu 0
        · right
          have := cancelSt_done s.st t h0
          show ∃ r, cancelSt s.st t = .done r
          revert this
          cases cancelSt s.st t <;> simp [isDone]
    | stop rest hc hb => exact ih
    | fire t k rest hc hb hs =>
      intro hcl
      have := hac.st hcl t
      rw [hs] at this
      simp [finalOrDone] at this
    | miss t rest hc hb hs => exact ih
    | halt hc hb hs => exact ih
    | turn due hc hb hs => exact ih

/-- C13 (partial): whenever `dut.Step(1)` is called, every task is finished or blocked on something
that has not happened, and no step or wake-up of any task is scheduled.  Missing with respect to
the full statement: hooks without a done event (monitor hooks) that themselves set events, put into
queues or create tasks; for those it is false, see `C13_violated`. -/
theorem C13_quiescent_partial (sys : Sys σ G V) (g : G) (k : σ) (hq : HooksQuiet sys)
    (s s' : St σ G V) (hr : Reach sys g k s) (hs : StepsAt sys s s') :
    (∀ t, Blocked s' t) ∧ ∀ t, Handle.task t ∉ s'.batch ++ s'.ready := by
  obtain ⟨hc, rest, hb, hk⟩ := hs
  have hinv := reach_inv hr
  have hpop := InvX.pop hinv hb
  have hcc := clock_case sys { s with batch := rest }
  rw [hk] at hcc
  cases hcc with
  | step h hu hf hrr ht =>
    have hqs : ∀ x ∈ s.hooks, x.1.2.done = none → ∀ g', (x.1.2.run g').2 = [] :=
      hooks_quiet hq hr
    obtain ⟨g, lg, hcb⟩ := callbacks_quiet (sys := sys) (s := { s with batch := rest }) hqs hrr
    apply blocked_of_idle (callbacks_inv sys hpop)
    intro t
    rw [hcb]
    exact idle_of_hasUnwait hpop hu t
  | last h =>
    apply blocked_of_idle hpop
    exact fun t => afterCancel_pend hq hr h t

theorem count_cancel_neutral {s s' : St σ G V} (h : Neutral s s') :
    s'.log.count .cancelAll = s.log.count .cancelAll := by
  obtain ⟨l, hl, hn⟩ := h.log
  rw [hl, List.count_append]
  have : l.count Ev.cancelAll = 0 := by
    rw [List.count_eq_zero]
    intro hx
    have := hn _ hx
    cases this
  omega

theorem count_cancel_callbacks (sys : Sys σ G V) (s : St σ G V) :
    (callbacks sys s).2.log.count .cancelAll = s.log.count .cancelAll := by
  rw [(callbacks_frame sys s).2.2.2.1, List.count_append, List.count_append]
  have : ((Priority.sorted s.hooks).map execEv).count Ev.cancelAll = 0 := by
    rw [List.count_eq_zero]
    intro hx
    obtain ⟨y, _, hy⟩ := List.mem_map.1 hx
    cases hy
  simp [this]

/-- C13: the same holds, for arbitrary hooks, whenever `cancel_all_tasks` is called: when the
remaining tasks of a finished test are cancelled, each of them has run to a blocking point. -/
theorem C13_cancel_quiescent (sys : Sys σ G V) (g : G) (k : σ) (s : St σ G V) (due : List Nat)
    (hr : Reach sys g k s)
    (hx : (step sys due s).log.count .cancelAll ≠ s.log.count .cancelAll) :
    (∀ t, Blocked s t) ∧ ∀ t, Handle.task t ∉ s.batch ++ s.ready := by
  have hinv := reach_inv hr
  have hsc := step_case sys due s
  generalize step sys due s = s' at hsc hx
  cases hsc with
  | exec t k hc =>
    exfalso
    apply hx
    by_cases hh : ∃ h p k', sys.prog k s.g = .addHook h p k'
    · obtain ⟨h, p, k', hp⟩ := hh
      rw [hp]
      show (s.log ++ [Ev.req s.nextHook p]).count Ev.cancelAll = _
      simp
    · exact count_cancel_neutral (exec_neutral t _ s (fun h p k' hp => hh ⟨h, p, k', hp⟩))
  | task t rest hc hb => exact absurd (count_cancel_neutral (resume_neutral t _)) hx
  | clock rest hc hb =>
    unfold runClock at hx
    have hcc := clock_case sys { s with batch := rest }
    have hcb := count_cancel_callbacks sys { s with batch := rest }
    generalize clockTurn sys { s with batch := rest } = r at hcc hx
    cases hcc with
    | off h => exact absurd rfl hx
    | dead h => exact absurd rfl hx
    | raise h hu hf pre y post hs hy =>
      refine absurd ?_ hx
      show (raised pre y { s with batch := rest }).log.count _ = _
      rw [(raised_frame pre y _).2.2.2.1, List.count_append]
      have : (pre.map execEv ++ [Ev.hookRaise y.1.1]).count Ev.cancelAll = 0 := by
        rw [List.count_eq_zero]
        intro hm
        rcases List.mem_append.1 hm with hm | hm
        · obtain ⟨_, _, hy⟩ := List.mem_map.1 hm
          cases hy
        · simp at hm
      rw [this]
      rfl
    | begin h => exact absurd rfl hx
    | busy h => exact absurd rfl hx
    | rerun h => exact absurd hcb hx
    | step h =>
      refine absurd ?_ hx
      show (doStep sys _).log.count _ = _
      rw [(doStep_frame sys _).2.2.2.1, List.count_append, hcb]
      simp
    | last h =>
      refine absurd ?_ hx
      show (doStep sys _).log.count _ = _
      rw [(doStep_frame sys _).2.2.2.1, List.count_append]
      simp
    | cancel h hu =>
      have hid := idle_of_hasUnwait (InvX.pop hinv hb) hu
      exact blocked_of_idle hinv hid
  | stop rest hc hb => exact absurd rfl hx
  | fire t k rest hc hb hs => exact absurd rfl hx
  | miss t rest hc hb hs => exact absurd rfl hx
  | halt hc hb hs => exact absurd rfl hx
  | turn due hc hb hs => exact absurd rfl hx

/-! ### Concrete systems -/

/-- A test that starts the clock and a task waiting for event 1, requests hook `h` and waits for
the clock once. -/
def demo (h : Hook Nat Nat Nat) : Sys Nat Nat Nat where
  prog k _ := match k with
    | 0 => .startClock 1
    | 1 => .spawn 10 (fun _ => 2)
    | 2 => .addHook h 0 3
    | 3 => .waitEv 0 4
    | 4 => .ret 7
    | 10 => .waitEv 1 11
    | _ => .ret 5
  dutStep g := g + 1
  sample g := g

/-- The state in which the clock is about to step, found by running the model. -/
def demoAt (h : Hook Nat Nat Nat) : St Nat Nat Nat := iter (demo h) 11 (init 0 0)

/-- A monitor hook that sets event 1. -/
def waker : Hook Nat Nat Nat := { run := fun g => (g, [.setEv 1]), done := none }

/-- A monitor hook that only computes. -/
def counter : Hook Nat Nat Nat := { run := fun g => (g + 5, []), done := none }

/-- C13 does not hold in general: a monitor hook (no done event) sets the event a task is waiting
for, and the clock steps while that task is runnable. -/
theorem C13_violated :
    ∃ (sys : Sys Nat Nat Nat) (s s' : St Nat Nat Nat), Reach sys 0 0 s ∧ StepsAt sys s s' ∧
      ¬ Blocked s' 1 ∧ Handle.task 1 ∈ s'.batch ++ s'.ready := by
  have h : (stepState (demo waker) (demoAt waker)).isSome = true := by decide
  refine ⟨demo waker, demoAt waker, _, reach_iter 11 .init,
    stepsAt_of_isSome h, ?_, ?_⟩
  · intro h; exact h
  · exact List.mem_cons_self

/-- The hypotheses of `C13_quiescent_partial` are met by the same test with a hook that only
computes; the state has a task blocked on an event. -/
example : HooksQuiet (demo counter) ∧
    Reach (demo counter) 0 0 (demoAt counter) ∧
    ∃ s', StepsAt (demo counter) (demoAt counter) s' := by
  refine ⟨?_, reach_iter 11 .init, _, stepsAt_of_isSome (by decide)⟩
  intro k g h p k' hp _ g'
  unfold demo at hp
  simp only at hp
  split at hp <;> first | (cases hp; done) | skip
  cases hp
  rfl

end Toffee.Props.LoopQuiet
