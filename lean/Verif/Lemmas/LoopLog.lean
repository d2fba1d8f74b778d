import Verif.Lemmas.Loop
/-! What the steps of the event loop do to the log, the pending hooks and the cycle counter. -/

namespace Toffee.Loop

variable {σ G V : Type}

/-- The possible shapes of a micro step. -/
inductive StepCase (sys : Sys σ G V) (s : St σ G V) : St σ G V → Prop where
  | exec (t : Nat) (k : σ) (hc : s.cur = some (t, k)) : StepCase sys s (exec t (sys.prog k s.g) s)
  | task (t : Nat) (rest : List Handle) (hc : s.cur = none) (hb : s.batch = .task t :: rest) :
      StepCase sys s (resume t { s with batch := rest })
  | clock (rest : List Handle) (hc : s.cur = none) (hb : s.batch = .clock :: rest) :
      StepCase sys s (runClock sys { s with batch := rest })
  | stop (rest : List Handle) (hc : s.cur = none) (hb : s.batch = .stop :: rest) :
      StepCase sys s { s with batch := rest, stopping := true }
  | fire (t : Nat) (k : σ) (rest : List Handle) (hc : s.cur = none)
      (hb : s.batch = .fire t :: rest) (hs : s.st t = .pend (.timer k)) :
      StepCase sys s (wake [t] { s with batch := rest })
  | miss (t : Nat) (rest : List Handle) (hc : s.cur = none) (hb : s.batch = .fire t :: rest)
      (hs : ∀ k, s.st t ≠ .pend (.timer k)) : StepCase sys s { s with batch := rest }
  | halt (hc : s.cur = none) (hb : s.batch = []) (hs : s.stopping = true) : StepCase sys s s
  | turn (due : List Nat) (hc : s.cur = none) (hb : s.batch = []) (hs : s.stopping = false) :
      StepCase sys s { s with batch := s.ready ++ due.map .fire, ready := [] }

theorem step_case (sys : Sys σ G V) (due : List Nat) (s : St σ G V) :
    StepCase sys s (step sys due s) := by
  unfold step
  split
  · rename_i t k hc
    exact .exec t k hc
  · rename_i hc
    split
    · rename_i hd rest hb
      cases hd with
      | task t => exact .task t rest hc hb
      | clock => exact .clock rest hc hb
      | stop => exact .stop rest hc hb
      | fire t =>
        simp only [runHandle]
        split
        · rename_i k hk
          exact .fire t k rest hc hb hk
        · rename_i hk
          exact .miss t rest hc hb hk
    · rename_i hb
      split
      · rename_i hs
        exact .halt hc hb hs
      · rename_i hs
        exact .turn due hc hb (by simpa using hs)

/-- The state after the hook `x`, executed after `pre`, has raised. -/
def raised (pre : List ((Nat × Hook σ G V) × Int)) (x : (Nat × Hook σ G V) × Int) (s : St σ G V) :
    St σ G V :=
  die ((pre ++ [x]).map fun h => h.1.1) (runFail (pre.foldl runHook s) x)

/-- The clock is about to run, and executes the hook `x` that raises, after the hooks `pre`. -/
def Raises (s : St σ G V) (pre : List ((Nat × Hook σ G V) × Int)) (x : (Nat × Hook σ G V) × Int)
    (rest : List Handle) : Prop :=
  s.cur = none ∧ s.batch = .clock :: rest ∧ s.clock = .check ∧
    hasUnwait s = false ∧ s.flag = false ∧ (∃ post, Priority.sorted s.hooks = pre ++ x :: post) ∧
    x.1.2.fails (pre.foldl runHook { s with batch := rest }).g = true

/-- The possible shapes of the clock task's turn. -/
inductive ClockCase (sys : Sys σ G V) (s : St σ G V) : St σ G V ⊕ St σ G V → Prop where
  | off (h : s.clock = .off) : ClockCase sys s (.inl s)
  | begin (h : s.clock = .begin) : ClockCase sys s (.inl (clockYield s))
  | busy (h : s.clock = .check) (hu : (hasUnwait s || s.flag) = true) :
      ClockCase sys s (.inl (clockYield s))
  | rerun (h : s.clock = .check) (hu : hasUnwait s = false) (hf : s.flag = false)
      (hr : (callbacks sys s).1 = true) : ClockCase sys s (.inl (clockYield (callbacks sys s).2))
  | cancel (h : s.clock = .check) (hu : hasUnwait s = false) (hf : s.flag = false)
      (hr : (callbacks sys s).1 = false) (ht : s.testDone = true) :
      ClockCase sys s
        (.inl (push .clock { cancelAll (callbacks sys s).2 with clock := .afterCancel }))
  | step (h : s.clock = .check) (hu : hasUnwait s = false) (hf : s.flag = false)
      (hr : (callbacks sys s).1 = false) (ht : s.testDone = false) :
      ClockCase sys s (.inr (callbacks sys s).2)
  | last (h : s.clock = .afterCancel) : ClockCase sys s (.inr s)
  | raise (h : s.clock = .check) (hu : hasUnwait s = false) (hf : s.flag = false)
      (pre : List ((Nat × Hook σ G V) × Int)) (x : (Nat × Hook σ G V) × Int)
      (post : List ((Nat × Hook σ G V) × Int)) (hs : Priority.sorted s.hooks = pre ++ x :: post)
      (hx : x.1.2.fails (pre.foldl runHook s).g = true) : ClockCase sys s (.inl (raised pre x s))
  | dead (h : s.clock = .dead) : ClockCase sys s (.inl s)

/-- Events that concern only the waiting for the clock and the end of the test. -/
def neutralEv : Ev → Bool
  | .wait _ | .resume _ | .testDone => true
  | _ => false

/-- Steps that neither request nor execute hooks nor belong to the clock task. -/
structure Neutral (s s' : St σ G V) : Prop where
  hooks : s'.hooks = s.hooks
  nextHook : s'.nextHook = s.nextHook
  cycles : s'.cycles = s.cycles
  log : ∃ l, s'.log = s.log ++ l ∧ ∀ e ∈ l, neutralEv e = true
  clk : s'.clock = s.clock ∨ (s.clock = .off ∧ s'.clock = .begin)

theorem Neutral.refl (s : St σ G V) : Neutral s s :=
  ⟨rfl, rfl, rfl, ⟨[], by simp⟩, .inl rfl⟩

theorem setEv_frame (e : Nat) (s : St σ G V) :
    (setEv e s).hooks = s.hooks ∧ (setEv e s).nextHook = s.nextHook ∧
    (setEv e s).cycles = s.cycles ∧ (setEv e s).log = s.log ∧ (setEv e s).clock = s.clock ∧
    (setEv e s).testDone = s.testDone ∧ (setEv e s).g = s.g ∧ (setEv e s).flag = s.flag ∧
    (setEv e s).stopping = s.stopping ∧ (setEv e s).batch = s.batch ∧ (setEv e s).n = s.n := by
  unfold setEv
  split <;> exact ⟨rfl, rfl, rfl, rfl, rfl, rfl, rfl, rfl, rfl, rfl, rfl⟩

theorem putQ_frame (y : Nat) (v : V) (s : St σ G V) :
    (putQ y v s).hooks = s.hooks ∧ (putQ y v s).nextHook = s.nextHook ∧
    (putQ y v s).cycles = s.cycles ∧ (putQ y v s).log = s.log ∧ (putQ y v s).clock = s.clock ∧
    (putQ y v s).testDone = s.testDone ∧ (putQ y v s).stopping = s.stopping ∧
    (putQ y v s).batch = s.batch := by
  unfold putQ
  simp only
  split <;> exact ⟨rfl, rfl, rfl, rfl, rfl, rfl, rfl, rfl⟩

theorem finish_frame (t : Nat) (r : Option V) (s : St σ G V) :
    (finish t r s).hooks = s.hooks ∧ (finish t r s).nextHook = s.nextHook ∧
    (finish t r s).cycles = s.cycles ∧ (finish t r s).log = s.log ∧
    (finish t r s).clock = s.clock ∧ (finish t r s).testDone = s.testDone ∧
    (finish t r s).stopping = s.stopping ∧ (finish t r s).cur = none ∧
    (finish t r s).batch = s.batch := by
  unfold finish
  by_cases h : t = 0 <;> simp [h, wake, push]

theorem fail_frame (t : Nat) (held : Bool) (s : St σ G V) :
    (fail t held s).hooks = s.hooks ∧ (fail t held s).nextHook = s.nextHook ∧
    (fail t held s).cycles = s.cycles ∧ (fail t held s).log = s.log ∧
    (fail t held s).clock = s.clock ∧ (fail t held s).testDone = s.testDone ∧
    (fail t held s).cur = none ∧ (fail t held s).batch = s.batch := by
  obtain ⟨b, c, hb⟩ := fail_eq t held s
  obtain ⟨e1, e2, e3, e4, e5, e6, _, e8, e9⟩ :=
    finish_frame t none { s with failed := upd s.failed t true }
  rw [hb]
  exact ⟨e1, e2, e3, e4, e5, e6, e8, e9⟩

theorem Neutral.fail (t : Nat) (held : Bool) (s : St σ G V) : Neutral s (fail t held s) := by
  obtain ⟨h1, h2, h3, h4, h5, _⟩ := fail_frame t held s
  exact ⟨h1, h2, h3, ⟨[], by simp [h4]⟩, .inl h5⟩

theorem Neutral.finish (t : Nat) (r : Option V) (s : St σ G V) : Neutral s (finish t r s) := by
  obtain ⟨h1, h2, h3, h4, h5, _⟩ := finish_frame t r s
  exact ⟨h1, h2, h3, ⟨[], by simp [h4]⟩, .inl h5⟩

theorem Neutral.note {s s' : St σ G V} (h : Neutral s s') (e : Ev) (he : neutralEv e = true) :
    Neutral s (note e s') := by
  obtain ⟨l, hl, hn⟩ := h.log
  refine ⟨h.hooks, h.nextHook, h.cycles, ⟨l ++ [e], ?_, ?_⟩, h.clk⟩
  · show s'.log ++ [e] = _
    rw [hl, List.append_assoc]
  · intro x hx
    rcases List.mem_append.1 hx with hx | hx
    · exact hn x hx
    · rw [List.mem_singleton] at hx; subst hx; exact he

theorem Neutral.trans {s s' s'' : St σ G V} (h : Neutral s s') (h' : Neutral s' s'') :
    Neutral s s'' := by
  obtain ⟨l, hl, hn⟩ := h.log
  obtain ⟨l', hl', hn'⟩ := h'.log
  refine ⟨h'.hooks.trans h.hooks, h'.nextHook.trans h.nextHook, h'.cycles.trans h.cycles,
    ⟨l ++ l', by rw [hl', hl, List.append_assoc], ?_⟩, ?_⟩
  · intro x hx
    rcases List.mem_append.1 hx with hx | hx
    · exact hn x hx
    · exact hn' x hx
  · rcases h.clk with c1 | ⟨c1, c2⟩ <;> rcases h'.clk with d1 | ⟨d1, d2⟩
    · exact .inl (d1.trans c1)
    · exact .inr ⟨c1 ▸ d1, d2⟩
    · exact .inr ⟨c1, d1.trans c2⟩
    · rw [c2] at d1; cases d1

/-- Steps of user tasks other than `add_priority_task` are neutral. -/
theorem exec_neutral (t : Nat) (c : Cmd σ G V) (s : St σ G V)
    (hc : ∀ h p k, c ≠ .addHook h p k) : Neutral s (exec t c s) := by
  have base : ∀ s' : St σ G V, s'.hooks = s.hooks → s'.nextHook = s.nextHook →
      s'.cycles = s.cycles → s'.log = s.log → s'.clock = s.clock → Neutral s s' :=
    fun s' h1 h2 h3 h4 h5 => ⟨h1, h2, h3, ⟨[], by simp [h4]⟩, .inl h5⟩
  cases c with
  | ret v =>
    simp only [exec]
    split
    · have h0 : Neutral s { s with testDone := true } := base _ rfl rfl rfl rfl rfl
      split
      · exact Neutral.trans (h0.note .testDone rfl) (Neutral.finish _ _ _)
      · apply Neutral.note _ _ rfl
        have := h0.note .testDone rfl
        exact ⟨this.hooks, this.nextHook, this.cycles, this.log, this.clk⟩
    · exact Neutral.finish _ _ _
  | raise held => exact Neutral.fail _ _ _
  | comp g k => exact base _ rfl rfl rfl rfl rfl
  | taskRun k => exact base _ rfl rfl rfl rfl rfl
  | yield k => exact base _ rfl rfl rfl rfl rfl
  | sleep k => exact base _ rfl rfl rfl rfl rfl
  | waitEv e k =>
    simp only [exec]
    split
    · exact base _ rfl rfl rfl rfl rfl
    · split
      · apply Neutral.note _ _ rfl
        exact base _ rfl rfl rfl rfl rfl
      · exact base _ rfl rfl rfl rfl rfl
  | setEv e k =>
    obtain ⟨h1, h2, h3, h4, h5, _⟩ := setEv_frame e s
    exact base _ h1 h2 h3 h4 h5
  | clearEv e k => exact base _ rfl rfl rfl rfl rfl
  | put q v k =>
    obtain ⟨h1, h2, h3, h4, h5, _⟩ := putQ_frame q v s
    exact base _ h1 h2 h3 h4 h5
  | get q k =>
    simp only [exec]
    split <;> exact base _ rfl rfl rfl rfl rfl
  | spawn s0 k => exact base _ rfl rfl rfl rfl rfl
  | join u k kx =>
    simp only [exec]
    split
    · exact base _ rfl rfl rfl rfl rfl
    · split
      · exact base _ rfl rfl rfl rfl rfl
      · exact Neutral.finish _ _ _
    · exact base _ rfl rfl rfl rfl rfl
  | addHook h p k => exact absurd rfl (hc h p k)
  | startClock k =>
    simp only [exec]
    split
    · rename_i ho
      exact ⟨rfl, rfl, rfl, ⟨[], by simp [push]⟩, .inr ⟨ho, rfl⟩⟩
    · exact base _ rfl rfl rfl rfl rfl

theorem resume_neutral (t : Nat) (s : St σ G V) : Neutral s (resume t s) := by
  have base : ∀ s' : St σ G V, s'.hooks = s.hooks → s'.nextHook = s.nextHook →
      s'.cycles = s.cycles → s'.log = s.log → s'.clock = s.clock → Neutral s s' :=
    fun s' h1 h2 h3 h4 h5 => ⟨h1, h2, h3, ⟨[], by simp [h4]⟩, .inl h5⟩
  unfold resume
  simp only
  split
  · exact base _ rfl rfl rfl rfl rfl
  · split
    · have := (Neutral.refl s).note (.resume t) rfl
      exact ⟨this.hooks, this.nextHook, this.cycles, this.log, this.clk⟩
    · exact base _ rfl rfl rfl rfl rfl
  · exact base _ rfl rfl rfl rfl rfl
  · split <;> exact base _ rfl rfl rfl rfl rfl
  · split
    · exact base _ rfl rfl rfl rfl rfl
    · split
      · exact base _ rfl rfl rfl rfl rfl
      · exact Neutral.finish _ _ _
  · exact Neutral.trans ((Neutral.refl s).note (.resume t) rfl) (Neutral.finish _ _ _)
  · exact Neutral.refl s

/-! ### The callbacks -/

theorem runEff_frame (s : St σ G V) (e : Eff σ V) :
    (runEff s e).hooks = s.hooks ∧ (runEff s e).nextHook = s.nextHook ∧
    (runEff s e).cycles = s.cycles ∧ (runEff s e).log = s.log ∧
    (runEff s e).testDone = s.testDone ∧ (runEff s e).stopping = s.stopping ∧
    (runEff s e).batch = s.batch := by
  cases e with
  | setEv e =>
    obtain ⟨h1, h2, h3, h4, h5, h6, h7, h8, h9, h10, h11⟩ := setEv_frame e s
    exact ⟨h1, h2, h3, h4, h6, h9, h10⟩
  | put q v =>
    obtain ⟨h1, h2, h3, h4, h5, h6, h7, h8⟩ := putQ_frame q v s
    exact ⟨h1, h2, h3, h4, h6, h7, h8⟩
  | spawn k => exact ⟨rfl, rfl, rfl, rfl, rfl, rfl, rfl⟩

/-- The log entry of executing a pending hook. -/
def execEv (h : (Nat × Hook σ G V) × Int) : Ev := .exec h.1.1 h.1.2.done.isSome

theorem runHook_frame (s : St σ G V) (h : (Nat × Hook σ G V) × Int) :
    (runHook s h).hooks = s.hooks ∧ (runHook s h).nextHook = s.nextHook ∧
    (runHook s h).cycles = s.cycles ∧ (runHook s h).log = s.log ++ [execEv h] ∧
    (runHook s h).testDone = s.testDone ∧ (runHook s h).stopping = s.stopping ∧
    (runHook s h).batch = s.batch := by
  unfold runHook
  let s0 : St σ G V := { note (.exec h.1.1 h.1.2.done.isSome) s with g := (h.1.2.run s.g).1 }
  have e1 := foldl_eq St.hooks runEff (fun s e => (runEff_frame s e).1) (h.1.2.run s.g).2 s0
  have e2 := foldl_eq St.nextHook runEff (fun s e => (runEff_frame s e).2.1) (h.1.2.run s.g).2 s0
  have e3 := foldl_eq St.cycles runEff (fun s e => (runEff_frame s e).2.2.1) (h.1.2.run s.g).2 s0
  have e4 := foldl_eq St.log runEff (fun s e => (runEff_frame s e).2.2.2.1) (h.1.2.run s.g).2 s0
  have e5 := foldl_eq St.testDone runEff (fun s e => (runEff_frame s e).2.2.2.2.1)
    (h.1.2.run s.g).2 s0
  have e6 := foldl_eq St.stopping runEff (fun s e => (runEff_frame s e).2.2.2.2.2.1)
    (h.1.2.run s.g).2 s0
  have e7 := foldl_eq St.batch runEff (fun s e => (runEff_frame s e).2.2.2.2.2.2)
    (h.1.2.run s.g).2 s0
  simp only
  split
  · rename_i e _
    obtain ⟨h1, h2, h3, h4, h5, h6, h7, h8, h9, h10, h11⟩ :=
      setEv_frame e ((h.1.2.run s.g).2.foldl runEff s0)
    exact ⟨h1.trans e1, h2.trans e2, h3.trans e3, h4.trans e4, h6.trans e5, h9.trans e6,
      h10.trans e7⟩
  · exact ⟨e1, e2, e3, e4, e5, e6, e7⟩

theorem runHooks_frame (l : List ((Nat × Hook σ G V) × Int)) (s : St σ G V) :
    (l.foldl runHook s).hooks = s.hooks ∧ (l.foldl runHook s).nextHook = s.nextHook ∧
    (l.foldl runHook s).cycles = s.cycles ∧ (l.foldl runHook s).log = s.log ++ l.map execEv ∧
    (l.foldl runHook s).testDone = s.testDone ∧ (l.foldl runHook s).stopping = s.stopping ∧
    (l.foldl runHook s).batch = s.batch := by
  induction l generalizing s with
  | nil => simp
  | cons h l ih =>
    obtain ⟨a1, a2, a3, a4, a5, a6, a7⟩ := ih (runHook s h)
    obtain ⟨b1, b2, b3, b4, b5, b6, b7⟩ := runHook_frame s h
    refine ⟨a1.trans b1, a2.trans b2, a3.trans b3, ?_, a5.trans b5, a6.trans b6, a7.trans b7⟩
    rw [List.foldl_cons, a4, b4, List.append_assoc]
    rfl

theorem runFail_frame (s : St σ G V) (h : (Nat × Hook σ G V) × Int) :
    (runFail s h).hooks = s.hooks ∧ (runFail s h).nextHook = s.nextHook ∧
    (runFail s h).cycles = s.cycles ∧ (runFail s h).log = s.log ++ [.hookRaise h.1.1] ∧
    (runFail s h).testDone = s.testDone ∧ (runFail s h).stopping = s.stopping ∧
    (runFail s h).batch = s.batch := by
  unfold runFail
  let s0 : St σ G V := { note (.hookRaise h.1.1) s with g := (h.1.2.run s.g).1 }
  have e1 := foldl_eq St.hooks runEff (fun s e => (runEff_frame s e).1) (h.1.2.run s.g).2 s0
  have e2 := foldl_eq St.nextHook runEff (fun s e => (runEff_frame s e).2.1) (h.1.2.run s.g).2 s0
  have e3 := foldl_eq St.cycles runEff (fun s e => (runEff_frame s e).2.2.1) (h.1.2.run s.g).2 s0
  have e4 := foldl_eq St.log runEff (fun s e => (runEff_frame s e).2.2.2.1) (h.1.2.run s.g).2 s0
  have e5 := foldl_eq St.testDone runEff (fun s e => (runEff_frame s e).2.2.2.2.1)
    (h.1.2.run s.g).2 s0
  have e6 := foldl_eq St.stopping runEff (fun s e => (runEff_frame s e).2.2.2.2.2.1)
    (h.1.2.run s.g).2 s0
  have e7 := foldl_eq St.batch runEff (fun s e => (runEff_frame s e).2.2.2.2.2.2)
    (h.1.2.run s.g).2 s0
  exact ⟨e1, e2, e3, e4, e5, e6, e7⟩

/-- The hooks that were awaited are spent. -/
def spend (ran : List Nat) (hs : List ((Nat × Hook σ G V) × Int)) : List ((Nat × Hook σ G V) × Int) :=
  hs.map fun h => if h.1.1 ∈ ran then ((h.1.1, spent h.1.2), h.2) else h

theorem mem_spend {ran : List Nat} {hs : List ((Nat × Hook σ G V) × Int)}
    {x : (Nat × Hook σ G V) × Int} (h : x ∈ spend ran hs) :
    x ∈ hs ∨ ∃ y ∈ hs, x = ((y.1.1, spent y.1.2), y.2) := by
  obtain ⟨y, hy, rfl⟩ := List.mem_map.1 h
  split
  · exact .inr ⟨y, hy, rfl⟩
  · exact .inl hy

theorem spend_keys (ran : List Nat) (hs : List ((Nat × Hook σ G V) × Int)) :
    (spend ran hs).map (fun h => (h.1.1, h.2)) = hs.map fun h => (h.1.1, h.2) := by
  unfold spend
  rw [List.map_map]
  apply List.map_congr_left
  intro h _
  simp only [Function.comp]
  split <;> rfl

theorem raised_frame (pre : List ((Nat × Hook σ G V) × Int)) (x : (Nat × Hook σ G V) × Int)
    (s : St σ G V) :
    (raised pre x s).hooks = spend ((pre ++ [x]).map fun h => h.1.1) s.hooks ∧
    (raised pre x s).nextHook = s.nextHook ∧
    (raised pre x s).cycles = s.cycles ∧
    (raised pre x s).log = s.log ++ (pre.map execEv ++ [.hookRaise x.1.1]) ∧
    (raised pre x s).testDone = s.testDone ∧ (raised pre x s).batch = s.batch ∧
    (raised pre x s).cur = s.cur := by
  obtain ⟨a1, a2, a3, a4, a5, a6, a7⟩ := runHooks_frame pre s
  obtain ⟨b1, b2, b3, b4, b5, b6, b7⟩ := runFail_frame (pre.foldl runHook s) x
  refine ⟨?_, b2.trans a2, b3.trans a3, ?_, b5.trans a5, b7.trans a7, ?_⟩
  · show (runFail _ _).hooks.map _ = _
    rw [b1, a1]
    rfl
  · show (runFail _ _).log = _
    rw [b4, a4, List.append_assoc]
  · exact (runFail_cur _ _).trans (foldl_eq St.cur runHook runHook_cur pre s)

/-- What every hook preserves holds when a hook has raised. -/
theorem raised_rule {P : St σ G V → Prop} (h1 : ∀ s x, P s → P (runHook s x))
    (h2 : ∀ s x, P s → P (runFail s x)) (h3 : ∀ s ran, P s → P (die ran s))
    (pre : List ((Nat × Hook σ G V) × Int)) (x : (Nat × Hook σ G V) × Int) {s : St σ G V} (hp : P s) :
    P (raised pre x s) :=
  h3 _ _ (h2 _ _ (foldl_inv P runHook h1 pre s hp))

theorem callbacks_frame (sys : Sys σ G V) (s : St σ G V) :
    (callbacks sys s).2.hooks = [] ∧ (callbacks sys s).2.nextHook = s.nextHook ∧
    (callbacks sys s).2.cycles = s.cycles ∧
    (callbacks sys s).2.log = s.log ++ (Priority.sorted s.hooks).map execEv ++ [.sample] ∧
    (callbacks sys s).2.testDone = s.testDone ∧ (callbacks sys s).2.stopping = s.stopping ∧
    (callbacks sys s).2.batch = s.batch := by
  obtain ⟨a1, a2, a3, a4, a5, a6, a7⟩ := runHooks_frame (Priority.sorted s.hooks) s
  refine ⟨rfl, a2, a3, ?_, a5, a6, a7⟩
  show ((Priority.sorted s.hooks).foldl runHook s).log ++ [Ev.sample] = _
  rw [a4]

theorem doStep_frame (sys : Sys σ G V) (s : St σ G V) :
    (doStep sys s).hooks = s.hooks ∧ (doStep sys s).nextHook = s.nextHook ∧
    (doStep sys s).cycles = s.cycles + 1 ∧ (doStep sys s).log = s.log ++ [.step] ∧
    (doStep sys s).testDone = s.testDone ∧ (doStep sys s).clock = .check ∧
    (doStep sys s).flag = false ∧ (doStep sys s).cur = s.cur ∧
    (doStep sys s).stopping = s.stopping ∧ (doStep sys s).batch = s.batch := by
  obtain ⟨h1, h2, h3, h4, h5, h6, h7, h8, h9, h10, h11⟩ := setEv_frame 0
    (note .step { s with g := sys.dutStep s.g, cycles := s.cycles + 1 })
  exact ⟨h1, h2, h3, h4, h6, rfl, rfl, setEv_cur _ _, h9, h10⟩

theorem clock_case (sys : Sys σ G V) (s : St σ G V) : ClockCase sys s (clockTurn sys s) := by
  unfold clockTurn
  cases hcl : s.clock with
  | off => exact .off hcl
  | begin => exact .begin hcl
  | afterCancel => exact .last hcl
  | dead => exact .dead hcl
  | check =>
    simp only
    by_cases h1 : (hasUnwait s || s.flag) = true
    · rw [if_pos h1]; exact .busy hcl h1
    · rw [if_neg h1]
      have hu : hasUnwait s = false := by
        cases h : hasUnwait s <;> simp_all
      have hf : s.flag = false := by
        cases h : s.flag <;> simp_all
      cases hrs : raising (Priority.sorted s.hooks) [] s with
      | some r =>
        obtain ⟨pre, x, post, e1, e2, rfl⟩ := raising_spec hrs
        exact .raise hcl hu hf pre x post e1 e2
      | none =>
      simp only
      by_cases h2 : (callbacks sys s).1 = true
      · rw [if_pos h2]; exact .rerun hcl hu hf h2
      · rw [if_neg h2]
        have h2 : (callbacks sys s).1 = false := by simpa using h2
        have htd := (callbacks_frame sys s).2.2.2.2.1
        by_cases h3 : (callbacks sys s).2.testDone = true
        · rw [if_pos h3]; exact .cancel hcl hu hf h2 (htd ▸ h3)
        · rw [if_neg h3]
          exact .step hcl hu hf h2 (by rw [← htd]; simpa using h3)

theorem InvX.pop {s : St σ G V} {rest : List Handle} (h : Inv s) (hb : s.batch = .clock :: rest) :
    InvX [.clock] { s with batch := rest } := by
  refine ⟨?_, h.main⟩
  have := h.core
  unfold InvS at this ⊢
  rw [hb] at this
  exact this

/-! ### Nobody runs between `cancel_all_tasks` and the clock's next turn -/

structure AC (s : St σ G V) : Prop where
  cur : s.clock = .afterCancel → s.cur = none
  st : s.clock = .afterCancel → ∀ t, finalOrDone (s.st t) = true
  hooks : s.clock = .afterCancel → s.hooks = []
  td : s.clock = .afterCancel → s.testDone = true

theorem AC.of_ne {s : St σ G V} (h : s.clock ≠ .afterCancel) : AC s :=
  ⟨fun e => absurd e h, fun e => absurd e h, fun e => absurd e h, fun e => absurd e h⟩

theorem qExp_one_of_head {s : St σ G V} {t : Nat} {rest : List Handle} (h : Inv s)
    (hb : s.batch = .task t :: rest) : qExp (s.st t) = 1 := by
  have h1 := h.core.hq t
  have h2 : ([] ++ (s.batch ++ s.ready)).count (Handle.task t) ≥ 1 := by
    rw [hb]; simp
  have h3 : qExp (s.st t) ≤ 1 := by cases s.st t <;> simp [qExp]
  omega

theorem exec_clock_ne (t : Nat) (c : Cmd σ G V) (s : St σ G V) (h : s.clock ≠ .afterCancel) :
    (exec t c s).clock ≠ .afterCancel := by
  by_cases hh : ∃ h p k', c = .addHook h p k'
  · obtain ⟨_, p, k', rfl⟩ := hh
    exact h
  · have := exec_neutral t c s (fun h p k' hp => hh ⟨h, p, k', hp⟩)
    rcases this.clk with h1 | ⟨h1, h2⟩
    · rw [h1]; exact h
    · rw [h2]; simp

/-- In the only possible task step after `cancel_all_tasks` main finishes. -/
theorem resume_final {s : St σ G V} {t : Nat} {rest : List Handle} (h : Inv s) 
    (hb : s.batch = .task t :: rest) (hst : finalOrDone (s.st t) = true) :
    ∃ v, s.st t = .fin (.final v) ∧ resume t { s with batch := rest } =
      finish t (some v) (note (.resume t) { s with batch := rest }) := by
  have hq := qExp_one_of_head h hb
  have hfin : ∃ v, s.st t = .fin (.final v) := by
    revert hst hq
    cases s.st t with
    | fin w => cases w <;> simp [finalOrDone, qExp]
    | pend w => simp [qExp]
    | _ => simp [finalOrDone, qExp]
  obtain ⟨v, hv⟩ := hfin
  exact ⟨v, hv, by simp only [resume, hv]⟩

theorem reach_AC {sys : Sys σ G V} {g : G} {k : σ} {s : St σ G V} (h : Reach sys g k s) :
    AC s := by
  induction h with
  | init => exact AC.of_ne (by simp [init])
  | @step s due hr ih =>
    have hinv := reach_inv hr
    have hsc := step_case sys due s
    generalize step sys due s = s' at hsc
    cases hsc with
    | exec t k hc =>
      apply AC.of_ne
      apply exec_clock_ne
      intro h
      have := ih.cur h
      rw [hc] at this; cases this
    | task t rest hc hb =>
      by_cases hcl : s.clock = .afterCancel
      · obtain ⟨v, hv, hres⟩ := resume_final hinv hb (ih.st hcl t)
        rw [hres]
        obtain ⟨f1, f2, f3, f4, f5, f6, f7, f8, f9⟩ :=
          finish_frame t (some v) (note (.resume t) { s with batch := rest })
        refine ⟨fun _ => f8, fun _ u => ?_, fun _ => ?_, fun _ => ?_⟩
        · rw [finish_st]
          apply finalOrDone_wake
          by_cases hu : u = t
          · subst hu; rw [upd_self]; rfl
          · rw [upd_ne _ _ _ _ hu]; exact ih.st hcl u
        · rw [f1]; exact ih.hooks hcl
        · rw [f6]; exact ih.td hcl
      · apply AC.of_ne
        rcases (resume_neutral t { s with batch := rest }).clk with h1 | ⟨h1, h2⟩
        · rw [h1]; exact hcl
        · rw [h2]; simp
    | clock rest hc hb =>
      unfold runClock
      have hcc := clock_case sys { s with batch := rest }
      generalize clockTurn sys { s with batch := rest } = r at hcc
      cases hcc with
      | off h => exact AC.of_ne (by rw [h]; simp)
      | dead h => exact AC.of_ne (by rw [h]; simp)
      | raise h => exact AC.of_ne (by simp [raised, die])
      | begin h => exact AC.of_ne (by simp [clockYield, push])
      | busy h => exact AC.of_ne (by simp [clockYield, push])
      | rerun h => exact AC.of_ne (by simp [clockYield, push])
      | step h => exact AC.of_ne (by rw [(doStep_frame sys _).2.2.2.2.2.1]; simp)
      | last h => exact AC.of_ne (by rw [(doStep_frame sys _).2.2.2.2.2.1]; simp)
      | cancel h hu hf hr ht =>
        have hcb := callbacks_inv sys (InvX.pop hinv hb)
        have h3 : (callbacks sys { s with batch := rest }).2.testDone = true := by
          rw [(callbacks_frame sys _).2.2.2.2.1]; exact ht
        refine ⟨fun _ => ?_, fun _ t => ?_, fun _ => ?_, fun _ => h3⟩
        · show (callbacks sys _).2.cur = none
          rw [callbacks_cur]; exact hc
        · show finalOrDone (cancelSt (callbacks sys _).2.st t) = true
          by_cases ht : t = 0
          · subst ht; exact hcb.main h3
          · have := cancelSt_done (callbacks sys { s with batch := rest }).2.st t ht
            revert this
            cases cancelSt (callbacks sys { s with batch := rest }).2.st t <;>
              simp [isDone, finalOrDone]
        · exact (callbacks_frame sys { s with batch := rest }).1
    | stop rest hc hb => exact ⟨fun h => hc, ih.st, ih.hooks, ih.td⟩
    | fire t k rest hc hb hs =>
      apply AC.of_ne
      intro hcl
      have := ih.st hcl t
      rw [hs] at this
      simp [finalOrDone] at this
    | miss t rest hc hb hs => exact ⟨fun h => hc, ih.st, ih.hooks, ih.td⟩
    | halt hc hb hs => exact ih
    | turn due hc hb hs => exact ⟨fun h => hc, ih.st, ih.hooks, ih.td⟩

/-- The clock is about to run and calls `dut.Step(1)` in state `s'`. -/
def StepsAt (sys : Sys σ G V) (s s' : St σ G V) : Prop :=
  s.cur = none ∧ ∃ rest, s.batch = .clock :: rest ∧
    clockTurn sys { s with batch := rest } = .inr s'

/-- `dut.Step(1)` is called exactly in those states: the cycle counter changes only there. -/
theorem cycles_step (sys : Sys σ G V) (due : List Nat) (s : St σ G V) :
    (∃ s', StepsAt sys s s' ∧ step sys due s = doStep sys s') ∨
    ((∀ s', ¬ StepsAt sys s s') ∧ (step sys due s).cycles = s.cycles) := by
  have nostep : ∀ (x : Handle) (rest : List Handle), s.batch = x :: rest → x ≠ .clock →
      ∀ s', ¬ StepsAt sys s s' := by
    rintro x rest hb hx s' ⟨_, rest', h, _⟩
    rw [hb] at h; cases h; exact hx rfl
  have hsc := step_case sys due s
  generalize step sys due s = s1 at hsc
  cases hsc with
  | exec t k hc =>
    right
    refine ⟨fun s' h => (by have h := h.1; rw [hc] at h; cases h), ?_⟩
    by_cases hh : ∃ h p k', sys.prog k s.g = .addHook h p k'
    · obtain ⟨h, p, k', hp⟩ := hh
      rw [hp]; rfl
    · exact (exec_neutral t (sys.prog k s.g) s (fun h p k' hp => hh ⟨h, p, k', hp⟩)).cycles
  | task t rest hc hb =>
    exact .inr ⟨nostep _ rest hb (by simp), (resume_neutral t _).cycles⟩
  | clock rest hc hb =>
    cases hk : clockTurn sys { s with batch := rest } with
    | inr s' =>
      left
      refine ⟨s', ⟨hc, rest, hb, hk⟩, ?_⟩
      simp only [runClock, hk]
    | inl s' =>
      right
      refine ⟨fun s'' h => ?_, ?_⟩
      · obtain ⟨_, rest', h, hk'⟩ := h
        rw [hb] at h
        cases h
        rw [hk] at hk'; cases hk'
      · simp only [runClock, hk]
        have hcc := clock_case sys { s with batch := rest }
        rw [hk] at hcc
        have hcy := (callbacks_frame sys { s with batch := rest }).2.2.1
        cases hcc with
        | off h => rfl
        | dead h => rfl
        | begin h => rfl
        | busy h => rfl
        | raise h hu hf pre x post hs hx => exact (raised_frame pre x { s with batch := rest }).2.2.1
        | rerun h => exact hcy
        | cancel h => exact hcy
  | stop rest hc hb => exact .inr ⟨nostep _ rest hb (by simp), rfl⟩
  | fire t k rest hc hb hs => exact .inr ⟨nostep _ rest hb (by simp), rfl⟩
  | miss t rest hc hb hs => exact .inr ⟨nostep _ rest hb (by simp), rfl⟩
  | halt hc hb hs =>
    refine .inr ⟨?_, rfl⟩
    rintro s' ⟨_, rest', h, _⟩
    rw [hb] at h; cases h
  | turn due hc hb hs =>
    refine .inr ⟨?_, rfl⟩
    rintro s' ⟨_, rest', h, _⟩
    rw [hb] at h; cases h

end Toffee.Loop
