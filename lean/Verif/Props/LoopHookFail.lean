import Verif.Props.LoopFail
/-!
C82: an exception in a hook makes the test fail.
-/

namespace Toffee.Props.LoopHookFail

open Toffee.Loop Toffee.Props.LoopClock Toffee.Props.LoopEnd Toffee.Props.LoopFail

variable {σ G V : Type}

/-- C82: when a hook raises, the exception is reported, the loop is told to stop, and the DUT is
never stepped again. -/
theorem C82_hook_stops (sys : Sys σ G V) (g : G) (k0 : σ) (s s' : St σ G V) (i : Nat)
    (hr : Reach sys g k0 s) (h : Ev.hookRaise i ∈ s.log) (hpath : Path sys s s') :
    s'.aborted = true ∧ s'.stopping = true ∧ s'.cycles = s.cycles := by
  have hd := raise_dead hr h
  have h1 : Reach sys g k0 s' ∧ s'.clock = .dead ∧ s'.cycles = s.cycles := by
    induction hpath with
    | refl => exact ⟨hr, hd, rfl⟩
    | @step s1 due hp ih =>
      obtain ⟨hr1, hd1, hc1⟩ := ih
      refine ⟨.step due hr1, ?_⟩
      cases log_case due hr1 with
      | quiet _ _ _ _ _ hc _ hkd => exact ⟨hkd.2 hd1, hc.trans hc1⟩
      | req _ _ _ _ _ hc hk => exact ⟨hk.trans hd1, hc.trans hc1⟩
      | raise _ _ _ _ _ _ _ _ hk => rw [hk] at hd1; cases hd1
      | rerun _ _ _ _ _ hk => rw [hk] at hd1; cases hd1
      | step _ _ _ _ _ _ hk => rw [hk] at hd1; cases hd1
      | cancel _ _ _ _ _ _ hk => rw [hk] at hd1; cases hd1
      | last _ _ _ _ _ hk => rw [hk] at hd1; cases hd1
  have ha := dead_aborted h1.1 h1.2.1
  exact ⟨ha, aborted_stopping h1.1 ha, h1.2.2⟩

/-! ### A test that returns without a clock -/

theorem wake_ready {ts : List Nat} {s : St σ G V} {x : Handle} (h : x ∈ s.ready) :
    x ∈ (wake ts s).ready := List.mem_append_left _ h

theorem setEv_ready {e : Nat} {s : St σ G V} {x : Handle} (h : x ∈ s.ready) :
    x ∈ (setEv e s).ready := by
  unfold setEv
  split
  · exact h
  · exact wake_ready h

theorem putQ_ready {q : Nat} {v : V} {s : St σ G V} {x : Handle} (h : x ∈ s.ready) :
    x ∈ (putQ q v s).ready := by
  unfold putQ
  dsimp only
  split
  · exact h
  · exact wake_ready (s := { s with q := _, putH := _ }) h

theorem push_ready {y : Handle} {s : St σ G V} {x : Handle} (h : x ∈ s.ready) :
    x ∈ (push y s).ready := List.mem_append_left _ h

theorem finish_ready {t : Nat} {r : Option V} {s : St σ G V} {x : Handle} (h : x ∈ s.ready) :
    x ∈ (finish t r s).ready := by
  unfold finish
  dsimp only
  split
  · exact wake_ready (push_ready h)
  · exact wake_ready (s := { s with st := _, cur := none }) h

theorem fail_ready {t : Nat} {held : Bool} {s : St σ G V} {x : Handle} (h : x ∈ s.ready) :
    x ∈ (fail t held s).ready := by
  obtain ⟨b, c, hb⟩ := fail_eq t held s
  rw [hb]
  exact finish_ready (s := { s with failed := _ }) h

theorem exec_ready {t : Nat} {c : Cmd σ G V} {s : St σ G V} {x : Handle} (h : x ∈ s.ready) :
    x ∈ (exec t c s).ready := by
  cases c with
  | ret v =>
    unfold exec
    dsimp only
    split
    · split
      · exact finish_ready (s := note .testDone { s with testDone := true }) h
      · exact h
    · exact finish_ready h
  | raise held => exact fail_ready h
  | comp g k => exact h
  | taskRun k => exact h
  | yield k => exact push_ready (s := block t (.ready k) s) h
  | sleep k => exact h
  | waitEv e k =>
    unfold exec
    dsimp only
    split
    · exact h
    · split <;> exact h
  | setEv e k => exact setEv_ready h
  | clearEv e k => exact h
  | put q v k => exact putQ_ready h
  | get q k =>
    unfold exec
    dsimp only
    split <;> exact h
  | spawn s0 k => exact push_ready (s := { s with st := _, n := _, orig := _ }) h
  | join w k kx =>
    unfold exec
    dsimp only
    split
    · exact h
    · split
      · exact h
      · exact finish_ready h
    · exact h
  | addHook hk p k => exact h
  | startClock k =>
    unfold exec
    dsimp only
    split
    · exact push_ready (s := { s with clock := .begin }) h
    · exact h

theorem resume_ready {t : Nat} {s : St σ G V} {x : Handle} (h : x ∈ s.ready) :
    x ∈ (resume t s).ready := by
  unfold resume
  dsimp only
  split
  · exact h
  · split <;> exact h
  · exact h
  · split <;> exact h
  · split
    · exact h
    · split
      · exact h
      · exact finish_ready h
  · exact finish_ready (s := note _ s) h
  · exact h

/-- The test returned before a clock was started: the loop is about to stop, and a clock that is
started now has no second turn. -/
structure Quick (s : St σ G V) : Prop where
  stop : s.stopping = true ∨ Handle.stop ∈ s.batch ∨ Handle.stop ∈ s.ready
  clock : s.clock = .off ∨
    (s.clock = .begin ∧ (Handle.clock ∉ s.batch ∨ s.stopping = true ∨ Handle.stop ∈ s.batch)) ∨
    (s.clock = .check ∧ Handle.clock ∉ s.batch ∧ (s.stopping = true ∨ Handle.stop ∈ s.batch))

/-- A step of a task. -/
theorem Quick.run {s s' : St σ G V} (h : Quick s) (hi : s.clock = .off → Handle.clock ∉ s.batch)
    (hb : s'.batch = s.batch) (hs : s.stopping = true → s'.stopping = true)
    (hr : ∀ x ∈ s.ready, x ∈ s'.ready)
    (hc : s'.clock = s.clock ∨ (s.clock = .off ∧ s'.clock = .begin)) : Quick s' := by
  have hor : (s.stopping = true ∨ Handle.stop ∈ s.batch) →
      (s'.stopping = true ∨ Handle.stop ∈ s'.batch) := by
    rw [hb]
    exact fun h => h.imp hs id
  refine ⟨?_, ?_⟩
  · rcases h.stop with h | h | h
    · exact .inl (hs h)
    · exact .inr (.inl (hb ▸ h))
    · exact .inr (.inr (hr _ h))
  · rcases hc with hc | ⟨hc, hc'⟩
    · rw [hc]
      rcases h.clock with h | ⟨h, h1⟩ | ⟨h, h1, h2⟩
      · exact .inl h
      · refine .inr (.inl ⟨h, ?_⟩)
        rcases h1 with h1 | h1
        · exact .inl (hb ▸ h1)
        · exact .inr (hor h1)
      · exact .inr (.inr ⟨h, hb ▸ h1, hor h2⟩)
    · exact .inr (.inl ⟨hc', .inl (hb ▸ hi hc)⟩)

/-- A handle is taken from the batch. -/
theorem Quick.tail {s : St σ G V} {x : Handle} {rest : List Handle} (h : Quick s)
    (hb : s.batch = x :: rest) (hx : x ≠ .stop) : Quick ({ s with batch := rest } : St σ G V) := by
  have h1 : Handle.stop ∈ s.batch → Handle.stop ∈ rest := by
    rw [hb, List.mem_cons]
    rintro (h | h)
    · exact absurd h.symm hx
    · exact h
  have h2 : Handle.clock ∉ s.batch → Handle.clock ∉ rest := by
    rw [hb]
    exact fun h hm => h (List.mem_cons_of_mem _ hm)
  refine ⟨h.stop.imp id (Or.imp h1 id), ?_⟩
  rcases h.clock with h | ⟨h, h3⟩ | ⟨h, h3, h4⟩
  · exact .inl h
  · exact .inr (.inl ⟨h, h3.imp h2 (Or.imp id h1)⟩)
  · exact .inr (.inr ⟨h, h2 h3, h4.imp id h1⟩)

theorem off_not_queued {s : St σ G V} (hi : Inv s) (h : s.clock = .off) :
    Handle.clock ∉ s.batch := by
  have := hi.core.hclk
  rw [if_pos (.inl h)] at this
  exact fun hm => (List.count_eq_zero.1 this) (by simp [hm])

theorem Quick.step {sys : Sys σ G V} {s : St σ G V} (hi : Inv s) (due : List Nat) (h : Quick s) :
    Quick (Loop.step sys due s) := by
  have hsc := step_case sys due s
  generalize Loop.step sys due s = s' at hsc
  have hoff := off_not_queued hi
  cases hsc with
  | exec t k hc =>
    obtain ⟨h1, h2⟩ := exec_batch t (sys.prog k s.g) s
    refine h.run hoff h1 h2 (fun _ h => exec_ready h) ?_
    by_cases hh : ∃ h p k', sys.prog k s.g = .addHook h p k'
    · obtain ⟨hk, p, k', hpr⟩ := hh
      rw [hpr]; exact .inl rfl
    · exact (exec_neutral t _ s fun h p k' hp => hh ⟨h, p, k', hp⟩).clk
  | task t rest hc hb =>
    obtain ⟨h1, h2⟩ := resume_batch t { s with batch := rest }
    refine (h.tail hb (by simp)).run ?_ h1 h2 (fun _ h => resume_ready h) (resume_neutral t _).clk
    intro hx hm
    exact hoff hx (by rw [hb]; exact List.mem_cons_of_mem _ hm)
  | clock rest hc hb =>
    have hbg : s.clock = .begin ∧ (s.stopping = true ∨ Handle.stop ∈ rest) := by
      rcases h.clock with h | ⟨h, h1⟩ | ⟨h, h1, _⟩
      · exact absurd (by rw [hb]; simp) (hoff h)
      · refine ⟨h, ?_⟩
        rcases h1 with h1 | h1 | h1
        · exact absurd (by rw [hb]; simp) h1
        · exact .inl h1
        · rw [hb] at h1; exact .inr (by simpa using h1)
      · exact absurd (by rw [hb]; simp) h1
    have hn : Handle.clock ∉ rest := by
      have := hi.core.hclk
      rw [hb, List.nil_append, List.cons_append, List.count_cons_self] at this
      split at this
      · omega
      · intro hm
        have := List.one_le_count_iff.2 hm
        rw [List.count_append] at *
        omega
    have hst : runClock sys { s with batch := rest } = clockYield { s with batch := rest } := by
      unfold runClock clockTurn
      simp only [hbg.1]
    rw [hst]
    refine ⟨?_, .inr (.inr ⟨rfl, hn, hbg.2⟩)⟩
    rcases hbg.2 with h | h
    · exact .inl h
    · exact .inr (.inl h)
  | stop rest hc hb =>
    refine ⟨.inl rfl, ?_⟩
    rcases h.clock with h | ⟨h, _⟩ | ⟨h, h1, _⟩
    · exact .inl h
    · exact .inr (.inl ⟨h, .inr (.inl rfl)⟩)
    · refine .inr (.inr ⟨h, ?_, .inl rfl⟩)
      rw [hb] at h1
      exact fun hm => h1 (List.mem_cons_of_mem _ hm)
  | fire u k rest hc hb _ =>
    refine (h.tail hb (by simp)).run ?_ rfl id (fun _ h => wake_ready h) (.inl rfl)
    intro hx hm
    exact hoff hx (by rw [hb]; exact List.mem_cons_of_mem _ hm)
  | miss u rest hc hb _ => exact h.tail hb (by simp)
  | halt hc hb _ => exact h
  | turn due hc hb hs =>
    have hst : Handle.stop ∈ s.ready := by
      rcases h.stop with h | h | h
      · rw [hs] at h; cases h
      · rw [hb] at h; cases h
      · exact h
    refine ⟨.inr (.inl (List.mem_append_left _ hst)), ?_⟩
    rcases h.clock with h | ⟨h, _⟩ | ⟨h, _, h1⟩
    · exact .inl h
    · exact .inr (.inl ⟨h, .inr (.inr (List.mem_append_left _ hst))⟩)
    · rcases h1 with h1 | h1
      · rw [hs] at h1; cases h1
      · rw [hb] at h1; cases h1

/-- `main_coro` has a result only if the test returned it: with the clock running, or without. -/
theorem done_origin {sys : Sys σ G V} {g : G} {k0 : σ} {s : St σ G V} (hp : ClockPrivate sys)
    (hr : Reach sys g k0 s) {v : V} (h : s.st 0 = .done (some v)) :
    (∃ s0 k due w, Reach sys g k0 s0 ∧ s0.cur = some (0, k) ∧ sys.prog k s0.g = .ret w ∧
      s0.clock ≠ .off ∧ Path sys (step sys due s0) s) ∨ Quick s := by
  induction hr with
  | init => simp [init] at h
  | @step s due hr ih =>
    have hi := reach_inv hr
    have hw := reach_WInv hp hr
    rcases main_step (sys := sys) due hi with ⟨k, hc, hst⟩ | ⟨rest, hc, hb, hst⟩ | hst | ⟨w, hw0, hst⟩
    · have hrun := main_running hi hc
      by_cases hret : ∃ v, sys.prog k s.g = .ret v
      · obtain ⟨v', hv⟩ := hret
        by_cases hoff : s.clock = .off
        · right
          rw [hst, hv]
          have he : exec 0 (.ret v') s =
              finish 0 (some v') (note .testDone { s with testDone := true }) := by
            unfold exec
            simp [hoff]
          rw [he]
          obtain ⟨_, _, _, _, f5, _, _, _, _⟩ :=
            finish_frame 0 (some v') (note .testDone { s with testDone := true })
          refine ⟨.inr (.inr ?_), .inl (f5.trans hoff)⟩
          unfold finish
          exact wake_ready (List.mem_append_right _ (by simp))
        · exact .inl ⟨s, k, due, v', hr, hc, hv, hoff, .refl⟩
      · have := exec_main (c := sys.prog k s.g) hrun hi.core.hpos (fun v hv => hret ⟨v, hv⟩)
        rw [← hst, h] at this
        cases this
    · have hq := qExp_one_of_head hi hb
      cases hs : s.st 0 with
      | fin w =>
        cases w with
        | final v' =>
          obtain ⟨s0, k, due', h1, h2, h3, h4, h5⟩ := final_origin hr (.inr hs)
          exact .inl ⟨s0, k, due', v', h1, h2, h3, h4, .step due h5⟩
        | _ =>
          have hf : fin0 (s.st 0) = false := by rw [hs]; rfl
          have := resume_main (s := { s with batch := rest }) hf
          rw [← hst, h] at this
          cases this
      | pend w => rw [hs] at hq; cases hq
      | done r => rw [hs] at hq; cases hq
      | _ =>
        have hf : fin0 (s.st 0) = false := by rw [hs]; rfl
        have := resume_main (s := { s with batch := rest }) hf
        rw [← hst, h] at this
        cases this
    · rw [hst] at h
      rcases ih h with ⟨s0, k, due', w, h1, h2, h3, h4, h5⟩ | h
      · exact .inl ⟨s0, k, due', w, h1, h2, h3, h4, .step due h5⟩
      · exact .inr (h.step hi due)
    · rw [hst] at h; cases h

/-- C82: a run in which a hook raised (an assertion in a reference model, say) has no result, at
whatever moment the hook raised and whatever happens afterwards. -/
theorem C82_hook (sys : Sys σ G V) (g : G) (k0 : σ) (s : St σ G V) (i : Nat)
    (hp : ClockPrivate sys) (hr : Reach sys g k0 s) (h : Ev.hookRaise i ∈ s.log) (v : V) :
    s.st 0 ≠ .done (some v) := by
  intro hd
  have hdead := raise_dead hr h
  rcases done_origin hp hr hd with ⟨s0, k, due, w, h0, hc, hret, hclk, hpath⟩ | hq
  · exact (path_lost hp h0 hc hret hclk due hpath (dead_aborted hr hdead)).main v hd
  · rcases hq.clock with h | ⟨h, _⟩ | ⟨h, _⟩ <;> rw [hdead] at h <;> cases h

/-- A test that starts the clock, requests a hook that raises when the DUT has made a step, and
waits for three cycles. -/
def checked : Sys Nat Nat Nat where
  prog k _ := match k with
    | 0 => .startClock 1
    | 1 => .waitEv 0 2
    | 2 => .addHook { run := fun g => (g + 10, []), done := none } 0 3
    | 3 => .addHook { run := fun g => (g + 100, []), done := none, fails := fun g => 10 ≤ g } 1 4
    | 4 => .waitEv 0 5
    | 5 => .waitEv 0 6
    | _ => .ret 7
  dutStep g := g + 1
  sample g := g

/-- The hypotheses of `C82_hook` and `C82_hook_stops` are met: the first hook is executed, the second
raises. -/
example : ∃ s, Reach checked 0 0 s ∧ Ev.exec 0 false ∈ s.log ∧ Ev.hookRaise 1 ∈ s.log ∧
    halted s ∧ s.cycles = 1 :=
  ⟨iter checked 20 (init 0 0), reach_iter 20 .init, by decide, by decide,
    ⟨by decide, by decide, by decide⟩, by decide⟩

example : ClockPrivate checked := by
  intro k g
  unfold checked
  dsimp only
  split <;> simp
  all_goals exact ⟨by simp, by simp⟩

end Toffee.Props.LoopHookFail
