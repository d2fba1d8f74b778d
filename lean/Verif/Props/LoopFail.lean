import Verif.Props.LoopEnd
import Verif.Lemmas.LoopRun
/-!
C77: an exception in a background task makes the test fail.
-/

namespace Toffee.Props.LoopFail

open Toffee.Loop Toffee.Props.LoopClock Toffee.Props.LoopEnd

variable {σ G V : Type}

/-! ### A loop that was told to stop starts no further iteration -/

theorem exec_batch (t : Nat) (c : Cmd σ G V) (s : St σ G V) :
    (exec t c s).batch = s.batch ∧ (s.stopping = true → (exec t c s).stopping = true) := by
  have hf : ∀ (r : Option V) (s : St σ G V), (finish t r s).batch = s.batch ∧
      (s.stopping = true → (finish t r s).stopping = true) := fun r s =>
    ⟨(finish_frame t r s).2.2.2.2.2.2.2.2, fun h => (finish_frame t r s).2.2.2.2.2.2.1.trans h⟩
  cases c with
  | ret v =>
    unfold exec
    dsimp only
    split
    · split
      · exact hf (some v) (note .testDone { s with testDone := true })
      · exact ⟨rfl, fun h => h⟩
    · exact hf _ _
  | raise held =>
    show (fail t held s).batch = _ ∧ (_ → (fail t held s).stopping = true)
    refine ⟨(fail_frame t held s).2.2.2.2.2.2.2, fun h => ?_⟩
    unfold fail
    dsimp only
    split
    · exact (hf none { s with failed := upd s.failed t true }).2 h
    · rfl
  | comp g k => exact ⟨rfl, fun h => h⟩
  | taskRun k => exact ⟨rfl, fun h => h⟩
  | yield k => exact ⟨rfl, fun h => h⟩
  | sleep k => exact ⟨rfl, fun h => h⟩
  | waitEv e k =>
    unfold exec
    dsimp only
    split
    · exact ⟨rfl, fun h => h⟩
    · split <;> exact ⟨rfl, fun h => h⟩
  | setEv e k =>
    obtain ⟨_, _, _, _, _, _, _, _, h9, h10, _⟩ := setEv_frame e s
    exact ⟨h10, fun h => h9.trans h⟩
  | clearEv e k => exact ⟨rfl, fun h => h⟩
  | put q v k =>
    obtain ⟨_, _, _, _, _, _, h7, h8⟩ := putQ_frame q v s
    exact ⟨h8, fun h => h7.trans h⟩
  | get q k =>
    unfold exec
    dsimp only
    split <;> exact ⟨rfl, fun h => h⟩
  | spawn s0 k => exact ⟨rfl, fun h => h⟩
  | join w k kx =>
    unfold exec
    dsimp only
    split
    · exact ⟨rfl, fun h => h⟩
    · split
      · exact ⟨rfl, fun h => h⟩
      · exact hf _ _
    · exact ⟨rfl, fun h => h⟩
  | addHook hk p k => exact ⟨rfl, fun h => h⟩
  | startClock k =>
    unfold exec
    dsimp only
    split <;> exact ⟨rfl, fun h => h⟩

theorem resume_batch (t : Nat) (s : St σ G V) :
    (resume t s).batch = s.batch ∧ (s.stopping = true → (resume t s).stopping = true) := by
  have hf : ∀ (r : Option V) (s : St σ G V), (finish t r s).batch = s.batch ∧
      (s.stopping = true → (finish t r s).stopping = true) := fun r s =>
    ⟨(finish_frame t r s).2.2.2.2.2.2.2.2, fun h => (finish_frame t r s).2.2.2.2.2.2.1.trans h⟩
  unfold resume
  dsimp only
  split
  · exact ⟨rfl, fun h => h⟩
  · split <;> exact ⟨rfl, fun h => h⟩
  · exact ⟨rfl, fun h => h⟩
  · split <;> exact ⟨rfl, fun h => h⟩
  · split
    · exact ⟨rfl, fun h => h⟩
    · split
      · exact ⟨rfl, fun h => h⟩
      · exact hf _ _
  · exact hf _ (note _ s)
  · exact ⟨rfl, fun h => h⟩

theorem stopping_step (sys : Sys σ G V) (due : List Nat) {s : St σ G V} (hs : s.stopping = true) :
    (step sys due s).stopping = true ∧ ∀ x ∈ (step sys due s).batch, x ∈ s.batch := by
  have hsc := step_case sys due s
  generalize step sys due s = s' at hsc
  cases hsc with
  | exec t k hc =>
    obtain ⟨h1, h2⟩ := exec_batch t (sys.prog k s.g) s
    exact ⟨h2 hs, by rw [h1]; exact fun _ h => h⟩
  | task t rest hc hb =>
    obtain ⟨h1, h2⟩ := resume_batch t { s with batch := rest }
    exact ⟨h2 hs, by rw [h1, hb]; exact fun _ h => List.mem_cons_of_mem _ h⟩
  | clock rest hc hb =>
    have hsub : ∀ x ∈ rest, x ∈ s.batch := by
      rw [hb]; exact fun _ h => List.mem_cons_of_mem _ h
    obtain ⟨_, _, _, _, _, f6, f7⟩ := callbacks_frame sys { s with batch := rest }
    unfold runClock
    have hcc := clock_case sys { s with batch := rest }
    generalize clockTurn sys { s with batch := rest } = x at hcc
    cases hcc with
    | off _ => exact ⟨hs, hsub⟩
    | dead _ => exact ⟨hs, hsub⟩
    | raise _ _ _ pre x _ _ _ =>
      refine ⟨rfl, ?_⟩
      intro y hy
      have hy : y ∈ (raised pre x { s with batch := rest }).batch := hy
      rw [(raised_frame pre x _).2.2.2.2.2.1] at hy
      exact hsub y hy
    | begin _ => exact ⟨hs, hsub⟩
    | busy _ _ => exact ⟨hs, hsub⟩
    | rerun _ _ _ _ =>
      refine ⟨f6.trans hs, ?_⟩
      intro x hx
      have hx : x ∈ (callbacks sys { s with batch := rest }).2.batch := hx
      rw [f7] at hx
      exact hsub x hx
    | cancel _ _ _ _ _ =>
      refine ⟨f6.trans hs, ?_⟩
      intro x hx
      have hx : x ∈ (callbacks sys { s with batch := rest }).2.batch.filter keepMain := hx
      have hx := (List.mem_filter.1 hx).1
      rw [f7] at hx
      exact hsub x hx
    | step _ _ _ _ _ =>
      obtain ⟨_, _, _, _, _, _, _, _, d9, d10⟩ :=
        doStep_frame sys (callbacks sys { s with batch := rest }).2
      exact ⟨d9.trans (f6.trans hs), by rw [d10, f7]; exact hsub⟩
    | last _ =>
      obtain ⟨_, _, _, _, _, _, _, _, d9, d10⟩ := doStep_frame sys { s with batch := rest }
      exact ⟨d9.trans hs, by rw [d10]; exact hsub⟩
  | stop rest hc hb => exact ⟨rfl, by rw [hb]; exact fun _ h => List.mem_cons_of_mem _ h⟩
  | fire u k rest hc hb _ => exact ⟨hs, by rw [hb]; exact fun _ h => List.mem_cons_of_mem _ h⟩
  | miss u rest hc hb _ => exact ⟨hs, by rw [hb]; exact fun _ h => List.mem_cons_of_mem _ h⟩
  | halt hc hb _ => exact ⟨hs, fun _ h => h⟩
  | turn due hc hb hs' => rw [hs] at hs'; cases hs'

/-- A clock that was started stays. -/
theorem clock_step (sys : Sys σ G V) (due : List Nat) {s : St σ G V} (hs : s.clock ≠ .off) :
    (step sys due s).clock ≠ .off := by
  have hn : ∀ {s s' : St σ G V}, s.clock ≠ .off → Neutral s s' → s'.clock ≠ .off := by
    intro s s' h hn
    rcases hn.clk with h1 | ⟨h1, _⟩
    · rw [h1]; exact h
    · exact absurd h1 h
  have hsc := step_case sys due s
  generalize step sys due s = s' at hsc
  cases hsc with
  | exec t k hc =>
    by_cases hh : ∃ h p k', sys.prog k s.g = .addHook h p k'
    · obtain ⟨_, p, k', hpr⟩ := hh
      rw [hpr]; exact hs
    · exact hn hs (exec_neutral t _ s fun h p k' hp => hh ⟨h, p, k', hp⟩)
  | task t rest hc hb => exact hn (s := { s with batch := rest }) hs (resume_neutral t _)
  | clock rest hc hb =>
    unfold runClock
    have hcc := clock_case sys { s with batch := rest }
    generalize clockTurn sys { s with batch := rest } = x at hcc
    cases hcc with
    | off h => exact absurd h hs
    | dead h => exact hs
    | raise _ _ _ pre x _ _ _ => intro h; cases h
    | begin _ => simp [clockYield, push]
    | busy _ _ => simp [clockYield, push]
    | rerun _ _ _ _ => simp [clockYield, push]
    | cancel _ _ _ _ _ => simp [push]
    | step _ _ _ _ _ =>
      show (doStep sys _).clock ≠ _
      rw [(doStep_frame sys _).2.2.2.2.2.1]; simp
    | last _ =>
      show (doStep sys _).clock ≠ _
      rw [(doStep_frame sys _).2.2.2.2.2.1]; simp
  | stop rest hc hb => exact hs
  | fire u k rest hc hb _ => exact hs
  | miss u rest hc hb _ => exact hs
  | halt hc hb _ => exact hs
  | turn due hc hb hs' => exact hs

/-! ### What a step does to `main_coro` -/

/-- A micro step is a step of `main_coro`, a wake-up of `main_coro`, or leaves it alone, except that
what it waits for may happen. -/
theorem main_step {sys : Sys σ G V} (due : List Nat) {s : St σ G V} (hi : Inv s) :
    (∃ k, s.cur = some (0, k) ∧ step sys due s = exec 0 (sys.prog k s.g) s) ∨
    (∃ rest, s.cur = none ∧ s.batch = .task 0 :: rest ∧
      step sys due s = resume 0 { s with batch := rest }) ∨
    (step sys due s).st 0 = s.st 0 ∨
      ∃ w, s.st 0 = .pend w ∧ (step sys due s).st 0 = .fin w := by
  have hn := hi.core.hpos
  have hsc := step_case sys due s
  have heq : ∀ t k, s.cur = some (t, k) → step sys due s = exec t (sys.prog k s.g) s := by
    intro t k h
    unfold step; rw [h]
  generalize step sys due s = s' at hsc heq
  cases hsc with
  | exec t k hc =>
    by_cases ht : 0 = t
    · subst ht; exact .inl ⟨k, hc, rfl⟩
    · exact .inr (.inr ((exec_stays (sys.prog k s.g) s ht).st hn))
  | task t rest hc hb =>
    by_cases ht : 0 = t
    · subst ht; exact .inr (.inl ⟨rest, hc, hb, rfl⟩)
    · exact .inr (.inr ((resume_stays { s with batch := rest } ht).st hn))
  | clock rest hc hb =>
    refine .inr (.inr ?_)
    have h2 := callbacks_stays sys { s with batch := rest } 0
    unfold runClock
    have hcc := clock_case sys { s with batch := rest }
    generalize clockTurn sys { s with batch := rest } = x at hcc
    cases hcc with
    | off _ => exact .inl rfl
    | dead _ => exact .inl rfl
    | raise _ _ _ pre x _ _ _ => exact (raised_stays pre x { s with batch := rest } 0).st hn
    | begin _ => exact .inl rfl
    | busy _ _ => exact .inl rfl
    | rerun _ _ _ _ => exact h2.st hn
    | cancel _ _ _ _ _ => exact h2.st hn
    | step _ _ _ _ _ => exact (h2.trans (doStep_stays sys _ 0)).st hn
    | last _ => exact (doStep_stays sys { s with batch := rest } 0).st hn
  | stop rest hc hb => exact .inr (.inr (.inl rfl))
  | fire u k rest hc hb _ => exact .inr (.inr ((wake_stays [u] { s with batch := rest } 0).st hn))
  | miss u rest hc hb _ => exact .inr (.inr (.inl rfl))
  | halt hc hb _ => exact .inr (.inr (.inl rfl))
  | turn due hc hb _ => exact .inr (.inr (.inl rfl))

/-- The result is there, or will be with the next turn. -/
def fin0 : Status σ V → Bool
  | .fin (.final _) | .pend (.final _) | .done (some _) => true
  | _ => false

theorem wake_running {ts : List Nat} {s : St σ G V} {t : Nat} (h : s.st t = .running) :
    (wake ts s).st t = .running := by
  show (if t ∈ ts then (s.st t).finish else s.st t) = _
  rw [h]
  split <;> rfl

/-- Only returning makes a running `main_coro` return. -/
theorem exec_main {c : Cmd σ G V} {s : St σ G V} (hs : s.st 0 = .running)
    (hn : 0 < s.n) (hc : ∀ v, c ≠ .ret v) : fin0 ((exec 0 c s).st 0) = false := by
  have hr : fin0 (s.st 0) = false := by rw [hs]; rfl
  cases c with
  | ret v => exact absurd rfl (hc v)
  | raise held =>
    obtain ⟨b, c, hb⟩ := fail_eq 0 held s
    show fin0 ((fail 0 held s).st 0) = false
    rw [hb]
    show fin0 ((finish 0 none _).st 0) = false
    rw [finish_main]; rfl
  | comp g k => exact hr
  | taskRun k => exact hr
  | yield k => show fin0 (upd s.st 0 _ 0) = false; rw [upd_self]; rfl
  | sleep k => show fin0 (upd s.st 0 _ 0) = false; rw [upd_self]; rfl
  | waitEv e k =>
    unfold exec
    dsimp only
    split
    · exact hr
    · split
      · show fin0 (upd s.st 0 _ 0) = false; rw [upd_self]; rfl
      · show fin0 (upd s.st 0 _ 0) = false; rw [upd_self]; rfl
  | setEv e k =>
    show fin0 ((setEv e s).st 0) = false
    unfold setEv
    split
    · exact hr
    · show fin0 ((wake (s.waiters e) s).st 0) = false
      rw [wake_running hs]; rfl
  | clearEv e k => exact hr
  | put q v k =>
    show fin0 ((putQ q v s).st 0) = false
    unfold putQ
    dsimp only
    split
    · exact hr
    · rename_i u us _
      show fin0 ((wake [u] s).st 0) = false
      rw [wake_running hs]; rfl
  | get q k =>
    unfold exec
    dsimp only
    split
    · show fin0 (upd s.st 0 _ 0) = false; rw [upd_self]; rfl
    · exact hr
  | spawn s0 k =>
    show fin0 (upd s.st s.n _ 0) = false
    rw [upd_ne _ _ _ _ (by omega)]; exact hr
  | join w k kx =>
    unfold exec
    dsimp only
    split
    · exact hr
    · split
      · exact hr
      · rw [finish_main]; rfl
    · show fin0 (upd s.st 0 _ 0) = false; rw [upd_self]; rfl
  | addHook hk p k => exact hr
  | startClock k =>
    unfold exec
    dsimp only
    split <;> exact hr

theorem resume_main {s : St σ G V} (h : fin0 (s.st 0) = false) :
    fin0 ((resume 0 s).st 0) = false := by
  unfold resume
  dsimp only
  split
  · show fin0 (upd s.st 0 _ 0) = false; rw [upd_self]; rfl
  · split <;> (show fin0 (upd s.st 0 _ 0) = false; rw [upd_self]; rfl)
  · show fin0 (upd s.st 0 _ 0) = false; rw [upd_self]; rfl
  · split <;> (show fin0 (upd s.st 0 _ 0) = false; rw [upd_self]; rfl)
  · split
    · show fin0 (upd s.st 0 _ 0) = false; rw [upd_self]; rfl
    · split
      · show fin0 (upd s.st 0 _ 0) = false; rw [upd_self]; rfl
      · rw [finish_main]; rfl
  · rename_i v hv; rw [hv] at h; cases h
  · exact h

/-- The run can no longer return a result. -/
structure Lost (s : St σ G V) : Prop where
  stop : s.stopping = true
  clk : s.clock ≠ .off
  main : ∀ v, s.st 0 ≠ .done (some v)
  last : ∀ v, s.st 0 = .fin (.final v) → Handle.task 0 ∉ s.batch

theorem main_running {s : St σ G V} (hi : Inv s) {k : σ} (hc : s.cur = some (0, k)) :
    s.st 0 = .running := by
  have h1 : InvC s.n s.st (s.batch ++ s.ready) s.ev s.waiters s.q s.getters s.joiners s.clock
    (some 0) := by
    have := hi.core; unfold InvS at this; rw [hc] at this; exact this
  exact running_of h1

theorem not_queued {s : St σ G V} (hi : Inv s) {w : Wait σ V} (h : s.st 0 = .pend w) :
    Handle.task 0 ∉ s.batch := by
  intro hm
  have := InvX.keep_of_mem (x := []) (s := s) ⟨hi.core, hi.main⟩ (List.mem_append_left _ hm)
  rw [h] at this
  cases this

theorem fin0_false {x : Status σ V} (h : fin0 x = false) :
    (∀ v, x ≠ .done (some v)) ∧ ∀ v, x ≠ .fin (.final v) := by
  constructor <;> (intro v hv; rw [hv] at h; cases h)

theorem lost_step {sys : Sys σ G V} {g : G} {k0 : σ} {s : St σ G V} (hp : ClockPrivate sys)
    (hr : Reach sys g k0 s) (due : List Nat) (h : Lost s) : Lost (step sys due s) := by
  have hi := reach_inv hr
  have hw := reach_WInv hp hr
  obtain ⟨h1, h2⟩ := stopping_step sys due h.stop
  suffices hm : (∀ v, (step sys due s).st 0 ≠ .done (some v)) ∧
      ∀ v, (step sys due s).st 0 = .fin (.final v) → Handle.task 0 ∉ (step sys due s).batch from
    ⟨h1, clock_step sys due h.clk, hm.1, hm.2⟩
  rcases main_step (sys := sys) due hi with ⟨k, hc, hst⟩ | ⟨rest, hc, hb, hst⟩ | hst | ⟨w, hw0, hst⟩
  · have hrun := main_running hi hc
    by_cases hret : ∃ v, sys.prog k s.g = .ret v
    · obtain ⟨v, hv⟩ := hret
      have : (step sys due s).st 0 = .pend (.final v) := by
        rw [hst, hv]
        unfold exec
        simp only [if_true, h.clk, hw.ev, false_or, Bool.false_eq_true, if_false]
        exact upd_self s.st 0 _
      rw [this]
      constructor <;> (intro v' hv'; cases hv')
    · obtain ⟨h3, h4⟩ := fin0_false (exec_main (c := sys.prog k s.g) hrun hi.core.hpos
        (fun v hv => hret ⟨v, hv⟩))
      rw [← hst] at h3 h4
      exact ⟨h3, fun v hv => absurd hv (h4 v)⟩
  · have hq := qExp_one_of_head hi hb
    have hf : fin0 (s.st 0) = false := by
      cases hx : fin0 (s.st 0) with
      | false => rfl
      | true =>
        exfalso
        cases hs : s.st 0 with
        | fin w =>
          cases w with
          | final v => exact h.last v hs (by rw [hb]; simp)
          | _ => rw [hs] at hx; cases hx
        | pend w => rw [hs] at hq; cases hq
        | done r => rw [hs] at hq; cases hq
        | _ => rw [hs] at hx; cases hx
    obtain ⟨h3, h4⟩ := fin0_false (resume_main (s := { s with batch := rest }) hf)
    rw [← hst] at h3 h4
    exact ⟨h3, fun v hv => absurd hv (h4 v)⟩
  · rw [hst]
    exact ⟨h.main, fun v hv hm => h.last v hv (h2 _ hm)⟩
  · rw [hst]
    exact ⟨fun v hv => (by cases hv), fun v hv hm => not_queued hi hw0 (h2 _ hm)⟩

/-- `main_coro` waits for the last clock event only after the test returned with the clock running. -/
theorem final_origin {sys : Sys σ G V} {g : G} {k0 : σ} {s : St σ G V} (hr : Reach sys g k0 s)
    {v : V} (h : Susp (.final v) 0 s) :
    ∃ s0 k due, Reach sys g k0 s0 ∧ s0.cur = some (0, k) ∧ sys.prog k s0.g = .ret v ∧
      s0.clock ≠ .off ∧ Path sys (step sys due s0) s := by
  induction hr with
  | init => rcases h with h | h <;> simp [init] at h
  | @step s due hr ih =>
    have hi := reach_inv hr
    have hfin : fin0 ((step sys due s).st 0) = true := by rcases h with h | h <;> rw [h] <;> rfl
    have go : Susp (.final v) 0 s → ∃ s0 k due', Reach sys g k0 s0 ∧ s0.cur = some (0, k) ∧
        sys.prog k s0.g = .ret v ∧ s0.clock ≠ .off ∧ Path sys (step sys due' s0) (step sys due s) := by
      intro h
      obtain ⟨s0, k, due', h1, h2, h3, h4, h5⟩ := ih h
      exact ⟨s0, k, due', h1, h2, h3, h4, .step due h5⟩
    rcases main_step (sys := sys) due hi with ⟨k, hc, hst⟩ | ⟨rest, hc, hb, hst⟩ | hst | ⟨w, hw0, hst⟩
    · have hrun := main_running hi hc
      by_cases hret : ∃ v, sys.prog k s.g = .ret v
      · obtain ⟨v', hv⟩ := hret
        have hx : s.clock ≠ .off ∧ v' = v := by
          rw [hst, hv] at h
          unfold exec Susp at h
          simp only [if_true] at h
          split at h
          · rw [finish_main] at h; simp at h
          · rename_i hn
            simp only [not_or] at hn
            refine ⟨hn.1, ?_⟩
            change upd s.st 0 _ 0 = _ ∨ upd s.st 0 _ 0 = _ at h
            rw [upd_self] at h
            rcases h with h | h <;> cases h
            rfl
        obtain ⟨h1, rfl⟩ := hx
        exact ⟨s, k, due, hr, hc, hv, h1, .refl⟩
      · have := exec_main (c := sys.prog k s.g) hrun hi.core.hpos (fun v hv => hret ⟨v, hv⟩)
        rw [← hst, hfin] at this
        cases this
    · have hq := qExp_one_of_head hi hb
      exfalso
      unfold Susp at h
      rw [hst] at h
      cases hs : s.st 0 with
      | fin w =>
        cases w with
        | final v' =>
          unfold resume at h
          simp only [hs] at h
          rw [finish_main] at h
          simp at h
        | _ =>
          have hf : fin0 (s.st 0) = false := by rw [hs]; rfl
          have := resume_main (s := { s with batch := rest }) hf
          rw [← hst, hfin] at this
          cases this
      | pend w => rw [hs] at hq; cases hq
      | done r => rw [hs] at hq; cases hq
      | _ =>
        have hf : fin0 (s.st 0) = false := by rw [hs]; rfl
        have := resume_main (s := { s with batch := rest }) hf
        rw [← hst, hfin] at this
        cases this
    · apply go
      unfold Susp at h ⊢
      rw [hst] at h
      exact h
    · apply go
      unfold Susp at h ⊢
      rw [hst] at h
      rcases h with h | h
      · cases h
      · cases h; exact .inl hw0

/-- The task `t` fails while `main_coro` has not been woken for the last time. -/
theorem lost_of_fail {t : Nat} {s : St σ G V} (hi : Inv s) (ht : t ≠ 0)
    (hj : s.joiners t = []) (hclk : s.clock ≠ .off) (hd : isDone (s.st 0) = false)
    (hl : ∀ v, s.st 0 = .fin (.final v) → Handle.task 0 ∉ s.batch) : Lost (fail t false s) := by
  have hst := (fail_stays false s (t := 0) (Ne.symm ht)).st hi.core.hpos
  obtain ⟨_, _, _, _, f5, _, _, f8⟩ := fail_frame t false s
  refine ⟨?_, by rw [f5]; exact hclk, ?_, ?_⟩
  · unfold fail
    dsimp only
    rw [if_neg (by simp [ht, hj])]
  · intro v hv
    rcases hst with h | ⟨w, _, h⟩
    · rw [h] at hv; rw [hv] at hd; cases hd
    · rw [h] at hv; cases hv
  · intro v hv
    rw [f8]
    rcases hst with h | ⟨w, h1, h⟩
    · exact hl v (h ▸ hv)
    · exact not_queued hi h1

/-- A hook raises while `main_coro` has not been woken for the last time. -/
theorem lost_of_raise {s : St σ G V} {pre : List ((Nat × Hook σ G V) × Int)}
    {x : (Nat × Hook σ G V) × Int} {rest : List Handle} (hi : Inv s) (hr : Raises s pre x rest)
    (hd : isDone (s.st 0) = false)
    (hl : ∀ v, s.st 0 = .fin (.final v) → Handle.task 0 ∉ s.batch) :
    Lost (raised pre x { s with batch := rest }) := by
  have hst := (raised_stays pre x { s with batch := rest } 0).st hi.core.hpos
  have hb := (raised_frame pre x { s with batch := rest }).2.2.2.2.2.1
  have hsub : Handle.task 0 ∉ s.batch → Handle.task 0 ∉ rest := by
    intro h hm
    apply h
    rw [hr.2.1]
    exact List.mem_cons_of_mem _ hm
  refine ⟨rfl, (by intro h; cases h), ?_, ?_⟩
  · intro v hv
    rcases hst with h | ⟨w, _, h⟩
    · rw [h] at hv
      have hv : s.st 0 = _ := hv
      rw [hv] at hd; cases hd
    · rw [h] at hv; cases hv
  · intro v hv
    rw [hb]
    apply hsub
    rcases hst with h | ⟨w, h1, h⟩
    · exact hl v (by rw [h] at hv; exact hv)
    · exact not_queued hi h1

theorem aborted_stopping {sys : Sys σ G V} {g : G} {k0 : σ} {s : St σ G V}
    (hr : Reach sys g k0 s) (ha : s.aborted = true) : s.stopping = true := by
  induction hr with
  | init => cases ha
  | @step s due hr ih =>
    cases hb : s.aborted with
    | true => exact (stopping_step sys due (ih hb)).1
    | false =>
      rcases fail_case sys due s with h | ⟨t, k', held, _, _, hst⟩ | ⟨pre, x, rest, _, hst⟩
      · rw [h.2, hb] at ha; cases ha
      · rw [hst] at ha ⊢
        unfold fail at ha ⊢
        dsimp only at ha ⊢
        split at ha
        · rw [(finish_sameF t none { s with failed := upd s.failed t true }).2] at ha
          rw [hb] at ha; cases ha
        · rename_i h
          rw [if_neg h]
      · rw [hst]; rfl

/-- A hook raises only while tasks still run. -/
theorem raise_early {s : St σ G V} {pre : List ((Nat × Hook σ G V) × Int)}
    {x : (Nat × Hook σ G V) × Int} {rest : List Handle} {v : V} {m : List Ev} {rk : Nat}
    (hr : Raises s pre x rest) (hph : Phase v m rk s) : s.st 0 = .pend (.final v) := by
  obtain ⟨_, _, _, _, _, ⟨post, hs⟩, _⟩ := hr
  have hcur : ∀ {P : Prop}, Rest s → P := by
    intro P hre
    rw [hre.hooks] at hs
    have := congrArg List.length hs
    simp [Priority.sorted] at this
  cases hph with
  | p1 h => exact h
  | p1a _ h => exact hcur h
  | p1b _ _ h => exact hcur h
  | p2a h => exact hcur h
  | p2b _ _ h => exact hcur h
  | p3 _ h => exact hcur h
  | p4a h => exact hcur h
  | p4b _ _ h => exact hcur h
  | p5 _ h => exact hcur h
  | p6 h => exact hcur h

/-- After the test returned with the clock running: if `handle_exception` stops the loop, the run
does not return. -/
theorem path_lost {sys : Sys σ G V} {g : G} {k0 k : σ} {s0 s : St σ G V} {v : V}
    (hp : ClockPrivate sys) (h0 : Reach sys g k0 s0) (hc : s0.cur = some (0, k))
    (hret : sys.prog k s0.g = .ret v) (hclk : s0.clock ≠ .off) (due : List Nat)
    (hpath : Path sys (step sys due s0) s) (ha : s.aborted = true) : Lost s := by
  have hlost0 : s0.aborted = true → Lost s0 := by
    intro ha
    have hrun := main_running (reach_inv h0) hc
    refine ⟨aborted_stopping h0 ha, hclk, ?_, ?_⟩ <;> rw [hrun] <;> intro v hv <;> cases hv
  induction hpath with
  | refl =>
    cases hna0 : s0.aborted with
    | true => exact lost_step hp h0 due (hlost0 hna0)
    | false =>
    exfalso
    rcases fail_case sys due s0 with h | ⟨t, k', held, hc', hr', _⟩ | ⟨_, _, _, hra, _⟩
    · rw [h.2, hna0] at ha; cases ha
    · rw [hc] at hc'
      cases hc'
      rw [hret] at hr'; cases hr'
    · rw [hra.1] at hc; cases hc
  | @step s due' hpath ih =>
    have hr : Reach sys g k0 s := hpath.reach (.step due h0)
    cases hb : s.aborted with
    | true => exact lost_step hp hr due' (ih hb)
    | false =>
      obtain ⟨b, rk, _, hph⟩ := path_phase hp h0 hc hret hclk due hpath hb
      have hi := reach_inv hr
      rcases fail_case sys due' s with h | ⟨t, k', held, hc', hr', hst⟩ | ⟨pre, x, rest, hra, hst⟩
      · rw [h.2, hb] at ha; cases ha
      · have hfa := fail_aborted t held s
        rw [← hst, ha, hb] at hfa
        simp only [Bool.false_or] at hfa
        have hfa := hfa.symm
        simp only [Bool.and_eq_true, bne_iff_ne, ne_eq, Bool.not_eq_eq_eq_not, Bool.not_true,
          List.isEmpty_iff] at hfa
        obtain ⟨⟨ht, hh⟩, hj⟩ := hfa
        subst hh
        rw [hst]
        generalize marks b = m at hph
        have hcur : ∀ {P : Prop}, Rest s → P := fun hre => by rw [hre.cur] at hc'; cases hc'
        cases hph with
        | p1 hm hck _ =>
          refine lost_of_fail hi ht hj ?_ (by rw [hm]; rfl) (by rw [hm]; intro v h; cases h)
          rcases hck with h | h <;> rw [h] <;> simp
        | p1a _ h => exact hcur h
        | p1b _ _ h => exact hcur h
        | p2a h => exact hcur h
        | p2b _ _ h => exact hcur h
        | p3 _ h => exact hcur h
        | p4a h => exact hcur h
        | p4b _ _ h => exact hcur h
        | p5 _ h => exact hcur h
        | p6 h => exact hcur h
      · rw [hst]
        have hm := raise_early hra hph
        exact lost_of_raise hi hra (by rw [hm]; rfl) (by rw [hm]; intro v h; cases h)

/-- C77, part: a task other than the test raises an exception, nobody awaits the task and nobody
keeps a reference to it, a clock was started, and the run is not over.  Then, whatever happens
afterwards, the run never returns a result.
Missing with respect to the full statement: tasks to which somebody keeps a reference, such as those
of monitors (`C77_monitor_violated`), and tests without a clock (`C77_no_clock_violated`). -/
theorem C77_reported_partial (sys : Sys σ G V) (g : G) (k0 k : σ) (s s' : St σ G V) (t : Nat)
    (hp : ClockPrivate sys) (hr : Reach sys g k0 s) (hc : s.cur = some (t, k)) (ht : t ≠ 0)
    (hraise : sys.prog k s.g = .raise false) (hj : s.joiners t = []) (hclk : s.clock ≠ .off)
    (hd : isDone (s.st 0) = false) (due : List Nat) (hpath : Path sys (step sys due s) s') :
    ∀ v, s'.st 0 ≠ .done (some v) := by
  have hi := reach_inv hr
  have hst : step sys due s = fail t false s := by
    unfold step; rw [hc]; simp only [hraise]; rfl
  have h1 : Lost (step sys due s) := by
    rw [hst]
    refine lost_of_fail hi ht hj hclk hd ?_
    intro v hv
    obtain ⟨s0, k1, due', h0, hc0, hret, hclk0, hpath0⟩ := final_origin hr (.inr hv)
    cases ha : s.aborted with
    | false =>
      exfalso
      obtain ⟨b, rk, _, hph⟩ := path_phase hp h0 hc0 hret hclk0 due' hpath0 ha
      have hcur : ∀ {P : Prop}, Rest s → P := fun hre => by rw [hre.cur] at hc; cases hc
      generalize marks b = m at hph
      cases hph with
      | p1 hm => rw [hm] at hv; cases hv
      | p1a _ h => exact hcur h
      | p1b _ _ h => exact hcur h
      | p2a h => exact hcur h
      | p2b _ _ h => exact hcur h
      | p3 _ h => exact hcur h
      | p4a h => exact hcur h
      | p4b _ _ h => exact hcur h
      | p5 _ h => exact hcur h
      | p6 h => exact hcur h
    | true => exact (path_lost hp h0 hc0 hret hclk0 due' hpath0 ha).last v hv
  have h2 : ∀ s', Path sys (step sys due s) s' → Lost s' := by
    intro s' h
    induction h with
    | refl => exact h1
    | step due' hpth ih => exact lost_step hp (hpth.reach (.step due hr)) due' ih
  exact (h2 s' hpath).main

/-- C77, part: a test that returned with a clock running and whose run has a result has had no
exception in a task nobody awaits and nobody keeps a reference to, from its start to its end. -/
theorem C77_passed_partial (sys : Sys σ G V) (g : G) (k0 k : σ) (s0 s : St σ G V) (v w : V)
    (hp : ClockPrivate sys) (h0 : Reach sys g k0 s0) (hc : s0.cur = some (0, k))
    (hret : sys.prog k s0.g = .ret v) (hclk : s0.clock ≠ .off) (due : List Nat)
    (hpath : Path sys (step sys due s0) s) (hd : s.st 0 = .done (some w)) :
    s.aborted = false := by
  cases ha : s.aborted with
  | false => rfl
  | true => exact absurd hd ((path_lost hp h0 hc hret hclk due hpath ha).main w)

/-- C77: an exception of the test itself ends the run without a result. -/
theorem C77_test (sys : Sys σ G V) (g : G) (k0 k : σ) (s s' : St σ G V) (held : Bool)
    (hr : Reach sys g k0 s) (hc : s.cur = some (0, k)) (hraise : sys.prog k s.g = .raise held)
    (due : List Nat) (hpath : Path sys (step sys due s) s') :
    s'.failed 0 = true ∧ s'.st 0 = .done none := by
  have hst : step sys due s = fail 0 held s := by
    unfold step; rw [hc]; simp only [hraise]; rfl
  have hf : s'.failed 0 = true := by
    induction hpath with
    | refl => rw [hst, fail_failed, upd_self]
    | step due' _ ih => exact failed_mono sys due' ih
  exact ⟨hf, (reach_failed (hpath.reach (.step due hr)) 0 hf).1⟩

/-- C77: a task that awaits a task that failed goes on with the exception, never with a result:
whether it asks for the result after the failure .. -/
theorem C77_await_after (sys : Sys σ G V) (g : G) (k0 k : σ) (s : St σ G V) (t u : Nat) (k' : V → σ)
    (kx : σ) (hr : Reach sys g k0 s) (hc : s.cur = some (t, k))
    (hj : sys.prog k s.g = .join u k' kx) (hf : s.failed u = true) (due : List Nat) :
    (step sys due s).cur = some (t, kx) := by
  have hst : step sys due s = exec t (.join u k' kx) s := by
    unfold step; rw [hc]; simp only [hj]
  rw [hst]
  unfold exec
  simp only [(reach_failed hr u hf).1, hf, if_true]

/-- .. or before. -/
theorem C77_await_before (sys : Sys σ G V) (g : G) (k0 : σ) (s : St σ G V) (t u : Nat) (k' : V → σ)
    (kx : σ) (rest : List Handle) (hr : Reach sys g k0 s) (hc : s.cur = none)
    (hb : s.batch = .task t :: rest) (hw : s.st t = .fin (.join u k' kx)) (hf : s.failed u = true)
    (due : List Nat) : (step sys due s).cur = some (t, kx) := by
  have hst : step sys due s = resume t { s with batch := rest } := by
    unfold step; rw [hc]; simp only [hb]; rfl
  rw [hst]
  unfold resume
  simp only [hw, (reach_failed hr u hf).1, hf, if_true]

/-! ### Hooks that raise -/

/-- A hook is reported to raise only in the clock's turn. -/
theorem raise_case {sys : Sys σ G V} {g : G} {k : σ} {s : St σ G V} {i : Nat} (due : List Nat)
    (hr : Reach sys g k s) (h : Ev.hookRaise i ∈ (step sys due s).log) :
    Ev.hookRaise i ∈ s.log ∨
    ∃ pre x rest, Raises s pre x rest ∧ step sys due s = raised pre x { s with batch := rest } := by
  have hexec : ∀ (l : List ((Nat × Hook σ G V) × Int)), Ev.hookRaise i ∉ l.map execEv := by
    intro l hm
    obtain ⟨_, _, hy⟩ := List.mem_map.1 hm
    cases hy
  cases log_case due hr with
  | quiet l hl hn =>
    rw [hl] at h
    rcases List.mem_append.1 h with h | h
    · exact .inl h
    · have := hn _ h; cases this
  | req _ _ hl => rw [hl] at h; left; simpa using h
  | rerun hl =>
    rw [hl] at h; left
    simpa only [List.mem_append, hexec, List.mem_singleton, reduceCtorEq, or_false] using h
  | step hl =>
    rw [hl] at h; left
    simpa only [List.mem_append, hexec, List.mem_cons, List.not_mem_nil, reduceCtorEq, or_false]
      using h
  | cancel hl =>
    rw [hl] at h; left
    simpa only [List.mem_append, hexec, List.mem_cons, List.not_mem_nil, reduceCtorEq, or_false]
      using h
  | last hl => rw [hl] at h; left; simpa using h
  | raise pre x post hs hl hh hx hc hk' hk ha hra =>
    obtain ⟨rest, h1, h2⟩ := hra
    exact .inr ⟨pre, x, rest, h1, h2⟩

theorem raise_dead {sys : Sys σ G V} {g : G} {k : σ} {s : St σ G V} {i : Nat}
    (hr : Reach sys g k s) (h : Ev.hookRaise i ∈ s.log) : s.clock = .dead := by
  induction hr with
  | init => simp [init] at h
  | @step s due hr ih =>
    rcases raise_case due hr h with h1 | ⟨_, _, _, _, h1⟩
    · have hd := ih h1
      cases log_case due hr with
      | quiet _ _ _ _ _ _ _ hkd => exact hkd.2 hd
      | req _ _ _ _ _ _ hk => rw [hk]; exact hd
      | raise _ _ _ _ _ _ _ _ _ hk => exact hk
      | rerun _ _ _ _ _ hk => rw [hk] at hd; cases hd
      | step _ _ _ _ _ _ hk => rw [hk] at hd; cases hd
      | cancel _ _ _ _ _ _ hk => rw [hk] at hd; cases hd
      | last _ _ _ _ _ hk => rw [hk] at hd; cases hd
    · rw [h1]; rfl

/-! ### Concrete systems -/

/-- From state 0: start the clock, create the task 20, wait for two cycles, return 7.  From state
10: create the task 20 without a clock, let it run, return 7.  The task 20 raises an exception;
`held` says whether somebody keeps a reference to it. -/
def demo (held : Bool) : Sys Nat Nat Nat where
  prog k _ := match k with
    | 0 => .startClock 1
    | 1 => .spawn 20 (fun _ => 2)
    | 2 => .waitEv 0 3
    | 3 => .waitEv 0 4
    | 10 => .spawn 20 (fun _ => 11)
    | 11 => .yield 12
    | 20 => .raise held
    | _ => .ret 7
  dutStep g := g + 1
  sample g := g

/-- C77 is false for tasks somebody keeps a reference to: `Monitor` keeps its task in
`self.monitor_task` (`_base_agent.py` 208), so when the monitoring function raises, the loop goes on
and the test passes. -/
theorem C77_monitor_violated : ∃ s, Reach (demo true) 0 0 s ∧ halted s ∧ s.failed 1 = true ∧
    s.aborted = false ∧ s.st 0 = .done (some 7) ∧ s.cycles = 4 :=
  ⟨iter (demo true) 40 (init 0 0), reach_iter 40 .init, ⟨by decide, by decide, by decide⟩,
    by decide, by decide, by rfl, by decide⟩

/-- C77 is false for tests without a clock: the exception is reported in the loop iteration in which
the test returns, and the run returns the test's result. -/
theorem C77_no_clock_violated : ∃ s, Reach (demo false) 0 10 s ∧ halted s ∧ s.failed 1 = true ∧
    s.aborted = true ∧ s.st 0 = .done (some 7) :=
  ⟨iter (demo false) 12 (init 0 10), reach_iter 12 .init, ⟨by decide, by decide, by decide⟩,
    by decide, by decide, by rfl⟩

/-- The hypotheses of `C77_reported_partial` are met. -/
example : ∃ s, Reach (demo false) 0 0 s ∧ s.cur = some (1, 20) ∧ s.joiners 1 = [] ∧
    s.clock ≠ .off ∧ isDone (s.st 0) = false ∧
    halted (iter (demo false) 10 (step (demo false) [] s)) :=
  ⟨iter (demo false) 8 (init 0 0), reach_iter 8 .init, by decide, by decide, by decide, by decide,
    ⟨by decide, by decide, by decide⟩⟩

end Toffee.Props.LoopFail
