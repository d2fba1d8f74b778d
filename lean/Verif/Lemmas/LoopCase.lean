import Verif.Lemmas.LoopLog
/-! The effect of one micro step on the log, the pending hooks and the cycle counter. -/

namespace Toffee.Loop

variable {σ G V : Type}

/-- What a micro step does to log, pending hooks, cycle counter and clock. -/
inductive LogCase (s s' : St σ G V) : Prop where
  /-- nothing relevant -/
  | quiet (l : List Ev) (hl : s'.log = s.log ++ l) (hn : ∀ e ∈ l, neutralEv e = true)
      (hh : s'.hooks = s.hooks) (hx : s'.nextHook = s.nextHook) (hc : s'.cycles = s.cycles)
      (hk : s'.clock = s.clock ∨ (s.clock ≠ .afterCancel ∧ s'.clock ≠ .afterCancel))
      (hkd : s'.clock = .dead ↔ s.clock = .dead)
  /-- a hook is requested -/
  | req (h : Hook σ G V) (p : Int) (hl : s'.log = s.log ++ [.req s.nextHook p])
      (hh : s'.hooks = s.hooks ++ [((s.nextHook, h), p)]) (hx : s'.nextHook = s.nextHook + 1)
      (hc : s'.cycles = s.cycles) (hk : s'.clock = s.clock) (hk' : s.clock ≠ .afterCancel)
  /-- the callbacks ran and ask for another round -/
  | rerun (hl : s'.log = s.log ++ ((Priority.sorted s.hooks).map execEv ++ [.sample]))
      (hd : ∃ h ∈ s.hooks, h.1.2.done.isSome = true)
      (hh : s'.hooks = []) (hx : s'.nextHook = s.nextHook) (hc : s'.cycles = s.cycles)
      (hk' : s.clock = .check) (hk : s'.clock = .check)
  /-- the callbacks ran and the DUT is stepped -/
  | step (hl : s'.log = s.log ++ ((Priority.sorted s.hooks).map execEv ++ [.sample, .step]))
      (hd : ∀ h ∈ s.hooks, h.1.2.done.isSome = false)
      (hh : s'.hooks = []) (hx : s'.nextHook = s.nextHook) (hc : s'.cycles = s.cycles + 1)
      (ht : s.testDone = false) (hk' : s.clock = .check) (hk : s'.clock = .check)
  /-- the callbacks ran and the tasks are cancelled -/
  | cancel (hl : s'.log = s.log ++ ((Priority.sorted s.hooks).map execEv ++ [.sample, .cancelAll]))
      (hd : ∀ h ∈ s.hooks, h.1.2.done.isSome = false)
      (hh : s'.hooks = []) (hx : s'.nextHook = s.nextHook) (hc : s'.cycles = s.cycles)
      (ht : s.testDone = true) (hk' : s.clock = .check) (hk : s'.clock = .afterCancel)
  /-- the DUT is stepped after the cancellation -/
  | last (hl : s'.log = s.log ++ [.step]) (hs : s.hooks = []) (hh : s'.hooks = [])
      (hx : s'.nextHook = s.nextHook) (hc : s'.cycles = s.cycles + 1)
      (hk' : s.clock = .afterCancel) (hk : s'.clock = .check)
  /-- a hook raises -/
  | raise (pre : List ((Nat × Hook σ G V) × Int)) (x : (Nat × Hook σ G V) × Int)
      (post : List ((Nat × Hook σ G V) × Int)) (hs : Priority.sorted s.hooks = pre ++ x :: post)
      (hl : s'.log = s.log ++ (pre.map execEv ++ [.hookRaise x.1.1]))
      (hh : s'.hooks = spend ((pre ++ [x]).map fun h => h.1.1) s.hooks)
      (hx : s'.nextHook = s.nextHook) (hc : s'.cycles = s.cycles)
      (hk' : s.clock = .check) (hk : s'.clock = .dead) (ha : s'.aborted = true)
      (hra : ∃ rest, Raises s pre x rest ∧ s' = raised pre x { s with batch := rest })

theorem LogCase.same {s s' : St σ G V} (hl : s'.log = s.log) (hh : s'.hooks = s.hooks)
    (hx : s'.nextHook = s.nextHook) (hc : s'.cycles = s.cycles)
    (hk : s'.clock = s.clock ∨ (s.clock ≠ .afterCancel ∧ s'.clock ≠ .afterCancel))
    (hkd : s'.clock = .dead ↔ s.clock = .dead) : LogCase s s' :=
  .quiet [] (by simp [hl]) (by simp) hh hx hc hk hkd

theorem LogCase.neutral {s s' : St σ G V} (h : Neutral s s') : LogCase s s' := by
  obtain ⟨l, hl, hn⟩ := h.log
  refine .quiet l hl hn h.hooks h.nextHook h.cycles ?_ (by
    rcases h.clk with h | ⟨h, h'⟩
    · rw [h]
    · rw [h, h']; simp)
  rcases h.clk with h | ⟨h, h'⟩
  · exact .inl h
  · exact .inr ⟨by rw [h]; simp, by rw [h']; simp⟩

theorem log_case {sys : Sys σ G V} {g : G} {k : σ} {s : St σ G V} (due : List Nat)
    (hr : Reach sys g k s) : LogCase s (step sys due s) := by
  have hac := reach_AC hr
  have hsc := step_case sys due s
  generalize step sys due s = s' at hsc
  cases hsc with
  | exec t k hc =>
    by_cases hh : ∃ h p k', sys.prog k s.g = .addHook h p k'
    · obtain ⟨h, p, k', hp⟩ := hh
      rw [hp]
      refine .req h p rfl rfl rfl rfl rfl ?_
      intro h
      have := hac.cur h
      rw [hc] at this; cases this
    · exact .neutral (exec_neutral t _ s (fun h p k' hp => hh ⟨h, p, k', hp⟩))
  | task t rest hc hb =>
    have h := resume_neutral t { s with batch := rest }
    exact .neutral ⟨h.hooks, h.nextHook, h.cycles, h.log, h.clk⟩
  | clock rest hc hb =>
    unfold runClock
    have hcc := clock_case sys { s with batch := rest }
    obtain ⟨f1, f2, f3, f4, f5, _⟩ := callbacks_frame sys { s with batch := rest }
    have hany : (callbacks sys { s with batch := rest }).1 =
        s.hooks.any (fun h => h.1.2.done.isSome) := rfl
    generalize clockTurn sys { s with batch := rest } = r at hcc
    cases hcc with
    | off h => exact .same rfl rfl rfl rfl (.inl rfl) .rfl
    | dead h => exact .same rfl rfl rfl rfl (.inl rfl) .rfl
    | raise h hu hf pre x post hs hx =>
      obtain ⟨d1, d2, d3, d4, _⟩ := raised_frame pre x { s with batch := rest }
      exact .raise pre x post hs d4 d1 d2 d3 h rfl rfl ⟨rest, ⟨hc, hb, h, hu, hf, ⟨post, hs⟩, hx⟩, rfl⟩
    | begin h =>
      have h : s.clock = _ := h
      exact .same rfl rfl rfl rfl (.inr ⟨by rw [h]; simp, by simp [clockYield, push]⟩)
        (by rw [h]; simp [clockYield, push])
    | busy h =>
      have h : s.clock = _ := h
      exact .same rfl rfl rfl rfl (.inr ⟨by rw [h]; simp, by simp [clockYield, push]⟩)
        (by rw [h]; simp [clockYield, push])
    | rerun h hu hf hrr =>
      rw [hany, List.any_eq_true] at hrr
      refine .rerun ?_ hrr f1 f2 f3 h rfl
      show (callbacks sys _).2.log = _
      rw [f4, List.append_assoc]
    | cancel h hu hf hrr ht =>
      rw [hany, List.any_eq_false] at hrr
      refine .cancel ?_ (fun x hx => by simpa using hrr x hx) f1 f2 f3 ht h rfl
      show (callbacks sys _).2.log ++ [.cancelAll] = _
      rw [f4]; simp
    | step h hu hf hrr ht =>
      rw [hany, List.any_eq_false] at hrr
      obtain ⟨d1, d2, d3, d4, d5, d6, _⟩ := doStep_frame sys (callbacks sys { s with batch := rest }).2
      refine .step ?_ (fun x hx => by simpa using hrr x hx) (d1.trans f1) (d2.trans f2)
        (by rw [d3, f3]) ht h d6
      rw [d4, f4]; simp
    | last h =>
      obtain ⟨d1, d2, d3, d4, d5, d6, _⟩ := doStep_frame sys { s with batch := rest }
      exact .last d4 (hac.hooks h) (d1.trans (hac.hooks h)) d2 d3 h d6
  | stop rest hc hb => exact .same rfl rfl rfl rfl (.inl rfl) .rfl
  | fire t k rest hc hb hs => exact .same rfl rfl rfl rfl (.inl rfl) .rfl
  | miss t rest hc hb hs => exact .same rfl rfl rfl rfl (.inl rfl) .rfl
  | halt hc hb hs => exact .same rfl rfl rfl rfl (.inl rfl) .rfl
  | turn due hc hb hs => exact .same rfl rfl rfl rfl (.inl rfl) .rfl

end Toffee.Loop
