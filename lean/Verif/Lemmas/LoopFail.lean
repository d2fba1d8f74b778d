import Verif.Lemmas.LoopCase
import Verif.Lemmas.LoopSusp
/-! Exceptions in the event-loop model: only `raise` changes what has failed. -/

namespace Toffee.Loop

variable {σ G V : Type}

/-- Nothing failed in between. -/
def SameF (s s' : St σ G V) : Prop := s'.failed = s.failed ∧ s'.aborted = s.aborted

theorem SameF.trans {s s' s'' : St σ G V} (h : SameF s s') (h' : SameF s' s'') : SameF s s'' :=
  ⟨h'.1.trans h.1, h'.2.trans h.2⟩

theorem setEv_sameF (e : Nat) (s : St σ G V) : SameF s (setEv e s) := by
  unfold setEv
  split <;> exact ⟨rfl, rfl⟩

theorem putQ_sameF (y : Nat) (v : V) (s : St σ G V) : SameF s (putQ y v s) := by
  unfold putQ
  dsimp only
  split <;> exact ⟨rfl, rfl⟩

theorem finish_sameF (t : Nat) (r : Option V) (s : St σ G V) : SameF s (finish t r s) := by
  unfold finish
  by_cases h : t = 0 <;> simp [SameF, h, wake, push]

theorem runEff_sameF (s : St σ G V) (e : Eff σ V) : SameF s (runEff s e) := by
  cases e with
  | setEv e => exact setEv_sameF e s
  | put q v => exact putQ_sameF q v s
  | spawn k => exact ⟨rfl, rfl⟩

theorem runHook_sameF (s : St σ G V) (x : (Nat × Hook σ G V) × Int) : SameF s (runHook s x) := by
  unfold runHook
  dsimp only
  have h1 : SameF s ((x.1.2.run (note (.exec x.1.1 x.1.2.done.isSome) s).g).2.foldl runEff
      { note (.exec x.1.1 x.1.2.done.isSome) s with
        g := (x.1.2.run (note (.exec x.1.1 x.1.2.done.isSome) s).g).1 }) :=
    foldl_inv (SameF s) runEff (fun _ _ h => h.trans (runEff_sameF _ _)) _ _ ⟨rfl, rfl⟩
  split
  · exact h1.trans (setEv_sameF _ _)
  · exact h1

theorem callbacks_sameF (sys : Sys σ G V) (s : St σ G V) : SameF s (callbacks sys s).2 :=
  (foldl_inv (SameF s) runHook (fun _ _ h => h.trans (runHook_sameF _ _))
    (Priority.sorted s.hooks) s ⟨rfl, rfl⟩).trans ⟨rfl, rfl⟩

theorem doStep_sameF (sys : Sys σ G V) (s : St σ G V) : SameF s (doStep sys s) :=
  SameF.trans (s' := setEv 0 (note .step { s with g := sys.dutStep s.g, cycles := s.cycles + 1 }))
    (setEv_sameF 0 (note .step { s with g := sys.dutStep s.g, cycles := s.cycles + 1 })) ⟨rfl, rfl⟩

theorem exec_sameF (t : Nat) (c : Cmd σ G V) (s : St σ G V) (hc : ∀ held, c ≠ .raise held) :
    SameF s (exec t c s) := by
  cases c with
  | ret v =>
    unfold exec
    dsimp only
    split
    · split
      · exact finish_sameF t _ (note .testDone { s with testDone := true })
      · exact ⟨rfl, rfl⟩
    · exact finish_sameF _ _ _
  | raise held => exact absurd rfl (hc held)
  | comp g k => exact ⟨rfl, rfl⟩
  | taskRun k => exact ⟨rfl, rfl⟩
  | yield k => exact ⟨rfl, rfl⟩
  | sleep k => exact ⟨rfl, rfl⟩
  | waitEv e k =>
    unfold exec
    dsimp only
    split
    · exact ⟨rfl, rfl⟩
    · split <;> exact ⟨rfl, rfl⟩
  | setEv e k => exact setEv_sameF e s
  | clearEv e k => exact ⟨rfl, rfl⟩
  | put q v k => exact putQ_sameF q v s
  | get q k =>
    unfold exec
    dsimp only
    split <;> exact ⟨rfl, rfl⟩
  | spawn s0 k => exact ⟨rfl, rfl⟩
  | join w k kx =>
    unfold exec
    dsimp only
    split
    · exact ⟨rfl, rfl⟩
    · split
      · exact ⟨rfl, rfl⟩
      · exact finish_sameF _ _ _
    · exact ⟨rfl, rfl⟩
  | addHook hk p k => exact ⟨rfl, rfl⟩
  | startClock k =>
    unfold exec
    dsimp only
    split <;> exact ⟨rfl, rfl⟩

theorem resume_sameF (t : Nat) (s : St σ G V) : SameF s (resume t s) := by
  unfold resume
  dsimp only
  split
  · exact ⟨rfl, rfl⟩
  · split <;> exact ⟨rfl, rfl⟩
  · exact ⟨rfl, rfl⟩
  · split <;> exact ⟨rfl, rfl⟩
  · split
    · exact ⟨rfl, rfl⟩
    · split
      · exact ⟨rfl, rfl⟩
      · exact finish_sameF _ _ _
  · exact finish_sameF _ _ (note _ s)
  · exact ⟨rfl, rfl⟩

theorem runClock_sameF (sys : Sys σ G V) (s : St σ G V) (hc : s.cur = none) {rest : List Handle}
    (hb : s.batch = .clock :: rest) :
    SameF s (runClock sys { s with batch := rest }) ∨
    ∃ pre x, Raises s pre x rest ∧
      runClock sys { s with batch := rest } = raised pre x { s with batch := rest } := by
  unfold runClock
  have hcc := clock_case sys { s with batch := rest }
  generalize clockTurn sys { s with batch := rest } = x at hcc
  have h0 := callbacks_sameF sys { s with batch := rest }
  cases hcc with
  | off _ => exact .inl ⟨rfl, rfl⟩
  | dead _ => exact .inl ⟨rfl, rfl⟩
  | raise h hu hf pre x post hs hx =>
    exact .inr ⟨pre, x, ⟨hc, hb, h, hu, hf, ⟨post, hs⟩, hx⟩, rfl⟩
  | begin _ => exact .inl ⟨rfl, rfl⟩
  | busy _ _ => exact .inl ⟨rfl, rfl⟩
  | rerun _ _ _ _ => exact .inl h0
  | cancel _ _ _ _ _ => exact .inl h0
  | step _ _ _ _ _ => exact .inl (SameF.trans h0 (doStep_sameF sys _))
  | last _ => exact .inl (doStep_sameF sys { s with batch := rest })

theorem raised_failed (pre : List ((Nat × Hook σ G V) × Int)) (x : (Nat × Hook σ G V) × Int)
    (s : St σ G V) : (raised pre x s).failed = s.failed :=
  raised_rule (P := fun s' => s'.failed = s.failed)
    (fun s' x h => (runHook_sameF s' x).1.trans h)
    (fun s' x h => (foldl_inv (SameF s') runEff (fun _ _ h => h.trans (runEff_sameF _ _)) _ _
      ⟨rfl, rfl⟩ : SameF s' (runFail s' x)).1.trans h)
    (fun _ _ h => h) pre x rfl

/-- A micro step is a task or a hook raising an exception, or nothing fails in it. -/
theorem fail_case (sys : Sys σ G V) (due : List Nat) (s : St σ G V) :
    SameF s (step sys due s) ∨
    (∃ t k held, s.cur = some (t, k) ∧ sys.prog k s.g = .raise held ∧
      step sys due s = fail t held s) ∨
    ∃ pre x rest, Raises s pre x rest ∧ step sys due s = raised pre x { s with batch := rest } := by
  have hsc := step_case sys due s
  have heq : ∀ t k, s.cur = some (t, k) → step sys due s = exec t (sys.prog k s.g) s := by
    intro t k h
    unfold step; rw [h]
  generalize step sys due s = s' at hsc heq
  cases hsc with
  | exec t k hc =>
    by_cases h : ∃ held, sys.prog k s.g = .raise held
    · obtain ⟨held, h⟩ := h
      exact .inr (.inl ⟨t, k, held, hc, h, by rw [h]; rfl⟩)
    · exact .inl (exec_sameF t _ s fun held h' => h ⟨held, h'⟩)
  | task u rest hc hb => exact .inl (resume_sameF u { s with batch := rest })
  | clock rest hc hb =>
    rcases runClock_sameF sys s hc hb with h | ⟨pre, x, h1, h2⟩
    · exact .inl h
    · exact .inr (.inr ⟨pre, x, rest, h1, h2⟩)
  | stop rest hc hb => exact .inl ⟨rfl, rfl⟩
  | fire u k rest hc hb hs => exact .inl ⟨rfl, rfl⟩
  | miss u rest hc hb hs => exact .inl ⟨rfl, rfl⟩
  | halt hc hb hs => exact .inl ⟨rfl, rfl⟩
  | turn due hc hb hs => exact .inl ⟨rfl, rfl⟩

theorem fail_failed (t : Nat) (held : Bool) (s : St σ G V) :
    (fail t held s).failed = upd s.failed t true := by
  obtain ⟨b, c, hb⟩ := fail_eq t held s
  rw [hb]
  exact (finish_sameF t none { s with failed := upd s.failed t true }).1

theorem fail_aborted (t : Nat) (held : Bool) (s : St σ G V) :
    (fail t held s).aborted = (s.aborted || (t != 0 && !held && (s.joiners t).isEmpty)) := by
  unfold fail
  dsimp only
  have h1 := (finish_sameF t none { s with failed := upd s.failed t true }).2
  split
  · rename_i h
    rw [h1]
    rcases h with h | h | h
    · simp [h]
    · simp [h]
    · simp [h]
  · rename_i h
    simp only [not_or, ne_eq, Decidable.not_not] at h
    obtain ⟨h2, h3, h4⟩ := h
    simp [h2, h3, h4]

theorem failed_mono (sys : Sys σ G V) (due : List Nat) {s : St σ G V} {t : Nat}
    (h : s.failed t = true) : (step sys due s).failed t = true := by
  rcases fail_case sys due s with h1 | ⟨u, k, held, _, _, h1⟩ | ⟨pre, x, rest, _, h1⟩
  · rw [h1.1]; exact h
  · rw [h1, fail_failed]
    unfold upd
    split
    · rfl
    · exact h
  · rw [h1, raised_failed]; exact h

theorem aborted_mono (sys : Sys σ G V) (due : List Nat) {s : St σ G V}
    (h : s.aborted = true) : (step sys due s).aborted = true := by
  rcases fail_case sys due s with h1 | ⟨u, k, held, _, _, h1⟩ | ⟨pre, x, rest, _, h1⟩
  · rw [h1.2]; exact h
  · rw [h1, fail_aborted, h]; rfl
  · rw [h1]; rfl

theorem not_aborted (sys : Sys σ G V) (due : List Nat) {s : St σ G V}
    (h : (step sys due s).aborted = false) : s.aborted = false := by
  cases h1 : s.aborted with
  | false => rfl
  | true => rw [aborted_mono sys due h1] at h; cases h

/-- The clock task ends with an exception only together with the run. -/
theorem dead_aborted {sys : Sys σ G V} {g : G} {k : σ} {s : St σ G V} (h : Reach sys g k s)
    (hd : s.clock = .dead) : s.aborted = true := by
  induction h with
  | init => simp [init] at hd
  | @step s due hr ih =>
    cases log_case due hr with
    | quiet _ _ _ _ _ _ _ hkd => exact aborted_mono sys due (ih (hkd.1 hd))
    | req _ _ _ _ _ _ hk => exact aborted_mono sys due (ih (hk ▸ hd))
    | raise _ _ _ _ _ _ _ _ _ _ ha => exact ha
    | rerun _ _ _ _ _ _ hk => rw [hk] at hd; cases hd
    | step _ _ _ _ _ _ _ hk => rw [hk] at hd; cases hd
    | cancel _ _ _ _ _ _ _ hk => rw [hk] at hd; cases hd
    | last _ _ _ _ _ _ hk => rw [hk] at hd; cases hd

theorem finish_self {t : Nat} {s : St σ G V} (r : Option V) (hn : t < s.n) :
    DoneAs t r (finish t r s) := by
  have h1 : DoneAs t r ({ s with st := upd s.st t (.done r), cur := none } : St σ G V) :=
    ⟨upd_self _ _ _, hn⟩
  unfold finish
  dsimp only
  split
  · exact wake_done (s := push .stop _) h1
  · exact wake_done h1

/-- The tasks that failed have ended without a result. -/
theorem reach_failed {sys : Sys σ G V} {g : G} {k : σ} {s : St σ G V} (h : Reach sys g k s) :
    ∀ t, s.failed t = true → DoneAs t none s := by
  induction h with
  | init => intro t h; cases h
  | @step s due hr ih =>
    intro t ht
    have hi := reach_inv hr
    rcases fail_case sys due s with h1 | ⟨u, k', held, hc, _, h1⟩ | ⟨pre, x, rest, _, h1⟩
    · rw [h1.1] at ht
      exact step_done sys due hi (ih t ht)
    · by_cases htu : t = u
      · subst htu
        obtain ⟨b, c, hb⟩ := fail_eq t held s
        rw [h1, hb]
        have hn : t < s.n := by
          have := hi.core
          unfold InvS at this
          rw [hc] at this
          exact this.lt_of_running
        exact finish_self (s := { s with failed := upd s.failed t true }) none hn
      · rw [h1, fail_failed, upd_ne _ _ _ _ htu] at ht
        exact step_done sys due hi (ih t ht)
    · rw [h1, raised_failed] at ht
      exact step_done sys due hi (ih t ht)

end Toffee.Loop
