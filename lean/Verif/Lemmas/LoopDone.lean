import Verif.Lemmas.LoopLog
/-! A finished task stays finished, with the same result. -/

namespace Toffee.Loop

variable {σ G V : Type}

/-- Task `t` exists and has finished with `r` (`none`: cancelled). -/
def DoneAs (t : Nat) (r : Option V) (s : St σ G V) : Prop := s.st t = .done r ∧ t < s.n

theorem wake_done {ts : List Nat} {s : St σ G V} {t : Nat} {r : Option V} (h : DoneAs t r s) :
    DoneAs t r (wake ts s) := by
  refine ⟨?_, h.2⟩
  show (if t ∈ ts then (s.st t).finish else s.st t) = _
  rw [h.1]
  split <;> rfl

theorem setEv_done {e : Nat} {s : St σ G V} {t : Nat} {r : Option V} (h : DoneAs t r s) :
    DoneAs t r (setEv e s) := by
  unfold setEv
  split
  · exact h
  · exact wake_done h

theorem putQ_done {y : Nat} {v : V} {s : St σ G V} {t : Nat} {r : Option V}
    (h : DoneAs t r s) : DoneAs t r (putQ y v s) := by
  unfold putQ
  dsimp only
  split
  · exact h
  · exact wake_done (s := { s with q := _ }) h

theorem spawn_done {k : σ} {s : St σ G V} {t : Nat} {r : Option V}
    (h : DoneAs t r s) : DoneAs t r (spawn k s) := by
  have h2 := h.2
  refine ⟨?_, ?_⟩
  · show upd s.st s.n _ t = _
    rw [upd_ne _ _ _ _ (by omega)]; exact h.1
  · show t < s.n + 1
    omega

theorem upd_done {s s' : St σ G V} {t u : Nat} {x : Status σ V} {r : Option V}
    (h : DoneAs t r s) (hs : s'.st = upd s.st u x) (hn : s'.n = s.n) (hu : u ≠ t) :
    DoneAs t r s' := by
  refine ⟨?_, hn ▸ h.2⟩
  rw [hs, upd_ne _ _ _ _ hu.symm]
  exact h.1

theorem fin_done {u : Nat} {r' : Option V} {s : St σ G V} {t : Nat} {r : Option V}
    (h : DoneAs t r s) (hu : u ≠ t) : DoneAs t r (finish u r' s) := by
  have h1 : DoneAs t r ({ s with st := upd s.st u (.done r'), cur := none } : St σ G V) :=
    upd_done h rfl rfl hu
  unfold finish
  dsimp only
  split
  · exact wake_done (s := push .stop _) h1
  · exact wake_done h1

theorem runEff_done {s : St σ G V} {e : Eff σ V} {t : Nat} {r : Option V}
    (h : DoneAs t r s) : DoneAs t r (runEff s e) := by
  cases e with
  | setEv e => exact setEv_done h
  | put q v => exact putQ_done h
  | spawn k => exact spawn_done h

theorem runHook_done {s : St σ G V} {x : (Nat × Hook σ G V) × Int} {t : Nat} {r : Option V}
    (h : DoneAs t r s) : DoneAs t r (runHook s x) := by
  unfold runHook
  dsimp only
  have h1 : DoneAs t r ((x.1.2.run (note (.exec x.1.1 x.1.2.done.isSome) s).g).2.foldl runEff
      { note (.exec x.1.1 x.1.2.done.isSome) s with
        g := (x.1.2.run (note (.exec x.1.1 x.1.2.done.isSome) s).g).1 }) :=
    foldl_inv (DoneAs t r) runEff (fun _ _ h => runEff_done h) _ _ h
  split
  · exact setEv_done h1
  · exact h1

theorem runFail_done {s : St σ G V} {x : (Nat × Hook σ G V) × Int} {t : Nat} {r : Option V}
    (h : DoneAs t r s) : DoneAs t r (runFail s x) :=
  foldl_inv (DoneAs t r) runEff (fun _ _ h => runEff_done h) _ _ h

theorem raised_done (pre : List ((Nat × Hook σ G V) × Int)) (x : (Nat × Hook σ G V) × Int)
    {s : St σ G V} {t : Nat} {r : Option V} (h : DoneAs t r s) : DoneAs t r (raised pre x s) :=
  raised_rule (P := DoneAs t r) (fun _ _ h => runHook_done h) (fun _ _ h => runFail_done h)
    (fun _ _ h => h) pre x h

theorem callbacks_done (sys : Sys σ G V) {s : St σ G V} {t : Nat} {r : Option V}
    (h : DoneAs t r s) : DoneAs t r (callbacks sys s).2 :=
  foldl_inv (DoneAs t r) runHook (fun _ _ h => runHook_done h) _ _ h

theorem fail_done {u : Nat} {held : Bool} {s : St σ G V} {t : Nat} {r : Option V}
    (h : DoneAs t r s) (hu : u ≠ t) : DoneAs t r (fail u held s) := by
  obtain ⟨b, c, hb⟩ := fail_eq u held s
  rw [hb]
  exact fin_done (r' := none) (s := { s with failed := upd s.failed u true }) h hu

theorem exec_done {u : Nat} {c : Cmd σ G V} {s : St σ G V} {t : Nat} {r : Option V}
    (h : DoneAs t r s) (hu : u ≠ t) : DoneAs t r (exec u c s) := by
  cases c with
  | ret v =>
    unfold exec
    dsimp only
    split
    · split
      · exact fin_done (s := note .testDone { s with testDone := true }) h hu
      · exact upd_done h rfl rfl hu
    · exact fin_done h hu
  | raise held => exact fail_done h hu
  | comp g k => exact h
  | taskRun k => exact h
  | yield k => exact upd_done h rfl rfl hu
  | sleep k => exact upd_done h rfl rfl hu
  | waitEv e k =>
    unfold exec
    dsimp only
    split
    · exact h
    · split
      · exact upd_done h rfl rfl hu
      · exact upd_done h rfl rfl hu
  | setEv e k => exact setEv_done (e := e) h
  | clearEv e k => exact h
  | put q v k => exact putQ_done (y := q) (v := v) h
  | get q k =>
    unfold exec
    dsimp only
    split
    · exact upd_done h rfl rfl hu
    · exact h
  | spawn s0 k => exact spawn_done (k := s0) h
  | join w k kx =>
    unfold exec
    dsimp only
    split
    · exact h
    · split
      · exact h
      · exact fin_done h hu
    · exact upd_done h rfl rfl hu
  | addHook hk p k => exact h
  | startClock k =>
    unfold exec
    dsimp only
    split
    · exact h
    · exact h

theorem resume_done {u : Nat} {s : St σ G V} {t : Nat} {r : Option V}
    (h : DoneAs t r s) (hu : u ≠ t) : DoneAs t r (resume u s) := by
  unfold resume
  dsimp only
  split
  · exact upd_done h rfl rfl hu
  · split <;> exact upd_done h rfl rfl hu
  · exact upd_done h rfl rfl hu
  · split <;> exact upd_done h rfl rfl hu
  · split
    · exact upd_done h rfl rfl hu
    · split
      · exact upd_done h rfl rfl hu
      · exact fin_done h hu
  · exact fin_done (s := note _ s) h hu
  · exact h

theorem doStep_done (sys : Sys σ G V) {s : St σ G V} {t : Nat} {r : Option V}
    (h : DoneAs t r s) : DoneAs t r (doStep sys s) :=
  setEv_done (e := 0) (s := note .step { s with g := sys.dutStep s.g, cycles := s.cycles + 1 }) h

theorem cancelAll_done {s : St σ G V} {t : Nat} {r : Option V}
    (h : DoneAs t r s) : DoneAs t r (cancelAll s) := by
  refine ⟨?_, h.2⟩
  show cancelSt s.st t = _
  unfold cancelSt
  split
  · exact h.1
  · rw [h.1]

/-- A finished task stays finished with the same result. -/
theorem step_done (sys : Sys σ G V) (due : List Nat) {s : St σ G V} (hi : Inv s) {t : Nat}
    {r : Option V} (h : DoneAs t r s) : DoneAs t r (step sys due s) := by
  have hsc := step_case sys due s
  generalize step sys due s = s' at hsc
  cases hsc with
  | exec u k hc =>
    refine exec_done h ?_
    rintro rfl
    have := (hi.core.hcur u).2 (by rw [hc]; rfl)
    rw [h.1] at this
    cases this
  | task u rest hc hb =>
    refine resume_done (s := { s with batch := rest }) h ?_
    rintro rfl
    have := qExp_one_of_head hi hb
    rw [h.1] at this
    cases this
  | clock rest hc hb =>
    have h1 : DoneAs t r ({ s with batch := rest } : St σ G V) := h
    unfold runClock
    have hcc := clock_case sys { s with batch := rest }
    generalize clockTurn sys { s with batch := rest } = x at hcc
    cases hcc with
    | off _ => exact h
    | dead _ => exact h
    | raise _ _ _ pre x _ _ _ => exact raised_done pre x h1
    | begin _ => exact h
    | busy _ _ => exact h
    | rerun _ _ _ _ => exact callbacks_done sys h1
    | cancel _ _ _ _ _ => exact cancelAll_done (callbacks_done sys h1)
    | step _ _ _ _ _ => exact doStep_done sys (callbacks_done sys h1)
    | last _ => exact doStep_done sys h1
  | stop rest hc hb => exact h
  | fire u k rest hc hb hs => exact wake_done (s := { s with batch := rest }) h
  | miss u rest hc hb hs => exact h
  | halt hc hb hs => exact h
  | turn due hc hb hs => exact h

end Toffee.Loop
