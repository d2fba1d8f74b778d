import Verif.Props.LoopFail
import Verif.Props.LoopMonitor
/-! Where a task that waits came from, and who takes something out of a queue. -/

namespace Toffee.Loop

open Toffee.Props

variable {σ G V : Type}

/-- The wait a primitive can lead to. -/
def waits : Cmd σ G V → Wait σ V → Prop
  | .waitEv e k, w => w = .ev e k
  | .get q k, w => w = .get q k
  | .join u k kx, w => w = .join u k kx
  | .sleep k, w => w = .timer k
  | .ret v, w => w = .final v
  | _, _ => False

theorem finish_own (t : Nat) (r : Option V) (s : St σ G V) : (finish t r s).st t = .done r := by
  unfold finish
  dsimp only
  split
  · show (wake (s.joiners t) _).st t = _
    show (if t ∈ _ then Status.finish (upd s.st t _ t) else upd s.st t _ t) = _
    rw [upd_self]; split <;> rfl
  · show (if t ∈ _ then Status.finish (upd s.st t _ t) else upd s.st t _ t) = _
    rw [upd_self]; split <;> rfl

/-- A running task is suspended by what it executes. -/
theorem exec_susp {u : Nat} {c : Cmd σ G V} {s : St σ G V} {w : Wait σ V} (hs : s.st u = .running)
    (hn : u < s.n) (h : Susp w u (exec u c s)) : waits c w := by
  have hr : ¬ Susp w u s := by unfold Susp; rw [hs]; simp
  have hu : ∀ x : Status σ V, (upd s.st u x u = .pend w ∨ upd s.st u x u = .fin w) →
      x = .pend w ∨ x = .fin w := by intro x hx; rw [upd_self] at hx; exact hx
  have hd : ∀ {r : Option V} {s' : St σ G V}, ¬ Susp w u (finish u r s') := by
    intro r s'; unfold Susp; rw [finish_own]; simp
  cases c with
  | ret v =>
    unfold exec at h
    dsimp only at h
    split at h
    · split at h
      · exact absurd h hd
      · rcases hu _ h with h | h <;> cases h
        rfl
    · exact absurd h hd
  | raise held =>
    obtain ⟨b, c, hb⟩ := fail_eq u held s
    change Susp w u (fail u held s) at h
    rw [hb] at h
    exact absurd (show Susp w u (finish u none _) from h) hd
  | comp g k => exact absurd h hr
  | taskRun k => exact absurd h hr
  | yield k => rcases hu _ h with h | h <;> cases h
  | sleep k => rcases hu _ h with h | h <;> cases h; rfl
  | waitEv e k =>
    unfold exec at h
    dsimp only at h
    split at h
    · exact absurd h hr
    · split at h
      · rcases hu _ h with h | h <;> cases h; rfl
      · rcases hu _ h with h | h <;> cases h; rfl
  | setEv e k =>
    exfalso
    have h : Susp w u (setEv e s) := h
    unfold setEv at h
    split at h
    · exact hr h
    · have h : Susp w u (wake (s.waiters e) s) := h
      unfold Susp at h
      rw [LoopFail.wake_running hs] at h
      simp at h
  | clearEv e k => exact absurd h hr
  | put q v k =>
    exfalso
    have h : Susp w u (putQ q v s) := h
    unfold putQ at h
    dsimp only at h
    split at h
    · exact hr h
    · rename_i x xs _
      have h : Susp w u (wake [x] s) := h
      unfold Susp at h
      rw [LoopFail.wake_running hs] at h
      simp at h
  | get q k =>
    unfold exec at h
    dsimp only at h
    split at h
    · rcases hu _ h with h | h <;> cases h; rfl
    · exact absurd h hr
  | spawn s0 k =>
    exfalso
    have h : upd s.st s.n _ u = _ ∨ upd s.st s.n _ u = _ := h
    rw [upd_ne _ _ _ _ (by omega)] at h
    exact hr h
  | join x k kx =>
    unfold exec at h
    dsimp only at h
    split at h
    · exact absurd h hr
    · split at h
      · exact absurd h hr
      · exact absurd h hd
    · rcases hu _ h with h | h <;> cases h; rfl
  | addHook hk p k => exact absurd h hr
  | startClock k =>
    unfold exec at h
    dsimp only at h
    split at h <;> exact absurd h hr

/-- Resuming a task suspends it only in what it waited for. -/
theorem resume_susp {u : Nat} {s : St σ G V} {w : Wait σ V} (h : Susp w u (resume u s)) :
    Susp w u s := by
  have hu : ∀ x : Status σ V, (upd s.st u x u = .pend w ∨ upd s.st u x u = .fin w) →
      x = .pend w ∨ x = .fin w := by intro x hx; rw [upd_self] at hx; exact hx
  have hd : ∀ {r : Option V} {s' : St σ G V}, ¬ Susp w u (finish u r s') := by
    intro r s'; unfold Susp; rw [finish_own]; simp
  unfold resume at h
  dsimp only at h
  split at h
  · rcases hu _ h with h | h <;> cases h
  · split at h <;> (rcases hu _ h with h | h <;> cases h)
  · rcases hu _ h with h | h <;> cases h
  · rename_i q k hf
    split at h
    · rcases hu _ h with h | h <;> cases h
      exact .inr hf
    · rcases hu _ h with h | h <;> cases h
  · split at h
    · rcases hu _ h with h | h <;> cases h
    · split at h
      · rcases hu _ h with h | h <;> cases h
      · exact absurd h hd
  · exact absurd h hd
  · exact h

/-- A task that is suspended after a step was suspended before, or has just executed the primitive. -/
theorem susp_origin {sys : Sys σ G V} {g : G} {k0 : σ} {s : St σ G V} (due : List Nat)
    (hr : Reach sys g k0 s) {w : Wait σ V} {u : Nat} (hw : ∀ v, w ≠ .final v)
    (h : Susp w u (step sys due s)) :
    Susp w u s ∨ ∃ k, s.cur = some (u, k) ∧ waits (sys.prog k s.g) w := by
  have hi := reach_inv hr
  have hr' : Reach sys g k0 (step sys due s) := .step due hr
  have hac : (step sys due s).clock ≠ .afterCancel := by
    intro hk
    have := (reach_AC hr').st hk u
    rcases h with h | h <;> rw [h] at this <;> cases w with
      | final v => exact hw v rfl
      | _ => cases this
  rcases stays_step sys due s u hac with ⟨k, hcu, hst⟩ | ⟨rest, hcu, hb, hst⟩ | ⟨_, hst⟩
  · right
    refine ⟨k, hcu, ?_⟩
    have hrun := (hi.core.hcur u).2 (by rw [hcu]; rfl)
    have hrun' : s.st u = .running := by
      cases hx : s.st u with
      | running => rfl
      | _ => rw [hx] at hrun; cases hrun
    rw [hst] at h
    exact exec_susp hrun' (hi.core.lt_of_not_done (by rw [hrun']; rfl)) h
  · left
    rw [hst] at h
    exact resume_susp (s := { s with batch := rest }) h
  · left
    by_cases hn : u < s.n
    · rcases hst.st hn with h1 | ⟨w', h1, h2⟩
      · unfold Susp at h ⊢; rwa [h1] at h
      · unfold Susp at h ⊢
        rw [h2] at h
        rcases h with h | h
        · cases h
        · cases h; exact .inl h1
    · exfalso
      have hn' : u < (step sys due s).n := by
        apply (reach_inv hr').core.lt_of_not_done
        rcases h with h | h <;> rw [h] <;> rfl
      obtain ⟨k, _, h1⟩ := step_news sys due s hac u (by omega) hn'
      rcases h with h | h <;> rw [h1] at h <;> cases h

/-! ### Who takes something out of a queue -/

theorem putQ_gotH (y : Nat) (v : V) (s : St σ G V) : (putQ y v s).gotH = s.gotH := by
  unfold putQ
  dsimp only
  split <;> rfl

theorem effs_gotH (l : List (Eff σ V)) (s : St σ G V) : (l.foldl runEff s).gotH = s.gotH :=
  foldl_inv (fun s' => s'.gotH = s.gotH) runEff (fun s' e h => (by
    cases e with
    | setEv e => exact (LoopQueue.setEv_sameQ e s').gotH.trans h
    | put y v => exact (putQ_gotH y v s').trans h
    | spawn k => exact h)) l s rfl

theorem runHook_gotH (s : St σ G V) (x : (Nat × Hook σ G V) × Int) :
    (runHook s x).gotH = s.gotH := by
  unfold runHook
  dsimp only
  split
  · rw [(LoopQueue.setEv_sameQ _ _).gotH, effs_gotH]; rfl
  · rw [effs_gotH]; rfl

theorem callbacks_gotH (sys : Sys σ G V) (s : St σ G V) : (callbacks sys s).2.gotH = s.gotH :=
  foldl_inv (fun s' => s'.gotH = s.gotH) runHook (fun s' x h => (runHook_gotH s' x).trans h)
    (Priority.sorted s.hooks) s rfl

theorem raised_gotH (pre : List ((Nat × Hook σ G V) × Int)) (x : (Nat × Hook σ G V) × Int)
    (s : St σ G V) : (raised pre x s).gotH = s.gotH :=
  raised_rule (P := fun s' => s'.gotH = s.gotH) (fun _ _ h => (runHook_gotH _ _).trans h)
    (fun _ _ h => (effs_gotH _ _).trans h) (fun _ _ h => h) pre x rfl

theorem doStep_gotH (sys : Sys σ G V) (s : St σ G V) : (doStep sys s).gotH = s.gotH := by
  unfold doStep clockYield push
  exact (LoopQueue.setEv_sameQ 0 _).gotH

theorem exec_gotH {t q : Nat} {c : Cmd σ G V} {s : St σ G V} (h : ∀ k, c ≠ .get q k) :
    (exec t c s).gotH q = s.gotH q := by
  cases c with
  | ret v =>
    unfold exec
    dsimp only
    split
    · split
      · exact congrFun (LoopQueue.finish_sameQ _ _ (note .testDone { s with testDone := true })).gotH q
      · rfl
    · exact congrFun (LoopQueue.finish_sameQ _ _ _).gotH q
  | raise held => exact congrFun (LoopQueue.fail_sameQ _ _ _).gotH q
  | waitEv e k =>
    unfold exec
    dsimp only
    split
    · rfl
    · split <;> rfl
  | setEv e k => exact congrFun (LoopQueue.setEv_sameQ e s).gotH q
  | put y v k => exact congrFun (putQ_gotH y v s) q
  | get y k =>
    unfold exec
    dsimp only
    split
    · rfl
    · exact upd_ne _ _ _ _ (by rintro rfl; exact h k rfl)
  | join w k kx =>
    unfold exec
    dsimp only
    split
    · rfl
    · split
      · rfl
      · exact congrFun (LoopQueue.finish_sameQ _ _ _).gotH q
    · rfl
  | startClock k =>
    unfold exec
    dsimp only
    split <;> rfl
  | _ => rfl

theorem resume_gotH {t q : Nat} {s : St σ G V} (h : ∀ k, s.st t ≠ .fin (.get q k)) :
    (resume t s).gotH q = s.gotH q := by
  unfold resume
  dsimp only
  split
  · rfl
  · split <;> rfl
  · rfl
  · rename_i y k hf
    split
    · rfl
    · exact upd_ne _ _ _ _ (by rintro rfl; exact h k hf)
  · split
    · rfl
    · split
      · rfl
      · exact congrFun (LoopQueue.finish_sameQ _ _ _).gotH q
  · exact congrFun (LoopQueue.finish_sameQ _ _ _).gotH q
  · rfl

/-- Something is taken out of a queue only by a task that executes `get` or resumes in it. -/
theorem step_gotH (sys : Sys σ G V) (due : List Nat) (s : St σ G V) (q : Nat)
    (h1 : ∀ u k k', s.cur = some (u, k) → sys.prog k s.g ≠ .get q k')
    (h2 : ∀ u rest k, s.cur = none → s.batch = .task u :: rest → s.st u ≠ .fin (.get q k)) :
    (step sys due s).gotH q = s.gotH q := by
  have hsc := step_case sys due s
  generalize step sys due s = s' at hsc
  cases hsc with
  | exec u k hc => exact exec_gotH fun k' => h1 u k k' hc
  | task u rest hc hb => exact resume_gotH (s := { s with batch := rest }) fun k => h2 u rest k hc hb
  | clock rest hc hb =>
    unfold runClock
    have hcc := clock_case sys { s with batch := rest }
    generalize clockTurn sys { s with batch := rest } = x at hcc
    have h3 := callbacks_gotH sys { s with batch := rest }
    cases hcc with
    | raise _ _ _ pre x _ _ _ => exact congrFun (raised_gotH pre x _) q
    | rerun _ _ _ _ => exact congrFun h3 q
    | cancel _ _ _ _ _ => exact congrFun h3 q
    | step _ _ _ _ _ => exact congrFun ((doStep_gotH sys _).trans h3) q
    | last _ => exact congrFun (doStep_gotH sys _) q
    | _ => rfl
  | _ => rfl

end Toffee.Loop
