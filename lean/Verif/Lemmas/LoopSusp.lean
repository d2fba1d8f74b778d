import Verif.Lemmas.LoopDone
/-! Suspended tasks stay suspended until they are resumed or cancelled; created tasks keep their
identity. -/

namespace Toffee.Loop

variable {σ G V : Type}

/-- Task `t` is suspended in `w` (which may have been completed). -/
def Susp (w : Wait σ V) (t : Nat) (s : St σ G V) : Prop := s.st t = .pend w ∨ s.st t = .fin w

/-- Task `u` was created with coroutine `k`. -/
def Born (k : σ) (u : Nat) (s : St σ G V) : Prop := s.orig u = some k ∧ u < s.n

/-- What all operations other than those of `t` itself and the cancellation preserve. -/
structure Stays (s s' : St σ G V) (t : Nat) : Prop where
  st : t < s.n → s'.st t = s.st t ∨ ∃ w, s.st t = .pend w ∧ s'.st t = .fin w
  born : ∀ k u, Born k u s → Born k u s'
  mono : s.n ≤ s'.n

theorem Stays.susp {s s' : St σ G V} {t : Nat} (h : Stays s s' t) (w : Wait σ V) (hn : t < s.n)
    (hs : Susp w t s) : Susp w t s' := by
  rcases h.st hn with h1 | ⟨w', h1, h2⟩
  · unfold Susp at hs ⊢; rw [h1]; exact hs
  · unfold Susp at hs ⊢
    rw [h1] at hs
    rcases hs with hs | hs
    · cases hs; exact .inr h2
    · cases hs

theorem Stays.refl (s : St σ G V) (t : Nat) : Stays s s t :=
  ⟨fun _ => .inl rfl, fun _ _ h => h, Nat.le_refl _⟩

theorem Stays.trans {s s' s'' : St σ G V} {t : Nat} (h : Stays s s' t) (h' : Stays s' s'' t) :
    Stays s s'' t :=
  ⟨fun hn => (by
      rcases h.st hn with h1 | ⟨w, h1, h2⟩ <;>
        rcases h'.st (Nat.lt_of_lt_of_le hn h.mono) with h3 | ⟨w', h3, h4⟩
      · exact .inl (h3.trans h1)
      · exact .inr ⟨w', h1 ▸ h3, h4⟩
      · exact .inr ⟨w, h1, h3.trans h2⟩
      · rw [h2] at h3; cases h3),
    fun k u hb => h'.born k u (h.born k u hb), Nat.le_trans h.mono h'.mono⟩

theorem Stays.same {s s' : St σ G V} {t : Nat} (h1 : s'.st t = s.st t) (h2 : s'.orig = s.orig)
    (h3 : s'.n = s.n) : Stays s s' t := by
  refine ⟨fun _ => .inl h1, fun k u h => ?_, Nat.le_of_eq h3.symm⟩
  · unfold Born at h ⊢; rw [h2, h3]; exact h

theorem wake_stays (ts : List Nat) (s : St σ G V) (t : Nat) : Stays s (wake ts s) t := by
  refine ⟨fun _ => ?_, fun k u h => h, Nat.le_refl _⟩
  show (if t ∈ ts then (s.st t).finish else s.st t) = _ ∨
    ∃ w, _ ∧ (if t ∈ ts then (s.st t).finish else s.st t) = _
  split
  · cases hs : s.st t with
    | pend w => exact .inr ⟨w, rfl, rfl⟩
    | _ => exact .inl rfl
  · exact .inl rfl

theorem setEv_stays (e : Nat) (s : St σ G V) (t : Nat) : Stays s (setEv e s) t := by
  unfold setEv
  split
  · exact .refl s t
  · exact (wake_stays (s.waiters e) s t).trans (.same rfl rfl rfl)

theorem putQ_stays (y : Nat) (v : V) (s : St σ G V) (t : Nat) : Stays s (putQ y v s) t := by
  unfold putQ
  dsimp only
  split
  · exact .same rfl rfl rfl
  · rename_i u us _
    exact (Stays.same (s := s) (s' := { s with q := upd s.q y (s.q y ++ [v]) }) rfl rfl rfl).trans
      ((wake_stays [u] _ t).trans (.same rfl rfl rfl))

theorem spawn_stays (k : σ) (s : St σ G V) (t : Nat) : Stays s (spawn k s) t := by
  refine ⟨fun hn => .inl ?_, fun k' u h => ?_, ?_⟩
  · show upd s.st s.n _ t = _
    rw [upd_ne _ _ _ _ (by omega)]
  · obtain ⟨h1, h2⟩ := h
    refine ⟨?_, ?_⟩
    · show upd s.orig s.n _ u = _
      rw [upd_ne _ _ _ _ (by omega)]; exact h1
    · show u < s.n + 1
      omega
  · show s.n ≤ s.n + 1
    omega

theorem finish_stays {u : Nat} (r : Option V) (s : St σ G V) {t : Nat} (hu : t ≠ u) :
    Stays s (finish u r s) t := by
  have h1 : Stays s ({ s with st := upd s.st u (.done r), cur := none } : St σ G V) t :=
    .same (upd_ne _ _ _ _ hu) rfl rfl
  unfold finish
  dsimp only
  split
  · exact h1.trans ((Stays.same (s := { s with st := upd s.st u (.done r), cur := none })
      (s' := push .stop { s with st := upd s.st u (.done r), cur := none }) rfl rfl rfl).trans
      ((wake_stays (s.joiners u) _ t).trans (.same rfl rfl rfl)))
  · exact h1.trans ((wake_stays (s.joiners u) _ t).trans (.same rfl rfl rfl))

theorem fail_stays {u : Nat} (held : Bool) (s : St σ G V) {t : Nat} (hu : t ≠ u) :
    Stays s (fail u held s) t := by
  obtain ⟨b, c, hb⟩ := fail_eq u held s
  rw [hb]
  exact (Stays.same (s := s) (s' := { s with failed := upd s.failed u true }) rfl rfl rfl).trans
    ((finish_stays none _ hu).trans (.same rfl rfl rfl))

theorem runEff_stays (s : St σ G V) (e : Eff σ V) (t : Nat) : Stays s (runEff s e) t := by
  cases e with
  | setEv e => exact setEv_stays e s t
  | put q v => exact putQ_stays q v s t
  | spawn k => exact spawn_stays k s t

theorem runHook_stays (s : St σ G V) (x : (Nat × Hook σ G V) × Int) (t : Nat) :
    Stays s (runHook s x) t := by
  unfold runHook
  dsimp only
  have h1 : Stays s ((x.1.2.run (note (.exec x.1.1 x.1.2.done.isSome) s).g).2.foldl runEff
      { note (.exec x.1.1 x.1.2.done.isSome) s with
        g := (x.1.2.run (note (.exec x.1.1 x.1.2.done.isSome) s).g).1 }) t :=
    foldl_inv (fun s' => Stays s s' t) runEff (fun _ _ h => h.trans (runEff_stays _ _ t)) _ _
      (.same rfl rfl rfl)
  split
  · exact h1.trans (setEv_stays _ _ t)
  · exact h1

theorem runFail_stays (s : St σ G V) (x : (Nat × Hook σ G V) × Int) (t : Nat) :
    Stays s (runFail s x) t :=
  foldl_inv (fun s' => Stays s s' t) runEff (fun _ _ h => h.trans (runEff_stays _ _ t)) _ _
    (.same rfl rfl rfl)

theorem raised_stays (pre : List ((Nat × Hook σ G V) × Int)) (x : (Nat × Hook σ G V) × Int)
    (s : St σ G V) (t : Nat) : Stays s (raised pre x s) t :=
  raised_rule (P := fun s' => Stays s s' t) (fun _ _ h => h.trans (runHook_stays _ _ t))
    (fun _ _ h => h.trans (runFail_stays _ _ t)) (fun _ _ h => h.trans (.same rfl rfl rfl)) pre x
    (.refl s t)

theorem callbacks_stays (sys : Sys σ G V) (s : St σ G V) (t : Nat) :
    Stays s (callbacks sys s).2 t :=
  (foldl_inv (fun s' => Stays s s' t) runHook (fun _ _ h => h.trans (runHook_stays _ _ t))
    (Priority.sorted s.hooks) s (.refl s t)).trans (.same rfl rfl rfl)

theorem exec_stays {u : Nat} (c : Cmd σ G V) (s : St σ G V) {t : Nat} (hu : t ≠ u) :
    Stays s (exec u c s) t := by
  have hb : ∀ (x : Status σ V), upd s.st u x t = s.st t := fun x => upd_ne _ _ _ _ hu
  cases c with
  | ret v =>
    unfold exec
    dsimp only
    split
    · split
      · exact (Stays.same (s := s) (s' := note .testDone { s with testDone := true }) rfl rfl rfl).trans
          (finish_stays _ _ hu)
      · exact .same (hb _) rfl rfl
    · exact finish_stays _ _ hu
  | raise held => exact fail_stays _ _ hu
  | comp g k => exact .same rfl rfl rfl
  | taskRun k => exact .same rfl rfl rfl
  | yield k => exact .same (hb _) rfl rfl
  | sleep k => exact .same (hb _) rfl rfl
  | waitEv e k =>
    unfold exec
    dsimp only
    split
    · exact .same rfl rfl rfl
    · split <;> exact .same (hb _) rfl rfl
  | setEv e k => exact (setEv_stays e s t).trans (.same rfl rfl rfl)
  | clearEv e k => exact .same rfl rfl rfl
  | put q v k => exact (putQ_stays q v s t).trans (.same rfl rfl rfl)
  | get q k =>
    unfold exec
    dsimp only
    split
    · exact .same (hb _) rfl rfl
    · exact .same rfl rfl rfl
  | spawn s0 k => exact (spawn_stays s0 s t).trans (.same rfl rfl rfl)
  | join w k kx =>
    unfold exec
    dsimp only
    split
    · exact .same rfl rfl rfl
    · split
      · exact .same rfl rfl rfl
      · exact finish_stays _ _ hu
    · exact .same (hb _) rfl rfl
  | addHook hk p k => exact .same rfl rfl rfl
  | startClock k =>
    unfold exec
    dsimp only
    split <;> exact .same rfl rfl rfl

theorem resume_stays {u : Nat} (s : St σ G V) {t : Nat} (hu : t ≠ u) :
    Stays s (resume u s) t := by
  have hb : ∀ (x : Status σ V), upd s.st u x t = s.st t := fun x => upd_ne _ _ _ _ hu
  unfold resume
  dsimp only
  split
  · exact .same (hb _) rfl rfl
  · split <;> exact .same (hb _) rfl rfl
  · exact .same (hb _) rfl rfl
  · split <;> exact .same (hb _) rfl rfl
  · split
    · exact .same (hb _) rfl rfl
    · split
      · exact .same (hb _) rfl rfl
      · exact finish_stays _ _ hu
  · exact (Stays.same (s := s) (s' := note _ s) rfl rfl rfl).trans (finish_stays _ _ hu)
  · exact .refl s t

theorem doStep_stays (sys : Sys σ G V) (s : St σ G V) (t : Nat) : Stays s (doStep sys s) t :=
  (Stays.same (s := s) (s' := note .step { s with g := sys.dutStep s.g, cycles := s.cycles + 1 })
    rfl rfl rfl).trans ((setEv_stays 0 _ t).trans (.same rfl rfl rfl))

/-- The orig/n part of `Stays` also holds for the running task's own operations. -/
structure Grows (s s' : St σ G V) : Prop where
  born : ∀ k u, Born k u s → Born k u s'
  mono : s.n ≤ s'.n

theorem Stays.grows {s s' : St σ G V} {t : Nat} (h : Stays s s' t) : Grows s s' := ⟨h.born, h.mono⟩

theorem exec_grows (u : Nat) (c : Cmd σ G V) (s : St σ G V) : Grows s (exec u c s) :=
  (exec_stays c s (t := u + 1) (by omega)).grows

theorem resume_grows (u : Nat) (s : St σ G V) : Grows s (resume u s) :=
  (resume_stays s (t := u + 1) (by omega)).grows

theorem cancelAll_grows (s : St σ G V) : Grows s (cancelAll s) := ⟨fun _ _ h => h, Nat.le_refl _⟩

theorem Grows.trans {s s' s'' : St σ G V} (h : Grows s s') (h' : Grows s' s'') : Grows s s'' :=
  ⟨fun k u hb => h'.born k u (h.born k u hb), Nat.le_trans h.mono h'.mono⟩

theorem clock_grows (sys : Sys σ G V) (s : St σ G V) : Grows s (runClock sys s) := by
  unfold runClock
  have hcc := clock_case sys s
  generalize clockTurn sys s = x at hcc
  have hy : ∀ s : St σ G V, Grows s (clockYield s) := fun s => ⟨fun _ _ h => h, Nat.le_refl _⟩
  cases hcc with
  | off _ => exact ⟨fun _ _ h => h, Nat.le_refl _⟩
  | dead _ => exact ⟨fun _ _ h => h, Nat.le_refl _⟩
  | raise _ _ _ pre x _ _ _ => exact (raised_stays pre x s 0).grows
  | begin _ => exact hy s
  | busy _ _ => exact hy s
  | rerun _ _ _ _ => exact (callbacks_stays sys s 0).grows.trans (hy _)
  | cancel _ _ _ _ _ =>
    exact (callbacks_stays sys s 0).grows.trans
      ((cancelAll_grows _).trans ⟨fun _ _ h => h, Nat.le_refl _⟩)
  | step _ _ _ _ _ => exact (callbacks_stays sys s 0).grows.trans (doStep_stays sys _ 0).grows
  | last _ => exact (doStep_stays sys _ 0).grows

theorem step_grows (sys : Sys σ G V) (due : List Nat) (s : St σ G V) :
    Grows s (step sys due s) := by
  have hsc := step_case sys due s
  generalize step sys due s = s' at hsc
  cases hsc with
  | exec u k hc => exact exec_grows u _ s
  | task u rest hc hb =>
    exact Grows.trans (s' := { s with batch := rest }) ⟨fun _ _ h => h, Nat.le_refl _⟩
      (resume_grows u _)
  | clock rest hc hb =>
    exact Grows.trans (s' := { s with batch := rest }) ⟨fun _ _ h => h, Nat.le_refl _⟩
      (clock_grows sys _)
  | stop rest hc hb => exact ⟨fun _ _ h => h, Nat.le_refl _⟩
  | fire u k rest hc hb hs => exact ⟨fun _ _ h => h, Nat.le_refl _⟩
  | miss u rest hc hb hs => exact ⟨fun _ _ h => h, Nat.le_refl _⟩
  | halt hc hb hs => exact ⟨fun _ _ h => h, Nat.le_refl _⟩
  | turn due hc hb hs => exact ⟨fun _ _ h => h, Nat.le_refl _⟩

/-- One step of the loop while `t` is suspended in `w`: it stays suspended, is cancelled, or is
resumed. -/
theorem susp_step (sys : Sys σ G V) (due : List Nat) {s : St σ G V} (hi : Inv s) {t : Nat}
    {w : Wait σ V} (h : Susp w t s) :
    Susp w t (step sys due s) ∨ (t ≠ 0 ∧ DoneAs t none (step sys due s)) ∨
    ∃ rest, s.batch = .task t :: rest ∧ s.cur = none ∧ s.st t = .fin w ∧
      step sys due s = resume t { s with batch := rest } := by
  have hn : t < s.n := by
    apply hi.core.lt_of_not_done
    rcases h with h | h <;> rw [h] <;> rfl
  have hsc := step_case sys due s
  generalize step sys due s = s' at hsc
  cases hsc with
  | exec u k hc =>
    left
    refine (exec_stays (sys.prog k s.g) s ?_).susp w hn h
    rintro rfl
    have := (hi.core.hcur t).2 (by rw [hc]; rfl)
    rcases h with h | h <;> rw [h] at this <;> cases this
  | task u rest hc hb =>
    by_cases hu : t = u
    · subst hu
      right; right
      have := qExp_one_of_head hi hb
      rcases h with h | h
      · rw [h] at this; cases this
      · exact ⟨rest, hb, hc, h, rfl⟩
    · left
      exact (resume_stays { s with batch := rest } hu).susp w hn h
  | clock rest hc hb =>
    have h1 : Susp w t ({ s with batch := rest } : St σ G V) := h
    have h2 := callbacks_stays sys { s with batch := rest } t
    have h3 := h2.susp w hn h1
    unfold runClock
    have hcc := clock_case sys { s with batch := rest }
    generalize clockTurn sys { s with batch := rest } = x at hcc
    cases hcc with
    | off _ => exact .inl h
    | dead _ => exact .inl h
    | raise _ _ _ pre x _ _ _ => exact .inl ((raised_stays pre x _ t).susp w hn h1)
    | begin _ => exact .inl h
    | busy _ _ => exact .inl h
    | rerun _ _ _ _ => exact .inl h3
    | cancel _ _ _ _ _ =>
      by_cases ht : t = 0
      · left
        subst ht
        exact h3
      · right; left
        refine ⟨ht, ?_, Nat.lt_of_lt_of_le hn h2.mono⟩
        show cancelSt _ t = _
        unfold cancelSt
        rw [if_neg ht]
        rcases h3 with h3 | h3 <;> rw [h3]
    | step _ _ _ _ _ =>
      exact .inl ((doStep_stays sys _ t).susp w (Nat.lt_of_lt_of_le hn h2.mono) h3)
    | last _ => exact .inl ((doStep_stays sys _ t).susp w hn h1)
  | stop rest hc hb => exact .inl h
  | fire u k rest hc hb hs => exact .inl ((wake_stays [u] { s with batch := rest } t).susp w hn h)
  | miss u rest hc hb hs => exact .inl h
  | halt hc hb hs => exact .inl h
  | turn due hc hb hs => exact .inl h

end Toffee.Loop
