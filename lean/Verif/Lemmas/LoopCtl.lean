import Verif.Lemmas.LoopWait
/-! Invariants about the control state of one task, and events that only certain tasks set. -/

namespace Toffee.Loop

variable {σ G V : Type}

/-! ### Where a task can go next -/

/-- Everything a suspended task can go on with is in `B`. -/
def Wait.Go (B : σ → Prop) : Wait σ V → Prop
  | .ev _ k => B k
  | .get _ k => ∀ v, B (k v)
  | .join _ k kx => (∀ v, B (k v)) ∧ B kx
  | .timer k => B k
  | .final _ => False

/-- The command is no return, and everything that can come next is in `B`. -/
def Cmd.Go (B : σ → Prop) : Cmd σ G V → Prop
  | .ret _ => False
  | .raise _ => True
  | .comp _ k => B k
  | .taskRun k => B k
  | .yield k => B k
  | .sleep k => B k
  | .waitEv _ k => B k
  | .setEv _ k => B k
  | .clearEv _ k => B k
  | .put _ _ k => B k
  | .get _ k => ∀ v, B (k v)
  | .spawn _ k => ∀ u, B (k u)
  | .join _ k kx => (∀ v, B (k v)) ∧ B kx
  | .addHook _ _ k => B k
  | .startClock k => B k

/-- Task `t` is alive and everything it can go on with is in `B`. -/
def Ctl (B : σ → Prop) (t : Nat) (s : St σ G V) : Prop :=
  match s.st t with
  | .ready k => B k
  | .pend w => w.Go B
  | .fin w => w.Go B
  | .running => ∃ k, s.cur = some (t, k) ∧ B k
  | .done _ => False

theorem exec_ctl {B : σ → Prop} {t : Nat} {c : Cmd σ G V} {s : St σ G V} (hc : c.Go B)
    (hr : s.st t = .running) (hn : t < s.n) :
    Ctl B t (exec t c s) ∨ DoneAs t none (exec t c s) := by
  have hcur : ∀ (s' : St σ G V) (k : σ), s'.st t = .running → s'.cur = some (t, k) → B k →
      Ctl B t s' := by
    intro s' k h1 h2 h3
    unfold Ctl
    rw [h1]
    exact ⟨k, h2, h3⟩
  have hst : ∀ (s' : St σ G V), Stays s s' t → s'.st t = .running := by
    intro s' h
    rcases h.st hn with h | ⟨w, h, _⟩
    · rw [h, hr]
    · rw [hr] at h; cases h
  cases c with
  | ret v => exact hc.elim
  | raise held =>
    right
    unfold exec fail
    dsimp only
    have hd : ∀ r : Option V, DoneAs t r (finish t r { s with failed := upd s.failed t true }) :=
      fun r => finish_self r hn
    split
    · exact hd none
    · exact hd none
  | comp g k => exact .inl (hcur _ k hr rfl hc)
  | taskRun k => exact .inl (hcur _ k hr rfl hc)
  | yield k =>
    left
    unfold Ctl exec push block
    dsimp only
    rw [upd_self]
    exact hc
  | sleep k =>
    left
    unfold Ctl exec block
    dsimp only
    rw [upd_self]
    exact hc
  | waitEv e k =>
    left
    unfold exec
    dsimp only
    split
    · exact hcur _ k hr rfl hc
    · have : ∀ s' : St σ G V, s'.st = upd s.st t (.pend (.ev e k)) → Ctl B t s' := by
        intro s' h
        unfold Ctl
        rw [h, upd_self]
        exact hc
      split
      · exact this _ rfl
      · exact this _ rfl
  | setEv e k => exact .inl (hcur _ k (hst (setEv e s) (setEv_stays e s t)) rfl hc)
  | clearEv e k => exact .inl (hcur _ k hr rfl hc)
  | put q v k => exact .inl (hcur _ k (hst (putQ q v s) (putQ_stays q v s t)) rfl hc)
  | get q k =>
    left
    unfold exec
    dsimp only
    split
    · unfold Ctl block
      dsimp only
      rw [upd_self]
      exact hc
    · exact hcur _ _ hr rfl (hc _)
  | spawn s0 k => exact .inl (hcur _ _ (hst (spawn s0 s) (spawn_stays s0 s t)) rfl (hc _))
  | join u k kx =>
    unfold exec
    dsimp only
    split
    · exact .inl (hcur _ _ hr rfl (hc.1 _))
    · split
      · exact .inl (hcur _ _ hr rfl hc.2)
      · exact .inr (finish_self none hn)
    · left
      unfold Ctl block
      dsimp only
      rw [upd_self]
      exact hc
  | addHook h p k => exact .inl (hcur _ k hr rfl hc)
  | startClock k =>
    left
    unfold exec
    dsimp only
    split
    · exact hcur _ k hr rfl hc
    · exact hcur _ k hr rfl hc

theorem resume_ctl {B : σ → Prop} {t : Nat} {s : St σ G V} (h : Ctl B t s) (hq : qExp (s.st t) = 1)
    (hn : t < s.n) : Ctl B t (resume t s) ∨ DoneAs t none (resume t s) := by
  have hcur : ∀ (s' : St σ G V) (k : σ), s'.st t = .running → s'.cur = some (t, k) → B k →
      Ctl B t s' := by
    intro s' k h1 h2 h3
    unfold Ctl
    rw [h1]
    exact ⟨k, h2, h3⟩
  unfold Ctl at h
  cases hs : s.st t with
  | ready k =>
    rw [hs] at h
    left
    refine hcur _ k ?_ ?_ h <;> (unfold resume; simp [hs, upd_self])
  | pend w => rw [hs] at hq; cases hq
  | running => rw [hs] at hq; cases hq
  | done r => rw [hs] at hq; cases hq
  | fin w =>
    rw [hs] at h
    cases w with
    | ev e k =>
      left
      refine hcur _ k ?_ ?_ h <;> (unfold resume; simp [hs, upd_self])
    | timer k =>
      left
      refine hcur _ k ?_ ?_ h <;> (unfold resume; simp [hs, upd_self])
    | final v => exact h.elim
    | get q k =>
      left
      cases hqq : s.q q with
      | nil =>
        have : (resume t s).st t = .pend (.get q k) := by unfold resume; simp [hs, hqq, upd_self]
        unfold Ctl
        rw [this]
        exact h
      | cons v vs => refine hcur _ (k v) ?_ ?_ (h v) <;> (unfold resume; simp [hs, hqq, upd_self])
    | join u k kx =>
      by_cases hd : ∃ v, s.st u = .done (some v)
      · obtain ⟨v, hd⟩ := hd
        left
        refine hcur _ (k v) ?_ ?_ (h.1 v) <;> (unfold resume; simp [hs, hd, upd_self])
      · have hre : resume t s = if s.failed u then
            { s with st := upd s.st t .running, cur := some (t, kx) } else finish t none s := by
          unfold resume
          simp only [hs]
          split
          · rename_i v hv; exact absurd ⟨v, hv⟩ hd
          · rfl
        rw [hre]
        split
        · exact .inl (hcur _ kx (upd_self _ _ _) rfl h.2)
        · exact .inr (finish_self none hn)

theorem Ctl.not_done {B : σ → Prop} {t : Nat} {s : St σ G V} (h : Ctl B t s) (r : Option V) :
    s.st t ≠ .done r := by
  intro hd
  unfold Ctl at h
  rw [hd] at h
  exact h

theorem Ctl.cur {B : σ → Prop} {t : Nat} {s : St σ G V} {k : σ} (hi : Inv s) (h : Ctl B t s)
    (hc : s.cur = some (t, k)) : B k := by
  have hr := (hi.core.hcur t).2 (by rw [hc]; rfl)
  unfold Ctl at h
  cases hs : s.st t with
  | running =>
    rw [hs] at h
    obtain ⟨k', h1, h2⟩ := h
    rw [hc] at h1; cases h1
    exact h2
  | _ => rw [hs] at hr; cases hr

theorem Ctl.lt {B : σ → Prop} {t : Nat} {s : St σ G V} (hi : Inv s) (h : Ctl B t s) : t < s.n := by
  apply hi.core.lt_of_not_done
  cases hs : s.st t with
  | done r => exact absurd hs (h.not_done r)
  | _ => rfl

/-- One step of the loop and the control state of a task: it is kept by whatever the others do; a step
of the task itself goes on within `B`, if the command does. -/
theorem Ctl.step {sys : Sys σ G V} {g : G} {k0 : σ} {s : St σ G V} {B : σ → Prop} {t : Nat}
    (due : List Nat) (hr : Reach sys g k0 s) (h : Ctl B t s)
    (hgo : ∀ k, s.cur = some (t, k) → (sys.prog k s.g).Go B) :
    Ctl B t (step sys due s) ∨ DoneAs t none (step sys due s) := by
  have hi := reach_inv hr
  have hn := h.lt hi
  by_cases hcl : (Loop.step sys due s).clock = .afterCancel
  · have hr' : Reach sys g k0 (Loop.step sys due s) := .step due hr
    have hfd := (reach_AC hr').st hcl t
    right
    refine ⟨?_, Nat.lt_of_lt_of_le hn (step_grows sys due s).mono⟩
    by_cases hac : s.clock = .afterCancel
    · have := (reach_AC hr).st hac t
      unfold Ctl at h
      cases hs : s.st t with
      | done r => rw [hs] at h; exact h.elim
      | pend w => cases w <;> rw [hs] at h this <;> first | exact h.elim | cases this
      | fin w => cases w <;> rw [hs] at h this <;> first | exact h.elim | cases this
      | _ => rw [hs] at this; cases this
    · have hsc := step_case sys due s
      generalize Loop.step sys due s = s' at hsc hcl hfd
      cases hsc with
      | exec u k hc => exact absurd hcl (exec_clock_ne u _ s hac)
      | task u rest hc hb =>
        rcases (resume_neutral u { s with batch := rest }).clk with h1 | ⟨_, h1⟩
        · exact absurd (h1.symm.trans hcl) hac
        · rw [h1] at hcl; cases hcl
      | stop rest hc hb => exact absurd hcl hac
      | fire u k rest hc hb hs => exact absurd hcl hac
      | miss u rest hc hb hs => exact absurd hcl hac
      | halt hc hb hs => exact absurd hcl hac
      | turn due hc hb hs => exact absurd hcl hac
      | clock rest hc hb =>
        unfold runClock at hcl hfd ⊢
        have hcc := clock_case sys { s with batch := rest }
        have h0 : Stays s { s with batch := rest } t := .same rfl rfl rfl
        have h2 := h0.trans (callbacks_stays sys { s with batch := rest } t)
        generalize clockTurn sys { s with batch := rest } = x at hcc hcl hfd
        cases hcc with
        | off _ => exact absurd hcl hac
        | dead _ => exact absurd hcl hac
        | raise _ _ _ pre x _ _ _ => cases hcl
        | begin _ => cases hcl
        | busy _ _ => cases hcl
        | rerun _ _ _ _ => cases hcl
        | step _ _ _ _ _ => cases hcl
        | last h => exact absurd h hac
        | cancel _ _ _ _ _ =>
          have hst : (push .clock { cancelAll (callbacks sys { s with batch := rest }).2 with
              clock := .afterCancel }).st t =
              if t = 0 then (callbacks sys { s with batch := rest }).2.st t else
                match (callbacks sys { s with batch := rest }).2.st t with
                | .done r => .done r
                | _ => .done none := rfl
          have hnf : ∀ w, s.st t = .pend w ∨ s.st t = .fin w → w.Go B := by
            intro w hw
            unfold Ctl at h
            rcases hw with hw | hw <;> rw [hw] at h <;> exact h
          rw [hst] at hfd ⊢
          by_cases ht : t = 0
          · rw [if_pos ht] at hfd
            exfalso
            rcases h2.st hn with h1 | ⟨w, h1, h1'⟩
            · rw [h1] at hfd
              cases hs : s.st t with
              | done r => exact h.not_done r hs
              | pend w => have := hnf w (.inl hs); cases w <;> rw [hs] at hfd <;> first | exact this | cases hfd
              | fin w => have := hnf w (.inr hs); cases w <;> rw [hs] at hfd <;> first | exact this | cases hfd
              | _ => rw [hs] at hfd; cases hfd
            · have := hnf w (.inl h1)
              rw [h1'] at hfd
              cases w <;> first | exact this | cases hfd
          · rw [if_neg ht]
            rcases h2.st hn with h1 | ⟨w, h1, h1'⟩
            · rw [h1]
              cases hs : s.st t with
              | done r => exact absurd hs (h.not_done r)
              | _ => rfl
            · rw [h1']
  · rcases stays_step sys due s t hcl with ⟨k, hc, hst⟩ | ⟨rest, hc, hb, hst⟩ | ⟨hnc, hst⟩
    · rw [hst]
      have hrun : s.st t = .running := by
        have := (hi.core.hcur t).2 (by rw [hc]; rfl)
        cases hs : s.st t with
        | running => rfl
        | _ => rw [hs] at this; cases this
      exact exec_ctl (hgo k hc) hrun hn
    · rw [hst]
      exact resume_ctl (s := { s with batch := rest }) h (qExp_one_of_head (s := s) hi hb) hn
    · left
      unfold Ctl at h ⊢
      rcases hst.st hn with h1 | ⟨w, h1, h2⟩
      · rw [h1]
        cases hs : s.st t with
        | running =>
          rw [hs] at h
          obtain ⟨k, h3, _⟩ := h
          exact absurd h3 (hnc k)
        | _ => rw [hs] at h; exact h
      · rw [h2]; rw [h1] at h; exact h

/-! ### Events only tasks set -/

/-- The pending hooks have nothing to do with event `e`. -/
def NoHook (e : Nat) (hs : List ((Nat × Hook σ G V) × Int)) : Prop :=
  ∀ x ∈ hs, x.1.2.done ≠ some e ∧ ∀ g', Eff.setEv e ∉ (x.1.2.run g').2

theorem NoHook.any {e : Nat} {hs : List ((Nat × Hook σ G V) × Int)} (h : NoHook e hs) :
    hs.any (fun h => h.1.2.done == some e) = false := by
  rw [List.any_eq_false]
  intro x hx
  simpa using (h x hx).1

/-- An event the pending hooks have nothing to do with is left alone by all steps but those of the
commands that set or clear it. -/
theorem step_noHook_ev {sys : Sys σ G V} {s : St σ G V} {e : Nat} (he : e ≠ 0) (due : List Nat)
    (hh : NoHook e s.hooks)
    (h1 : ∀ t k, s.cur = some (t, k) → ∀ k', sys.prog k s.g ≠ .setEv e k')
    (h2 : ∀ t k, s.cur = some (t, k) → ∀ k', sys.prog k s.g ≠ .clearEv e k') :
    (step sys due s).ev e = s.ev e := by
  have hcl : Clean e s.hooks := fun x hx => (hh x hx).2
  have hsc := step_case sys due s
  generalize step sys due s = s' at hsc
  cases hsc with
  | exec t k hc => exact exec_ev (h1 t k hc) (h2 t k hc)
  | task t rest hc hb => rw [resume_ev]
  | clock rest hc hb =>
    unfold runClock
    have hcc := clock_case sys { s with batch := rest }
    have hce : (callbacks sys { s with batch := rest }).2.ev e = s.ev e := by
      rw [callbacks_ev sys (s := { s with batch := rest }) hcl, hh.any, Bool.or_false]
    generalize clockTurn sys { s with batch := rest } = r at hcc
    cases hcc with
    | off h => rfl
    | dead h => rfl
    | raise h hu hf pre x post hs hx =>
      have hm : ∀ y ∈ pre ++ x :: post, y ∈ s.hooks := fun y hy =>
        (Priority.sorted_perm s.hooks).mem_iff.1 (by rw [hs]; exact hy)
      have hp : NoHook e pre := fun y hy => hh y (hm y (by simp [hy]))
      show (runFail (pre.foldl runHook _) x).ev e = _
      rw [runFail_ev (hcl x (hm x (by simp))), runHooks_ev pre (fun y hy => (hp y hy).2), hp.any,
        Bool.or_false]
    | begin h => rfl
    | busy h => rfl
    | rerun h hu hf hrr => exact hce
    | cancel h hu hf hrr ht => exact hce
    | step h hu hf hrr ht => rw [doStep_ev sys he, hce]
    | last h => rw [doStep_ev sys he]
  | stop rest hc hb => rfl
  | fire t k rest hc hb hs => rfl
  | miss t rest hc hb hs => rfl
  | halt hc hb hs => rfl
  | turn due hc hb hs => rfl

end Toffee.Loop
