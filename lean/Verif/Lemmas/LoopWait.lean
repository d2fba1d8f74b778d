import Verif.Lemmas.LoopEvent
import Verif.Lemmas.LoopFail
/-! Where a task that waits for the done event of a hook can be. -/

namespace Toffee.Loop

variable {σ G V : Type}

/-! ### New tasks -/

/-- The tasks created between two states are about to start. -/
def News (s s' : St σ G V) : Prop :=
  ∀ u, s.n ≤ u → u < s'.n → ∃ k, s'.orig u = some k ∧ s'.st u = .ready k

theorem News.same {s s' : St σ G V} (h : s'.n = s.n) : News s s' := by
  intro u h1 h2
  omega

theorem News.trans {s s' s'' : St σ G V} (h : News s s') (h' : News s' s'')
    (hs : ∀ t, Stays s' s'' t) : News s s'' := by
  intro u h1 h2
  by_cases hu : u < s'.n
  · obtain ⟨k, h3, h4⟩ := h u h1 hu
    refine ⟨k, ((hs u).born k u ⟨h3, hu⟩).1, ?_⟩
    rcases (hs u).st hu with h5 | ⟨w, h5, _⟩
    · rw [h5, h4]
    · rw [h4] at h5; cases h5
  · exact h' u (by omega) h2

theorem spawn_news (k : σ) (s : St σ G V) : News s (spawn k s) := by
  intro u h1 h2
  have h2 : u < s.n + 1 := h2
  have : u = s.n := by omega
  subst this
  exact ⟨k, upd_self s.orig s.n _, upd_self s.st s.n _⟩

theorem setEv_n (e : Nat) (s : St σ G V) : (setEv e s).n = s.n := by
  unfold setEv; split <;> rfl

theorem putQ_n (y : Nat) (v : V) (s : St σ G V) : (putQ y v s).n = s.n := by
  unfold putQ; simp only; split <;> rfl

theorem finish_n (t : Nat) (r : Option V) (s : St σ G V) : (finish t r s).n = s.n := by
  unfold finish; simp only; split <;> rfl

theorem fail_n (t : Nat) (held : Bool) (s : St σ G V) : (fail t held s).n = s.n := by
  unfold fail; simp only; split <;> simp [finish_n]

theorem exec_news (t : Nat) (c : Cmd σ G V) (s : St σ G V) : News s (exec t c s) := by
  cases c with
  | ret v =>
    apply News.same
    unfold exec
    simp only
    split
    · split
      · rw [finish_n]; rfl
      · rfl
    · rw [finish_n]
  | raise held => apply News.same; unfold exec; rw [fail_n]
  | comp g k => exact .same rfl
  | taskRun k => exact .same rfl
  | yield k => exact .same rfl
  | sleep k => exact .same rfl
  | waitEv e' k =>
    apply News.same
    unfold exec
    simp only
    split
    · rfl
    · split <;> rfl
  | setEv e' k => exact .same (setEv_n _ _)
  | clearEv e' k => exact .same rfl
  | put q v k => exact .same (putQ_n _ _ _)
  | get q k => apply News.same; unfold exec; simp only; split <;> rfl
  | spawn s0 k => exact spawn_news s0 s
  | join u k kx =>
    apply News.same
    unfold exec
    simp only
    split
    · rfl
    · split
      · rfl
      · rw [finish_n]
    · rfl
  | addHook h p k => exact .same rfl
  | startClock k => apply News.same; unfold exec; simp only; split <;> rfl

theorem resume_news (t : Nat) (s : St σ G V) : News s (resume t s) := by
  apply News.same
  unfold resume
  simp only
  split
  · rfl
  · split <;> rfl
  · rfl
  · split <;> rfl
  · split
    · rfl
    · split
      · rfl
      · rw [finish_n]
  · rw [finish_n]; rfl
  · rfl

theorem runEff_news (s : St σ G V) (f : Eff σ V) : News s (runEff s f) := by
  cases f with
  | setEv e => exact .same (setEv_n _ _)
  | put q v => exact .same (putQ_n _ _ _)
  | spawn k => exact spawn_news k s

theorem runEffs_news (l : List (Eff σ V)) (s : St σ G V) :
    News s (l.foldl runEff s) ∧ ∀ t, Stays s (l.foldl runEff s) t := by
  induction l generalizing s with
  | nil => exact ⟨.same rfl, fun t => .refl s t⟩
  | cons f l ih =>
    obtain ⟨h1, h2⟩ := ih (runEff s f)
    exact ⟨(runEff_news s f).trans h1 h2, fun t => (runEff_stays s f t).trans (h2 t)⟩

theorem runHook_news (s : St σ G V) (y : (Nat × Hook σ G V) × Int) : News s (runHook s y) := by
  have h1 : News s ((y.1.2.run s.g).2.foldl runEff
      { note (.exec y.1.1 y.1.2.done.isSome) s with g := (y.1.2.run s.g).1 }) :=
    (runEffs_news (y.1.2.run s.g).2
      { note (.exec y.1.1 y.1.2.done.isSome) s with g := (y.1.2.run s.g).1 }).1
  unfold runHook
  simp only
  split
  · exact h1.trans (.same (setEv_n _ _)) (fun t => setEv_stays _ _ t)
  · exact h1

theorem runHooks_news (l : List ((Nat × Hook σ G V) × Int)) (s : St σ G V) :
    News s (l.foldl runHook s) ∧ ∀ t, Stays s (l.foldl runHook s) t := by
  induction l generalizing s with
  | nil => exact ⟨.same rfl, fun t => .refl s t⟩
  | cons f l ih =>
    obtain ⟨h1, h2⟩ := ih (runHook s f)
    exact ⟨(runHook_news s f).trans h1 h2, fun t => (runHook_stays s f t).trans (h2 t)⟩

theorem raised_news (pre : List ((Nat × Hook σ G V) × Int)) (x : (Nat × Hook σ G V) × Int)
    (s : St σ G V) : News s (raised pre x s) := by
  have h1 := runHooks_news pre s
  have h2 := runEffs_news (x.1.2.run (pre.foldl runHook s).g).2
    { note (.hookRaise x.1.1) (pre.foldl runHook s) with
      g := (x.1.2.run (pre.foldl runHook s).g).1 }
  have h3 : News s (runFail (pre.foldl runHook s) x) :=
    h1.1.trans (s' := pre.foldl runHook s) h2.1 (fun t => runFail_stays _ x t)
  exact h3

/-- A task that is created is about to start, unless the tasks are cancelled in the same step. -/
theorem step_news (sys : Sys σ G V) (due : List Nat) (s : St σ G V)
    (hn : (step sys due s).clock ≠ .afterCancel) : News s (step sys due s) := by
  have hsc := step_case sys due s
  generalize step sys due s = s' at hsc hn
  cases hsc with
  | exec t k hc => exact exec_news t _ s
  | task t rest hc hb => exact resume_news t { s with batch := rest }
  | clock rest hc hb =>
    unfold runClock at hn ⊢
    have hcc := clock_case sys { s with batch := rest }
    have h1 : News s (callbacks sys { s with batch := rest }).2 :=
      (runHooks_news (Priority.sorted s.hooks) { s with batch := rest }).1
    generalize clockTurn sys { s with batch := rest } = r at hcc hn
    cases hcc with
    | off h => exact .same rfl
    | dead h => exact .same rfl
    | raise h hu hf pre y post hs hx' => exact raised_news pre y { s with batch := rest }
    | begin h => exact .same rfl
    | busy h => exact .same rfl
    | rerun h hu hf hrr => exact h1
    | cancel h hu hf hrr ht => exact absurd rfl hn
    | step h hu hf hrr ht =>
      refine h1.trans (.same ?_) (fun t => doStep_stays sys _ t)
      exact setEv_n 0 _
    | last h => exact .same (setEv_n 0 _)
  | stop rest hc hb => exact .same rfl
  | fire t k rest hc hb hs => exact .same rfl
  | miss t rest hc hb hs => exact .same rfl
  | halt hc hb hs => exact .same rfl
  | turn due hc hb hs => exact .same rfl

/-- Every task was created with some coroutine. -/
theorem reach_orig {sys : Sys σ G V} {g : G} {k0 : σ} {s : St σ G V} (hr : Reach sys g k0 s) :
    ∀ u, u < s.n → ∃ k, s.orig u = some k := by
  induction hr with
  | init =>
    intro u hu
    have hu : u < 1 := hu
    have : u = 0 := by omega
    subst this
    exact ⟨k0, rfl⟩
  | @step s due hr ih =>
    intro u hu
    by_cases hn : u < s.n
    · obtain ⟨k, hk⟩ := ih u hn
      exact ⟨k, ((step_grows sys due s).born k u ⟨hk, hn⟩).1⟩
    · by_cases hc : (step sys due s).clock = .afterCancel
      · have hsc := step_case sys due s
        generalize step sys due s = s' at hsc hc hu
        cases hsc with
        | exec t k hcu =>
          obtain ⟨k, hk, _⟩ := exec_news t _ s u (by omega) hu
          exact ⟨k, hk⟩
        | task t rest hcu hb =>
          obtain ⟨k, hk, _⟩ := resume_news t { s with batch := rest } u (Nat.le_of_not_lt hn) hu
          exact ⟨k, hk⟩
        | clock rest hcu hb =>
          have h1 : News s (callbacks sys { s with batch := rest }).2 :=
            (runHooks_news (Priority.sorted s.hooks) { s with batch := rest }).1
          unfold runClock at hc hu ⊢
          have hcc := clock_case sys { s with batch := rest }
          generalize clockTurn sys { s with batch := rest } = r at hcc hc hu
          cases hcc with
          | off h => exact absurd hu hn
          | dead h => exact absurd hu hn
          | raise h hu' hf pre y post hs hx' => cases hc
          | begin h => cases hc
          | busy h => cases hc
          | rerun h hu' hf hrr => cases hc
          | cancel h hu' hf hrr ht =>
            obtain ⟨k, hk, _⟩ := h1 u (Nat.le_of_not_lt hn) hu
            exact ⟨k, hk⟩
          | step h hu' hf hrr ht => cases hc
          | last h => cases hc
        | stop rest hcu hb => exact absurd hu hn
        | fire t k rest hcu hb hs => exact absurd hu hn
        | miss t rest hcu hb hs => exact absurd hu hn
        | halt hcu hb hs => exact absurd hu hn
        | turn due hcu hb hs => exact absurd hu hn
      · obtain ⟨k, hk, _⟩ := step_news sys due s hc u (by omega) hu
        exact ⟨k, hk⟩

/-- The coroutine of a task does not change. -/
theorem born_back {sys : Sys σ G V} {g : G} {k0 : σ} {s : St σ G V} (hr : Reach sys g k0 s)
    (due : List Nat) {k : σ} {u : Nat} (h : Born k u (step sys due s)) (hu : u < s.n) :
    Born k u s := by
  obtain ⟨k', hk⟩ := reach_orig hr u hu
  have := (step_grows sys due s).born k' u ⟨hk, hu⟩
  have h1 := this.1
  rw [h.1] at h1
  cases h1
  exact ⟨hk, hu⟩

/-- What one step does to a task. -/
theorem stays_step (sys : Sys σ G V) (due : List Nat) (s : St σ G V) (t : Nat)
    (hn : (step sys due s).clock ≠ .afterCancel) :
    (∃ k, s.cur = some (t, k) ∧ step sys due s = exec t (sys.prog k s.g) s) ∨
    (∃ rest, s.cur = none ∧ s.batch = .task t :: rest ∧
      step sys due s = resume t { s with batch := rest }) ∨
    ((∀ k, s.cur ≠ some (t, k)) ∧ Stays s (step sys due s) t) := by
  have hsc := step_case sys due s
  generalize step sys due s = s' at hsc hn
  cases hsc with
  | exec u k hc =>
    by_cases hu : t = u
    · subst hu
      exact .inl ⟨k, hc, rfl⟩
    · refine .inr (.inr ⟨?_, exec_stays _ s hu⟩)
      intro k' hk
      rw [hc] at hk
      cases hk
      exact hu rfl
  | task u rest hc hb =>
    by_cases hu : t = u
    · subst hu
      exact .inr (.inl ⟨rest, hc, hb, rfl⟩)
    · refine .inr (.inr ⟨(by intro k hk; rw [hc] at hk; cases hk), ?_⟩)
      exact Stays.trans (s' := { s with batch := rest }) (.same rfl rfl rfl)
        (resume_stays { s with batch := rest } hu)
  | clock rest hc hb =>
    refine .inr (.inr ⟨(by intro k hk; rw [hc] at hk; cases hk), ?_⟩)
    have h0 : Stays s { s with batch := rest } t := .same rfl rfl rfl
    have h2 := h0.trans (callbacks_stays sys { s with batch := rest } t)
    unfold runClock at hn ⊢
    have hcc := clock_case sys { s with batch := rest }
    generalize clockTurn sys { s with batch := rest } = x at hcc hn
    cases hcc with
    | off _ => exact .same rfl rfl rfl
    | dead _ => exact .same rfl rfl rfl
    | raise _ _ _ pre x _ _ _ => exact h0.trans (raised_stays pre x { s with batch := rest } t)
    | begin _ => exact .same rfl rfl rfl
    | busy _ _ => exact .same rfl rfl rfl
    | rerun _ _ _ _ => exact h2.trans (.same rfl rfl rfl)
    | cancel _ _ _ _ _ => exact absurd rfl hn
    | step _ _ _ _ _ => exact h2.trans (doStep_stays sys _ t)
    | last _ => exact h0.trans (doStep_stays sys { s with batch := rest } t)
  | stop rest hc hb =>
    exact .inr (.inr ⟨(by intro k hk; rw [hc] at hk; cases hk), .same rfl rfl rfl⟩)
  | fire u k rest hc hb hs =>
    exact .inr (.inr ⟨(by intro k hk; rw [hc] at hk; cases hk),
      Stays.trans (s' := { s with batch := rest }) (.same rfl rfl rfl)
        (wake_stays [u] { s with batch := rest } t)⟩)
  | miss u rest hc hb hs =>
    exact .inr (.inr ⟨(by intro k hk; rw [hc] at hk; cases hk), .same rfl rfl rfl⟩)
  | halt hc hb hs =>
    exact .inr (.inr ⟨(by intro k hk; rw [hc] at hk; cases hk), .same rfl rfl rfl⟩)
  | turn due hc hb hs =>
    exact .inr (.inr ⟨(by intro k hk; rw [hc] at hk; cases hk), .same rfl rfl rfl⟩)

/-! ### The life of a hook with a done event of its own -/

/-- Hook number `n`, with the done event `e`, was requested: it is pending and `e` is not set, or it
was executed and `e` is set; no other pending hook has this event. -/
structure Asked (n e : Nat) (s : St σ G V) : Prop where
  uniq : ∀ x ∈ s.hooks, x.1.2.done = some e → x.1.1 = n
  life : (s.ev e = false ∧ ∃ x ∈ s.hooks, x.1.1 = n ∧ x.1.2.done = some e) ∨
    (s.ev e = true ∧ Ev.exec n true ∈ s.log)

/-- Nobody has requested a hook with the done event `e` yet. -/
structure Unasked (e : Nat) (s : St σ G V) : Prop where
  ev : s.ev e = false
  none : ∀ x ∈ s.hooks, x.1.2.done ≠ some e

theorem spend_done {ran : List Nat} {hs : List ((Nat × Hook σ G V) × Int)}
    {x : (Nat × Hook σ G V) × Int} (h : x ∈ spend ran hs) :
    ∃ y ∈ hs, y.1.1 = x.1.1 ∧ y.1.2.done = x.1.2.done := by
  rcases mem_spend h with h | ⟨y, hy, rfl⟩
  · exact ⟨x, h, rfl, rfl⟩
  · exact ⟨y, hy, rfl, rfl⟩

theorem spend_of_mem {ran : List Nat} {hs : List ((Nat × Hook σ G V) × Int)}
    {x : (Nat × Hook σ G V) × Int} (h : x ∈ hs) :
    ∃ y ∈ spend ran hs, y.1.1 = x.1.1 ∧ y.1.2.done = x.1.2.done := by
  refine ⟨_, List.mem_map.2 ⟨x, h, rfl⟩, ?_⟩
  split <;> exact ⟨rfl, rfl⟩

/-- How one step changes an event that only hooks set, the pending hooks and the log. -/
inductive EvCase (sys : Sys σ G V) (e : Nat) (s s' : St σ G V) : Prop where
  | same (hev : s'.ev e = s.ev e) (hh : s'.hooks = s.hooks) (hl : ∃ l, s'.log = s.log ++ l)
  | req (h : Hook σ G V) (p : Int) (t : Nat) (k k' : σ) (hc : s.cur = some (t, k))
      (hp : sys.prog k s.g = .addHook h p k') (hev : s'.ev e = s.ev e)
      (hh : s'.hooks = s.hooks ++ [((s.nextHook, h), p)]) (hl : ∃ l, s'.log = s.log ++ l)
  | all (hev : s'.ev e = (s.ev e || s.hooks.any (fun h => h.1.2.done == some e)))
      (hh : s'.hooks = []) (hl : ∃ l, s'.log = s.log ++ ((Priority.sorted s.hooks).map execEv ++ l))
  | part (pre : List ((Nat × Hook σ G V) × Int)) (ran : List Nat)
      (hs : ∀ x ∈ pre, x ∈ s.hooks)
      (hev : s'.ev e = (s.ev e || pre.any (fun h => h.1.2.done == some e)))
      (hh : s'.hooks = spend ran s.hooks) (hl : ∃ l, s'.log = s.log ++ (pre.map execEv ++ l))

theorem ev_case {sys : Sys σ G V} {g : G} {k0 : σ} {s : St σ G V} {own : σ → Prop} {e : Nat}
    (due : List Nat) (ho : OwnEv sys own e) (hr : Reach sys g k0 s) :
    EvCase sys e s (step sys due s) := by
  have hcl := reach_clean ho hr
  have hsc := step_case sys due s
  generalize step sys due s = s' at hsc
  cases hsc with
  | exec t k hc =>
    have hev := exec_ev (s := s) (t := t) (ho.noSet k s.g) (ho.noClear k s.g)
    by_cases hh : ∃ h p k', sys.prog k s.g = .addHook h p k'
    · obtain ⟨h, p, k', hp⟩ := hh
      rw [hp]
      exact .req h p t k k' hc hp rfl rfl ⟨_, rfl⟩
    · have hn := exec_neutral t (sys.prog k s.g) s (fun h p k' hp => hh ⟨h, p, k', hp⟩)
      obtain ⟨l, hl, _⟩ := hn.log
      exact .same hev hn.hooks ⟨l, hl⟩
  | task t rest hc hb =>
    have hn := resume_neutral t { s with batch := rest }
    obtain ⟨l, hl, _⟩ := hn.log
    exact .same (by rw [resume_ev]) hn.hooks ⟨l, hl⟩
  | clock rest hc hb =>
    unfold runClock
    have hcc := clock_case sys { s with batch := rest }
    obtain ⟨f1, f2, f3, f4, f5, _⟩ := callbacks_frame sys { s with batch := rest }
    have hce := callbacks_ev sys (s := { s with batch := rest }) hcl
    generalize clockTurn sys { s with batch := rest } = r at hcc
    cases hcc with
    | off h => exact .same rfl rfl ⟨[], by simp⟩
    | dead h => exact .same rfl rfl ⟨[], by simp⟩
    | raise h hu hf pre x post hs hx =>
      have hm : ∀ y ∈ pre ++ x :: post, y ∈ s.hooks := fun y hy =>
        (Priority.sorted_perm s.hooks).mem_iff.1 (by rw [hs]; exact hy)
      obtain ⟨d1, d2, d3, d4, _⟩ := raised_frame pre x { s with batch := rest }
      refine .part pre _ (fun y hy => hm y (by simp [hy])) ?_ d1 ⟨_, d4⟩
      show (runFail (pre.foldl runHook _) x).ev e = _
      rw [runFail_ev (hcl x (hm x (by simp))),
        runHooks_ev pre (fun y hy => hcl y (hm y (by simp [hy])))]
    | begin h => exact .same rfl rfl ⟨[], by simp [clockYield, push]⟩
    | busy h => exact .same rfl rfl ⟨[], by simp [clockYield, push]⟩
    | rerun h hu hf hrr =>
      refine .all hce f1 ⟨[.sample], ?_⟩
      show (callbacks sys _).2.log = _
      rw [f4, List.append_assoc]
    | cancel h hu hf hrr ht =>
      refine .all hce f1 ⟨[.sample, .cancelAll], ?_⟩
      show (callbacks sys _).2.log ++ [.cancelAll] = _
      rw [f4]; simp
    | step h hu hf hrr ht =>
      obtain ⟨d1, d2, d3, d4, d5, d6, _⟩ := doStep_frame sys (callbacks sys { s with batch := rest }).2
      refine .all (by rw [doStep_ev sys ho.ne0, hce]) (d1.trans f1) ⟨[.sample, .step], ?_⟩
      rw [d4, f4]; simp
    | last h =>
      obtain ⟨d1, d2, d3, d4, d5, d6, _⟩ := doStep_frame sys { s with batch := rest }
      exact .same (by rw [doStep_ev sys ho.ne0]) d1 ⟨_, d4⟩
  | stop rest hc hb => exact .same rfl rfl ⟨[], by simp⟩
  | fire t k rest hc hb hs => exact .same rfl rfl ⟨[], by simp [wake]⟩
  | miss t rest hc hb hs => exact .same rfl rfl ⟨[], by simp⟩
  | halt hc hb hs => exact .same rfl rfl ⟨[], by simp⟩
  | turn due hc hb hs => exact .same rfl rfl ⟨[], by simp⟩

theorem mem_exec_sorted {n e : Nat} {hs l : List ((Nat × Hook σ G V) × Int)}
    {x : (Nat × Hook σ G V) × Int} (hx : x ∈ hs) (hn : x.1.1 = n) (hd : x.1.2.done = some e)
    (hl : ∀ y ∈ hs, y ∈ l) : Ev.exec n true ∈ l.map execEv := by
  refine List.mem_map.2 ⟨x, hl x hx, ?_⟩
  show Ev.exec x.1.1 x.1.2.done.isSome = _
  rw [hn, hd]; rfl

/-- An event that only hooks set stays set. -/
theorem ev_mono {sys : Sys σ G V} {g : G} {k0 : σ} {s : St σ G V} {own : σ → Prop} {e : Nat}
    (due : List Nat) (ho : OwnEv sys own e) (hr : Reach sys g k0 s) (h : s.ev e = true) :
    (step sys due s).ev e = true := by
  cases ev_case due ho hr with
  | same hev hh hl => rw [hev, h]
  | req h' p t k k' hc hp hev hh hl => rw [hev, h]
  | all hev hh hl => rw [hev, h]; rfl
  | part pre ran hs hev hh hl => rw [hev, h]; rfl

theorem Asked.step {sys : Sys σ G V} {g : G} {k0 : σ} {s : St σ G V} {own : σ → Prop} {n e : Nat}
    (due : List Nat) (ho : OwnEv sys own e) (hr : Reach sys g k0 s)
    (hno : ∀ t k, s.cur = some (t, k) → ¬ own k) (h : Asked n e s) :
    Asked n e (step sys due s) := by
  obtain ⟨hu, hl'⟩ := h
  cases ev_case due ho hr with
  | same hev hh hl =>
    obtain ⟨l, hl⟩ := hl
    refine ⟨by rw [hh]; exact hu, ?_⟩
    rw [hh, hev, hl]
    rcases hl' with h | h
    · exact .inl h
    · exact .inr ⟨h.1, List.mem_append_left _ h.2⟩
  | req h' p t k k' hc hp hev hh hl =>
    obtain ⟨l, hl⟩ := hl
    have hne : h'.done ≠ some e := fun hd => hno t k hc (ho.noHook _ _ _ _ _ hp hd)
    refine ⟨?_, ?_⟩
    · rw [hh]
      intro x hx hd
      rcases List.mem_append.1 hx with hx | hx
      · exact hu x hx hd
      · rw [List.mem_singleton] at hx; subst hx; exact absurd hd hne
    · rw [hh, hev, hl]
      rcases hl' with ⟨h1, x, hx, h2⟩ | h
      · exact .inl ⟨h1, x, List.mem_append_left _ hx, h2⟩
      · exact .inr ⟨h.1, List.mem_append_left _ h.2⟩
  | all hev hh hl =>
    obtain ⟨l, hl⟩ := hl
    refine ⟨(by rw [hh]; exact fun _ hm => nomatch hm), .inr ?_⟩
    rw [hev, hl]
    rcases hl' with ⟨h1, x, hx, hn, hd⟩ | h
    · constructor
      · rw [h1, Bool.false_or, List.any_eq_true]
        exact ⟨x, hx, by rw [hd]; simp⟩
      · refine List.mem_append_right _ (List.mem_append_left _ ?_)
        exact mem_exec_sorted hx hn hd (fun y hy => (Priority.sorted_perm s.hooks).mem_iff.2 hy)
    · exact ⟨by rw [h.1]; rfl, List.mem_append_left _ h.2⟩
  | part pre ran hs hev hh hl =>
    obtain ⟨l, hl⟩ := hl
    refine ⟨?_, ?_⟩
    · rw [hh]
      intro x hx hd
      obtain ⟨y, hy, h1, h2⟩ := spend_done hx
      rw [← h1]
      exact hu y hy (h2.trans hd)
    · rw [hev, hl, hh]
      rcases hl' with ⟨h1, x, hx, hn, hd⟩ | h
      · by_cases hp : ∃ y ∈ pre, y.1.2.done = some e
        · right
          obtain ⟨y, hy, hyd⟩ := hp
          constructor
          · rw [h1, Bool.false_or, List.any_eq_true]
            exact ⟨y, hy, by rw [hyd]; simp⟩
          · refine List.mem_append_right _ (List.mem_append_left _ ?_)
            exact mem_exec_sorted hy (hu y (hs y hy) hyd) hyd (fun _ h => h)
        · left
          constructor
          · rw [h1, Bool.false_or, List.any_eq_false]
            intro y hy
            simp only [beq_iff_eq]
            exact fun hyd => hp ⟨y, hy, hyd⟩
          · obtain ⟨y, hy, h3, h4⟩ := spend_of_mem (ran := ran) hx
            exact ⟨y, hy, h3.trans hn, h4.trans hd⟩
      · exact .inr ⟨by rw [h.1]; rfl, List.mem_append_left _ h.2⟩

/-! ### The task that waits for the event -/

/-- `Event.wait()` of toffee as a coroutine (`asynchronous.py` 115-125): wait, `task_run()`, return. -/
structure WaitCode (sys : Sys σ G V) (wt wt' wt'' : Nat → σ) : Prop where
  wait : ∀ e g, sys.prog (wt e) g = .waitEv e (wt' e)
  run : ∀ e g, sys.prog (wt' e) g = .taskRun (wt'' e)
  ret : ∀ e g, ∃ v, sys.prog (wt'' e) g = .ret v

/-- Where the task `u` that waits for `e` is. -/
inductive WPos (wt wt' wt'' : Nat → σ) (u e : Nat) (s : St σ G V) : Prop where
  | ready (h : s.st u = .ready (wt e))
  | begin (h : s.cur = some (u, wt e))
  | susp (h : Susp (.ev e (wt' e)) u s)
  | past (h : s.cur = some (u, wt' e) ∨ s.cur = some (u, wt'' e)) (hev : s.ev e = true)
  | done (v : V) (h : DoneAs u (some v) s) (hev : s.ev e = true)

theorem WPos.step {sys : Sys σ G V} {g : G} {k0 : σ} {s : St σ G V} {own : σ → Prop} {u e : Nat}
    {wt wt' wt'' : Nat → σ} (hw : WaitCode sys wt wt' wt'') (due : List Nat)
    (ho : OwnEv sys own e) (hr : Reach sys g k0 s) (hu0 : u ≠ 0) (hn : u < s.n)
    (hk : (Loop.step sys due s).clock ≠ .afterCancel) (h : WPos wt wt' wt'' u e s) :
    WPos wt wt' wt'' u e (Loop.step sys due s) := by
  have hi := reach_inv hr
  have hrun : ∀ k, s.cur = some (u, k) → isRunning (s.st u) = true := fun k hc =>
    (hi.core.hcur u).2 (by rw [hc]; rfl)
  have hmo := ev_mono due ho hr
  rcases stays_step sys due s u hk with ⟨k, hc, hst⟩ | ⟨rest, hc, hb, hst⟩ | ⟨hne, hst⟩
  · have hr' := hrun k hc
    cases h with
    | ready h => rw [h] at hr'; cases hr'
    | susp h => rcases h with h | h <;> rw [h] at hr' <;> cases hr'
    | done v h hev => rw [h.1] at hr'; cases hr'
    | begin h =>
      rw [hc] at h
      injection h with h
      injection h with _ h
      subst h
      rw [hst, hw.wait]
      unfold exec
      simp only
      split
      · rename_i hev
        exact .past (.inl rfl) hev
      · rw [if_neg ho.ne0]
        exact .susp (.inl (upd_self s.st u _))
    | past h hev =>
      rw [hc] at h
      rcases h with h | h
      · injection h with h
        injection h with _ h
        subst h
        rw [hst, hw.run]
        exact .past (.inr rfl) hev
      · injection h with h
        injection h with _ h
        subst h
        obtain ⟨v, hv⟩ := hw.ret e s.g
        rw [hst, hv]
        unfold exec
        simp only [if_neg hu0]
        refine .done v (finish_self _ hn) ?_
        rw [finish_ev, hev]
  · have hq := qExp_one_of_head hi hb
    cases h with
    | begin h => rw [hc] at h; cases h
    | past h => rw [hc] at h; rcases h with h | h <;> cases h
    | done v h hev => rw [h.1] at hq; cases hq
    | ready h =>
      rw [hst]
      unfold resume
      simp only [h]
      exact .begin rfl
    | susp h =>
      rcases h with h | h
      · rw [h] at hq; cases hq
      · have hev := reach_finSet ho hr u _ h
        rw [hst]
        unfold resume
        simp only [h, if_neg ho.ne0]
        exact .past (.inl rfl) hev
  · cases h with
    | begin h => exact absurd h (hne _)
    | past h => rcases h with h | h <;> exact absurd h (hne _)
    | done v h hev => exact .done v (step_done sys due hi h) (hmo hev)
    | ready h =>
      refine .ready ?_
      rcases hst.st hn with h1 | ⟨w, h1, _⟩
      · rw [h1, h]
      · rw [h] at h1; cases h1
    | susp h => exact .susp (hst.susp _ hn h)

end Toffee.Loop
