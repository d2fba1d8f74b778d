import Verif.Lemmas.LoopWait
/-!
The shared state of the event loop: what changes it, and facts about it that the hooks with a done event
establish.
-/

namespace Toffee.Loop

variable {σ G V : Type}

theorem setEv_g (e : Nat) (s : St σ G V) : (setEv e s).g = s.g := by
  unfold setEv; split <;> rfl

theorem putQ_g (y : Nat) (v : V) (s : St σ G V) : (putQ y v s).g = s.g := by
  unfold putQ
  simp only
  split <;> rfl

theorem finish_g (t : Nat) (r : Option V) (s : St σ G V) : (finish t r s).g = s.g := by
  unfold finish
  dsimp only
  split <;> rfl

theorem runEff_g (s : St σ G V) (e : Eff σ V) : (runEff s e).g = s.g := by
  cases e with
  | setEv e => exact setEv_g e s
  | put q v => exact putQ_g q v s
  | _ => rfl

theorem exec_g {t : Nat} {c : Cmd σ G V} {s : St σ G V} (h : ∀ g k, c ≠ .comp g k) :
    (exec t c s).g = s.g := by
  cases c with
  | comp g k => exact absurd rfl (h g k)
  | ret v =>
    simp only [exec]
    split
    · split
      · exact finish_g _ _ _
      · rfl
    · exact finish_g _ _ _
  | raise held =>
    show (fail t held s).g = _
    unfold fail
    dsimp only
    split
    · exact finish_g _ _ _
    · exact finish_g _ _ _
  | setEv e k => exact setEv_g e s
  | put q v k => exact putQ_g q v s
  | waitEv e k => unfold exec; dsimp only; split <;> (try split) <;> rfl
  | get q k => unfold exec; dsimp only; split <;> rfl
  | join u k kx =>
    simp only [exec]
    repeat' split
    all_goals first | rfl | exact finish_g _ _ _
  | startClock k => unfold exec; dsimp only; split <;> rfl
  | _ => rfl

theorem resume_g (t : Nat) (s : St σ G V) : (resume t s).g = s.g := by
  unfold resume
  dsimp only
  repeat' split
  all_goals first | rfl | exact finish_g _ _ _

theorem runHook_g (s : St σ G V) (h : (Nat × Hook σ G V) × Int) :
    (runHook s h).g = (h.1.2.run s.g).1 := by
  unfold runHook
  have := foldl_eq St.g runEff runEff_g (h.1.2.run s.g).2
    { note (.exec h.1.1 h.1.2.done.isSome) s with g := (h.1.2.run s.g).1 }
  dsimp only
  split
  · rw [setEv_g]; exact this
  · exact this

theorem runFail_g (s : St σ G V) (h : (Nat × Hook σ G V) × Int) :
    (runFail s h).g = (h.1.2.run s.g).1 :=
  foldl_eq St.g runEff runEff_g (h.1.2.run s.g).2
    { note (.hookRaise h.1.1) s with g := (h.1.2.run s.g).1 }

theorem doStep_g (sys : Sys σ G V) (s : St σ G V) : (doStep sys s).g = sys.dutStep s.g := by
  unfold doStep clockYield push
  exact setEv_g 0 _

/-- `R` is a fact about the shared state that stays true, and that every hook with the done event `e`
makes true. -/
structure Records (sys : Sys σ G V) (e : Nat) (R : G → Prop) : Prop where
  comp : ∀ k g g' k', sys.prog k g = .comp g' k' → R g → R g'
  hook : ∀ k g h p k', sys.prog k g = .addHook h p k' → ∀ g', R g' → R (h.run g').1
  own : ∀ k g h p k', sys.prog k g = .addHook h p k' → h.done = some e → ∀ g', R (h.run g').1
  dut : ∀ g, R g → R (sys.dutStep g)
  sample : ∀ g, R g → R (sys.sample g)

structure RInv (e : Nat) (R : G → Prop) (s : St σ G V) : Prop where
  now : s.ev e = true → R s.g
  hook : s.clock ≠ .dead → ∀ x ∈ s.hooks, (∀ g, R g → R (x.1.2.run g).1) ∧
    (x.1.2.done = some e → ∀ g, R (x.1.2.run g).1)

theorem runHooks_rec {R : G → Prop} {e : Nat} (l : List ((Nat × Hook σ G V) × Int)) {s : St σ G V}
    (hl : ∀ x ∈ l, (∀ g, R g → R (x.1.2.run g).1) ∧ (x.1.2.done = some e → ∀ g, R (x.1.2.run g).1))
    (h : R s.g ∨ l.any (fun h => h.1.2.done == some e) = true) : R (l.foldl runHook s).g := by
  induction l generalizing s with
  | nil => rcases h with h | h; exact h; cases h
  | cons x l ih =>
    refine ih (fun y hy => hl y (by simp [hy])) ?_
    obtain ⟨h1, h2⟩ := hl x (by simp)
    rw [List.any_cons, Bool.or_eq_true] at h
    rw [runHook_g]
    rcases h with h | h | h
    · exact .inl (h1 _ h)
    · exact .inl (h2 (by simpa using h) _)
    · exact .inr h

theorem RInv.step {sys : Sys σ G V} {g : G} {k0 : σ} {s : St σ G V} {own : σ → Prop} {e : Nat}
    {R : G → Prop} (due : List Nat) (ho : OwnEv sys own e) (hR : Records sys e R)
    (hr : Reach sys g k0 s) (h : RInv e R s) : RInv e R (Loop.step sys due s) := by
  have hcl := reach_clean ho hr
  have hsc := step_case sys due s
  generalize Loop.step sys due s = s' at hsc
  cases hsc with
  | exec t k hc =>
    have hev := exec_ev (s := s) (t := t) (ho.noSet k s.g) (ho.noClear k s.g)
    by_cases hh : ∃ h p k', sys.prog k s.g = .addHook h p k'
    · obtain ⟨h', p, k', hp⟩ := hh
      rw [hp]
      refine ⟨h.now, fun hk x hx => ?_⟩
      rcases List.mem_append.1 (show x ∈ s.hooks ++ [((s.nextHook, h'), p)] from hx) with hx | hx
      · exact h.hook hk x hx
      · rw [List.mem_singleton] at hx
        subst hx
        exact ⟨fun g => hR.hook _ _ _ _ _ hp g, fun hd g => hR.own _ _ _ _ _ hp hd g⟩
    · have hn := exec_neutral t (sys.prog k s.g) s (fun h p k' hp => hh ⟨h, p, k', hp⟩)
      refine ⟨?_, ?_⟩
      · rw [hev]
        intro he
        by_cases hcm : ∃ g' k', sys.prog k s.g = .comp g' k'
        · obtain ⟨g', k', hcm⟩ := hcm
          rw [hcm]
          exact hR.comp _ _ _ _ hcm (h.now he)
        · rw [exec_g (fun g' k' hx => hcm ⟨g', k', hx⟩)]
          exact h.now he
      · rw [hn.hooks]
        intro hk
        refine h.hook ?_
        rcases hn.clk with h1 | ⟨h1, _⟩
        · rw [← h1]; exact hk
        · rw [h1]; simp
  | task t rest hc hb =>
    have hn := resume_neutral t { s with batch := rest }
    refine ⟨by rw [resume_ev, resume_g]; exact h.now, ?_⟩
    rw [hn.hooks]
    intro hk
    refine h.hook ?_
    rcases hn.clk with h1 | ⟨h1, _⟩
    · rw [← show _ = s.clock from h1]; exact hk
    · rw [show s.clock = _ from h1]; simp
  | clock rest hc hb =>
    unfold runClock
    have hcc := clock_case sys { s with batch := rest }
    obtain ⟨f1, f2, f3, f4, f5, _⟩ := callbacks_frame sys { s with batch := rest }
    have hce := callbacks_ev sys (s := { s with batch := rest }) hcl
    have hcb : s.clock ≠ .dead → (callbacks sys { s with batch := rest }).2.ev e = true →
        R (callbacks sys { s with batch := rest }).2.g := by
      intro hk he
      rw [hce, Bool.or_eq_true] at he
      refine hR.sample _ (runHooks_rec (e := e) (Priority.sorted s.hooks)
        (fun x hx => h.hook hk x (Priority.mem_sorted.1 hx)) ?_)
      rcases he with he | he
      · exact .inl (h.now he)
      · right
        rw [List.any_eq_true] at he ⊢
        obtain ⟨x, hx, h1⟩ := he
        exact ⟨x, Priority.mem_sorted.2 hx, h1⟩
    generalize clockTurn sys { s with batch := rest } = r at hcc
    cases hcc with
    | off h' => exact ⟨h.now, h.hook⟩
    | dead h' => exact ⟨h.now, h.hook⟩
    | raise h' hu hf pre x post hs hx =>
      have hk : s.clock ≠ .dead := by
        have h' : s.clock = .check := h'
        rw [h']; simp
      have hm : ∀ y ∈ pre ++ x :: post, y ∈ s.hooks := fun y hy =>
        Priority.mem_sorted.1 (by rw [← hs] at hy; exact hy)
      refine ⟨?_, fun hk' => absurd rfl hk'⟩
      intro he
      have he : (runFail (pre.foldl runHook { s with batch := rest }) x).ev e = true := he
      rw [runFail_ev (hcl x (hm x (by simp))),
        runHooks_ev pre (fun y hy => hcl y (hm y (by simp [hy]))), Bool.or_eq_true] at he
      show R (runFail (pre.foldl runHook { s with batch := rest }) x).g
      rw [runFail_g]
      refine (h.hook hk x (hm x (by simp))).1 _ (runHooks_rec (e := e) pre
        (fun y hy => h.hook hk y (hm y (by simp [hy]))) ?_)
      exact he.imp h.now id
    | begin h' => exact ⟨h.now, fun _ => h.hook (by rw [show s.clock = _ from h']; simp)⟩
    | busy h' => exact ⟨h.now, fun _ => h.hook (by rw [show s.clock = _ from h']; simp)⟩
    | rerun h' hu hf hrr =>
      refine ⟨hcb (by rw [show s.clock = _ from h']; simp), fun _ => ?_⟩
      show ∀ x ∈ (callbacks sys { s with batch := rest }).2.hooks, _
      rw [f1]; exact fun _ hm => nomatch hm
    | cancel h' hu hf hrr ht =>
      refine ⟨hcb (by rw [show s.clock = _ from h']; simp), fun _ => ?_⟩
      show ∀ x ∈ (callbacks sys { s with batch := rest }).2.hooks, _
      rw [f1]; exact fun _ hm => nomatch hm
    | step h' hu hf hrr ht =>
      obtain ⟨d1, _⟩ := doStep_frame sys (callbacks sys { s with batch := rest }).2
      refine ⟨?_, ?_⟩
      · rw [doStep_ev sys ho.ne0, doStep_g]
        exact fun he => hR.dut _ (hcb (by rw [show s.clock = _ from h']; simp) he)
      · rw [d1, f1]; exact fun _ _ hm => nomatch hm
    | last h' =>
      obtain ⟨d1, _⟩ := doStep_frame sys { s with batch := rest }
      refine ⟨?_, ?_⟩
      · rw [doStep_ev sys ho.ne0, doStep_g]
        exact fun he => hR.dut _ (h.now he)
      · rw [d1]
        exact fun _ => h.hook (by rw [show s.clock = _ from h']; simp)
  | stop rest hc hb => exact ⟨h.now, h.hook⟩
  | fire t k rest hc hb hs => exact ⟨h.now, h.hook⟩
  | miss t rest hc hb hs => exact ⟨h.now, h.hook⟩
  | halt hc hb hs => exact h
  | turn due hc hb hs => exact ⟨h.now, h.hook⟩

theorem reach_records {sys : Sys σ G V} {g : G} {k0 : σ} {s : St σ G V} {own : σ → Prop} {e : Nat}
    {R : G → Prop} (ho : OwnEv sys own e) (hR : Records sys e R) (hr : Reach sys g k0 s) :
    RInv e R s := by
  induction hr with
  | init => exact ⟨fun h => (by simp [init] at h), fun _ x hx => (by simp [init] at hx)⟩
  | step due hr ih => exact ih.step due ho hR hr

/-- Nobody requests a hook with this event: it stays so. -/
theorem Unasked.step {sys : Sys σ G V} {g : G} {k0 : σ} {s : St σ G V} {own : σ → Prop} {e : Nat}
    (due : List Nat) (ho : OwnEv sys own e) (hr : Reach sys g k0 s)
    (hno : ∀ t k, s.cur = some (t, k) → ¬ own k) (h : Unasked e s) :
    Unasked e (Loop.step sys due s) := by
  cases ev_case due ho hr with
  | same hev hh hl => exact ⟨hev.trans h.ev, by rw [hh]; exact h.none⟩
  | req h' p t k k' hc hp hev hh hl =>
    refine ⟨hev.trans h.ev, ?_⟩
    rw [hh]
    intro x hx
    rcases List.mem_append.1 hx with hx | hx
    · exact h.none x hx
    · rw [List.mem_singleton] at hx
      subst hx
      exact fun hd => hno t k hc (ho.noHook _ _ _ _ _ hp hd)
  | all hev hh hl =>
    refine ⟨?_, by rw [hh]; exact fun _ hm => nomatch hm⟩
    rw [hev, h.ev, Bool.false_or, List.any_eq_false]
    intro x hx
    simpa using h.none x hx
  | part pre ran hs hev hh hl =>
    refine ⟨?_, ?_⟩
    · rw [hev, h.ev, Bool.false_or, List.any_eq_false]
      intro x hx
      simpa using h.none x (hs x hx)
    · rw [hh]
      intro x hx hd
      obtain ⟨y, hy, _, h2⟩ := spend_done hx
      exact h.none y hy (h2.trans hd)

end Toffee.Loop
