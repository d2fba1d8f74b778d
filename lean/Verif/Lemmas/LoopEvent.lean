import Verif.Lemmas.LoopDone
import Verif.Lemmas.LoopCase
/-! Events that only hooks set: the done events of the hooks of a driver call. -/

namespace Toffee.Loop

variable {σ G V : Type}

/-- Event `e` is never cleared and is set only as the done event of a hook that is requested in a
state in `own`. -/
structure OwnEv (sys : Sys σ G V) (own : σ → Prop) (e : Nat) : Prop where
  ne0 : e ≠ 0
  noSet : ∀ k g k', sys.prog k g ≠ .setEv e k'
  noClear : ∀ k g k', sys.prog k g ≠ .clearEv e k'
  noEff : ∀ k g h p k', sys.prog k g = .addHook h p k' → ∀ g', Eff.setEv e ∉ (h.run g').2
  noHook : ∀ k g h p k', sys.prog k g = .addHook h p k' → h.done = some e → own k

theorem setEv_ev (e e' : Nat) (s : St σ G V) : (setEv e' s).ev e = (s.ev e || (e == e')) := by
  unfold setEv
  split
  · rename_i h
    by_cases he : e = e'
    · subst he; rw [h]; rfl
    · simp [he]
  · show upd s.ev e' true e = _
    by_cases he : e = e'
    · subst he; rw [upd_self]; simp
    · rw [upd_ne _ _ _ _ he]; simp [he]

theorem putQ_ev (y : Nat) (v : V) (s : St σ G V) : (putQ y v s).ev = s.ev := by
  unfold putQ
  simp only
  split <;> rfl

theorem finish_ev (t : Nat) (r : Option V) (s : St σ G V) : (finish t r s).ev = s.ev := by
  unfold finish
  simp only
  split <;> rfl

theorem fail_ev (t : Nat) (held : Bool) (s : St σ G V) : (fail t held s).ev = s.ev := by
  unfold fail
  simp only
  split <;> simp [finish_ev]

theorem exec_ev {e t : Nat} {c : Cmd σ G V} {s : St σ G V} (h1 : ∀ k, c ≠ .setEv e k)
    (h2 : ∀ k, c ≠ .clearEv e k) : (exec t c s).ev e = s.ev e := by
  cases c with
  | ret v =>
    unfold exec
    simp only
    split
    · split
      · rw [finish_ev]; rfl
      · rfl
    · rw [finish_ev]
  | raise held => unfold exec; rw [fail_ev]
  | comp g k => rfl
  | taskRun k => rfl
  | yield k => rfl
  | sleep k => rfl
  | waitEv e' k =>
    unfold exec
    simp only
    split
    · rfl
    · split <;> rfl
  | setEv e' k =>
    show (setEv e' s).ev e = _
    rw [setEv_ev]
    have : e ≠ e' := by rintro rfl; exact h1 _ rfl
    simp [this]
  | clearEv e' k =>
    have : e ≠ e' := by rintro rfl; exact h2 _ rfl
    exact upd_ne _ _ _ _ this
  | put q v k => show (putQ q v s).ev e = _; rw [putQ_ev]
  | get q k => unfold exec; simp only; split <;> rfl
  | spawn s0 k => rfl
  | join u k kx =>
    unfold exec
    simp only
    split
    · rfl
    · split
      · rfl
      · rw [finish_ev]
    · rfl
  | addHook h p k => rfl
  | startClock k => unfold exec; simp only; split <;> rfl

theorem resume_ev (t : Nat) (s : St σ G V) : (resume t s).ev = s.ev := by
  unfold resume
  simp only
  split
  · rfl
  · split <;> rfl
  · rfl
  · split <;> rfl
  · split
    · rfl
    · split
      · rfl
      · rw [finish_ev]
  · rw [finish_ev]; rfl
  · rfl

theorem runEff_ev {e : Nat} {s : St σ G V} {f : Eff σ V} (h : f ≠ .setEv e) :
    (runEff s f).ev e = s.ev e := by
  cases f with
  | setEv e' =>
    show (setEv e' s).ev e = _
    rw [setEv_ev]
    have : e ≠ e' := by rintro rfl; exact h rfl
    simp [this]
  | put q v => show (putQ q v s).ev e = _; rw [putQ_ev]
  | spawn k => rfl

theorem runEffs_ev {e : Nat} (l : List (Eff σ V)) {s : St σ G V} (h : Eff.setEv e ∉ l) :
    (l.foldl runEff s).ev e = s.ev e := by
  induction l generalizing s with
  | nil => rfl
  | cons f l ih =>
    rw [List.mem_cons, not_or] at h
    rw [List.foldl_cons, ih h.2, runEff_ev (fun hf => h.1 hf.symm)]

/-- The hooks in a list set `e` only by their done events. -/
def Clean (e : Nat) (hs : List ((Nat × Hook σ G V) × Int)) : Prop :=
  ∀ h ∈ hs, ∀ g', Eff.setEv e ∉ (h.1.2.run g').2

theorem runHook_ev {e : Nat} {s : St σ G V} {h : (Nat × Hook σ G V) × Int}
    (hc : ∀ g', Eff.setEv e ∉ (h.1.2.run g').2) :
    (runHook s h).ev e = (s.ev e || (h.1.2.done == some e)) := by
  unfold runHook
  simp only
  split
  · rename_i e' hd
    rw [setEv_ev, runEffs_ev _ (hc _), hd]
    show (s.ev e || e == e') = _
    congr 1
    by_cases h : e = e'
    · subst h; simp
    · have : ¬ e' = e := fun h' => h h'.symm
      rw [beq_eq_false_iff_ne.2 h]
      symm
      simpa using this
  · rename_i hd
    rw [runEffs_ev _ (hc _), hd]
    show s.ev e = _
    simp

theorem runFail_ev {e : Nat} {s : St σ G V} {h : (Nat × Hook σ G V) × Int}
    (hc : ∀ g', Eff.setEv e ∉ (h.1.2.run g').2) : (runFail s h).ev e = s.ev e := by
  unfold runFail
  simp only
  rw [runEffs_ev _ (hc _)]
  rfl

theorem runHooks_ev {e : Nat} (l : List ((Nat × Hook σ G V) × Int)) {s : St σ G V}
    (hc : Clean e l) :
    (l.foldl runHook s).ev e = (s.ev e || l.any (fun h => h.1.2.done == some e)) := by
  induction l generalizing s with
  | nil => simp
  | cons f l ih =>
    rw [List.foldl_cons, ih (fun h hm => hc h (List.mem_cons_of_mem _ hm)),
      runHook_ev (hc f List.mem_cons_self), List.any_cons, Bool.or_assoc]

theorem clean_sorted {e : Nat} {hs : List ((Nat × Hook σ G V) × Int)} (h : Clean e hs) :
    Clean e (Priority.sorted hs) := by
  intro x hx
  exact h x ((Priority.sorted_perm hs).mem_iff.1 hx)

theorem callbacks_ev (sys : Sys σ G V) {e : Nat} {s : St σ G V} (hc : Clean e s.hooks) :
    (callbacks sys s).2.ev e = (s.ev e || s.hooks.any (fun h => h.1.2.done == some e)) := by
  show ((Priority.sorted s.hooks).foldl runHook s).ev e = _
  rw [runHooks_ev _ (clean_sorted hc)]
  congr 1
  rw [Bool.eq_iff_iff, List.any_eq_true, List.any_eq_true]
  constructor <;> rintro ⟨x, hx, h⟩
  · exact ⟨x, (Priority.sorted_perm s.hooks).mem_iff.1 hx, h⟩
  · exact ⟨x, (Priority.sorted_perm s.hooks).mem_iff.2 hx, h⟩

theorem clockYield_ev (s : St σ G V) : (clockYield s).ev = s.ev := rfl

theorem doStep_ev (sys : Sys σ G V) {e : Nat} (he : e ≠ 0) (s : St σ G V) :
    (doStep sys s).ev e = s.ev e := by
  unfold doStep
  simp only
  rw [clockYield_ev]
  show upd _ 0 false e = _
  rw [upd_ne _ _ _ _ he, setEv_ev, beq_eq_false_iff_ne.2 he, Bool.or_false]
  rfl

/-- Where the pending hooks come from. -/
theorem hooks_step (sys : Sys σ G V) (due : List Nat) (s : St σ G V)
    {x : (Nat × Hook σ G V) × Int} (hx : x ∈ (step sys due s).hooks) :
    x ∈ s.hooks ∨ (∃ y ∈ s.hooks, x = ((y.1.1, spent y.1.2), y.2)) ∨
      ∃ t k k', s.cur = some (t, k) ∧ sys.prog k s.g = .addHook x.1.2 x.2 k' ∧
        x.1.1 = s.nextHook := by
  have hsc := step_case sys due s
  generalize step sys due s = s' at hsc hx
  cases hsc with
  | exec t k hc =>
    by_cases hh : ∃ h p k', sys.prog k s.g = .addHook h p k'
    · obtain ⟨h, p, k', hp⟩ := hh
      rw [hp] at hx
      rcases List.mem_append.1 (show x ∈ s.hooks ++ [((s.nextHook, h), p)] from hx) with hx | hx
      · exact .inl hx
      · rw [List.mem_singleton] at hx
        subst hx
        exact .inr (.inr ⟨t, k, k', hc, hp, rfl⟩)
    · have hn := exec_neutral t (sys.prog k s.g) s (fun h p k' hp => hh ⟨h, p, k', hp⟩)
      rw [hn.hooks] at hx
      exact .inl hx
  | task t rest hc hb =>
    rw [(resume_neutral t { s with batch := rest }).hooks] at hx
    exact .inl hx
  | clock rest hc hb =>
    unfold runClock at hx
    have hcc := clock_case sys { s with batch := rest }
    have f1 := (callbacks_frame sys { s with batch := rest }).1
    generalize clockTurn sys { s with batch := rest } = r at hcc hx
    cases hcc with
    | off h => exact .inl hx
    | dead h => exact .inl hx
    | raise h hu hf pre y post hs hx' =>
      rw [(raised_frame pre y { s with batch := rest }).1] at hx
      rcases mem_spend hx with h | h
      · exact .inl h
      · exact .inr (.inl h)
    | begin h => exact .inl hx
    | busy h => exact .inl hx
    | rerun h hu hf hrr =>
      have : x ∈ (callbacks sys { s with batch := rest }).2.hooks := hx
      rw [f1] at this; cases this
    | cancel h hu hf hrr ht =>
      have : x ∈ (callbacks sys { s with batch := rest }).2.hooks := hx
      rw [f1] at this; cases this
    | step h hu hf hrr ht =>
      have : x ∈ (doStep sys (callbacks sys { s with batch := rest }).2).hooks := hx
      rw [(doStep_frame sys _).1, f1] at this; cases this
    | last h =>
      have : x ∈ (doStep sys { s with batch := rest }).hooks := hx
      rw [(doStep_frame sys _).1] at this
      exact .inl this
  | stop rest hc hb => exact .inl hx
  | fire t k rest hc hb hs => exact .inl hx
  | miss t rest hc hb hs => exact .inl hx
  | halt hc hb hs => exact .inl hx
  | turn due hc hb hs => exact .inl hx

/-- The pending hooks do not set an event only hooks' done events set. -/
theorem reach_clean {sys : Sys σ G V} {g : G} {k0 : σ} {s : St σ G V} {own : σ → Prop} {e : Nat}
    (ho : OwnEv sys own e) (hr : Reach sys g k0 s) : Clean e s.hooks := by
  induction hr with
  | init => exact fun _ hm => nomatch hm
  | @step s due hr ih =>
    intro x hx
    rcases hooks_step sys due s hx with h | ⟨y, hy, rfl⟩ | ⟨t, k, k', hc, hp, _⟩
    · exact ih x h
    · intro g' h; cases h
    · exact ho.noEff _ _ _ _ _ hp

/-! ### Tasks whose wait for an event is over -/

/-- A task whose wait for event `e` is over finds the event set. -/
def FinSet (e : Nat) (s : St σ G V) : Prop := ∀ u k, s.st u = .fin (.ev e k) → s.ev e = true

theorem finSet_wake {e : Nat} {s s' : St σ G V} (h : FinSet e s)
    (ts : List Nat) (hst : s'.st = wakeSt s.st ts) (hev : s.ev e = true → s'.ev e = true)
    (hts : ∀ u ∈ ts, ∀ k, s.st u = .pend (.ev e k) → s'.ev e = true) : FinSet e s' := by
  intro u k hu
  rw [hst] at hu
  unfold wakeSt at hu
  split at hu
  · rename_i hm
    cases hs : s.st u with
    | pend w =>
      rw [hs] at hu
      simp only [Status.finish] at hu
      injection hu with hu
      subst hu
      exact hts u hm k hs
    | fin w =>
      rw [hs] at hu
      simp only [Status.finish] at hu
      exact hev (h u k (by rw [hs, hu]))
    | _ => rw [hs] at hu; cases hu
  · exact hev (h u k hu)

theorem setEv_finSet {x : List Handle} {e e' : Nat} {s : St σ G V} (hi : InvX x s)
    (h : FinSet e s) : FinSet e (setEv e' s) := by
  unfold setEv
  split
  · exact h
  · refine finSet_wake h (s.waiters e') rfl ?_ ?_
    · intro he
      show upd s.ev e' true e = true
      by_cases hee : e = e'
      · subst hee; exact upd_self _ _ _
      · rw [upd_ne _ _ _ _ hee]; exact he
    · intro u hu k hk
      have := hi.core.hw e' u
      rw [hk] at this
      have hpos := List.count_pos_iff.2 hu
      have hee : e = e' := by
        refine Classical.byContradiction fun hne => ?_
        simp only [wExp, if_neg hne] at this
        omega
      subst hee
      exact upd_self _ _ _

theorem putQ_finSet {x : List Handle} {e y : Nat} {v : V} {s : St σ G V} (hi : InvX x s)
    (h : FinSet e s) : FinSet e (putQ y v s) := by
  unfold putQ
  simp only
  split
  · exact h
  · rename_i u us hg
    refine finSet_wake h [u] rfl id ?_
    intro u' hu k hk
    rw [List.mem_singleton] at hu
    subst hu
    have := hi.core.hg y u'
    rw [hk, hg] at this
    simp [gExp] at this

theorem spawn_finSet {e : Nat} {k0 : σ} {s : St σ G V} (h : FinSet e s) :
    FinSet e (spawn k0 s) := by
  intro u k hu
  have hu : upd s.st s.n (.ready k0) u = _ := hu
  by_cases hn : u = s.n
  · subst hn; rw [upd_self] at hu; cases hu
  · rw [upd_ne _ _ _ _ hn] at hu; exact h u k hu

theorem upd_finSet {e t : Nat} {x : Status σ V} {s s' : St σ G V} (h : FinSet e s)
    (hst : s'.st = upd s.st t x) (hx : ∀ k, x ≠ .fin (.ev e k)) (hev : s'.ev e = s.ev e) :
    FinSet e s' := by
  intro u k hu
  rw [hst] at hu
  by_cases hn : u = t
  · subst hn; rw [upd_self] at hu; exact absurd hu (hx k)
  · rw [upd_ne _ _ _ _ hn] at hu; rw [hev]; exact h u k hu

theorem finish_finSet {e t : Nat} {r : Option V} {s : St σ G V}
    (hj : ∀ u, (s.joiners t).count u = jExp t (s.st u)) (h : FinSet e s) :
    FinSet e (finish t r s) := by
  have h1 : FinSet e { s with st := upd s.st t (.done r) } :=
    upd_finSet h rfl (by intro k hk; cases hk) rfl
  refine finSet_wake h1 (s.joiners t) (finish_st t r s) ?_ ?_
  · rw [finish_ev]; exact id
  · intro u hu k hk
    have hk : upd s.st t (.done r) u = _ := hk
    by_cases hn : u = t
    · subst hn; rw [upd_self] at hk; cases hk
    · rw [upd_ne _ _ _ _ hn] at hk
      have := hj u
      rw [hk] at this
      have hpos := List.count_pos_iff.2 hu
      simp only [jExp] at this
      omega

theorem fail_finSet {e t : Nat} {held : Bool} {s : St σ G V}
    (hj : ∀ u, (s.joiners t).count u = jExp t (s.st u)) (h : FinSet e s) :
    FinSet e (fail t held s) := by
  obtain ⟨b, c, hf⟩ := fail_eq t held s
  rw [hf]
  have h1 : FinSet e { s with failed := upd s.failed t true } := h
  exact finish_finSet (s := { s with failed := upd s.failed t true }) hj h1

theorem exec_finSet {e t : Nat} {c : Cmd σ G V} {s : St σ G V} (hi : Inv s) (h : FinSet e s)
    (hc : ∀ k, c ≠ .clearEv e k) : FinSet e (exec t c s) := by
  have hj := hi.core.hj t
  cases c with
  | ret v =>
    unfold exec
    simp only
    split
    · split
      · exact finish_finSet (s := note .testDone { s with testDone := true }) hj h
      · exact upd_finSet h rfl (by intro k hk; cases hk) rfl
    · exact finish_finSet hj h
  | raise held => exact fail_finSet hj h
  | comp g k => exact h
  | taskRun k => exact h
  | yield k => exact upd_finSet h rfl (by intro k hk; cases hk) rfl
  | sleep k => exact upd_finSet h rfl (by intro k hk; cases hk) rfl
  | waitEv e' k =>
    unfold exec
    simp only
    split
    · exact h
    · split
      · exact upd_finSet h rfl (by intro k hk; cases hk) rfl
      · exact upd_finSet h rfl (by intro k hk; cases hk) rfl
  | setEv e' k => exact setEv_finSet hi h
  | clearEv e' k =>
    have : e ≠ e' := by rintro rfl; exact hc _ rfl
    intro u k hu
    show upd s.ev e' false e = true
    rw [upd_ne _ _ _ _ this]
    exact h u k hu
  | put q v k => exact putQ_finSet hi h
  | get q k =>
    unfold exec
    simp only
    split
    · exact upd_finSet h rfl (by intro k hk; cases hk) rfl
    · exact h
  | spawn s0 k => exact spawn_finSet h
  | join u k kx =>
    unfold exec
    simp only
    split
    · exact h
    · split
      · exact h
      · exact finish_finSet hj h
    · exact upd_finSet h rfl (by intro k hk; cases hk) rfl
  | addHook h' p k => exact h
  | startClock k => unfold exec; simp only; split <;> exact h

theorem resume_finSet {e t : Nat} {s : St σ G V}
    (hj : ∀ u, (s.joiners t).count u = jExp t (s.st u)) (h : FinSet e s) :
    FinSet e (resume t s) := by
  unfold resume
  simp only
  split
  · exact upd_finSet h rfl (by intro k hk; cases hk) rfl
  · split
    · exact upd_finSet h rfl (by intro k hk; cases hk) rfl
    · exact upd_finSet h rfl (by intro k hk; cases hk) rfl
  · exact upd_finSet h rfl (by intro k hk; cases hk) rfl
  · split
    · exact upd_finSet h rfl (by intro k hk; cases hk) rfl
    · exact upd_finSet h rfl (by intro k hk; cases hk) rfl
  · split
    · exact upd_finSet h rfl (by intro k hk; cases hk) rfl
    · split
      · exact upd_finSet h rfl (by intro k hk; cases hk) rfl
      · exact finish_finSet hj h
  · exact finish_finSet (s := note (.resume t) s) hj h
  · exact h

/-- The invariant and `FinSet` together. -/
def InvFin (x : List Handle) (e : Nat) (s : St σ G V) : Prop := InvX x s ∧ FinSet e s

theorem runEff_finSet {x : List Handle} {e : Nat} (s : St σ G V) (f : Eff σ V)
    (h : InvFin x e s) : InvFin x e (runEff s f) := by
  refine ⟨runEff_inv h.1 f, ?_⟩
  cases f with
  | setEv e' => exact setEv_finSet h.1 h.2
  | put q v => exact putQ_finSet h.1 h.2
  | spawn k => exact spawn_finSet h.2

theorem runHook_finSet {x : List Handle} {e : Nat} (s : St σ G V)
    (y : (Nat × Hook σ G V) × Int) (h : InvFin x e s) : InvFin x e (runHook s y) := by
  refine ⟨runHook_inv h.1 y, ?_⟩
  have h0 : InvFin x e { note (.exec y.1.1 y.1.2.done.isSome) s with g := (y.1.2.run s.g).1 } :=
    ⟨⟨h.1.core, h.1.main⟩, h.2⟩
  have h1 := foldl_inv (InvFin x e) runEff (runEff_finSet) (y.1.2.run s.g).2 _ h0
  unfold runHook
  simp only
  split
  · exact setEv_finSet h1.1 h1.2
  · exact h1.2

theorem runFail_finSet {x : List Handle} {e : Nat} (s : St σ G V)
    (y : (Nat × Hook σ G V) × Int) (h : InvFin x e s) : InvFin x e (runFail s y) := by
  have h0 : InvFin x e { note (.hookRaise y.1.1) s with g := (y.1.2.run s.g).1 } :=
    ⟨⟨h.1.core, h.1.main⟩, h.2⟩
  exact foldl_inv (InvFin x e) runEff (runEff_finSet) (y.1.2.run s.g).2 _ h0

theorem callbacks_finSet (sys : Sys σ G V) {x : List Handle} {e : Nat} {s : St σ G V}
    (h : InvFin x e s) : InvFin x e (callbacks sys s).2 := by
  have h1 := foldl_inv (InvFin x e) runHook (runHook_finSet) (Priority.sorted s.hooks) s h
  exact ⟨callbacks_inv sys h.1, h1.2⟩

theorem doStep_finSet (sys : Sys σ G V) {x : List Handle} {e : Nat} (he : e ≠ 0) {s : St σ G V}
    (h : InvFin x e s) : FinSet e (doStep sys s) := by
  have h1 : InvFin x e (note .step { s with g := sys.dutStep s.g, cycles := s.cycles + 1 }) :=
    ⟨⟨h.1.core, h.1.main⟩, h.2⟩
  have h2 := setEv_finSet (e' := 0) h1.1 h1.2
  intro u k hu
  have := h2 u k hu
  show upd _ 0 false e = true
  rw [upd_ne _ _ _ _ he]
  exact this

theorem cancelAll_finSet {e : Nat} {s : St σ G V} (h : FinSet e s) : FinSet e (cancelAll s) := by
  intro u k hu
  have hu : cancelSt s.st u = _ := hu
  show s.ev e = true
  unfold cancelSt at hu
  split at hu
  · exact h u k hu
  · split at hu <;> cases hu

/-- Nobody is woken from waiting for `e` unless `e` is set; one step. -/
theorem step_finSet {sys : Sys σ G V} {s : St σ G V} {e : Nat} (he : e ≠ 0) (due : List Nat)
    (hi : Inv s) (hc : ∀ t k, s.cur = some (t, k) → ∀ k', sys.prog k s.g ≠ .clearEv e k')
    (ih : FinSet e s) : FinSet e (step sys due s) := by
  have hsc := step_case sys due s
  generalize step sys due s = s' at hsc
  cases hsc with
  | exec t k hcu => exact exec_finSet hi ih (hc t k hcu)
  | task t rest hcu hb =>
    exact resume_finSet (s := { s with batch := rest }) (hi.core.hj t) ih
  | clock rest hcu hb =>
    have hp := InvX.pop hi hb
    have h0 : InvFin [.clock] e { s with batch := rest } := ⟨hp, ih⟩
    have h1 := callbacks_finSet sys h0
    unfold runClock
    have hcc := clock_case sys { s with batch := rest }
    generalize clockTurn sys { s with batch := rest } = r at hcc
    cases hcc with
    | off h => exact ih
    | dead h => exact ih
    | raise h hu hf pre y post hs hx' =>
      have h2 := runFail_finSet _ y (foldl_inv (InvFin [.clock] e) runHook (runHook_finSet) pre _ h0)
      exact h2.2
    | begin h => exact ih
    | busy h => exact ih
    | rerun h hu hf hrr => exact h1.2
    | cancel h hu hf hrr ht => exact cancelAll_finSet h1.2
    | step h hu hf hrr ht => exact doStep_finSet sys he h1
    | last h => exact doStep_finSet sys he h0
  | stop rest hc hb => exact ih
  | fire t k rest hc hb hs =>
    refine finSet_wake ih [t] rfl id ?_
    intro u hu k' hk
    rw [List.mem_singleton] at hu
    subst hu
    rw [hs] at hk; cases hk
  | miss t rest hc hb hs => exact ih
  | halt hc hb hs => exact ih
  | turn due hc hb hs => exact ih

/-- Nobody is woken from waiting for `e` unless `e` is set. -/
theorem reach_finSet {sys : Sys σ G V} {g : G} {k0 : σ} {s : St σ G V} {own : σ → Prop} {e : Nat}
    (ho : OwnEv sys own e) (hr : Reach sys g k0 s) : FinSet e s := by
  induction hr with
  | init =>
    intro u k hu
    have hu : (if u = 0 then Status.ready k0 else .done none) = _ := hu
    split at hu <;> cases hu
  | @step s due hr ih =>
    exact step_finSet ho.ne0 due (reach_inv hr) (fun _ k _ => ho.noClear k s.g) ih

end Toffee.Loop
