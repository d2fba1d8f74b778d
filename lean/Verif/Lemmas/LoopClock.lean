import Verif.Lemmas.LoopCase
/-! Wake-ups by the clock event. -/

namespace Toffee.Loop

variable {σ G V : Type}

/-- Woken by the clock event, not resumed yet. -/
def is0 : Status σ V → Bool
  | .fin (.ev e _) => e == 0
  | .fin (.final _) => true
  | _ => false

def woken1 (st : Nat → Status σ V) : Handle → Option Nat
  | .task t => if is0 (st t) then some t else none
  | _ => none

/-- The scheduled wake-ups by the clock event, in order. -/
def woken (st : Nat → Status σ V) (q : List Handle) : List Nat := q.filterMap (woken1 st)

theorem woken_append (st : Nat → Status σ V) (a b : List Handle) :
    woken st (a ++ b) = woken st a ++ woken st b := List.filterMap_append

theorem woken_congr {st st' : Nat → Status σ V} {q : List Handle}
    (h : ∀ t, Handle.task t ∈ q → is0 (st' t) = is0 (st t)) : woken st' q = woken st q := by
  unfold woken
  induction q with
  | nil => rfl
  | cons a q ih =>
    have ih := ih (fun t ht => h t (by simp [ht]))
    have ha : woken1 st' a = woken1 st a := by
      cases a with
      | task t => simp only [woken1, h t (by simp)]
      | _ => rfl
    rw [List.filterMap_cons, List.filterMap_cons, ha, ih]

theorem woken_nil {st : Nat → Status σ V} {q : List Handle}
    (h : ∀ t, Handle.task t ∈ q → is0 (st t) = false) : woken st q = [] := by
  unfold woken
  rw [List.filterMap_eq_nil_iff]
  intro a ha
  cases a with
  | task t => simp [woken1, h t ha]
  | _ => rfl

/-- Scheduled, or waiting for the clock event. -/
def keep (x : Status σ V) : Prop := qExp x = 1 ∨ wExp 0 x = 1

/-- A step that has nothing to do with the clock event. -/
structure Frame0 (s s' : St σ G V) : Prop where
  q : ∃ l, s'.batch ++ s'.ready = (s.batch ++ s.ready) ++ l ∧
    ∀ t, Handle.task t ∈ l → is0 (s'.st t) = false
  st : ∀ t, keep (s.st t) → s'.st t = s.st t
  w : s'.waiters 0 = s.waiters 0
  ev : s'.ev 0 = s.ev 0

theorem Frame0.refl (s : St σ G V) : Frame0 s s := ⟨⟨[], by simp⟩, fun _ _ => rfl, rfl, rfl⟩

theorem InvX.keep_of_mem {x : List Handle} {s : St σ G V} (h : InvX x s) {t : Nat}
    (hm : Handle.task t ∈ s.batch ++ s.ready) : qExp (s.st t) = 1 := by
  have h1 := h.core.hq t
  have h2 : (x ++ (s.batch ++ s.ready)).count (.task t) ≥ 1 := by
    have : Handle.task t ∈ x ++ (s.batch ++ s.ready) := List.mem_append_right _ hm
    exact List.one_le_count_iff.2 this
  have h3 : qExp (s.st t) ≤ 1 := by cases s.st t <;> simp [qExp]
  omega

theorem Frame0.trans {x : List Handle} {s s' s'' : St σ G V} (h : Frame0 s s') (hi : InvX x s')
    (h' : Frame0 s' s'') : Frame0 s s'' := by
  obtain ⟨l, hl, hn⟩ := h.q
  obtain ⟨l', hl', hn'⟩ := h'.q
  refine ⟨⟨l ++ l', by rw [hl', hl, List.append_assoc], ?_⟩, fun t ht => ?_, h'.w.trans h.w,
    h'.ev.trans h.ev⟩
  · intro t ht
    rcases List.mem_append.1 ht with ht | ht
    · have : qExp (s'.st t) = 1 :=
        hi.keep_of_mem (by rw [hl]; exact List.mem_append_right _ ht)
      rw [h'.st t (.inl this)]
      exact hn t ht
    · exact hn' t ht
  · have h1 := h.st t ht
    rw [h'.st t (by rw [h1]; exact ht), h1]

theorem Frame0.woken {x : List Handle} {s s' : St σ G V} (hi : InvX x s) (h : Frame0 s s') :
    woken s'.st (s'.batch ++ s'.ready) = woken s.st (s.batch ++ s.ready) := by
  obtain ⟨l, hl, hn⟩ := h.q
  rw [hl, woken_append, woken_nil hn, List.append_nil]
  apply woken_congr
  intro t ht
  rw [h.st t (.inl (hi.keep_of_mem ht))]

/-- No clock wake-up is scheduled behind the clock. -/
def Behind (s : St σ G V) : Prop :=
  ∀ a b, s.batch ++ s.ready = a ++ .clock :: b → woken s.st b = []

theorem split_append' {α : Type} {x y pre post : List α} {e : α} (h : x ++ y = pre ++ e :: post) :
    (∃ p, x = pre ++ e :: p ∧ post = p ++ y) ∨ ∃ p, pre = x ++ p ∧ y = p ++ e :: post := by
  rcases List.append_eq_append_iff.1 h with ⟨p, h1, h2⟩ | ⟨p, h1, h2⟩
  · exact .inr ⟨p, h1, h2⟩
  · cases p with
    | nil => exact .inr ⟨[], by simpa using h1.symm, by simpa using h2.symm⟩
    | cons a p =>
      rw [List.cons_append] at h2
      injection h2 with h2 h3
      subst h2
      exact .inl ⟨p, h1, h3⟩

theorem Frame0.behind {x : List Handle} {s s' : St σ G V} (hi : InvX x s) (h : Frame0 s s')
    (hb : Behind s) : Behind s' := by
  obtain ⟨l, hl, hn⟩ := h.q
  intro a b hab
  rw [hl] at hab
  rcases split_append' hab with ⟨p, hp, hp'⟩ | ⟨p, hp, hp'⟩
  · rw [hp', woken_append, woken_nil hn, List.append_nil]
    rw [← hb a p hp]
    apply woken_congr
    intro t ht
    rw [h.st t (.inl (hi.keep_of_mem (by rw [hp]; simp [ht])))]
  · apply woken_nil
    intro t ht
    exact hn t (by rw [hp']; simp [ht])

/-! ### The primitives -/

theorem frame0_wake {s s' : St σ G V} (ts : List Nat) (hst : s'.st = wakeSt s.st ts)
    (hq : s'.batch ++ s'.ready = (s.batch ++ s.ready) ++ ts.map .task)
    (hts : ∀ t ∈ ts, ∃ w, s.st t = .pend w ∧ (∀ k, w ≠ .ev 0 k) ∧ ∀ v, w ≠ .final v)
    (hw : s'.waiters 0 = s.waiters 0) (hev : s'.ev 0 = s.ev 0) : Frame0 s s' := by
  refine ⟨⟨ts.map .task, hq, ?_⟩, ?_, hw, hev⟩
  · intro t ht
    obtain ⟨u, hu, he⟩ := List.mem_map.1 ht
    cases he
    obtain ⟨w, h1, h2, h3⟩ := hts t hu
    rw [hst]
    simp only [wakeSt, hu, if_true, h1, Status.finish]
    cases w with
    | ev e k =>
      simp only [is0, beq_eq_false_iff_ne]
      rintro rfl
      exact h2 k rfl
    | final v => exact absurd rfl (h3 v)
    | _ => rfl
  · intro t ht
    rw [hst]
    unfold wakeSt
    split
    · rename_i hm
      exfalso
      obtain ⟨w, h1, h2, h3⟩ := hts t hm
      rw [h1] at ht
      rcases ht with ht | ht
      · simp [qExp] at ht
      · cases w with
        | ev e k =>
          simp only [wExp] at ht
          split at ht
          · rename_i he; subst he; exact h2 k rfl
          · cases ht
        | final v => exact h3 v rfl
        | _ => simp [wExp] at ht
    · rfl

theorem setEv_frame0 {x : List Handle} {s : St σ G V} (h : InvX x s) {e : Nat} (he : e ≠ 0) :
    Frame0 s (setEv e s) := by
  unfold setEv
  split
  · exact Frame0.refl s
  · refine frame0_wake (s.waiters e) rfl ?_ ?_ ?_ ?_
    · show s.batch ++ (s.ready ++ _) = _
      rw [List.append_assoc]
    · intro t ht
      have h1 := h.core.hw e t
      have h2 := List.one_le_count_iff.2 ht
      rw [h1] at h2
      cases hs : s.st t with
      | pend w =>
        refine ⟨w, rfl, ?_, ?_⟩
        · rintro k rfl
          rw [hs] at h2
          simp only [wExp] at h2
          split at h2
          · rename_i h0; exact he h0.symm
          · omega
        · rintro v rfl
          rw [hs] at h2
          simp [wExp, he] at h2
      | _ => rw [hs] at h2; simp [wExp] at h2
    · show upd s.waiters e [] 0 = _
      rw [upd_ne _ _ _ _ (fun h => he h.symm)]
    · show upd s.ev e true 0 = _
      rw [upd_ne _ _ _ _ (fun h => he h.symm)]

theorem putQ_frame0 {x : List Handle} {s : St σ G V} (h : InvX x s) (y : Nat) (v : V) :
    Frame0 s (putQ y v s) := by
  unfold putQ
  simp only
  split
  · exact ⟨⟨[], by simp⟩, fun _ _ => rfl, rfl, rfl⟩
  · rename_i u us hg
    refine frame0_wake [u] rfl ?_ ?_ rfl rfl
    · show s.batch ++ (s.ready ++ _) = _
      rw [List.append_assoc]
    · intro t ht
      rw [List.mem_singleton] at ht
      subst ht
      have h1 := h.core.hg y t
      have h2 : (s.getters y).count t ≥ 1 := by rw [hg]; simp
      rw [h1] at h2
      cases hs : s.st t with
      | pend w =>
        rw [hs] at h2
        refine ⟨w, rfl, ?_, ?_⟩
        · rintro k rfl; simp [gExp] at h2
        · rintro k rfl; simp [gExp] at h2
      | _ => rw [hs] at h2; simp [gExp] at h2

theorem spawn_frame0 {x : List Handle} {s : St σ G V} (h : InvX x s) (k : σ) :
    Frame0 s (spawn k s) := by
  refine ⟨⟨[.task s.n], ?_, ?_⟩, ?_, rfl, rfl⟩
  · show s.batch ++ (s.ready ++ [_]) = _
    rw [List.append_assoc]
  · intro t ht
    rw [List.mem_singleton] at ht
    cases ht
    show is0 (upd s.st s.n (.ready k) s.n) = false
    rw [upd_self]; rfl
  · intro t ht
    show upd s.st s.n (.ready k) t = _
    rw [upd_ne]
    rintro rfl
    have := h.core.hborn s.n (Nat.le_refl _)
    rw [this] at ht
    rcases ht with ht | ht <;> simp [qExp, wExp] at ht

/-- Hooks that leave the clock event alone. -/
def PrivHook (h : Hook σ G V) : Prop :=
  h.done ≠ some 0 ∧ ∀ g, ∀ e ∈ (h.run g).2, e ≠ .setEv 0

theorem runEff_frame0 {x : List Handle} {s : St σ G V} (h : InvX x s) (e : Eff σ V)
    (he : e ≠ .setEv 0) : Frame0 s (runEff s e) := by
  cases e with
  | setEv e =>
    apply setEv_frame0 h
    rintro rfl
    exact he rfl
  | put q v => exact putQ_frame0 h q v
  | spawn k => exact spawn_frame0 h k

theorem runEffs_frame0 {x : List Handle} (l : List (Eff σ V)) {s : St σ G V} (h : InvX x s)
    (hl : ∀ e ∈ l, e ≠ .setEv 0) : Frame0 s (l.foldl runEff s) := by
  induction l generalizing s with
  | nil => exact Frame0.refl s
  | cons e l ih =>
    exact Frame0.trans (runEff_frame0 h e (hl e (by simp))) (runEff_inv h e)
      (ih (runEff_inv h e) (fun e he => hl e (by simp [he])))

theorem runHook_frame0 {x : List Handle} {s : St σ G V} (h : InvX x s)
    (hk : (Nat × Hook σ G V) × Int) (hp : PrivHook hk.1.2) : Frame0 s (runHook s hk) := by
  unfold runHook
  have h0 : InvX x { note (.exec hk.1.1 hk.1.2.done.isSome) s with g := (hk.1.2.run s.g).1 } :=
    ⟨h.core, h.main⟩
  have h1 := foldl_inv (InvX x) runEff (fun s e hs => runEff_inv hs e) (hk.1.2.run s.g).2 _ h0
  have h2 := runEffs_frame0 (hk.1.2.run s.g).2 h0 (hp.2 _)
  have h3 : Frame0 s { note (.exec hk.1.1 hk.1.2.done.isSome) s with g := (hk.1.2.run s.g).1 } :=
    ⟨⟨[], by simp [note]⟩, fun _ _ => rfl, rfl, rfl⟩
  have h4 := Frame0.trans h3 h0 h2
  simp only
  split
  · rename_i e he
    refine Frame0.trans h4 h1 (setEv_frame0 h1 ?_)
    rintro rfl
    exact hp.1 he
  · exact h4

theorem runHooks_frame0 {x : List Handle} (l : List ((Nat × Hook σ G V) × Int)) {s : St σ G V}
    (h : InvX x s) (hl : ∀ e ∈ l, PrivHook e.1.2) : Frame0 s (l.foldl runHook s) := by
  induction l generalizing s with
  | nil => exact Frame0.refl s
  | cons e l ih =>
    exact Frame0.trans (runHook_frame0 h e (hl e (by simp))) (runHook_inv h e)
      (ih (runHook_inv h e) (fun e he => hl e (by simp [he])))

theorem runFail_frame0 {x : List Handle} {s : St σ G V} (h : InvX x s)
    (hk : (Nat × Hook σ G V) × Int) (hp : PrivHook hk.1.2) : Frame0 s (runFail s hk) := by
  have h0 : InvX x { note (.hookRaise hk.1.1) s with g := (hk.1.2.run s.g).1 } := ⟨h.core, h.main⟩
  have h3 : Frame0 s { note (.hookRaise hk.1.1) s with g := (hk.1.2.run s.g).1 } :=
    ⟨⟨[], by simp [note]⟩, fun _ _ => rfl, rfl, rfl⟩
  exact Frame0.trans h3 h0 (runEffs_frame0 (hk.1.2.run s.g).2 h0 (hp.2 _))

theorem raised_frame0 {x : List Handle} {s : St σ G V} (h : InvX x s)
    {pre : List ((Nat × Hook σ G V) × Int)} {y : (Nat × Hook σ G V) × Int}
    (hp : ∀ e ∈ pre ++ [y], PrivHook e.1.2) : Frame0 s (raised pre y s) := by
  have h1 := runHooks_frame0 pre h (fun e he => hp e (by simp [he]))
  have h2 := foldl_inv (InvX x) runHook (fun s e hs => runHook_inv hs e) pre s h
  have h3 := Frame0.trans h1 h2 (runFail_frame0 h2 y (hp y (by simp)))
  exact ⟨h3.q, h3.st, h3.w, h3.ev⟩

theorem raises_priv {hs pre post : List ((Nat × Hook σ G V) × Int)} {y : (Nat × Hook σ G V) × Int}
    (h : ∀ e ∈ hs, PrivHook e.1.2) (he : Priority.sorted hs = pre ++ y :: post) :
    ∀ e ∈ pre ++ [y], PrivHook e.1.2 := by
  intro e hm
  refine h e (Priority.mem_sorted.1 ?_)
  rw [he]
  rcases List.mem_append.1 hm with hm | hm
  · simp [hm]
  · rw [List.mem_singleton] at hm; simp [hm]

theorem callbacks_frame0 (sys : Sys σ G V) {x : List Handle} {s : St σ G V} (h : InvX x s)
    (hp : ∀ e ∈ s.hooks, PrivHook e.1.2) : Frame0 s (callbacks sys s).2 := by
  have h1 := runHooks_frame0 (Priority.sorted s.hooks) h
    (fun e he => hp e (Priority.mem_sorted.1 he))
  exact ⟨h1.q, h1.st, h1.w, h1.ev⟩

theorem finish_frame0 {t : Nat} {r : Option V} {s s0 : St σ G V}
    (h1 : InvC s.n (upd s.st t .running) (s.batch ++ s.ready) s.ev s.waiters s.q s.getters
      s.joiners s.clock (some t))
    (e1 : s0.st = upd s.st t .running) (e2 : s0.batch = s.batch) (e3 : s0.ready = s.ready)
    (e4 : s0.waiters = s.waiters) (e5 : s0.ev = s.ev) : Frame0 s0 (finish t r s) := by
  have hj : ∀ u ∈ s.joiners t, u ≠ t ∧ ∃ k kx, s.st u = .pend (.join t k kx) := by
    intro u hu
    have h2 := h1.hj t u
    have h3 := List.one_le_count_iff.2 hu
    rw [h2] at h3
    have hut : u ≠ t := by
      rintro rfl
      rw [upd_self] at h3
      simp [jExp] at h3
    rw [upd_ne _ _ _ _ hut] at h3
    refine ⟨hut, ?_⟩
    cases hs : s.st u with
    | pend w =>
      rw [hs] at h3
      cases w with
      | join u' k kx =>
        simp only [jExp] at h3
        split at h3
        · rename_i he; subst he; exact ⟨k, kx, rfl⟩
        · omega
      | _ => simp [jExp] at h3
    | _ => rw [hs] at h3; simp [jExp] at h3
  have hq : ∃ l, (finish t r s).batch ++ (finish t r s).ready = (s.batch ++ s.ready) ++ l ∧
      ∀ u, Handle.task u ∈ l → u ∈ s.joiners t := by
    unfold finish
    by_cases ht : t = 0
    · refine ⟨[.stop] ++ (s.joiners t).map .task, ?_, ?_⟩
      · simp only [ht, if_true, wake, push]
        simp
      · intro u hu
        simp at hu; exact hu
    · refine ⟨(s.joiners t).map .task, ?_, ?_⟩
      · simp only [ht, if_false, wake]
        simp
      · intro u hu
        simp at hu; exact hu
  have hwe : (finish t r s).waiters = s.waiters ∧ (finish t r s).ev = s.ev := by
    unfold finish
    by_cases ht : t = 0 <;> simp [ht, wake, push]
  refine ⟨?_, ?_, by rw [hwe.1, e4], by rw [hwe.2, e5]⟩
  · obtain ⟨l, hl, hl'⟩ := hq
    refine ⟨l, by rw [hl, e2, e3], ?_⟩
    intro u hu
    have hu := hl' u hu
    obtain ⟨h2, k, kx, h3⟩ := hj u hu
    rw [finish_st]
    simp only [wakeSt, hu, if_true, upd_ne _ _ _ _ h2, h3, Status.finish]
    rfl
  · intro u hu
    rw [e1] at hu ⊢
    rw [finish_st]
    by_cases hut : u = t
    · subst hut
      rw [upd_self] at hu
      rcases hu with hu | hu <;> simp [qExp, wExp] at hu
    · rw [upd_ne _ _ _ _ hut] at hu ⊢
      unfold wakeSt
      split
      · rename_i hm
        exfalso
        obtain ⟨_, k, kx, h3⟩ := hj u hm
        rw [h3] at hu
        rcases hu with hu | hu <;> simp [qExp, wExp] at hu
      · rw [upd_ne _ _ _ _ hut]

theorem fail_frame0 {t : Nat} {held : Bool} {s s0 : St σ G V}
    (h1 : InvC s.n (upd s.st t .running) (s.batch ++ s.ready) s.ev s.waiters s.q s.getters
      s.joiners s.clock (some t))
    (e1 : s0.st = upd s.st t .running) (e2 : s0.batch = s.batch) (e3 : s0.ready = s.ready)
    (e4 : s0.waiters = s.waiters) (e5 : s0.ev = s.ev) : Frame0 s0 (fail t held s) := by
  obtain ⟨b, c, hb⟩ := fail_eq t held s
  rw [hb]
  have h2 : Frame0 s0 (finish t none { s with failed := upd s.failed t true }) :=
    finish_frame0 h1 e1 e2 e3 e4 e5
  exact ⟨h2.q, h2.st, h2.w, h2.ev⟩

/-- One task changes its status, which was and is not related to the clock event. -/
theorem frame0_upd {s s' : St σ G V} (t : Nat) (x : Status σ V) (hst : s'.st = upd s.st t x)
    (hk : ¬ keep (s.st t)) (hx : is0 x = false) (l : List Handle)
    (hq : s'.batch ++ s'.ready = (s.batch ++ s.ready) ++ l)
    (hl : ∀ u, Handle.task u ∈ l → u = t)
    (hw : s'.waiters 0 = s.waiters 0) (hev : s'.ev 0 = s.ev 0) : Frame0 s s' := by
  refine ⟨⟨l, hq, ?_⟩, ?_, hw, hev⟩
  · intro u hu
    rw [hl u hu, hst, upd_self]; exact hx
  · intro u hu
    rw [hst, upd_ne]
    rintro rfl
    exact hk hu

theorem not_keep_running {x : Status σ V} (h : isRunning x = true) : ¬ keep x := by
  cases x <;> simp [isRunning] at h
  rintro (h | h) <;> simp [qExp, wExp] at h

/-- A task starts to wait for the clock event. -/
structure Waits0 (t : Nat) (s s' : St σ G V) : Prop where
  q : s'.batch ++ s'.ready = s.batch ++ s.ready
  st : ∃ w, s'.st = upd s.st t (.pend w) ∧ wExp 0 (.pend w : Status σ V) = 1
  w : s'.waiters 0 = s.waiters 0 ++ [t]
  ev : s'.ev 0 = s.ev 0

theorem Waits0.woken {x : List Handle} {t : Nat} {s s' : St σ G V} (hi : InvX x s)
    (hr : isRunning (s.st t) = true) (h : Waits0 t s s') :
    Loop.woken s'.st (s'.batch ++ s'.ready) = Loop.woken s.st (s.batch ++ s.ready) := by
  rw [h.q]
  apply woken_congr
  intro u hu
  obtain ⟨w, h1, _⟩ := h.st
  rw [h1, upd_ne]
  rintro rfl
  have := hi.keep_of_mem hu
  revert this hr
  cases s.st u <;> simp [isRunning, qExp]

theorem Waits0.behind {x : List Handle} {t : Nat} {s s' : St σ G V} (hi : InvX x s)
    (hr : isRunning (s.st t) = true) (h : Waits0 t s s') (hb : Behind s) : Behind s' := by
  intro a b hab
  rw [h.q] at hab
  rw [← hb a b hab]
  apply woken_congr
  intro u hu
  obtain ⟨w, h1, _⟩ := h.st
  rw [h1, upd_ne]
  rintro rfl
  have := hi.keep_of_mem (t := u) (by rw [hab]; simp [hu])
  revert this hr
  cases s.st u <;> simp [isRunning, qExp]

/-- The program leaves the clock event alone: it never sets it. -/
def ClockPrivate (sys : Sys σ G V) : Prop :=
  ∀ k g, (∀ k', sys.prog k g ≠ .setEv 0 k') ∧
    ∀ h p k', sys.prog k g = .addHook h p k' → PrivHook h

def clockEv : Ev → Bool
  | .wait _ | .resume _ => true
  | _ => false

/-- What a primitive of a task does with respect to the clock event. -/
theorem exec_case0 {t : Nat} {k : σ} {s : St σ G V} (h : Inv s) (hc : s.cur = some (t, k))
    (c : Cmd σ G V) (hp : ∀ k', c ≠ .setEv 0 k') (hev : s.ev 0 = false) :
    ((Frame0 s (exec t c s) ∧ ∃ l, (exec t c s).log = s.log ++ l ∧
        ∀ e ∈ l, clockEv e = false ∧ e ≠ .step ∧ e ≠ .cancelAll) ∨
      (Waits0 t s (exec t c s) ∧ ∃ l, (exec t c s).log = s.log ++ (l ++ [.wait t]) ∧
        ∀ e ∈ l, clockEv e = false ∧ e ≠ .step ∧ e ≠ .cancelAll)) := by
  have h1 : InvC s.n s.st (s.batch ++ s.ready) s.ev s.waiters s.q s.getters s.joiners s.clock
    (some t) := by
    have := h.core; unfold InvS at this; rw [hc] at this; exact this
  have hr : isRunning (s.st t) = true := (h1.hcur t).2 rfl
  have hnk := not_keep_running hr
  have h1r : InvC s.n (upd s.st t .running) (s.batch ++ s.ready) s.ev s.waiters s.q s.getters
      s.joiners s.clock (some t) := by
    rw [upd_same _ _ _ (running_of h1)]; exact h1
  have hrs : s.st = upd s.st t .running := (upd_same _ _ _ (running_of h1)).symm
  have base : ∀ s' : St σ G V, s'.batch = s.batch → s'.ready = s.ready → s'.st = s.st →
      s'.waiters = s.waiters → s'.ev 0 = s.ev 0 → Frame0 s s' := by
    intro s' e1 e2 e3 e4 e5
    exact ⟨⟨[], by rw [e1, e2]; simp⟩, fun t _ => by rw [e3], by rw [e4], e5⟩
  have nolog : ∀ {s' : St σ G V}, s'.log = s.log → ∃ l, s'.log = s.log ++ l ∧
      ∀ e ∈ l, clockEv e = false ∧ e ≠ .step ∧ e ≠ .cancelAll := by
    intro s' he
    exact ⟨[], by simp [he]⟩
  cases c with
  | ret v =>
    simp only [exec]
    split
    · rename_i ht
      subst ht
      split
      · left
        refine ⟨finish_frame0 h1r hrs rfl rfl rfl rfl, [.testDone], ?_, by simp [clockEv]⟩
        rw [(finish_frame _ _ _).2.2.2.1]; rfl
      · right
        refine ⟨⟨rfl, ⟨_, rfl, rfl⟩, ?_, rfl⟩, [.testDone], ?_, by simp [clockEv]⟩
        · exact upd_self s.waiters 0 _
        · show (s.log ++ [Ev.testDone]) ++ [Ev.wait 0] = _
          simp
    · left
      exact ⟨finish_frame0 h1r hrs rfl rfl rfl rfl, nolog (finish_frame _ _ _).2.2.2.1⟩
  | raise held =>
    exact .inl ⟨fail_frame0 h1r hrs rfl rfl rfl rfl, nolog (fail_frame _ _ _).2.2.2.1⟩
  | comp g k => exact .inl ⟨base _ rfl rfl rfl rfl rfl, nolog rfl⟩
  | taskRun k => exact .inl ⟨base _ rfl rfl rfl rfl rfl, nolog rfl⟩
  | yield k' =>
    refine .inl ⟨frame0_upd t (.ready k') rfl hnk rfl [.task t] ?_ ?_ rfl rfl, nolog rfl⟩
    · show s.batch ++ (s.ready ++ [_]) = _
      rw [List.append_assoc]
    · intro u hu
      rw [List.mem_singleton] at hu
      injection hu
  | sleep k' =>
    exact .inl ⟨frame0_upd t _ rfl hnk rfl [] (by simp [exec, block]) (by simp) rfl rfl, nolog rfl⟩
  | waitEv e k' =>
    simp only [exec]
    split
    · exact .inl ⟨base _ rfl rfl rfl rfl rfl, nolog rfl⟩
    · split
      · rename_i he
        subst he
        right
        refine ⟨⟨rfl, ⟨_, rfl, rfl⟩, upd_self s.waiters 0 _, rfl⟩, [], rfl, by simp⟩
      · rename_i he
        left
        refine ⟨frame0_upd t _ rfl hnk rfl [] (by simp [block]) (by simp) ?_ rfl, nolog rfl⟩
        exact upd_ne _ _ _ _ (fun h => he h.symm)
  | setEv e k' =>
    left
    have he : e ≠ 0 := by rintro rfl; exact hp k' rfl
    have h2 := setEv_frame0 h he
    exact ⟨⟨h2.q, h2.st, h2.w, h2.ev⟩, nolog (setEv_frame e s).2.2.2.1⟩
  | clearEv e k' =>
    left
    refine ⟨base _ rfl rfl rfl rfl ?_, nolog rfl⟩
    show upd s.ev e false 0 = _
    by_cases he : e = 0
    · subst he; rw [upd_self, hev]
    · rw [upd_ne _ _ _ _ (fun h => he h.symm)]
  | put y v k' =>
    left
    have h2 := putQ_frame0 h y v
    exact ⟨⟨h2.q, h2.st, h2.w, h2.ev⟩, nolog (putQ_frame y v s).2.2.2.1⟩
  | get y k' =>
    simp only [exec]
    split
    · exact .inl ⟨frame0_upd t _ rfl hnk rfl [] (by simp [block]) (by simp) rfl rfl, nolog rfl⟩
    · exact .inl ⟨base _ rfl rfl rfl rfl rfl, nolog rfl⟩
  | spawn s0 k' =>
    left
    have h2 := spawn_frame0 h s0
    exact ⟨⟨h2.q, h2.st, h2.w, h2.ev⟩, nolog rfl⟩
  | join u k' kx =>
    simp only [exec]
    split
    · exact .inl ⟨base _ rfl rfl rfl rfl rfl, nolog rfl⟩
    · split
      · exact .inl ⟨base _ rfl rfl rfl rfl rfl, nolog rfl⟩
      · exact .inl ⟨finish_frame0 h1r hrs rfl rfl rfl rfl, nolog (finish_frame _ _ _).2.2.2.1⟩
    · exact .inl ⟨frame0_upd t _ rfl hnk rfl [] (by simp [block]) (by simp) rfl rfl, nolog rfl⟩
  | addHook hk p k' =>
    exact .inl ⟨base _ rfl rfl rfl rfl rfl, [.req s.nextHook p], rfl, by simp [clockEv]⟩
  | startClock k' =>
    simp only [exec]
    split
    · left
      refine ⟨⟨⟨[.clock], ?_, by simp⟩, fun _ _ => rfl, rfl, rfl⟩, nolog rfl⟩
      show s.batch ++ (s.ready ++ [_]) = _
      rw [List.append_assoc]
    · exact .inl ⟨base _ rfl rfl rfl rfl rfl, nolog rfl⟩

/-- The state in which the task at the head of the queue has been taken from it and runs. -/
def taken (t : Nat) (rest : List Handle) (s : St σ G V) : St σ G V :=
  { s with batch := rest, st := upd s.st t .running }

theorem resume_case0 {t : Nat} {rest : List Handle} {s : St σ G V} (h : Inv s) (hc : s.cur = none)
    (hb : s.batch = .task t :: rest) :
    Frame0 (taken t rest s) (resume t { s with batch := rest }) ∧
    (resume t { s with batch := rest }).log =
      s.log ++ (if is0 (s.st t) then [.resume t] else []) := by
  have h1 : InvC s.n s.st (.task t :: (rest ++ s.ready)) s.ev s.waiters s.q s.getters s.joiners
      s.clock none := by
    have := h.core; unfold InvS at this; rw [hc, hb] at this; exact this
  have hnk : ¬ keep ((taken t rest s).st t) := by
    show ¬ keep (upd s.st t .running t)
    rw [upd_self]; exact not_keep_running rfl
  unfold resume
  simp only
  split
  · rename_i k hk
    rw [hk]
    exact ⟨⟨⟨[], by simp [taken]⟩, fun _ _ => rfl, rfl, rfl⟩, by simp [is0]⟩
  · rename_i e k hk
    have hk : s.st t = _ := hk
    rw [hk]
    by_cases he : e = 0
    · simp only [he, if_true, is0]
      exact ⟨⟨⟨[], by simp [taken, note]⟩, fun _ _ => rfl, rfl, rfl⟩, by simp [note]⟩
    · simp only [he, if_false, is0]
      exact ⟨⟨⟨[], by simp [taken]⟩, fun _ _ => rfl, rfl, rfl⟩, by simp [he]⟩
  · rename_i k hk
    rw [hk]
    exact ⟨⟨⟨[], by simp [taken]⟩, fun _ _ => rfl, rfl, rfl⟩, by simp [is0]⟩
  · rename_i y k hk
    rw [hk]
    split
    · refine ⟨frame0_upd t (.pend (.get y k)) ?_ hnk rfl [] (by simp [taken]) (by simp) rfl rfl,
        by simp [is0]⟩
      show upd s.st t _ = upd (upd s.st t .running) t _
      rw [upd_upd]
    · exact ⟨⟨⟨[], by simp [taken]⟩, fun _ _ => rfl, rfl, rfl⟩, by simp [is0]⟩
  · rename_i u k kx hk
    have hk : s.st t = _ := hk
    split
    · rw [hk]
      exact ⟨⟨⟨[], by simp [taken]⟩, fun _ _ => rfl, rfl, rfl⟩, by simp [is0]⟩
    · split
      · rw [hk]
        exact ⟨⟨⟨[], by simp [taken]⟩, fun _ _ => rfl, rfl, rfl⟩, by simp [is0]⟩
      · refine ⟨finish_frame0 ?_ rfl rfl rfl rfl rfl, ?_⟩
        · exact h1.start (by intro y; rw [hk]; rfl)
        · rw [(finish_frame _ _ _).2.2.2.1, hk]; simp [is0]
  · rename_i v hk
    have hk : s.st t = _ := hk
    refine ⟨finish_frame0 ?_ rfl rfl rfl rfl rfl, ?_⟩
    · exact h1.start (by intro y; rw [hk]; rfl)
    · rw [(finish_frame _ _ _).2.2.2.1, hk]; simp [is0, note]
  · rename_i n1 n2 n3 n4 n5 n6
    exfalso
    have := h1.hq t
    rw [List.count_cons] at this
    cases hs : s.st t with
    | ready k => exact n1 k hs
    | fin w =>
      cases w with
      | ev e k => exact n2 e k hs
      | get y k => exact n4 y k hs
      | join u k kx => exact n5 u k kx hs
      | timer k => exact n3 k hs
      | final v => exact n6 v hs
    | _ => rw [hs] at this; simp [qExp] at this

end Toffee.Loop
