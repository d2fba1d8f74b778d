import Verif.Model.Clocks

/-! Several clocks (`toffee/asynchronous.py`): C114. -/

namespace Toffee.Clocks

variable {σ G : Type}

/-! ## Specification -/

/-- Nothing but the clocks can run: every task waits or has ended. -/
def Quiet (s : St σ G) : Prop := ∀ t, (∃ w, s.st t = .pend w) ∨ s.st t = .done

/-- The event that a task waits for. -/
def Wait.event : Wait σ → Nat
  | .ev e _ => e
  | .final e => e

/-- DUT `d` is stepped by the next micro step. -/
def Steps (sys : Sys σ G) (s : St σ G) (d : Nat) : Prop := (step sys s).steps d ≠ s.steps d

/-! ## The invariant -/

def Pc.active : Pc → Bool
  | .begin | .check | .afterCancel => true
  | _ => false

def Status.scheduled : Status σ → Bool
  | .ready _ | .fin _ => true
  | _ => false

structure Core (s : St σ G) : Prop where
  cur : ∀ t k, s.cur = some (t, k) → s.st t = .running
  running : ∀ t, s.st t = .running → ∃ k, s.cur = some (t, k)
  fresh : ∀ t, s.n ≤ t → s.st t = .done
  sched : ∀ t, .task t ∈ s.batch ++ s.ready → (s.st t).scheduled = true
  once : ∀ t, (s.batch ++ s.ready).count (Handle.task t) ≤ 1
  pend : ∀ t w, s.st t = .pend w → t ∈ s.waiters w.event ∧ s.ev w.event = false
  waits : ∀ e t, t ∈ s.waiters e → ∃ w, s.st t = .pend w ∧ w.event = e
  nodup : ∀ e, (s.waiters e).Nodup
  coff : ∀ c, s.nc ≤ c → s.clk c = .off
  count : ∀ c, (s.batch ++ s.ready).count (Handle.clock c) = if (s.clk c).active then 1 else 0
  stop : (Handle.stop ∈ s.batch ++ s.ready ∨ s.stopping = true) → s.st 0 = .done

/-- What holds after `cancel_all_tasks` in clock task `c`. -/
structure After (s : St σ G) (c : Nat) : Prop where
  cur : s.cur = none
  testDone : s.testDone = true
  main : (∃ e, s.st 0 = .pend (.final e)) ∨ s.st 0 = .done
  tasks : ∀ t, t ≠ 0 → s.st t = .done
  handles : ∀ h ∈ s.batch ++ s.ready, h = .clock c ∨ h = .stop

structure Inv (s : St σ G) : Prop extends Core s where
  after : ∀ c, s.clk c = .afterCancel → After s c
  /-- After the test, `main_coro` waits for the clock event or has ended. -/
  ended : s.testDone = true →
    (∃ e, s.st 0 = .pend (.final e)) ∨ (∃ e, s.st 0 = .fin (.final e)) ∨ s.st 0 = .done

theorem inv_init (g : G) (k : σ) : Inv (init g k : St σ G) where
  cur := by intro t k h; cases h
  running := by
    intro t h
    simp only [init] at h
    split at h <;> cases h
  fresh := by
    intro t h
    have h : 1 ≤ t := h
    simp only [init]
    rw [if_neg (by omega)]
  sched := by
    intro t h
    simp only [init, List.nil_append, List.mem_singleton, Handle.task.injEq] at h
    subst h
    rfl
  once := by
    intro t
    show [Handle.task 0].count (Handle.task t) ≤ 1
    exact List.count_le_length
  pend := by
    intro t w h
    simp only [init] at h
    split at h <;> cases h
  waits := by intro e t h; cases h
  nodup := by intro e; exact List.nodup_nil
  coff := by intro c _; rfl
  count := by intro c; rfl
  stop := by
    rintro (h | h)
    · simp [init] at h
    · cases h
  after := by intro c h; cases h
  ended := by intro h; cases h

/-! ### Steps of the machine -/

theorem upd_self {α : Type} (f : Nat → α) (k : Nat) (v : α) : upd f k v k = v := if_pos rfl

theorem upd_of_ne {α : Type} (f : Nat → α) {k i : Nat} (v : α) (h : i ≠ k) : upd f k v i = f i :=
  if_neg h

theorem Core.setEv {s : St σ G} (h : Core s) (e : Nat) : Core (setEv e s) := by
  unfold Clocks.setEv
  split
  · exact h
  · rename_i hev
    have hst : ∀ t, t ∈ s.waiters e → ∃ w, s.st t = .pend w ∧ w.event = e := h.waits e
    refine ⟨?_, ?_, ?_, ?_, ?_, ?_, ?_, ?_, h.coff, ?_, ?_⟩
    · intro t k hc
      have hr := h.cur t k hc
      show (if t ∈ s.waiters e then (s.st t).finish else s.st t) = _
      rw [hr]
      split <;> rfl
    · intro t hr
      have hr : (if t ∈ s.waiters e then (s.st t).finish else s.st t) = _ := hr
      split at hr
      · rename_i ht
        obtain ⟨w, hw, _⟩ := hst t ht
        rw [hw] at hr
        cases hr
      · exact h.running t hr
    · intro t ht
      have := h.fresh t ht
      show (if t ∈ s.waiters e then (s.st t).finish else s.st t) = _
      rw [this]
      split <;> rfl
    · intro t ht
      show (if t ∈ s.waiters e then (s.st t).finish else s.st t).scheduled = true
      have ht : Handle.task t ∈ s.batch ++ (s.ready ++ (s.waiters e).map Handle.task) := ht
      rw [← List.append_assoc, List.mem_append] at ht
      by_cases hm : t ∈ s.waiters e
      · obtain ⟨w, hw, _⟩ := hst t hm
        rw [if_pos hm, hw]
        rfl
      · rw [if_neg hm]
        rcases ht with ht | ht
        · exact h.sched t ht
        · obtain ⟨u, hu, he⟩ := List.mem_map.1 ht
          cases he
          exact absurd hu hm
    · intro t
      show (s.batch ++ (s.ready ++ (s.waiters e).map Handle.task)).count (Handle.task t) ≤ 1
      rw [← List.append_assoc, List.count_append]
      have hnd : ((s.waiters e).map Handle.task).Nodup :=
        List.pairwise_map.2 ((h.nodup e).imp fun hab he => hab (by cases he; rfl))
      have h1 := List.nodup_iff_count.1 hnd (Handle.task t)
      by_cases hm : t ∈ s.waiters e
      · have : (s.batch ++ s.ready).count (Handle.task t) = 0 := by
          rw [List.count_eq_zero]
          intro hx
          obtain ⟨w, hw, _⟩ := hst t hm
          have := h.sched t hx
          rw [hw] at this
          cases this
        omega
      · have : ((s.waiters e).map Handle.task).count (Handle.task t) = 0 := by
          rw [List.count_eq_zero]
          intro hx
          obtain ⟨u, hu, he⟩ := List.mem_map.1 hx
          cases he
          exact hm hu
        have := h.once t
        omega
    · intro t w hp
      have hp : (if t ∈ s.waiters e then (s.st t).finish else s.st t) = _ := hp
      split at hp
      · rename_i hm
        obtain ⟨w', hw, _⟩ := hst t hm
        rw [hw] at hp
        cases hp
      · rename_i hm
        obtain ⟨h1, h2⟩ := h.pend t w hp
        have hne : w.event ≠ e := by
          intro he
          exact hm (he ▸ h1)
        exact ⟨by show t ∈ upd s.waiters e [] w.event; rwa [upd_of_ne _ _ hne],
          by show upd s.ev e true w.event = false; rwa [upd_of_ne _ _ hne]⟩
    · intro e' t ht
      have ht : t ∈ upd s.waiters e [] e' := ht
      by_cases he : e' = e
      · subst he
        rw [upd_self] at ht
        cases ht
      · rw [upd_of_ne _ _ he] at ht
        obtain ⟨w, hw, hwe⟩ := h.waits e' t ht
        refine ⟨w, ?_, hwe⟩
        show (if t ∈ s.waiters e then (s.st t).finish else s.st t) = _
        rw [if_neg, hw]
        intro hm
        obtain ⟨w', hw', hwe'⟩ := hst t hm
        rw [hw] at hw'
        cases hw'
        exact he (hwe.symm.trans hwe')
    · intro e'
      show (upd s.waiters e [] e').Nodup
      by_cases he : e' = e
      · subst he; rw [upd_self]; exact List.nodup_nil
      · rw [upd_of_ne _ _ he]; exact h.nodup e'
    · intro c
      show (s.batch ++ (s.ready ++ (s.waiters e).map Handle.task)).count (Handle.clock c) = _
      rw [← List.append_assoc, List.count_append, h.count c]
      have : ((s.waiters e).map Handle.task).count (Handle.clock c) = 0 := by
        rw [List.count_eq_zero]
        intro hm
        obtain ⟨u, _, he⟩ := List.mem_map.1 hm
        cases he
      rw [this]
      rfl
    · intro hs
      have hs : Handle.stop ∈ s.batch ++ (s.ready ++ (s.waiters e).map Handle.task) ∨ s.stopping = true := hs
      have h0 : s.st 0 = .done := by
        refine h.stop ?_
        rcases hs with hs | hs
        · rw [← List.append_assoc, List.mem_append] at hs
          rcases hs with hs | hs
          · exact .inl hs
          · obtain ⟨u, _, he⟩ := List.mem_map.1 hs
            cases he
        · exact .inr hs
      show (if 0 ∈ s.waiters e then (s.st 0).finish else s.st 0) = _
      rw [h0]
      split <;> rfl

/-- The current task goes on. -/
theorem Core.cont {s : St σ G} (h : Core s) {t : Nat} {k : σ} (hc : s.cur = some (t, k)) (k' : σ) :
    Core { s with cur := some (t, k') } :=
  { h with
    cur := by
      intro u k'' hu
      simp only [Option.some.injEq, Prod.mk.injEq] at hu
      rw [← hu.1]
      exact h.cur t k hc
    running := by
      intro u hu
      obtain ⟨k'', hk⟩ := h.running u hu
      rw [hc] at hk
      cases hk
      exact ⟨k', rfl⟩ }

theorem Core.clearEv {s : St σ G} (h : Core s) (e : Nat) : Core { s with ev := upd s.ev e false } :=
  { h with
    pend := by
      intro t w hp
      obtain ⟨h1, h2⟩ := h.pend t w hp
      refine ⟨h1, ?_⟩
      show upd s.ev e false w.event = false
      unfold upd
      split
      · rfl
      · exact h2 }

/-- What is known about the current task. -/
theorem Core.current {s : St σ G} (h : Core s) {t : Nat} {k : σ} (hc : s.cur = some (t, k)) :
    (∀ u, s.st u = .running → u = t) ∧ t < s.n ∧ (∀ e, t ∉ s.waiters e) ∧
      Handle.task t ∉ s.batch ++ s.ready := by
  have hrun := h.cur t k hc
  refine ⟨?_, ?_, ?_, ?_⟩
  · intro u hu
    obtain ⟨k', hk⟩ := h.running u hu
    rw [hc] at hk
    cases hk
    rfl
  · apply Classical.byContradiction
    intro hn
    rw [h.fresh t (by omega)] at hrun
    cases hrun
  · intro e he
    obtain ⟨w, hw, _⟩ := h.waits e t he
    rw [hrun] at hw
    cases hw
  · intro hm
    have := h.sched t hm
    rw [hrun] at this
    cases this

/-- A task that is scheduled or runs ends. -/
theorem Core.finish {s : St σ G} (h : Core s) {t : Nat} (hcur : s.cur = none ∨ ∃ k, s.cur = some (t, k))
    (hp : ∀ w, s.st t ≠ .pend w) (hh : Handle.task t ∉ s.batch ++ s.ready) :
    Core (finish t s) := by
  have hw : ∀ e, t ∉ s.waiters e := by
    intro e he
    obtain ⟨w, hw, _⟩ := h.waits e t he
    exact hp w hw
  have hnr : ∀ u, u ≠ t → s.st u ≠ .running := by
    intro u hu hr
    obtain ⟨k, hk⟩ := h.running u hr
    rcases hcur with hc | ⟨k', hc⟩ <;> rw [hc] at hk
    · cases hk
    · cases hk; exact hu rfl
  have h1 : Core { s with st := upd s.st t .done, cur := none } := by
    refine ⟨?_, ?_, ?_, ?_, h.once, ?_, ?_, h.nodup, h.coff, h.count, ?_⟩
    · intro u k hu; cases hu
    · intro u hu
      have hu : upd s.st t .done u = .running := hu
      by_cases he : u = t
      · subst he; rw [upd_self] at hu; cases hu
      · rw [upd_of_ne _ _ he] at hu; exact absurd hu (hnr u he)
    · intro u hu
      show upd s.st t .done u = .done
      by_cases he : u = t
      · subst he; rw [upd_self]
      · rw [upd_of_ne _ _ he]; exact h.fresh u hu
    · intro u hu
      show (upd s.st t .done u).scheduled = true
      by_cases he : u = t
      · subst he; exact absurd hu hh
      · rw [upd_of_ne _ _ he]; exact h.sched u hu
    · intro u w hu
      have hu : upd s.st t .done u = .pend w := hu
      by_cases he : u = t
      · subst he; rw [upd_self] at hu; cases hu
      · rw [upd_of_ne _ _ he] at hu; exact h.pend u w hu
    · intro e u hu
      have he : u ≠ t := by rintro rfl; exact hw e hu
      obtain ⟨w, h1, h2⟩ := h.waits e u hu
      exact ⟨w, by show upd s.st t .done u = _; rwa [upd_of_ne _ _ he], h2⟩
    · intro hs
      show upd s.st t .done 0 = .done
      unfold upd
      split
      · rfl
      · exact h.stop hs
  unfold Clocks.finish
  simp only []
  split
  · rename_i h0
    subst h0
    exact { h1 with
      sched := by
        intro u hu
        have hu : Handle.task u ∈ s.batch ++ (s.ready ++ [Handle.stop]) := hu
        refine h1.sched u ?_
        rw [← List.append_assoc, List.mem_append] at hu
        rcases hu with hu | hu
        · exact hu
        · cases List.mem_singleton.1 hu
      once := by
        intro u
        show (s.batch ++ (s.ready ++ [Handle.stop])).count (Handle.task u) ≤ 1
        rw [← List.append_assoc, List.count_append]
        exact h1.once u
      count := by
        intro c
        show (s.batch ++ (s.ready ++ [Handle.stop])).count (Handle.clock c) = _
        rw [← List.append_assoc, List.count_append, show (s.batch ++ s.ready).count (Handle.clock c) = _ from
          h1.count c]
        rfl
      stop := fun _ => show upd s.st 0 .done 0 = .done from upd_self _ _ _ }
  · exact h1

theorem Core.block {s : St σ G} (h : Core s) {t : Nat} {k : σ} (hc : s.cur = some (t, k)) (w : Wait σ)
    (hev : s.ev w.event = false) : Core (block t w.event w s) := by
  obtain ⟨hone, htn, hw, hh⟩ := h.current hc
  have hrun := h.cur t k hc
  refine ⟨?_, ?_, ?_, ?_, h.once, ?_, ?_, ?_, h.coff, h.count, ?_⟩
  · intro u k hu; cases hu
  · intro u hu
    have hu : upd s.st t (.pend w) u = .running := hu
    by_cases he : u = t
    · subst he; rw [upd_self] at hu; cases hu
    · rw [upd_of_ne _ _ he] at hu; exact absurd (hone u hu) he
  · intro u hu
    have hu : s.n ≤ u := hu
    show upd s.st t (.pend w) u = .done
    rw [upd_of_ne _ _ (by omega)]; exact h.fresh u hu
  · intro u hu
    show (upd s.st t (.pend w) u).scheduled = true
    by_cases he : u = t
    · subst he; exact absurd hu hh
    · rw [upd_of_ne _ _ he]; exact h.sched u hu
  · intro u w' hu
    have hu : upd s.st t (.pend w) u = .pend w' := hu
    show u ∈ upd s.waiters w.event _ w'.event ∧ _
    by_cases he : u = t
    · subst he
      rw [upd_self] at hu
      cases hu
      rw [upd_self]
      exact ⟨by simp, hev⟩
    · rw [upd_of_ne _ _ he] at hu
      obtain ⟨h1, h2⟩ := h.pend u w' hu
      refine ⟨?_, h2⟩
      by_cases hee : w'.event = w.event
      · rw [← hee, upd_self]; exact List.mem_append_left _ h1
      · rwa [upd_of_ne _ _ hee]
  · intro e u hu
    have hu : u ∈ upd s.waiters w.event (s.waiters w.event ++ [t]) e := hu
    have key : u ∈ s.waiters e ∨ (u = t ∧ e = w.event) := by
      by_cases hee : e = w.event
      · subst hee
        rw [upd_self, List.mem_append, List.mem_singleton] at hu
        rcases hu with hu | hu
        · exact .inl hu
        · exact .inr ⟨hu, rfl⟩
      · rw [upd_of_ne _ _ hee] at hu; exact .inl hu
    rcases key with hx | ⟨rfl, rfl⟩
    · have he : u ≠ t := by rintro rfl; exact hw e hx
      obtain ⟨w', h1, h2⟩ := h.waits e u hx
      exact ⟨w', by show upd s.st t _ u = _; rwa [upd_of_ne _ _ he], h2⟩
    · exact ⟨w, upd_self _ _ _, rfl⟩
  · intro e
    show (upd s.waiters w.event (s.waiters w.event ++ [t]) e).Nodup
    by_cases hee : e = w.event
    · subst hee
      rw [upd_self, List.nodup_append]
      refine ⟨h.nodup _, by simp, ?_⟩
      intro a ha b hb
      rw [List.mem_singleton] at hb
      rintro rfl
      exact hw _ (hb ▸ ha)
    · rw [upd_of_ne _ _ hee]; exact h.nodup e
  · intro hs
    have h0 := h.stop hs
    show upd s.st t (.pend w) 0 = .done
    rw [upd_of_ne, h0]
    rintro rfl
    rw [h0] at hrun
    cases hrun

theorem Core.yield {s : St σ G} (h : Core s) {t : Nat} {k : σ} (hc : s.cur = some (t, k)) (k' : σ) :
    Core (push (.task t) { s with st := upd s.st t (.ready k'), cur := none }) := by
  obtain ⟨hone, htn, hw, hh⟩ := h.current hc
  have hrun := h.cur t k hc
  refine ⟨?_, ?_, ?_, ?_, ?_, ?_, ?_, h.nodup, h.coff, ?_, ?_⟩
  · intro u k hu; cases hu
  · intro u hu
    have hu : upd s.st t (.ready k') u = .running := hu
    by_cases he : u = t
    · subst he; rw [upd_self] at hu; cases hu
    · rw [upd_of_ne _ _ he] at hu; exact absurd (hone u hu) he
  · intro u hu
    have hu : s.n ≤ u := hu
    show upd s.st t (.ready k') u = .done
    rw [upd_of_ne _ _ (by omega)]; exact h.fresh u hu
  · intro u hu
    have hu : Handle.task u ∈ s.batch ++ (s.ready ++ [Handle.task t]) := hu
    show (upd s.st t (.ready k') u).scheduled = true
    by_cases he : u = t
    · subst he; rw [upd_self]; rfl
    · rw [upd_of_ne _ _ he]
      refine h.sched u ?_
      rw [← List.append_assoc, List.mem_append] at hu
      rcases hu with hu | hu
      · exact hu
      · cases List.mem_singleton.1 hu
        exact absurd rfl he
  · intro u
    show (s.batch ++ (s.ready ++ [Handle.task t])).count (Handle.task u) ≤ 1
    rw [← List.append_assoc, List.count_append, List.count_singleton]
    by_cases he : u = t
    · subst he
      rw [List.count_eq_zero.2 hh]
      simp
    · have := h.once u
      have hne : ¬ t = u := fun e => he e.symm
      simpa [hne] using this
  · intro u w hu
    have hu : upd s.st t (.ready k') u = .pend w := hu
    by_cases he : u = t
    · subst he; rw [upd_self] at hu; cases hu
    · rw [upd_of_ne _ _ he] at hu; exact h.pend u w hu
  · intro e u hu
    have he : u ≠ t := by rintro rfl; exact hw e hu
    obtain ⟨w, h1, h2⟩ := h.waits e u hu
    exact ⟨w, by show upd s.st t _ u = _; rwa [upd_of_ne _ _ he], h2⟩
  · intro c
    show (s.batch ++ (s.ready ++ [Handle.task t])).count (Handle.clock c) = _
    rw [← List.append_assoc, List.count_append, h.count c]
    rfl
  · intro hs
    have h0 : s.st 0 = .done := by
      refine h.stop ?_
      rcases hs with hs | hs
      · have hs : Handle.stop ∈ s.batch ++ (s.ready ++ [Handle.task t]) := hs
        rw [← List.append_assoc, List.mem_append] at hs
        rcases hs with hs | hs
        · exact .inl hs
        · cases List.mem_singleton.1 hs
      · exact .inr hs
    show upd s.st t (.ready k') 0 = .done
    rw [upd_of_ne, h0]
    rintro rfl
    rw [h0] at hrun
    cases hrun

theorem Core.spawn {s : St σ G} (h : Core s) (k' : σ) (h0n : 0 < s.n) :
    Core (push (.task s.n) { s with st := upd s.st s.n (.ready k'), n := s.n + 1 }) := by
  have hf := h.fresh s.n (Nat.le_refl _)
  refine ⟨?_, ?_, ?_, ?_, ?_, ?_, ?_, h.nodup, h.coff, ?_, ?_⟩
  · intro u k hu
    have hr := h.cur u k hu
    show upd s.st s.n (.ready k') u = _
    rw [upd_of_ne, hr]
    rintro rfl
    rw [hf] at hr; cases hr
  · intro u hu
    have hu : upd s.st s.n (.ready k') u = .running := hu
    by_cases he : u = s.n
    · subst he; rw [upd_self] at hu; cases hu
    · rw [upd_of_ne _ _ he] at hu; exact h.running u hu
  · intro u hu
    have hu : s.n + 1 ≤ u := hu
    show upd s.st s.n (.ready k') u = .done
    rw [upd_of_ne _ _ (by omega)]; exact h.fresh u (by omega)
  · intro u hu
    have hu : Handle.task u ∈ s.batch ++ (s.ready ++ [Handle.task s.n]) := hu
    show (upd s.st s.n (.ready k') u).scheduled = true
    by_cases he : u = s.n
    · subst he; rw [upd_self]; rfl
    · rw [upd_of_ne _ _ he]
      refine h.sched u ?_
      rw [← List.append_assoc, List.mem_append] at hu
      rcases hu with hu | hu
      · exact hu
      · cases List.mem_singleton.1 hu
        exact absurd rfl he
  · intro u
    show (s.batch ++ (s.ready ++ [Handle.task s.n])).count (Handle.task u) ≤ 1
    rw [← List.append_assoc, List.count_append, List.count_singleton]
    by_cases he : u = s.n
    · subst he
      rw [List.count_eq_zero.2 (fun hx => by have := h.sched s.n hx; rw [hf] at this; cases this)]
      simp
    · have := h.once u
      have hne : ¬ s.n = u := fun e => he e.symm
      simpa [hne] using this
  · intro u w hu
    have hu : upd s.st s.n (.ready k') u = .pend w := hu
    by_cases he : u = s.n
    · subst he; rw [upd_self] at hu; cases hu
    · rw [upd_of_ne _ _ he] at hu; exact h.pend u w hu
  · intro e u hu
    obtain ⟨w, h1, h2⟩ := h.waits e u hu
    have he : u ≠ s.n := by rintro rfl; rw [hf] at h1; cases h1
    exact ⟨w, by show upd s.st s.n _ u = _; rwa [upd_of_ne _ _ he], h2⟩
  · intro c
    show (s.batch ++ (s.ready ++ [Handle.task s.n])).count (Handle.clock c) = _
    rw [← List.append_assoc, List.count_append, h.count c]
    rfl
  · intro hs
    have h0 : s.st 0 = .done := by
      refine h.stop ?_
      rcases hs with hs | hs
      · have hs : Handle.stop ∈ s.batch ++ (s.ready ++ [Handle.task s.n]) := hs
        rw [← List.append_assoc, List.mem_append] at hs
        rcases hs with hs | hs
        · exact .inl hs
        · cases List.mem_singleton.1 hs
      · exact .inr hs
    show upd s.st s.n (.ready k') 0 = .done
    rw [upd_of_ne _ _ (by omega), h0]

/-- A clock task without a handle is scheduled. -/
theorem Core.pushClock {s : St σ G} (h : Core s) {c : Nat} {x : Pc} (hx : x.active = true)
    (h0 : (s.batch ++ s.ready).count (Handle.clock c) = 0) (hc : c < s.nc) :
    Core (push (.clock c) { s with clk := upd s.clk c x }) := by
  refine ⟨h.cur, h.running, h.fresh, ?_, ?_, h.pend, h.waits, h.nodup, ?_, ?_, ?_⟩
  · intro u hu
    have hu : Handle.task u ∈ s.batch ++ (s.ready ++ [Handle.clock c]) := hu
    refine h.sched u ?_
    rw [← List.append_assoc, List.mem_append] at hu
    rcases hu with hu | hu
    · exact hu
    · cases List.mem_singleton.1 hu
  · intro u
    show (s.batch ++ (s.ready ++ [Handle.clock c])).count (Handle.task u) ≤ 1
    rw [← List.append_assoc, List.count_append]
    exact h.once u
  · intro c' hc'
    have hc' : s.nc ≤ c' := hc'
    show upd s.clk c x c' = .off
    rw [upd_of_ne _ _ (by omega)]
    exact h.coff c' hc'
  · intro c'
    show (s.batch ++ (s.ready ++ [Handle.clock c])).count (Handle.clock c') = if (upd s.clk c x c').active then 1 else 0
    rw [← List.append_assoc, List.count_append]
    by_cases he : c' = c
    · subst he
      rw [h0, upd_self, hx]
      simp
    · rw [upd_of_ne _ _ he, h.count c', List.count_singleton]
      have : ¬ c = c' := fun e => he e.symm
      simp [this]
  · intro hs
    refine h.stop ?_
    rcases hs with hs | hs
    · have hs : Handle.stop ∈ s.batch ++ (s.ready ++ [Handle.clock c]) := hs
      rw [← List.append_assoc, List.mem_append] at hs
      rcases hs with hs | hs
      · exact .inl hs
      · cases List.mem_singleton.1 hs
    · exact .inr hs

/-- `main_coro` after the test. -/
def Ended (s : St σ G) : Prop :=
  (∃ e, s.st 0 = .pend (.final e)) ∨ (∃ e, s.st 0 = .fin (.final e)) ∨ s.st 0 = .done

theorem Ended.setEv {s : St σ G} (h : Ended s) (e : Nat) : Ended (setEv e s) := by
  unfold Clocks.setEv
  split
  · exact h
  · show (∃ e', (if 0 ∈ s.waiters e then (s.st 0).finish else s.st 0) = .pend (.final e')) ∨
      (∃ e', (if 0 ∈ s.waiters e then (s.st 0).finish else s.st 0) = .fin (.final e')) ∨
      (if 0 ∈ s.waiters e then (s.st 0).finish else s.st 0) = .done
    rcases h with ⟨e', h⟩ | ⟨e', h⟩ | h <;> rw [h] <;> split
    · exact .inr (.inl ⟨e', rfl⟩)
    · exact .inl ⟨e', rfl⟩
    · exact .inr (.inl ⟨e', rfl⟩)
    · exact .inr (.inl ⟨e', rfl⟩)
    · exact .inr (.inr rfl)
    · exact .inr (.inr rfl)

theorem Ended.ne {s : St σ G} (h : Ended s) {t : Nat} (hr : s.st t = .running) : t ≠ 0 := by
  rintro rfl
  rcases h with ⟨e', h⟩ | ⟨e', h⟩ | h <;> rw [h] at hr <;> cases hr

theorem Ended.of_eq {s s' : St σ G} (h : Ended s) (he : s'.st 0 = s.st 0) : Ended s' := by
  unfold Ended at *
  rwa [he]

theorem setEv_clk (e : Nat) (s : St σ G) : (setEv e s).clk = s.clk := by
  unfold setEv; split <;> rfl

theorem setEv_cur (e : Nat) (s : St σ G) : (setEv e s).cur = s.cur := by
  unfold setEv; split <;> rfl

theorem setEv_testDone (e : Nat) (s : St σ G) : (setEv e s).testDone = s.testDone := by
  unfold setEv; split <;> rfl

theorem finish_clk (t : Nat) (s : St σ G) : (finish t s).clk = s.clk := by
  unfold finish; simp only []; split <;> rfl

theorem finish_st (t : Nat) (s : St σ G) : (finish t s).st = upd s.st t .done := by
  unfold finish; simp only []; split <;> rfl

theorem finish_testDone (t : Nat) (s : St σ G) : (finish t s).testDone = s.testDone := by
  unfold finish; simp only []; split <;> rfl

theorem Inv.exec {s : St σ G} (h : Inv s) {t : Nat} {k : σ} (hc : s.cur = some (t, k)) (cmd : Cmd σ G) :
    Inv (exec t cmd s) := by
  have hrun := h.cur t k hc
  obtain ⟨hone, htn, hw, hh⟩ := h.toCore.current hc
  have hna : ∀ c, s.clk c ≠ .afterCancel := by
    intro c ha
    rw [(h.after c ha).cur] at hc
    cases hc
  have hnp : ∀ w, s.st t ≠ .pend w := by intro w hp; rw [hrun] at hp; cases hp
  have h0 : s.testDone = true → t ≠ 0 := fun hd => Ended.ne (h.ended hd) hrun
  have hcd : Core { s with testDone := true } := { h.toCore with }
  cases cmd with
  | ret =>
    simp only [Clocks.exec]
    by_cases ht : t = 0
    · subst ht
      rw [if_pos rfl]
      have hf : Inv (finish 0 { s with testDone := true }) :=
        { hcd.finish (t := 0) (.inr ⟨k, hc⟩) hnp hh with
          after := by
            intro c ha
            rw [finish_clk] at ha
            exact absurd ha (hna c)
          ended := fun _ => .inr (.inr (by rw [finish_st, upd_self])) }
      split
      · exact hf
      · rename_i e _
        split
        · exact hf
        · rename_i hev
          exact { hcd.block (t := 0) (k := k) hc (.final e) (Bool.eq_false_iff.2 hev) with
            after := fun c ha => absurd ha (hna c)
            ended := fun _ => .inl ⟨e, show upd s.st 0 _ 0 = _ from upd_self _ _ _⟩ }
    · rw [if_neg ht]
      exact { h.toCore.finish (.inr ⟨k, hc⟩) hnp hh with
        after := by
          intro c ha
          rw [finish_clk] at ha
          exact absurd ha (hna c)
        ended := by
          intro hd
          rw [finish_testDone] at hd
          exact Ended.of_eq (h.ended hd) (by rw [finish_st, upd_of_ne _ _ (Ne.symm ht)]) }
  | comp g k' =>
    exact { h.toCore.cont hc k' with after := fun c ha => absurd ha (hna c), ended := h.ended }
  | taskRun k' =>
    exact { h.toCore.cont hc k' with after := fun c ha => absurd ha (hna c), ended := h.ended }
  | yield k' =>
    exact { h.toCore.yield hc k' with
      after := fun c ha => absurd ha (hna c)
      ended := fun hd => Ended.of_eq (h.ended hd) (upd_of_ne _ _ (Ne.symm (h0 hd))) }
  | waitEv e k' =>
    simp only [Clocks.exec]
    split
    · exact { h.toCore.cont hc k' with after := fun c ha => absurd ha (hna c), ended := h.ended }
    · rename_i hev
      exact { h.toCore.block hc (.ev e k') (Bool.eq_false_iff.2 hev) with
        after := fun c ha => absurd ha (hna c)
        ended := fun hd => Ended.of_eq (h.ended hd) (upd_of_ne _ _ (Ne.symm (h0 hd))) }
  | setEv e k' =>
    exact { (h.toCore.setEv e).cont (by rw [setEv_cur]; exact hc) k' with
      after := by
        intro c ha
        have ha : (Clocks.setEv e s).clk c = _ := ha
        rw [setEv_clk] at ha
        exact absurd ha (hna c)
      ended := by
        intro hd
        have hd : (Clocks.setEv e s).testDone = true := hd
        rw [setEv_testDone] at hd
        exact Ended.of_eq (Ended.setEv (h.ended hd) e) rfl }
  | clearEv e k' =>
    exact { (h.toCore.clearEv e).cont hc k' with
      after := fun c ha => absurd ha (hna c), ended := h.ended }
  | spawn s0 k' =>
    exact { (h.toCore.cont hc k').spawn s0 (Nat.lt_of_le_of_lt (Nat.zero_le _) htn) with
      after := fun c ha => absurd ha (hna c)
      ended := fun hd => Ended.of_eq (h.ended hd)
        (upd_of_ne _ _ (by have : 0 < s.n := Nat.lt_of_le_of_lt (Nat.zero_le _) htn; omega)) }
  | startClock d k' =>
    have h1 : Core { s with dut := upd s.dut s.nc d, nc := s.nc + 1, glob := some d, cur := some (t, k') } :=
      { h.toCore.cont hc k' with coff := fun c hcc => h.coff c (Nat.le_of_succ_le hcc) }
    have h2 := h1.pushClock (c := s.nc) (x := .begin) rfl
      (by
        show (s.batch ++ s.ready).count (Handle.clock s.nc) = 0
        rw [h.count, h.coff s.nc (Nat.le_refl _)]
        rfl) (Nat.lt_succ_self _)
    exact { h2 with
      after := by
        intro c ha
        have ha : upd s.clk s.nc .begin c = .afterCancel := ha
        by_cases he : c = s.nc
        · subst he; rw [upd_self] at ha; cases ha
        · rw [upd_of_ne _ _ he] at ha; exact absurd ha (hna c)
      ended := h.ended }

/-- The first handle is taken out of the batch. -/
theorem Core.pop {s : St σ G} (h : Core s) {x : Handle} {rest : List Handle} (hb : s.batch = x :: rest)
    (hx : ∀ c, x ≠ .clock c) : Core { s with batch := rest } :=
  { h with
    sched := by
      intro t ht
      refine h.sched t ?_
      rw [hb]
      exact List.mem_cons_of_mem _ ht
    once := by
      intro t
      refine Nat.le_trans ?_ (h.once t)
      rw [hb]
      exact List.count_le_count_cons
    count := by
      intro c
      have := h.count c
      rw [hb, List.cons_append, List.count_cons, if_neg (by simpa using hx c)] at this
      exact this
    stop := by
      rintro (hs | hs)
      · refine h.stop (.inl ?_)
        rw [hb]
        exact List.mem_cons_of_mem _ hs
      · exact h.stop (.inr hs) }

theorem Inv.resume {s : St σ G} (h : Inv s) (hcur : s.cur = none) {t : Nat} {rest : List Handle}
    (hb : s.batch = .task t :: rest) : Inv (resume t { s with batch := rest }) := by
  have h1 : Core { s with batch := rest } := h.toCore.pop hb (by intro c hc; cases hc)
  have hsch : (s.st t).scheduled = true := h.sched t (by rw [hb]; simp)
  have hnh : Handle.task t ∉ rest ++ s.ready := by
    intro hm
    have := h.once t
    rw [hb, List.cons_append, List.count_cons, if_pos (by simp)] at this
    have h2 := List.count_pos_iff.2 hm
    omega
  have hna : ∀ c, s.clk c ≠ .afterCancel := by
    intro c ha
    have := (h.after c ha).handles (.task t) (by rw [hb]; simp)
    rcases this with h | h <;> cases h
  have hgo : ∀ k, (s.testDone = true → t ≠ 0) →
      Inv { s with batch := rest, st := upd s.st t .running, cur := some (t, k) } := by
    intro k h0
    have hnp : ∀ w, s.st t ≠ .pend w := by
      intro w hw; rw [hw] at hsch; cases hsch
    have hnd : s.st t ≠ .done := by
      intro hw; rw [hw] at hsch; cases hsch
    refine { h1 with
      cur := ?_, running := ?_, fresh := ?_, sched := ?_, pend := ?_, waits := ?_, stop := ?_,
      after := fun c ha => absurd ha (hna c), ended := ?_ }
    · intro u k' hu
      simp only [Option.some.injEq, Prod.mk.injEq] at hu
      rw [← hu.1]
      exact upd_self _ _ _
    · intro u hu
      have hu : upd s.st t .running u = .running := hu
      by_cases he : u = t
      · subst he; exact ⟨k, rfl⟩
      · rw [upd_of_ne _ _ he] at hu
        obtain ⟨k', hk⟩ := h.running u hu
        rw [hcur] at hk
        cases hk
    · intro u hu
      show upd s.st t .running u = _
      have := h.fresh u hu
      rw [upd_of_ne, this]
      rintro rfl
      exact hnd this
    · intro u hu
      show (upd s.st t .running u).scheduled = true
      by_cases he : u = t
      · subst he; exact absurd hu hnh
      · rw [upd_of_ne _ _ he]; exact h1.sched u hu
    · intro u w hu
      have hu : upd s.st t .running u = .pend w := hu
      by_cases he : u = t
      · subst he; rw [upd_self] at hu; cases hu
      · rw [upd_of_ne _ _ he] at hu; exact h.pend u w hu
    · intro e u hu
      obtain ⟨w, hw, hwe⟩ := h.waits e u hu
      refine ⟨w, ?_, hwe⟩
      show upd s.st t .running u = _
      rw [upd_of_ne, hw]
      rintro rfl
      exact hnp w hw
    · intro hs
      have hs0 : s.st 0 = .done := h1.stop hs
      show upd s.st t .running 0 = _
      rw [upd_of_ne, hs0]
      rintro rfl
      exact hnd hs0
    · intro hd
      exact Ended.of_eq (h.ended hd) (upd_of_ne _ _ (Ne.symm (h0 hd)))
  unfold Clocks.resume
  simp only []
  split
  · rename_i k hk
    refine hgo k ?_
    rintro hd rfl
    rcases h.ended hd with ⟨e, h⟩ | ⟨e, h⟩ | h <;> rw [h] at hk <;> cases hk
  · rename_i e k hk
    refine hgo k ?_
    rintro hd rfl
    rcases h.ended hd with ⟨e, h⟩ | ⟨e, h⟩ | h <;> rw [h] at hk <;> cases hk
  · rename_i e hk
    exact { h1.finish (.inl hcur) (by intro w hw; have hw : s.st t = _ := hw; rw [hk] at hw; cases hw) hnh with
      after := by
        intro c ha
        rw [finish_clk] at ha
        exact absurd ha (hna c)
      ended := by
        intro hd
        rw [finish_testDone] at hd
        by_cases ht : t = 0
        · subst ht
          exact .inr (.inr (by rw [finish_st, upd_self]))
        · exact Ended.of_eq (h.ended hd) (by rw [finish_st, upd_of_ne _ _ (Ne.symm ht)]) }
  · rename_i h1' h2' h3'
    exfalso
    cases hk : s.st t with
    | ready k => exact h1' k hk
    | fin w =>
      cases w with
      | ev e k => exact h2' e k hk
      | final e => exact h3' e hk
    | pend w => rw [hk] at hsch; cases hsch
    | running => rw [hk] at hsch; cases hsch
    | done => rw [hk] at hsch; cases hsch

/-- The clock task that is executed has no other handle. -/
theorem Inv.popClock {s : St σ G} (h : Inv s) {c : Nat} {rest : List Handle}
    (hb : s.batch = .clock c :: rest) :
    (s.clk c).active = true ∧ c < s.nc ∧ (rest ++ s.ready).count (Handle.clock c) = 0 ∧
    ∀ x : Pc, x.active = false → Core { s with batch := rest, clk := upd s.clk c x } := by
  have hcount := h.count c
  rw [hb, List.cons_append, List.count_cons, if_pos (by simp)] at hcount
  have hact : (s.clk c).active = true := by
    cases hx : (s.clk c).active with
    | true => rfl
    | false => rw [hx] at hcount; simp at hcount
  have hlt : c < s.nc := by
    apply Classical.byContradiction
    intro hn
    rw [h.coff c (by omega)] at hact
    cases hact
  rw [hact, if_pos rfl] at hcount
  refine ⟨hact, hlt, by omega, fun x hx => ?_⟩
  exact { h.toCore with
    sched := by
      intro t ht
      refine h.sched t ?_
      rw [hb]
      exact List.mem_cons_of_mem _ ht
    once := by
      intro t
      refine Nat.le_trans ?_ (h.once t)
      rw [hb]
      exact List.count_le_count_cons
    coff := by
      intro c' hc'
      have hc' : s.nc ≤ c' := hc'
      show upd s.clk c x c' = _
      rw [upd_of_ne _ _ (by omega)]
      exact h.coff c' hc'
    count := by
      intro c'
      show (rest ++ s.ready).count (Handle.clock c') = if (upd s.clk c x c').active then 1 else 0
      by_cases he : c' = c
      · subst he
        rw [upd_self, hx]
        simp only [Bool.false_eq_true, if_false]
        omega
      · have := h.count c'
        rw [hb, List.cons_append, List.count_cons, if_neg (by simpa using fun e => he e.symm)] at this
        rw [upd_of_ne _ _ he]
        exact this
    stop := by
      rintro (hs | hs)
      · refine h.stop (.inl ?_)
        rw [hb]
        exact List.mem_cons_of_mem _ hs
      · exact h.stop (.inr hs) }

theorem upd_upd {α : Type} (f : Nat → α) (k : Nat) (v w : α) : upd (upd f k v) k w = upd f k w := by
  funext i
  unfold upd
  split <;> rfl

theorem setEv_with_clk (e : Nat) (s : St σ G) (f : Nat → Pc) :
    setEv e { s with clk := f } = { setEv e s with clk := f } := by
  unfold setEv
  split <;> rfl

theorem setEv_batch (e : Nat) (s : St σ G) : (setEv e s).batch = s.batch := by
  unfold setEv; split <;> rfl

theorem setEv_nc (e : Nat) (s : St σ G) : (setEv e s).nc = s.nc := by
  unfold setEv; split <;> rfl

theorem setEv_count (e : Nat) (s : St σ G) (c : Nat) :
    ((setEv e s).batch ++ (setEv e s).ready).count (Handle.clock c) =
      (s.batch ++ s.ready).count (Handle.clock c) := by
  unfold setEv
  split
  · rfl
  · show (s.batch ++ (s.ready ++ (s.waiters e).map Handle.task)).count (Handle.clock c) = _
    rw [← List.append_assoc, List.count_append]
    have : ((s.waiters e).map Handle.task).count (Handle.clock c) = 0 := by
      rw [List.count_eq_zero]
      intro hm
      obtain ⟨u, _, he⟩ := List.mem_map.1 hm
      cases he
    omega

theorem hasUnwait_false {s : St σ G} (h : Core s) (hu : hasUnwait s = false) : Quiet s := by
  intro t
  by_cases ht : t < s.n
  · have := (List.any_eq_false.1 hu) t (List.mem_range.2 ht)
    cases hk : s.st t with
    | ready k => rw [hk] at this; simp at this
    | fin w => rw [hk] at this; simp at this
    | running => rw [hk] at this; simp at this
    | pend w => exact .inl ⟨w, rfl⟩
    | done => exact .inr rfl
  · exact .inr (h.fresh t (by omega))

theorem Inv.runClock {s : St σ G} (sys : Sys σ G) (h : Inv s) (hcur : s.cur = none) {c : Nat}
    {rest : List Handle} (hb : s.batch = .clock c :: rest) :
    Inv (runClock sys c { s with batch := rest }) := by
  obtain ⟨hact, hlt, hno, hdead⟩ := h.popClock hb
  have hd := hdead .dead rfl
  have hothers : ∀ c', s.clk c' = .afterCancel → c' = c := by
    intro c' ha
    have := (h.after c' ha).handles (.clock c) (by rw [hb]; simp)
    rcases this with h | h <;> cases h
    rfl
  have hafter : ∀ c', upd s.clk c .check c' ≠ .afterCancel := by
    intro c' ha
    by_cases he : c' = c
    · subst he; rw [upd_self] at ha; cases ha
    · rw [upd_of_ne _ _ he] at ha; exact he (hothers c' ha)
  have hyield : Inv (clockYield c { s with batch := rest }) := by
    have h1 : Core { s with batch := rest, clk := upd s.clk c .dead, flag := false } := { hd with }
    have h2 := h1.pushClock (c := c) (x := .check) rfl hno hlt
    simp only [upd_upd] at h2
    exact { h2 with
      after := fun c' ha => absurd ha (hafter c')
      ended := h.ended }
  have hstep : Inv (doStep sys c { s with batch := rest }) := by
    have h1 : Core { s with
        batch := rest, clk := upd s.clk c .dead, g := sys.dutStep (s.dut c) s.g,
        steps := upd s.steps (s.dut c) (s.steps (s.dut c) + 1) } := { hd with }
    have h2 := (h1.setEv (s.dut c)).clearEv (s.dut c)
    have h3 : Core { setEv (s.dut c) { s with
        batch := rest, clk := upd s.clk c .dead, g := sys.dutStep (s.dut c) s.g,
        steps := upd s.steps (s.dut c) (s.steps (s.dut c) + 1) } with
        ev := upd (setEv (s.dut c) { s with
          batch := rest, clk := upd s.clk c .dead, g := sys.dutStep (s.dut c) s.g,
          steps := upd s.steps (s.dut c) (s.steps (s.dut c) + 1) }).ev (s.dut c) false,
        flag := false } := { h2 with }
    have h4 := h3.pushClock (c := c) (x := .check) rfl
      (by
        show ((setEv (s.dut c) _).batch ++ (setEv (s.dut c) _).ready).count (Handle.clock c) = 0
        rw [setEv_count]
        exact hno)
      (by
        show c < (setEv (s.dut c) _).nc
        rw [setEv_nc]
        exact hlt)
    have heq : doStep sys c { s with batch := rest } = push (.clock c) { setEv (s.dut c) { s with
        batch := rest, clk := upd s.clk c .dead, g := sys.dutStep (s.dut c) s.g,
        steps := upd s.steps (s.dut c) (s.steps (s.dut c) + 1) } with
        ev := upd (setEv (s.dut c) { s with
          batch := rest, clk := upd s.clk c .dead, g := sys.dutStep (s.dut c) s.g,
          steps := upd s.steps (s.dut c) (s.steps (s.dut c) + 1) }).ev (s.dut c) false,
        flag := false
        clk := upd (setEv (s.dut c) { s with
          batch := rest, clk := upd s.clk c .dead, g := sys.dutStep (s.dut c) s.g,
          steps := upd s.steps (s.dut c) (s.steps (s.dut c) + 1) }).clk c .check } := by
      unfold doStep clockYield
      simp only [setEv_clk, upd_upd]
      unfold setEv
      simp only []
      split <;> rfl
    rw [heq]
    refine { h4 with after := ?_, ended := ?_ }
    · intro c' ha
      have ha : upd (setEv (s.dut c) _).clk c .check c' = .afterCancel := ha
      rw [setEv_clk, upd_upd] at ha
      exact absurd ha (hafter c')
    · intro hdn
      have hdn : (setEv (s.dut c) _).testDone = true := hdn
      rw [setEv_testDone] at hdn
      exact Ended.of_eq (Ended.setEv (s := { s with
        batch := rest, clk := upd s.clk c .dead, g := sys.dutStep (s.dut c) s.g,
        steps := upd s.steps (s.dut c) (s.steps (s.dut c) + 1) }) (h.ended hdn) (s.dut c)) rfl
  unfold Clocks.runClock
  simp only []
  split
  · exact hyield
  · by_cases hu : (hasUnwait { s with batch := rest } || s.flag) = true
    · rw [if_pos hu]; exact hyield
    · rw [if_neg hu]
      split
      · rename_i htd
        have hq : Quiet s := by
          refine hasUnwait_false h.toCore ?_
          simp only [Bool.or_eq_true, not_or] at hu
          exact Bool.eq_false_iff.2 hu.1
        have hmain : (∃ e, s.st 0 = .pend (.final e)) ∨ s.st 0 = .done := by
          rcases h.ended htd with he | ⟨e, he⟩ | he
          · exact .inl he
          · rcases hq 0 with ⟨w, hw⟩ | hw <;> rw [he] at hw <;> cases hw
          · exact .inr he
        have hns : (s.st 0).scheduled = false := by
          rcases hmain with ⟨e, he⟩ | he <;> rw [he] <;> rfl
        have hfil : ∀ x ∈ (rest ++ s.ready).filter (fun h => match h with
            | .task t => t == 0 | .clock _ => false | .stop => true), x = .stop := by
          intro x hx
          obtain ⟨h1, h2⟩ := List.mem_filter.1 hx
          cases x with
          | task t =>
            simp only [beq_iff_eq] at h2
            subst h2
            have := hd.sched 0 h1
            have this : (s.st 0).scheduled = true := this
            rw [hns] at this
            cases this
          | clock c' => cases h2
          | stop => rfl
        have hfil' : ∀ x, x ∈ (rest.filter (fun h => match h with
            | .task t => t == 0 | .clock _ => false | .stop => true)) ++
            (s.ready.filter (fun h => match h with
            | .task t => t == 0 | .clock _ => false | .stop => true)) →
            x = Handle.stop ∧ x ∈ rest ++ s.ready := by
          intro x hx
          rw [← List.filter_append] at hx
          exact ⟨hfil x hx, (List.mem_filter.1 hx).1⟩
        have hcore : Core { cancelAll c { s with batch := rest } with
            clk := upd (cancelAll c { s with batch := rest }).clk c .dead } := by
          refine ⟨?_, ?_, ?_, ?_, ?_, ?_, ?_, ?_, ?_, ?_, ?_⟩
          · intro t k hk
            have hk : s.cur = _ := hk
            rw [hcur] at hk
            cases hk
          · intro t ht
            have ht : (if t = 0 then s.st t else .done) = .running := ht
            split at ht
            · obtain ⟨k, hk⟩ := h.running t ht
              rw [hcur] at hk; cases hk
            · cases ht
          · intro t ht
            show (if t = 0 then s.st t else .done) = .done
            split
            · exact h.fresh t ht
            · rfl
          · intro t ht
            cases (hfil' _ ht).1
          · intro t
            refine Nat.le_trans (Nat.le_of_eq (List.count_eq_zero.2 ?_)) (Nat.zero_le 1)
            intro ht
            cases (hfil' _ ht).1
          · intro t w hw
            have hw : (if t = 0 then s.st t else .done) = .pend w := hw
            split at hw
            · rename_i h0
              subst h0
              obtain ⟨h1, h2⟩ := h.pend 0 w hw
              exact ⟨List.mem_filter.2 ⟨h1, by simp⟩, h2⟩
            · cases hw
          · intro e t ht
            obtain ⟨h1, h2⟩ := List.mem_filter.1 (show t ∈ (s.waiters e).filter (· == 0) from ht)
            simp only [beq_iff_eq] at h2
            subst h2
            obtain ⟨w, hw, hwe⟩ := h.waits e 0 h1
            exact ⟨w, by show (if (0 : Nat) = 0 then s.st 0 else .done) = _; rw [if_pos rfl, hw], hwe⟩
          · intro e
            exact (h.nodup e).filter _
          · intro c' hc'
            have hc' : s.nc ≤ c' := hc'
            show upd _ c Pc.dead c' = Pc.off
            rw [upd_of_ne _ _ (by omega)]
            show (if c' = c ∨ s.clk c' = .off then s.clk c' else .dead) = .off
            rw [if_pos (.inr (h.coff c' hc')), h.coff c' hc']
          · intro c'
            have h0 : List.count (Handle.clock c') ((rest.filter (fun h => match h with
              | .task t => t == 0 | .clock _ => false | .stop => true)) ++
              (s.ready.filter (fun h => match h with
              | .task t => t == 0 | .clock _ => false | .stop => true))) = 0 := by
              rw [List.count_eq_zero]
              intro hx
              cases (hfil' _ hx).1
            refine h0.trans ?_
            have : (upd (cancelAll c { s with batch := rest }).clk c .dead c').active = false := by
              by_cases he : c' = c
              · subst he; rw [upd_self]; rfl
              · rw [upd_of_ne _ _ he]
                show (if c' = c ∨ s.clk c' = .off then s.clk c' else .dead).active = false
                split
                · rename_i hor
                  rcases hor with hor | hor
                  · exact absurd hor he
                  · rw [hor]; rfl
                · rfl
            rw [this]
            rfl
          · intro hs
            show (if (0 : Nat) = 0 then s.st 0 else .done) = .done
            rw [if_pos rfl]
            rcases hs with hs | hs
            · refine h.stop (.inl ?_)
              rw [hb]
              exact List.mem_cons_of_mem _ (hfil' _ hs).2
            · exact h.stop (.inr hs)
        have hpush := hcore.pushClock (c := c) (x := .afterCancel) rfl
          (by
            rw [List.count_eq_zero]
            intro hx
            cases (hfil' _ hx).1) hlt
        simp only [upd_upd] at hpush
        refine { hpush with after := ?_, ended := ?_ }
        · intro c' ha
          have hcc : c' = c := by
            apply Classical.byContradiction
            intro he
            have ha : upd (cancelAll c { s with batch := rest }).clk c .afterCancel c' = .afterCancel := ha
            rw [upd_of_ne _ _ he] at ha
            have ha : (if c' = c ∨ s.clk c' = .off then s.clk c' else .dead) = .afterCancel := ha
            split at ha
            · exact he (hothers c' ha)
            · cases ha
          subst hcc
          refine ⟨hcur, htd, hmain, ?_, ?_⟩
          · intro t ht
            show (if t = 0 then s.st t else .done) = .done
            rw [if_neg ht]
          · intro x hx
            have hx : x ∈ (rest.filter (fun h => match h with
              | .task t => t == 0 | .clock _ => false | .stop => true)) ++
              (s.ready.filter (fun h => match h with
              | .task t => t == 0 | .clock _ => false | .stop => true) ++ [Handle.clock c']) := hx
            rw [← List.append_assoc, List.mem_append] at hx
            rcases hx with hx | hx
            · exact .inr (hfil' _ hx).1
            · exact .inl (List.mem_singleton.1 hx)
        · intro _
          rcases hmain with hm | hm
          · exact .inl hm
          · exact .inr (.inr hm)
      · exact hstep
  · exact hstep
  · rename_i hoff
    have hoff : s.clk c = .off := hoff
    rw [hoff] at hact
    cases hact
  · rename_i hoff
    have hoff : s.clk c = .dead := hoff
    rw [hoff] at hact
    cases hact

theorem Inv.step {s : St σ G} (sys : Sys σ G) (h : Inv s) : Inv (step sys s) := by
  unfold Clocks.step
  split
  · rename_i t k hc
    exact h.exec hc _
  · rename_i hc
    split
    · rename_i x rest hb
      cases x with
      | task t => exact h.resume hc hb
      | clock c => exact h.runClock sys hc hb
      | stop =>
        have h1 := h.toCore.pop hb (by intro c hc; cases hc)
        have h0 : s.st 0 = .done := h.stop (.inl (by rw [hb]; simp))
        exact { h1 with
          stop := fun _ => h0
          after := by
            intro c ha
            obtain ⟨a, b, c', d, e⟩ := h.after c ha
            exact ⟨a, b, c', d, fun x hx => e x (by rw [hb]; exact List.mem_cons_of_mem _ hx)⟩
          ended := h.ended }
    · rename_i hb
      split
      · exact h
      · have happ : s.batch ++ s.ready = s.ready ++ [] := by rw [hb]; simp
        exact { h with
          sched := fun t ht => h.sched t (by rw [happ]; exact ht)
          once := fun t => by have := h.once t; rw [happ] at this; exact this
          count := fun c => by have := h.count c; rw [happ] at this; exact this
          stop := by
            rintro (hs | hs)
            · exact h.stop (.inl (by rw [happ]; exact hs))
            · exact h.stop (.inr hs)
          after := by
            intro c ha
            obtain ⟨a, b, c', d, e⟩ := h.after c ha
            exact ⟨a, b, c', d, fun x hx => e x (by rw [happ]; exact hx)⟩ }

theorem Inv.run {s : St σ G} (sys : Sys σ G) (h : Inv s) (m : Nat) : Inv (run sys s m) := by
  induction m with
  | zero => exact h
  | succ m ih => exact ih.step sys

/-! ### Steps of the DUTs -/

theorem setEv_steps (e : Nat) (s : St σ G) : (setEv e s).steps = s.steps := by
  unfold setEv; split <;> rfl

theorem finish_steps (t : Nat) (s : St σ G) : (finish t s).steps = s.steps := by
  unfold finish; simp only []; split <;> rfl

theorem exec_steps (t : Nat) (cmd : Cmd σ G) (s : St σ G) : (exec t cmd s).steps = s.steps := by
  cases cmd <;> simp only [exec] <;> try rfl
  · split
    · split
      · rw [finish_steps]
      · split
        · rw [finish_steps]
        · rfl
    · rw [finish_steps]
  · split <;> rfl
  · exact setEv_steps _ s

theorem resume_steps (t : Nat) (s : St σ G) : (resume t s).steps = s.steps := by
  unfold resume
  split <;> try rfl
  exact finish_steps _ _

theorem doStep_steps (sys : Sys σ G) (c : Nat) (s : St σ G) :
    (doStep sys c s).steps = upd s.steps (s.dut c) (s.steps (s.dut c) + 1) := by
  unfold doStep
  show (setEv (s.dut c) _).steps = _
  rw [setEv_steps]

theorem doStep_st (sys : Sys σ G) (c : Nat) (s : St σ G) (rest : List Handle) :
    (doStep sys c { s with batch := rest }).st = (setEv (s.dut c) s).st := by
  unfold doStep
  show (setEv (s.dut c) _).st = _
  unfold setEv
  by_cases hx : s.ev (s.dut c) = true
  · simp only [hx, if_true]
  · simp only [hx]
    rfl

theorem runClock_check (sys : Sys σ G) {s : St σ G} {c : Nat} (hk : s.clk c = .check) :
    runClock sys c s = if (hasUnwait s || s.flag) = true then clockYield c s
      else if s.testDone = true then
        push (.clock c) { cancelAll c s with clk := upd (cancelAll c s).clk c .afterCancel }
      else doStep sys c s := by
  unfold runClock
  simp only [hk]

/-- When a DUT is stepped. -/
theorem steps_iff {sys : Sys σ G} {s : St σ G} {d : Nat} (h : Steps sys s d) :
    s.cur = none ∧ ∃ c rest, s.batch = .clock c :: rest ∧ s.dut c = d ∧
      step sys s = doStep sys c { s with batch := rest } ∧
      (s.clk c = .afterCancel ∨
        (s.clk c = .check ∧ hasUnwait s = false ∧ s.flag = false ∧ s.testDone = false)) := by
  unfold Steps at h
  have hc : s.cur = none := by
    cases hc : s.cur with
    | none => rfl
    | some x =>
      obtain ⟨t, k⟩ := x
      simp only [step, hc, exec_steps] at h
      exact absurd rfl h
  refine ⟨hc, ?_⟩
  cases hb : s.batch with
  | nil =>
    simp only [step, hc, hb] at h
    split at h <;> exact absurd rfl h
  | cons x rest =>
    have hs : step sys s = runHandle sys x { s with batch := rest } := by
      unfold step; simp only [hc, hb]
    rw [hs] at h
    cases x with
    | task t =>
      rw [show runHandle sys (.task t) _ = resume t _ from rfl, resume_steps] at h
      exact absurd rfl h
    | stop => exact absurd rfl h
    | clock c =>
      refine ⟨c, rest, rfl, ?_⟩
      have hr : runHandle sys (.clock c) { s with batch := rest } =
        runClock sys c { s with batch := rest } := rfl
      rw [hr] at h hs
      rw [hs]
      have key : ∀ s' : St σ G, s' = doStep sys c { s with batch := rest } → s'.steps d ≠ s.steps d →
          s.dut c = d := by
        intro s' he hne
        subst he
        rw [doStep_steps] at hne
        apply Classical.byContradiction
        intro hx
        have hx : d ≠ s.dut c := fun e => hx e.symm
        exact hne (upd_of_ne _ _ hx)
      cases hk : s.clk c with
      | off => rw [show runClock sys c { s with batch := rest } = { s with batch := rest } by
          unfold runClock; simp only [hk]] at h; exact absurd rfl h
      | dead => rw [show runClock sys c { s with batch := rest } = { s with batch := rest } by
          unfold runClock; simp only [hk]] at h; exact absurd rfl h
      | begin => rw [show runClock sys c { s with batch := rest } = clockYield c { s with batch := rest } by
          unfold runClock; simp only [hk]] at h; exact absurd rfl h
      | afterCancel =>
        have he : runClock sys c { s with batch := rest } = doStep sys c { s with batch := rest } := by
          unfold runClock; simp only [hk]
        exact ⟨key _ he h, he, .inl rfl⟩
      | check =>
        have hck := runClock_check sys (s := { s with batch := rest }) (c := c) hk
        by_cases hu : (hasUnwait { s with batch := rest } || s.flag) = true
        · rw [hck, if_pos hu] at h
          exact absurd rfl h
        · by_cases ht : s.testDone = true
          · rw [hck, if_neg hu, if_pos ht] at h
            exact absurd rfl h
          · have he : runClock sys c { s with batch := rest } = doStep sys c { s with batch := rest } := by
              rw [hck, if_neg hu, if_neg ht]
            simp only [Bool.or_eq_true, not_or] at hu
            exact ⟨key _ he h, he, .inr ⟨rfl, Bool.eq_false_iff.2 hu.1, Bool.eq_false_iff.2 hu.2,
              Bool.eq_false_iff.2 ht⟩⟩

/-! ## C114 -/

/-- **C114.** With any number of clocks, a DUT is stepped only when all tasks have ended or wait for an
event; the step wakes exactly the tasks that wait for the clock event of this DUT, and leaves all other
tasks and all other DUTs alone. -/
theorem C114_quiet_step (sys : Sys σ G) (g : G) (k : σ) (m d : Nat)
    (hs : Steps sys (run sys (init g k) m) d) :
    let s := run sys (init g k) m
    let s' := step sys s
    Quiet s ∧ s'.steps d = s.steps d + 1 ∧ (∀ d', d' ≠ d → s'.steps d' = s.steps d') ∧
    (∀ t w, s.st t = .pend w → w.event = d → s'.st t = .fin w) ∧
    ∀ t, (∀ w, s.st t = .pend w → w.event ≠ d) → s'.st t = s.st t := by
  intro s s'
  have h : Inv s := (inv_init g k).run sys m
  obtain ⟨hc, c, rest, hb, hd, he, hor⟩ := steps_iff hs
  have hq : Quiet s := by
    rcases hor with ha | ⟨_, hu, _⟩
    · intro t
      have := h.after c ha
      by_cases h0 : t = 0
      · subst h0
        rcases this.main with ⟨e, hm⟩ | hm
        · exact .inl ⟨_, hm⟩
        · exact .inr hm
      · exact .inr (this.tasks t h0)
    · exact hasUnwait_false h.toCore hu
  have hsteps : s'.steps = upd s.steps d (s.steps d + 1) := by
    show (step sys _).steps = _
    rw [he, doStep_steps, ← hd]
  have hst : s'.st = (setEv d s).st := by
    show (step sys _).st = _
    rw [he, ← hd]
    exact doStep_st sys c s rest
  refine ⟨hq, ?_, ?_, ?_, ?_⟩
  · rw [hsteps, upd_self]
  · intro d' hd'
    rw [hsteps, upd_of_ne _ _ hd']
  · intro t w hw hwe
    obtain ⟨h1, h2⟩ := h.pend t w hw
    rw [hwe] at h1 h2
    rw [hst]
    unfold setEv
    rw [if_neg (by rw [h2]; simp)]
    show (if t ∈ s.waiters d then (s.st t).finish else s.st t) = _
    rw [if_pos h1, hw]
    rfl
  · intro t hw
    rw [hst]
    unfold setEv
    split
    · rfl
    · show (if t ∈ s.waiters d then (s.st t).finish else s.st t) = _
      rw [if_neg]
      intro hm
      obtain ⟨w, h1, h2⟩ := h.waits d t hm
      exact hw w h1 h2

theorem setEv_g (e : Nat) (s : St σ G) : (setEv e s).g = s.g := by
  unfold setEv; split <;> rfl

theorem finish_g (t : Nat) (s : St σ G) : (finish t s).g = s.g := by
  unfold finish; simp only []; split <;> rfl

theorem resume_g (t : Nat) (s : St σ G) : (resume t s).g = s.g := by
  unfold resume
  split <;> try rfl
  exact finish_g _ _

theorem exec_g (t : Nat) (cmd : Cmd σ G) (s : St σ G) :
    (exec t cmd s).g = match (motive := Cmd σ G → G) cmd with | .comp g' _ => g' | _ => s.g := by
  cases cmd <;> simp only [exec] <;> try rfl
  · split
    · split
      · rw [finish_g]
      · split
        · rw [finish_g]
        · rfl
    · rw [finish_g]
  · split <;> rfl
  · exact setEv_g _ s

theorem doStep_g (sys : Sys σ G) (c : Nat) (s : St σ G) :
    (doStep sys c s).g = sys.dutStep (s.dut c) s.g := by
  unfold doStep
  show (setEv (s.dut c) _).g = _
  rw [setEv_g]

/-- **C114.** The state that the tasks share is changed by the computations of the tasks and by the steps
of the DUTs (each by that of its own DUT), and by nothing else. -/
theorem C114_state (sys : Sys σ G) (g : G) (k : σ) (m : Nat) :
    let s := run sys (init g k) m
    let s' := step sys s
    (∀ t κ g' κ', s.cur = some (t, κ) → sys.prog κ s.g = .comp g' κ' → s'.g = g') ∧
    (∀ t κ, s.cur = some (t, κ) → (∀ g' κ', sys.prog κ s.g ≠ .comp g' κ') → s'.g = s.g) ∧
    (∀ d, Steps sys s d → s'.g = sys.dutStep d s.g) ∧
    (s.cur = none → (∀ d, ¬ Steps sys s d) → s'.g = s.g) := by
  intro s s'
  refine ⟨?_, ?_, ?_, ?_⟩
  · intro t κ g' κ' hc hp
    show (step sys s).g = _
    unfold step
    simp only [hc, exec_g, hp]
  · intro t κ hc hp
    show (step sys s).g = _
    unfold step
    simp only [hc, exec_g]
  · intro d hs
    obtain ⟨hc, c, rest, hb, hd, he, hor⟩ := steps_iff hs
    show (step sys s).g = _
    rw [he, doStep_g, ← hd]
  · intro hc hn
    show (step sys s).g = _
    cases hb : s.batch with
    | nil =>
      unfold step
      simp only [hc, hb]
      split <;> rfl
    | cons x rest =>
      have hs : step sys s = runHandle sys x { s with batch := rest } := by
        unfold step; simp only [hc, hb]
      rw [hs]
      cases x with
      | task t => exact resume_g _ _
      | stop => rfl
      | clock c =>
        have hr : runHandle sys (.clock c) { s with batch := rest } =
          runClock sys c { s with batch := rest } := rfl
        rw [hr] at hs ⊢
        have key : runClock sys c { s with batch := rest } ≠ doStep sys c { s with batch := rest } := by
          intro he
          apply hn (s.dut c)
          unfold Steps
          rw [hs, he, doStep_steps]
          show upd s.steps (s.dut c) (s.steps (s.dut c) + 1) (s.dut c) ≠ _
          rw [upd_self]
          exact Nat.succ_ne_self _
        cases hk : s.clk c with
        | off => unfold runClock; simp only [hk]
        | dead => unfold runClock; simp only [hk]
        | begin => unfold runClock; simp only [hk]; rfl
        | afterCancel => exact absurd (by unfold runClock; simp only [hk]) key
        | check =>
          have hck := runClock_check sys (s := { s with batch := rest }) (c := c) hk
          by_cases hu : (hasUnwait { s with batch := rest } || s.flag) = true
          · rw [hck, if_pos hu]; rfl
          · by_cases ht : s.testDone = true
            · rw [hck, if_neg hu, if_pos ht]; rfl
            · exact absurd (by rw [hck, if_neg hu, if_neg ht]) key

/-- The next thing the loop does is a turn of some clock task. -/
def ClockTurn (s : St σ G) : Prop := s.cur = none ∧ ∃ c rest, s.batch = .clock c :: rest

/-- `task_run()` has been called and no clock has had a turn since. -/
structure Flagged (s : St σ G) : Prop where
  flag : s.flag = true
  after : ∀ c, s.clk c ≠ .afterCancel

theorem setEv_flag (e : Nat) (s : St σ G) : (setEv e s).flag = s.flag := by
  unfold setEv; split <;> rfl

theorem finish_flag (t : Nat) (s : St σ G) : (finish t s).flag = s.flag := by
  unfold finish; simp only []; split <;> rfl

theorem Flagged.of_eq {s s' : St σ G} (h : Flagged s) (h1 : s'.flag = s.flag) (h2 : s'.clk = s.clk) :
    Flagged s' := ⟨by rw [h1]; exact h.flag, by rw [h2]; exact h.after⟩

theorem Flagged.exec {s : St σ G} (h : Flagged s) (t : Nat) (cmd : Cmd σ G) : Flagged (exec t cmd s) := by
  cases cmd <;> simp only [Clocks.exec]
  case ret =>
    split
    · split
      · exact h.of_eq (finish_flag _ _) (finish_clk _ _)
      · split
        · exact h.of_eq (finish_flag _ _) (finish_clk _ _)
        · exact h.of_eq rfl rfl
    · exact h.of_eq (finish_flag _ _) (finish_clk _ _)
  case taskRun => exact ⟨rfl, h.after⟩
  case waitEv => split <;> exact h.of_eq rfl rfl
  case setEv => exact h.of_eq (setEv_flag _ _) (setEv_clk _ _)
  case startClock d k =>
    refine ⟨h.flag, fun c => ?_⟩
    show upd s.clk s.nc .begin c ≠ _
    by_cases hc : c = s.nc
    · subst hc; rw [upd_self]; exact Pc.noConfusion
    · rw [upd_of_ne _ _ hc]; exact h.after c
  all_goals exact h.of_eq rfl rfl

/-- What is not a turn of a clock leaves the flag up. -/
theorem Flagged.step {s : St σ G} (h : Flagged s) (sys : Sys σ G) (hn : ¬ ClockTurn s) :
    Flagged (step sys s) := by
  unfold Clocks.step
  split
  · exact h.exec _ _
  · rename_i hc
    split
    · rename_i x rest hb
      cases x with
      | task t =>
        show Flagged (resume t _)
        unfold resume
        split
        · exact h.of_eq rfl rfl
        · exact h.of_eq rfl rfl
        · exact h.of_eq (finish_flag _ _) (finish_clk _ _)
        · exact h.of_eq rfl rfl
      | stop => exact h.of_eq rfl rfl
      | clock c => exact absurd ⟨hc, c, rest, hb⟩ hn
    · split
      · exact h
      · exact h.of_eq rfl rfl

theorem Flagged.quiet {s : St σ G} (h : Flagged s) (sys : Sys σ G) (d : Nat) : ¬ Steps sys s d := by
  intro hs
  obtain ⟨_, c, _, _, _, _, hor⟩ := steps_iff hs
  rcases hor with ha | ⟨_, _, hf, _⟩
  · exact h.after c ha
  · rw [h.flag] at hf; cases hf

/-- **C114.** After a task has called `task_run()` (the last thing `Event.wait` of toffee does), no DUT is
stepped before some clock task has had a turn in which it stepped nothing. -/
theorem C114_task_run (sys : Sys σ G) (g : G) (k : σ) (m t : Nat) (κ κ' : σ)
    (hc : (run sys (init g k) m).cur = some (t, κ))
    (hp : sys.prog κ (run sys (init g k) m).g = .taskRun κ') (j d : Nat)
    (hs : Steps sys (run sys (init g k) (m + 1 + j)) d) :
    ∃ i, i < j ∧ ClockTurn (run sys (init g k) (m + 1 + i)) ∧
      ∀ d', ¬ Steps sys (run sys (init g k) (m + 1 + i)) d' := by
  have h0 : Flagged (run sys (init g k) (m + 1)) := by
    have hi : Inv (run sys (init g k) m) := (inv_init g k).run sys m
    show Flagged (step sys (run sys (init g k) m))
    unfold step
    simp only [hc, hp]
    refine ⟨rfl, fun c ha => ?_⟩
    have := (hi.after c ha).cur
    rw [hc] at this
    cases this
  apply Classical.byContradiction
  intro hn
  have key : ∀ i, i ≤ j → Flagged (run sys (init g k) (m + 1 + i)) := by
    intro i
    induction i with
    | zero => intro _; exact h0
    | succ i ih =>
      intro hi
      have hf := ih (by omega)
      exact hf.step sys fun hct => hn ⟨i, by omega, hct, hf.quiet sys⟩
  exact (key j (Nat.le_refl j)).quiet sys d hs

/-- After the test has ended, `main_coro` waits for event `e`, and the only clock that is left is that
of another DUT. -/
structure Lost (s : St σ G) (c e : Nat) : Prop where
  main : s.st 0 = .pend (.final e)
  tasks : ∀ t, t ≠ 0 → s.st t = .done
  cur : s.cur = none
  testDone : s.testDone = true
  running : s.stopping = false
  ne : s.dut c ≠ e
  handles : s.batch ++ s.ready = [.clock c]
  clk : s.clk c = .check ∨ s.clk c = .afterCancel

theorem mem_singleton_app {a b : List Handle} {x : Handle} (h : a ++ b = [x]) :
    (a = [x] ∧ b = []) ∨ (a = [] ∧ b = [x]) := by
  cases a with
  | nil => exact .inr ⟨rfl, h⟩
  | cons y a =>
    rw [List.cons_append] at h
    injection h with h1 h2
    rw [List.append_eq_nil_iff] at h2
    exact .inl ⟨by rw [h1, h2.1], h2.2⟩

/-- One micro step of a lost run; `x` says how the next state compares. -/
theorem Lost.step {s : St σ G} (sys : Sys σ G) {c e : Nat} (hi : Inv s) (h : Lost s c e) :
    Lost (step sys s) c e ∧ (step sys s).steps e = s.steps e ∧ (step sys s).dut = s.dut ∧
    ((s.batch = [] ∧ (step sys s).batch = [.clock c] ∧ (step sys s).clk c = s.clk c ∧
        (step sys s).flag = s.flag ∧ (step sys s).steps = s.steps) ∨
     (s.batch = [.clock c] ∧ (step sys s).batch = [] ∧
       ((s.clk c = .check ∧ s.flag = true ∧ (step sys s).clk c = .check ∧ (step sys s).flag = false ∧
          (step sys s).steps = s.steps) ∨
        (s.clk c = .check ∧ s.flag = false ∧ (step sys s).clk c = .afterCancel ∧
          (step sys s).steps = s.steps) ∨
        (s.clk c = .afterCancel ∧ (step sys s).clk c = .check ∧ (step sys s).flag = false ∧
          (step sys s).steps (s.dut c) = s.steps (s.dut c) + 1)))) := by
  have hw : s.waiters (s.dut c) = [] := by
    apply List.eq_nil_iff_forall_not_mem.2
    intro t ht
    obtain ⟨w, h1, h2⟩ := hi.waits _ t ht
    by_cases h0 : t = 0
    · subst h0
      rw [h.main] at h1
      cases h1
      exact h.ne h2.symm
    · rw [h.tasks t h0] at h1
      cases h1
  have hu : hasUnwait s = false := by
    unfold hasUnwait
    rw [List.any_eq_false]
    intro t _
    by_cases h0 : t = 0
    · subst h0; rw [h.main]; simp
    · rw [h.tasks t h0]; simp
  rcases mem_singleton_app h.handles with ⟨hb, hr⟩ | ⟨hb, hr⟩
  · have hs : Clocks.step sys s = runClock sys c { s with batch := [] } := by
      unfold Clocks.step; simp only [h.cur, hb]; rfl
    have hue : hasUnwait { s with batch := [] } = hasUnwait s := rfl
    rcases h.clk with hk | hk
    · cases hf : s.flag with
      | true =>
        have he : Clocks.step sys s = clockYield c { s with batch := [] } := by
          rw [hs, runClock_check sys (s := { s with batch := [] }) hk, if_pos (by rw [show St.flag _ = s.flag from rfl, hf]; simp)]
        rw [he]
        refine ⟨⟨h.main, h.tasks, h.cur, h.testDone, h.running, h.ne, ?_, .inl (upd_self _ _ _)⟩, rfl, rfl,
          .inr ⟨hb, rfl, .inl ⟨hk, rfl, upd_self _ _ _, rfl, rfl⟩⟩⟩
        show [] ++ (s.ready ++ [.clock c]) = _
        rw [hr]
        rfl
      | false =>
        have he : Clocks.step sys s = push (.clock c) { cancelAll c { s with batch := [] } with
            clk := upd (cancelAll c { s with batch := [] }).clk c .afterCancel } := by
          rw [hs, runClock_check sys (s := { s with batch := [] }) hk, if_neg (by rw [hue, hu, show St.flag _ = s.flag from rfl, hf]; simp),
            if_pos h.testDone]
        rw [he]
        refine ⟨⟨h.main, ?_, h.cur, h.testDone, h.running, h.ne, ?_, .inr (upd_self _ _ _)⟩, rfl, rfl,
          .inr ⟨hb, rfl, .inr (.inl ⟨hk, rfl, upd_self _ _ _, rfl⟩)⟩⟩
        · intro t ht
          show (if t = 0 then s.st t else .done) = .done
          rw [if_neg ht]
        · show [] ++ (s.ready.filter _ ++ [.clock c]) = _
          rw [hr]
          rfl
    · have he : Clocks.step sys s = doStep sys c { s with batch := [] } := by
        rw [hs]; unfold runClock; simp only [hk]
      have hset : ∀ f : G, ∀ x : Nat → Nat,
          (setEv (s.dut c) { s with batch := [], g := f, steps := x }).st = s.st ∧
          (setEv (s.dut c) { s with batch := [], g := f, steps := x }).ready = [] ∧
          (setEv (s.dut c) { s with batch := [], g := f, steps := x }).stopping = s.stopping ∧
          (setEv (s.dut c) { s with batch := [], g := f, steps := x }).dut = s.dut := by
        intro f x
        unfold setEv
        split
        · exact ⟨rfl, hr, rfl, rfl⟩
        · refine ⟨?_, ?_, rfl, rfl⟩
          · funext t
            show (if t ∈ s.waiters (s.dut c) then (s.st t).finish else s.st t) = s.st t
            rw [hw]
            rfl
          · show s.ready ++ (s.waiters (s.dut c)).map Handle.task = []
            rw [hw, hr]
            rfl
      have hd := doStep_steps sys c { s with batch := [] }
      obtain ⟨e1, e2, e3, e4⟩ := hset (sys.dutStep (s.dut c) s.g)
        (upd s.steps (s.dut c) (s.steps (s.dut c) + 1))
      rw [he]
      refine ⟨⟨?_, ?_, ?_, ?_, ?_, ?_, ?_, .inl (upd_self _ _ _)⟩, ?_, ?_,
        .inr ⟨hb, ?_, .inr (.inr ⟨hk, upd_self _ _ _, rfl, ?_⟩)⟩⟩
      · show (setEv (s.dut c) _).st 0 = _
        rw [e1]; exact h.main
      · intro t ht
        show (setEv (s.dut c) _).st t = _
        rw [e1]; exact h.tasks t ht
      · show (setEv (s.dut c) _).cur = _
        rw [setEv_cur]; exact h.cur
      · show (setEv (s.dut c) _).testDone = _
        rw [setEv_testDone]; exact h.testDone
      · show (setEv (s.dut c) _).stopping = _
        rw [e3]; exact h.running
      · show (setEv (s.dut c) _).dut c ≠ _
        rw [e4]; exact h.ne
      · show (setEv (s.dut c) _).batch ++ ((setEv (s.dut c) _).ready ++ [.clock c]) = _
        rw [setEv_batch, e2]
        rfl
      · rw [hd]
        exact upd_of_ne _ _ (Ne.symm h.ne)
      · exact e4
      · show (setEv (s.dut c) _).batch = []
        rw [setEv_batch]
      · rw [hd]
        exact upd_self _ _ _
  · have hs : Clocks.step sys s = { s with batch := s.ready, ready := [] } := by
      unfold Clocks.step; simp only [h.cur, hb, h.running]; rfl
    rw [hs]
    refine ⟨⟨h.main, h.tasks, h.cur, h.testDone, h.running, h.ne, ?_, h.clk⟩, rfl, rfl,
      .inl ⟨hb, hr, rfl, rfl, rfl⟩⟩
    show s.ready ++ [] = _
    rw [hr]
    rfl

theorem Lost.run {s : St σ G} (sys : Sys σ G) {c e : Nat} (hi : Inv s) (h : Lost s c e) (m : Nat) :
    Lost (run sys s m) c e ∧ (run sys s m).steps e = s.steps e ∧ (run sys s m).dut = s.dut := by
  induction m with
  | zero => exact ⟨h, rfl, rfl⟩
  | succ m ih =>
    obtain ⟨h1, h2, h3⟩ := ih
    obtain ⟨h4, h5, h6, _⟩ := h1.step sys (hi.run sys m)
    exact ⟨h4, h5.trans h2, h6.trans h3⟩

theorem run_add (sys : Sys σ G) (s : St σ G) (a b : Nat) : run sys s (a + b) = run sys (run sys s a) b := by
  induction b with
  | zero => rfl
  | succ b ih => show step sys (run sys s (a + b)) = _; rw [ih]; rfl

/-- A lost run goes on stepping its DUT. -/
theorem Lost.more {s : St σ G} (sys : Sys σ G) {c e : Nat} (hi : Inv s) (h : Lost s c e) :
    ∃ m, (Clocks.run sys s m).steps (s.dut c) = s.steps (s.dut c) + 1 := by
  -- reduce to a state with a non-empty batch
  have main : ∀ s : St σ G, Inv s → Lost s c e → s.batch = [.clock c] →
      ∃ m, (Clocks.run sys s m).steps (s.dut c) = s.steps (s.dut c) + 1 := by
    have ac : ∀ s : St σ G, Inv s → Lost s c e → s.batch = [.clock c] → s.clk c = .afterCancel →
        (Clocks.run sys s 1).steps (s.dut c) = s.steps (s.dut c) + 1 := by
      intro s hi h hb hk
      obtain ⟨_, _, _, ⟨hb', _⟩ | ⟨_, _, ⟨hk', _⟩ | ⟨hk', _⟩ | ⟨_, _, _, hx⟩⟩⟩ := h.step sys hi
      · rw [hb] at hb'; cases hb'
      · rw [hk] at hk'; cases hk'
      · rw [hk] at hk'; cases hk'
      · exact hx
    have ck : ∀ s : St σ G, Inv s → Lost s c e → s.batch = [.clock c] → s.clk c = .check → s.flag = false →
        (Clocks.run sys s 3).steps (s.dut c) = s.steps (s.dut c) + 1 := by
      intro s hi h hb hk hf
      obtain ⟨l1, _, d1, ⟨hb', _⟩ | ⟨_, b1, ⟨_, hf', _⟩ | ⟨_, _, k1, s1⟩ | ⟨hk', _⟩⟩⟩ := h.step sys hi
      · rw [hb] at hb'; cases hb'
      · rw [hf] at hf'; cases hf'
      · obtain ⟨l2, _, d2, ⟨_, b2, k2, f2, s2⟩ | ⟨hb', _⟩⟩ := l1.step sys (hi.step sys)
        · have := ac _ ((hi.step sys).step sys) l2 b2 (k2.trans k1)
          rw [d2, d1, s2, s1] at this
          exact this
        · rw [b1] at hb'; cases hb'
      · rw [hk] at hk'; cases hk'
    intro s hi h hb
    rcases h.clk with hk | hk
    · cases hf : s.flag with
      | false => exact ⟨3, ck s hi h hb hk hf⟩
      | true =>
        obtain ⟨l1, _, d1, ⟨hb', _⟩ | ⟨_, b1, ⟨_, _, k1, f1, s1⟩ | ⟨_, hf', _⟩ | ⟨hk', _⟩⟩⟩ := h.step sys hi
        · rw [hb] at hb'; cases hb'
        · obtain ⟨l2, _, d2, ⟨_, b2, k2, f2, s2⟩ | ⟨hb', _⟩⟩ := l1.step sys (hi.step sys)
          · have := ck _ ((hi.step sys).step sys) l2 b2 (k2.trans k1) (f2.trans f1)
            rw [d2, d1, s2, s1] at this
            exact ⟨5, this⟩
          · rw [b1] at hb'; cases hb'
        · rw [hf] at hf'; cases hf'
        · rw [hk] at hk'; cases hk'
    · exact ⟨1, ac s hi h hb hk⟩
  rcases mem_singleton_app h.handles with ⟨hb, _⟩ | ⟨hb, _⟩
  · exact main s hi h hb
  · obtain ⟨l1, _, d1, ⟨_, b1, _, _, s1⟩ | ⟨hb', _⟩⟩ := h.step sys hi
    · obtain ⟨m, hm⟩ := main _ (hi.step sys) l1 b1
      refine ⟨1 + m, ?_⟩
      rw [run_add]
      rw [d1, s1] at hm
      exact hm
    · rw [hb] at hb'; cases hb'

theorem After.single {s : St σ G} (h : Inv s) {c : Nat} (ha : After s c) (hk : s.clk c = .afterCancel)
    (hm : s.st 0 ≠ .done) : s.batch ++ s.ready = [.clock c] ∧ s.stopping = false := by
  have hall : ∀ x ∈ s.batch ++ s.ready, x = .clock c := by
    intro x hx
    rcases ha.handles x hx with h1 | h1
    · exact h1
    · subst h1
      exact absurd (h.stop (.inl hx)) hm
  have hc := h.count c
  rw [hk] at hc
  refine ⟨?_, ?_⟩
  · have hc : (s.batch ++ s.ready).count (Handle.clock c) = 1 := hc
    have hl : (s.batch ++ s.ready).length = 1 := by
      rw [← hc]
      exact (List.count_eq_length.2 fun b hb => (hall b hb).symm).symm
    obtain ⟨x, hx⟩ := List.length_eq_one_iff.1 hl
    rw [hx, hall x (by rw [hx]; simp)]
  · cases hst : s.stopping with
    | false => rfl
    | true => exact absurd (h.stop (.inr hst)) hm

/-- A task that waits for the clock event at the end of `main_coro`. -/
def Status.last : Status σ → Bool
  | .pend (.final _) | .fin (.final _) => true
  | _ => false

/-- Who waits at the end of `main_coro` does so after the test. -/
def Told (s : St σ G) : Prop := ∀ t, (s.st t).last = true → s.testDone = true

theorem last_finish (x : Status σ) : x.finish.last = x.last := by
  cases x with
  | pend w => cases w <;> rfl
  | _ => rfl

theorem Told.upd {s s' : St σ G} (h : Told s) {t : Nat} {x : Status σ} (h1 : s'.st = upd s.st t x)
    (h2 : s'.testDone = s.testDone) (h3 : x.last = false) : Told s' := by
  intro u hu
  rw [h1] at hu
  rw [h2]
  by_cases e : u = t
  · subst e
    rw [upd_self, h3] at hu
    cases hu
  · rw [upd_of_ne _ _ e] at hu
    exact h u hu

theorem Told.same {s s' : St σ G} (h : Told s) (h1 : s'.st = s.st) (h2 : s'.testDone = s.testDone) : Told s' := by
  intro u hu
  rw [h1] at hu
  rw [h2]
  exact h u hu

theorem Told.setEv {s : St σ G} (h : Told s) (e : Nat) : Told (setEv e s) := by
  intro u hu
  rw [setEv_testDone]
  unfold Clocks.setEv at hu
  split at hu
  · exact h u hu
  · have hu : (if u ∈ s.waiters e then (s.st u).finish else s.st u).last = true := hu
    split at hu
    · rw [last_finish] at hu; exact h u hu
    · exact h u hu

theorem Told.finish {s : St σ G} (h : Told s) (t : Nat) : Told (finish t s) :=
  h.upd (finish_st t s) (finish_testDone t s) rfl

theorem Told.exec {s : St σ G} (h : Told s) (t : Nat) (c : Cmd σ G) : Told (exec t c s) := by
  have hd : Told { s with testDone := true } := fun _ _ => rfl
  cases c with
  | ret =>
    simp only [Clocks.exec]
    split
    · split
      · exact hd.finish t
      · split
        · exact hd.finish t
        · intro _ _; rfl
    · exact h.finish t
  | comp g k => exact h.same rfl rfl
  | taskRun k => exact h.same rfl rfl
  | yield k => exact h.upd rfl rfl rfl
  | waitEv e k =>
    simp only [Clocks.exec]
    split
    · exact h.same rfl rfl
    · exact h.upd rfl rfl rfl
  | setEv e k => exact (h.setEv e).same rfl rfl
  | clearEv e k => exact h.same rfl rfl
  | spawn s0 k => exact h.upd rfl rfl rfl
  | startClock d k => exact h.same rfl rfl

theorem Told.step {s : St σ G} (h : Told s) (sys : Sys σ G) : Told (step sys s) := by
  unfold Clocks.step
  split
  · exact h.exec _ _
  · split
    · rename_i hd rest _
      have h' : Told { s with batch := rest } := h.same rfl rfl
      revert h'
      generalize ({ s with batch := rest } : St σ G) = s
      intro h
      have doS : ∀ c, Told (doStep sys c s) := fun c =>
        (Told.setEv (s := { s with g := sys.dutStep (s.dut c) s.g,
                                   steps := Clocks.upd s.steps (s.dut c) (s.steps (s.dut c) + 1) })
          (h.same rfl rfl) (s.dut c)).same rfl rfl
      cases hd with
      | task t =>
        simp only [runHandle, resume]
        split
        · exact h.upd rfl rfl rfl
        · exact h.upd rfl rfl rfl
        · exact h.finish t
        · exact h
      | clock c =>
        simp only [runHandle, runClock]
        split
        · exact h.same rfl rfl
        · split
          · exact h.same rfl rfl
          · split
            · rename_i ht
              intro _ _
              exact ht
            · exact doS c
        · exact doS c
        · exact h
        · exact h
      | stop => exact h.same rfl rfl
    · split
      · exact h
      · exact h.same rfl rfl

theorem told (sys : Sys σ G) (g : G) (k : σ) (m : Nat) : Told (run sys (init g k) m) := by
  induction m with
  | zero =>
    intro t ht
    simp only [run, init] at ht
    split at ht <;> cases ht
  | succ m ih => exact ih.step sys

/-- **C114 (violated).** After the test has returned, `main_coro` waits for the clock event of the DUT
whose clock was started last.  If the clock of another DUT notices the end first, which shows in a step
of that DUT, the run never ends: whatever happens, `main_coro` goes on waiting, the DUT it waits for is
never stepped again, and the other one is stepped forever. -/
theorem C114_lost_violated (sys : Sys σ G) (g : G) (k : σ) (m d e : Nat)
    (hm : (run sys (init g k) m).st 0 = .pend (.final e))
    (hs : Steps sys (run sys (init g k) m) d) (hne : d ≠ e) :
    (∀ m', m ≤ m' → ¬ halted (run sys (init g k) m') ∧
      (run sys (init g k) m').st 0 = .pend (.final e) ∧
      (run sys (init g k) m').steps e = (run sys (init g k) m).steps e) ∧
    ∀ N, ∃ m', N ≤ (run sys (init g k) m').steps d := by
  have hi : Inv (run sys (init g k) m) := (inv_init g k).run sys m
  have htd : (run sys (init g k) m).testDone = true := told sys g k m 0 (by rw [hm]; rfl)
  obtain ⟨hc, c, rest, hb, hd, he, hor⟩ := steps_iff hs
  have hk : (run sys (init g k) m).clk c = .afterCancel := by
    rcases hor with hk | ⟨_, _, _, ht⟩
    · exact hk
    · rw [htd] at ht; cases ht
  have ha := hi.after c hk
  obtain ⟨hh, hst⟩ := ha.single hi hk (by rw [hm]; intro x; cases x)
  have hl : Lost (run sys (init g k) m) c e :=
    ⟨hm, ha.tasks, ha.cur, htd, hst, by rw [hd]; exact hne, hh, .inr hk⟩
  constructor
  · intro m' hm'
    obtain ⟨j, rfl⟩ : ∃ j, m' = m + j := ⟨m' - m, by omega⟩
    rw [run_add]
    obtain ⟨h1, h2, _⟩ := hl.run sys hi j
    refine ⟨?_, h1.main, h2⟩
    rintro ⟨hx, _, _⟩
    rw [h1.running] at hx
    cases hx
  · intro N
    induction N with
    | zero => exact ⟨0, Nat.zero_le _⟩
    | succ N ih =>
      have key : ∃ m', m ≤ m' ∧ N ≤ (run sys (init g k) m').steps d := by
        obtain ⟨m', h⟩ := ih
        refine ⟨m + m', Nat.le_add_right _ _, Nat.le_trans h ?_⟩
        have mono : ∀ a b, (run sys (init g k) a).steps d ≤ (run sys (init g k) (a + b)).steps d := by
          intro a b
          induction b with
          | zero => exact Nat.le_refl _
          | succ b ih =>
            refine Nat.le_trans ih ?_
            show _ ≤ (step sys (run sys (init g k) (a + b))).steps d
            by_cases hs : Steps sys (run sys (init g k) (a + b)) d
            · rw [(C114_quiet_step sys g k (a + b) d hs).2.1]; exact Nat.le_succ _
            · unfold Steps at hs
              rw [Classical.not_not.1 hs]
              exact Nat.le_refl _
        rw [Nat.add_comm]
        exact mono m' m
      obtain ⟨m', hle, h⟩ := key
      obtain ⟨j, rfl⟩ : ∃ j, m' = m + j := ⟨m' - m, by omega⟩
      obtain ⟨h1, _, h3⟩ := hl.run sys hi j
      obtain ⟨i, hi'⟩ := h1.more sys (hi.run sys j)
      refine ⟨m + j + i, ?_⟩
      rw [run_add, run_add]
      rw [h3, hd] at hi'
      rw [hi']
      rw [run_add] at h
      omega

/-! ### The end of a run -/

/-- A state of the last iterations of a run whose end clock `c` has noticed. -/
structure Last (s : St σ G) (c : Nat) (b r : List Handle) (x : Status σ) (k : Pc) (stop : Bool) : Prop where
  cur : s.cur = none
  batch : s.batch = b
  ready : s.ready = r
  main : s.st 0 = x
  tasks : ∀ t, t ≠ 0 → s.st t = .done
  clk : s.clk c = k
  flag : s.flag = false
  testDone : s.testDone = true
  stopping : s.stopping = stop

theorem Last.next {s : St σ G} (sys : Sys σ G) {c : Nat} {r : List Handle} {x : Status σ} {k : Pc}
    (h : Last s c [] r x k false) : Last (step sys s) c r [] x k false := by
  have hs : step sys s = { s with batch := s.ready, ready := [] } := by
    unfold step; simp only [h.cur, h.batch, h.stopping]; rfl
  rw [hs]
  exact ⟨h.cur, h.ready, rfl, h.main, h.tasks, h.clk, h.flag, h.testDone, h.stopping⟩

theorem Last.finish {s : St σ G} (sys : Sys σ G) {c e : Nat} {b : List Handle} {k : Pc}
    (h : Last s c (.task 0 :: b) [] (.fin (.final e)) k false) :
    Last (step sys s) c b [.stop] .done k false := by
  have hs : step sys s = resume 0 { s with batch := b } := by
    unfold step; simp only [h.cur, h.batch]; rfl
  have hr : resume 0 { s with batch := b } =
      push .stop { s with batch := b, st := upd s.st 0 .done, cur := none } := by
    unfold resume; simp only [h.main]; rfl
  rw [hs, hr]
  refine ⟨rfl, rfl, ?_, upd_self s.st 0 _, ?_, h.clk, h.flag, h.testDone, h.stopping⟩
  · show s.ready ++ [.stop] = _
    rw [h.ready]; rfl
  · intro t ht
    show upd s.st 0 .done t = _
    rw [upd_of_ne _ _ ht]; exact h.tasks t ht

theorem Last.cancel {s : St σ G} (sys : Sys σ G) {c : Nat}
    (h : Last s c [.clock c] [.stop] .done .check false) :
    Last (step sys s) c [] [.stop, .clock c] .done .afterCancel false := by
  have hs : step sys s = runClock sys c { s with batch := [] } := by
    unfold step; simp only [h.cur, h.batch]; rfl
  have hu : hasUnwait { s with batch := [] } = false := by
    unfold hasUnwait
    rw [List.any_eq_false]
    intro t _
    by_cases h0 : t = 0
    · subst h0; rw [h.main]; simp
    · rw [h.tasks t h0]; simp
  rw [hs, runClock_check sys (s := { s with batch := [] }) h.clk,
    if_neg (by rw [hu, show St.flag _ = s.flag from rfl, h.flag]; simp), if_pos h.testDone]
  refine ⟨h.cur, rfl, ?_, h.main, ?_, upd_self _ _ _, h.flag, h.testDone, h.stopping⟩
  · show s.ready.filter _ ++ [.clock c] = _
    rw [h.ready]
    rfl
  · intro t ht
    show (if t = 0 then s.st t else .done) = .done
    rw [if_neg ht]

theorem Last.stop {s : St σ G} (sys : Sys σ G) {c : Nat} {b r : List Handle} {x : Status σ} {k : Pc}
    (h : Last s c (.stop :: b) r x k false) : Last (step sys s) c b r x k true := by
  have hs : step sys s = { s with batch := b, stopping := true } := by
    unfold step; simp only [h.cur, h.batch]; rfl
  rw [hs]
  exact ⟨h.cur, rfl, h.ready, h.main, h.tasks, h.clk, h.flag, h.testDone, rfl⟩

theorem setEv_stopping (e : Nat) (s : St σ G) : (setEv e s).stopping = s.stopping := by
  unfold setEv; split <;> rfl

/-- **C114 (partial).** If, after the test has returned, the clock of the DUT that `main_coro` waits for
steps, the run ends.  (Missing for the full claim: that this clock is the one that notices the end, see
`C114_lost_violated`.) -/
theorem C114_ends_partial (sys : Sys σ G) (g : G) (k : σ) (m e : Nat)
    (hm : (run sys (init g k) m).st 0 = .pend (.final e))
    (hs : Steps sys (run sys (init g k) m) e) :
    ∃ m', halted (run sys (init g k) m') ∧ ∀ t, (run sys (init g k) m').st t = .done := by
  have hi : Inv (run sys (init g k) m) := (inv_init g k).run sys m
  have htd : (run sys (init g k) m).testDone = true := told sys g k m 0 (by rw [hm]; rfl)
  obtain ⟨hc, c, rest, hb, hd, he, hor⟩ := steps_iff hs
  have hk : (run sys (init g k) m).clk c = .afterCancel := by
    rcases hor with hk | ⟨_, _, _, ht⟩
    · exact hk
    · rw [htd] at ht; cases ht
  have ha := hi.after c hk
  obtain ⟨hh, hst⟩ := ha.single hi hk (by rw [hm]; intro x; cases x)
  refine ⟨m + 7, ?_⟩
  rw [run_add]
  revert hm hi hc hb hd he hk ha hh hst htd
  generalize run sys (init g k) m = s
  intro hm hi htd hc hb hd he hk ha hh hst
  rw [hb] at hh
  have hrest : rest = [] ∧ s.ready = [] := by
    rw [List.cons_append] at hh
    injection hh with _ h2
    exact List.append_eq_nil_iff.1 h2
  obtain ⟨rfl, hr⟩ := hrest
  have hw : s.waiters (s.dut c) = [0] := by
    have h0 := (hi.pend 0 _ hm).1
    rw [hd]
    have hall : ∀ t ∈ s.waiters e, t = 0 := by
      intro t ht
      apply Classical.byContradiction
      intro hne
      obtain ⟨w, h1, _⟩ := hi.waits e t ht
      rw [ha.tasks t hne] at h1
      cases h1
    have hn := hi.nodup e
    have h0 : 0 ∈ s.waiters e := h0
    match hl : s.waiters e, h0, hall, hn with
    | [x], _, hall, _ => rw [hall x (by simp)]
    | x :: y :: l, _, hall, hn =>
      have h1 := hall x (by simp)
      have h2 := hall y (by simp)
      subst h1 h2
      simp at hn
  have hev : s.ev (s.dut c) = false := by rw [hd]; exact (hi.pend 0 _ hm).2
  have h1 : Last (step sys s) c [] [.task 0, .clock c] (.fin (.final e)) .check false := by
    rw [he]
    unfold doStep setEv
    simp only [hev]
    refine ⟨hc, rfl, ?_, ?_, ?_, upd_self _ _ _, rfl, htd, hst⟩
    · show (s.ready ++ (s.waiters (s.dut c)).map Handle.task) ++ [.clock c] = _
      rw [hr, hw]
      rfl
    · show (if 0 ∈ s.waiters (s.dut c) then (s.st 0).finish else s.st 0) = _
      rw [hw, hm]
      rfl
    · intro t ht
      show (if t ∈ s.waiters (s.dut c) then (s.st t).finish else s.st t) = _
      rw [ha.tasks t ht]
      split <;> rfl
  have h6 := (((h1.next sys).finish sys).cancel sys |>.next sys).stop sys
  show halted (step sys (step sys (step sys (step sys (step sys (step sys (step sys s))))))) ∧ _
  show halted (step sys (step sys (step sys (step sys (step sys (step sys (step sys s))))))) ∧
    ∀ t, (step sys (step sys (step sys (step sys (step sys (step sys (step sys s))))))).st t = .done
  revert h6
  generalize step sys (step sys (step sys (step sys (step sys (step sys s))))) = s6
  intro h6
  have hs : step sys s6 = doStep sys c { s6 with batch := [] } := by
    have : step sys s6 = runClock sys c { s6 with batch := [] } := by
      unfold step; simp only [h6.cur, h6.batch]; rfl
    rw [this]
    unfold runClock
    simp only [h6.clk]
  rw [hs]
  refine ⟨⟨?_, ?_, ?_⟩, ?_⟩
  · show (setEv (s6.dut c) _).stopping = _
    rw [setEv_stopping]; exact h6.stopping
  · show (setEv (s6.dut c) _).cur = _
    rw [setEv_cur]; exact h6.cur
  · show (setEv (s6.dut c) _).batch = []
    rw [setEv_batch]
  · intro t
    rw [doStep_st]
    have hall : s6.st t = .done := by
      by_cases h0 : t = 0
      · subst h0; exact h6.main
      · exact h6.tasks t h0
    unfold setEv
    split
    · exact hall
    · show (if t ∈ s6.waiters (s6.dut c) then (s6.st t).finish else s6.st t) = _
      rw [hall]
      split <;> rfl

/-! ### One clock starves another -/

/-- A test for two DUTs, one task for each: `start_clock(a)`, `start_clock(b)`, `create_task(worker)`;
then the test steps DUT `a` with `await bundle_a.step()` over and over, and the worker DUT `b`. -/
def twoDuts (a b : Nat) : Nat → G → Cmd Nat G
  | 0, _ => .startClock a 1
  | 1, _ => .startClock b 2
  | 2, _ => .spawn 4 3
  | 3, _ => .waitEv a 3
  | _, _ => .waitEv b 4

/-- The state at the start of an iteration of the loop. -/
structure Starve (s : St Nat G) (a b : Nat) : Prop where
  cur : s.cur = none
  batch : s.batch = []
  ready : s.ready = [.task 0, .clock 0, .clock 1]
  n : s.n = 2
  main : s.st 0 = .fin (.ev a 3)
  worker : s.st 1 = .pend (.ev b 4)
  flag : s.flag = false
  testDone : s.testDone = false
  stopping : s.stopping = false
  clk0 : s.clk 0 = .check
  clk1 : s.clk 1 = .check
  dut0 : s.dut 0 = a
  dut1 : s.dut 1 = b
  ev : s.ev a = false
  waiters : s.waiters a = []

/-- The state in the middle of an iteration, when both tasks wait. -/
structure Waiting (s : St Nat G) (a b : Nat) : Prop where
  cur : s.cur = none
  batch : s.batch = [.clock 0, .clock 1]
  ready : s.ready = []
  n : s.n = 2
  main : s.st 0 = .pend (.ev a 3)
  worker : s.st 1 = .pend (.ev b 4)
  flag : s.flag = false
  testDone : s.testDone = false
  stopping : s.stopping = false
  clk0 : s.clk 0 = .check
  clk1 : s.clk 1 = .check
  dut0 : s.dut 0 = a
  dut1 : s.dut 1 = b
  ev : s.ev a = false
  waiters : s.waiters a = [0]

theorem step_clock (sys : Sys σ G) {s : St σ G} {c : Nat} {rest : List Handle} (hc : s.cur = none)
    (hb : s.batch = .clock c :: rest) : step sys s = runClock sys c { s with batch := rest } := by
  unfold step; simp only [hc, hb]; rfl

theorem Waiting.round {s : St Nat G} {a b : Nat} (f : Nat → G → G) (h : Waiting s a b) :
    Starve (step ⟨twoDuts a b, f⟩ (step ⟨twoDuts a b, f⟩ s)) a b ∧
      (step ⟨twoDuts a b, f⟩ (step ⟨twoDuts a b, f⟩ s)).steps = upd s.steps a (s.steps a + 1) := by
  obtain ⟨gg, n, st, batch, ready, ev, waiters, flag, testDone, nc, clk, dut, glob, cur, stopping, steps⟩ := s
  obtain ⟨h1, h2, h3, h4, h5, h6, h7, h8, h9, h10, h11, h12, h13, h14, h15⟩ := h
  simp only at h1 h2 h3 h4 h5 h6 h7 h8 h9 h10 h11 h12 h13 h14 h15
  subst h1 h2 h3 h4 h7 h8 h9
  have e2 : step ⟨twoDuts a b, f⟩ (⟨gg, 2, st, [.clock 0, .clock 1], [], ev, waiters, false, false, nc, clk,
        dut, glob, none, false, steps⟩ : St Nat G) =
      ⟨f a gg, 2, fun t => if t = 0 then .fin (.ev a 3) else st t, [.clock 1],
        [.task 0, .clock 0], upd (upd ev a true) a false, upd waiters a [], false, false, nc,
        upd clk 0 .check, dut, glob, none, false, upd steps a (steps a + 1)⟩ := by
    have hu : hasUnwait (⟨gg, 2, st, [.clock 1], [], ev, waiters, false, false, nc, clk, dut, glob, none,
        false, steps⟩ : St Nat G) = false := by
      simp [hasUnwait, List.range_succ, h5, h6]
    rw [step_clock _ rfl rfl, runClock_check _ (by exact h10), if_neg (by rw [hu]; simp), if_neg (by simp)]
    simp only [doStep, setEv, h12, h14, wake, clockYield, push, h15]
    congr 1
    funext t
    by_cases h0 : t = 0
    · subst h0; simp [h5, Status.finish]
    · simp [h0]
  have e3 : step ⟨twoDuts a b, f⟩ (⟨f a gg, 2, fun t => if t = 0 then .fin (.ev a 3) else st t, [.clock 1],
        [.task 0, .clock 0], upd (upd ev a true) a false, upd waiters a [], false, false, nc,
        upd clk 0 .check, dut, glob, none, false, upd steps a (steps a + 1)⟩ : St Nat G) =
      ⟨f a gg, 2, fun t => if t = 0 then .fin (.ev a 3) else st t, [],
        [.task 0, .clock 0, .clock 1], upd (upd ev a true) a false, upd waiters a [], false,
        false, nc, upd (upd clk 0 .check) 1 .check, dut, glob, none, false,
        upd steps a (steps a + 1)⟩ := by
    rw [step_clock _ rfl rfl, runClock_check _ (by exact h11), if_pos (by simp [hasUnwait, List.range_succ])]
    rfl
  rw [e2, e3]
  refine ⟨⟨rfl, rfl, rfl, rfl, rfl, h6, rfl, rfl, rfl, ?_, ?_, h12, h13, ?_, ?_⟩, rfl⟩
  · show upd (upd clk 0 .check) 1 .check 0 = _
    rw [upd_of_ne _ _ (by decide), upd_self]
  · show upd (upd clk 0 .check) 1 .check 1 = _
    exact upd_self _ _ _
  · show upd (upd ev a true) a false a = _
    exact upd_self _ _ _
  · show upd waiters a [] a = _
    exact upd_self _ _ _

theorem Starve.waiting {s : St Nat G} {a b : Nat} (f : Nat → G → G) (h : Starve s a b) :
    Waiting (step ⟨twoDuts a b, f⟩ (step ⟨twoDuts a b, f⟩ (step ⟨twoDuts a b, f⟩ s))) a b ∧
      (step ⟨twoDuts a b, f⟩ (step ⟨twoDuts a b, f⟩ (step ⟨twoDuts a b, f⟩ s))).steps = s.steps := by
  obtain ⟨gg, n, st, batch, ready, ev, waiters, flag, testDone, nc, clk, dut, glob, cur, stopping, steps⟩ := s
  obtain ⟨h1, h2, h3, h4, h5, h6, h7, h8, h9, h10, h11, h12, h13, h14, h15⟩ := h
  simp only at h1 h2 h3 h4 h5 h6 h7 h8 h9 h10 h11 h12 h13 h14 h15
  subst h1 h2 h3 h4 h7 h8 h9
  have x1 : step ⟨twoDuts a b, f⟩ (⟨gg, 2, st, [], [.task 0, .clock 0, .clock 1], ev, waiters, false,
      false, nc, clk, dut, glob, none, false, steps⟩ : St Nat G) =
      ⟨gg, 2, st, [.task 0, .clock 0, .clock 1], [], ev, waiters, false, false,
        nc, clk, dut, glob, none, false, steps⟩ := rfl
  have x2 : step ⟨twoDuts a b, f⟩ (⟨gg, 2, st, [.task 0, .clock 0, .clock 1], [], ev, waiters, false,
      false, nc, clk, dut, glob, none, false, steps⟩ : St Nat G) =
      ⟨gg, 2, upd st 0 .running, [.clock 0, .clock 1], [], ev, waiters, false, false,
        nc, clk, dut, glob, some (0, 3), false, steps⟩ := by
    show resume 0 _ = _
    unfold resume
    simp only [h5]
  have x3 : step ⟨twoDuts a b, f⟩ (⟨gg, 2, upd st 0 .running, [.clock 0, .clock 1], [], ev, waiters,
      false, false, nc, clk, dut, glob, some (0, 3), false, steps⟩ : St Nat G) =
      ⟨gg, 2, upd (upd st 0 .running) 0 (.pend (.ev a 3)), [.clock 0, .clock 1], [], ev,
      upd waiters a [0], false, false, nc, clk, dut, glob, none, false, steps⟩ := by
    show exec 0 (.waitEv a 3) _ = _
    unfold exec
    simp only [h14, block, h15]
    rfl
  rw [x1, x2, x3]
  refine ⟨⟨rfl, rfl, rfl, rfl, rfl, h6, rfl, rfl, rfl, h10, h11, h12, h13, h14, ?_⟩, rfl⟩
  show upd waiters a [0] a = _
  exact upd_self _ _ _

theorem Starve.round {s : St Nat G} {a b : Nat} (f : Nat → G → G) (h : Starve s a b) :
    Starve (run ⟨twoDuts a b, f⟩ s 5) a b ∧
      (run ⟨twoDuts a b, f⟩ s 5).steps = upd s.steps a (s.steps a + 1) := by
  obtain ⟨h1, h2⟩ := h.waiting f
  obtain ⟨h3, h4⟩ := h1.round f
  rw [h2] at h4
  exact ⟨h3, h4⟩

theorem steps_mono (sys : Sys σ G) (g : G) (k : σ) (d a b : Nat) :
    (run sys (init g k) a).steps d ≤ (run sys (init g k) (a + b)).steps d := by
  induction b with
  | zero => exact Nat.le_refl _
  | succ b ih =>
    refine Nat.le_trans ih ?_
    show _ ≤ (step sys (run sys (init g k) (a + b))).steps d
    by_cases hs : Steps sys (run sys (init g k) (a + b)) d
    · rw [(C114_quiet_step sys g k (a + b) d hs).2.1]; exact Nat.le_succ _
    · unfold Steps at hs
      rw [Classical.not_not.1 hs]
      exact Nat.le_refl _

theorem run_succ (sys : Sys σ G) (s : St σ G) (m : Nat) : run sys s (m + 1) = step sys (run sys s m) := rfl

/-- The start of the run of `twoDuts`. -/
theorem starve_start (a b : Nat) (hab : a ≠ b) (f : Nat → G → G) (g : G) :
    ∃ m, Starve (run ⟨twoDuts a b, f⟩ (init g 0) m) a b ∧
      (run ⟨twoDuts a b, f⟩ (init g 0) m).steps b = 0 := by
  have z0 : run ⟨twoDuts a b, f⟩ (init g 0) 0 =
      (⟨g, 1, (fun t => if t = 0 then .ready 0 else .done), [], [.task 0], fun _ => false, (fun _ => []),
        false, false, 0, (fun _ => .off), (fun _ => 0), none, none, false, fun _ => 0⟩ : St Nat G) := rfl
  have z1 : run ⟨twoDuts a b, f⟩ (init g 0) 1 =
      (⟨g, 1, (fun t => if t = 0 then .ready 0 else .done), [.task 0], [], fun _ => false, (fun _ => []),
        false, false, 0, (fun _ => .off), (fun _ => 0), none, none, false, fun _ => 0⟩ : St Nat G) := by
    rw [run_succ, z0]; rfl
  have z2 : run ⟨twoDuts a b, f⟩ (init g 0) 2 =
      (⟨g, 1, (upd (fun t => if t = 0 then .ready 0 else .done) 0 .running), [], [], fun _ => false, (fun
        _ => []), false, false, 0, (fun _ => .off), (fun _ => 0), none, some (0, 0), false, fun _ => 0⟩ :
        St Nat G) := by
    rw [run_succ, z1]; rfl
  have z3 : run ⟨twoDuts a b, f⟩ (init g 0) 3 =
      (⟨g, 1, (upd (fun t => if t = 0 then .ready 0 else .done) 0 .running), [], [.clock 0], fun _ =>
        false, (fun _ => []), false, false, 1, (upd (fun _ => .off) 0 .begin), (upd (fun _ => 0) 0 a),
        some a, some (0, 1), false, fun _ => 0⟩ : St Nat G) := by
    rw [run_succ, z2]; rfl
  have z4 : run ⟨twoDuts a b, f⟩ (init g 0) 4 =
      (⟨g, 1, (upd (fun t => if t = 0 then .ready 0 else .done) 0 .running), [], [.clock 0, .clock 1],
        fun _ => false, (fun _ => []), false, false, 2, (upd (upd (fun _ => .off) 0 .begin) 1 .begin),
        (upd (upd (fun _ => 0) 0 a) 1 b), some b, some (0, 2), false, fun _ => 0⟩ : St Nat G) := by
    rw [run_succ, z3]; rfl
  have z5 : run ⟨twoDuts a b, f⟩ (init g 0) 5 =
      (⟨g, 2, (upd (upd (fun t => if t = 0 then .ready 0 else .done) 0 .running) 1 (.ready 4)), [],
        [.clock 0, .clock 1, .task 1], fun _ => false, (fun _ => []), false, false, 2, (upd (upd (fun _
        => .off) 0 .begin) 1 .begin), (upd (upd (fun _ => 0) 0 a) 1 b), some b, some (0, 3), false, fun _
        => 0⟩ : St Nat G) := by
    rw [run_succ, z4]; rfl
  have z6 : run ⟨twoDuts a b, f⟩ (init g 0) 6 =
      (⟨g, 2, (upd (upd (upd (fun t => if t = 0 then .ready 0 else .done) 0 .running) 1 (.ready 4)) 0
        (.pend (.ev a 3))), [], [.clock 0, .clock 1, .task 1], fun _ => false, (upd (fun _ => []) a [0]),
        false, false, 2, (upd (upd (fun _ => .off) 0 .begin) 1 .begin), (upd (upd (fun _ => 0) 0 a) 1 b),
        some b, none, false, fun _ => 0⟩ : St Nat G) := by
    rw [run_succ, z5]; rfl
  have z7 : run ⟨twoDuts a b, f⟩ (init g 0) 7 =
      (⟨g, 2, (upd (upd (upd (fun t => if t = 0 then .ready 0 else .done) 0 .running) 1 (.ready 4)) 0
        (.pend (.ev a 3))), [.clock 0, .clock 1, .task 1], [], fun _ => false, (upd (fun _ => []) a [0]),
        false, false, 2, (upd (upd (fun _ => .off) 0 .begin) 1 .begin), (upd (upd (fun _ => 0) 0 a) 1 b),
        some b, none, false, fun _ => 0⟩ : St Nat G) := by
    rw [run_succ, z6]; rfl
  have z8 : run ⟨twoDuts a b, f⟩ (init g 0) 8 =
      (⟨g, 2, (upd (upd (upd (fun t => if t = 0 then .ready 0 else .done) 0 .running) 1 (.ready 4)) 0
        (.pend (.ev a 3))), [.clock 1, .task 1], [.clock 0], fun _ => false, (upd (fun _ => []) a [0]),
        false, false, 2, (upd (upd (upd (fun _ => .off) 0 .begin) 1 .begin) 0 .check), (upd (upd (fun _
        => 0) 0 a) 1 b), some b, none, false, fun _ => 0⟩ : St Nat G) := by
    rw [run_succ, z7]; rfl
  have z9 : run ⟨twoDuts a b, f⟩ (init g 0) 9 =
      (⟨g, 2, (upd (upd (upd (fun t => if t = 0 then .ready 0 else .done) 0 .running) 1 (.ready 4)) 0
        (.pend (.ev a 3))), [.task 1], [.clock 0, .clock 1], fun _ => false, (upd (fun _ => []) a [0]),
        false, false, 2, (upd (upd (upd (upd (fun _ => .off) 0 .begin) 1 .begin) 0 .check) 1 .check),
        (upd (upd (fun _ => 0) 0 a) 1 b), some b, none, false, fun _ => 0⟩ : St Nat G) := by
    rw [run_succ, z8]; rfl
  have z10 : run ⟨twoDuts a b, f⟩ (init g 0) 10 =
      (⟨g, 2, (upd (upd (upd (upd (fun t => if t = 0 then .ready 0 else .done) 0 .running) 1 (.ready 4))
        0 (.pend (.ev a 3))) 1 .running), [], [.clock 0, .clock 1], fun _ => false, (upd (fun _ => []) a
        [0]), false, false, 2, (upd (upd (upd (upd (fun _ => .off) 0 .begin) 1 .begin) 0 .check) 1
        .check), (upd (upd (fun _ => 0) 0 a) 1 b), some b, some (1, 4), false, fun _ => 0⟩ : St Nat G) :=
        by
    rw [run_succ, z9]; rfl
  have z11 : run ⟨twoDuts a b, f⟩ (init g 0) 11 =
      (⟨g, 2, (upd (upd (upd (upd (upd (fun t => if t = 0 then .ready 0 else .done) 0 .running) 1 (.ready
        4)) 0 (.pend (.ev a 3))) 1 .running) 1 (.pend (.ev b 4))), [], [.clock 0, .clock 1], fun _ =>
        false, (upd (upd (fun _ => []) a [0]) b ((upd (fun _ => []) a [0]) b ++ [1])), false, false, 2,
        (upd (upd (upd (upd (fun _ => .off) 0 .begin) 1 .begin) 0 .check) 1 .check), (upd (upd (fun _ =>
        0) 0 a) 1 b), some b, none, false, fun _ => 0⟩ : St Nat G) := by
    rw [run_succ, z10]; rfl
  have z12 : run ⟨twoDuts a b, f⟩ (init g 0) 12 =
      (⟨g, 2, (upd (upd (upd (upd (upd (fun t => if t = 0 then .ready 0 else .done) 0 .running) 1 (.ready
        4)) 0 (.pend (.ev a 3))) 1 .running) 1 (.pend (.ev b 4))), [.clock 0, .clock 1], [], fun _ =>
        false, (upd (upd (fun _ => []) a [0]) b ((upd (fun _ => []) a [0]) b ++ [1])), false, false, 2,
        (upd (upd (upd (upd (fun _ => .off) 0 .begin) 1 .begin) 0 .check) 1 .check), (upd (upd (fun _ =>
        0) 0 a) 1 b), some b, none, false, fun _ => 0⟩ : St Nat G) := by
    rw [run_succ, z11]; rfl
  have hw : Waiting (run ⟨twoDuts a b, f⟩ (init g 0) 12) a b := by
    rw [z12]
    refine ⟨rfl, rfl, rfl, rfl, rfl, rfl, rfl, rfl, rfl, rfl, rfl, rfl, rfl, rfl, ?_⟩
    show upd (upd (fun _ => []) a [0]) b _ a = _
    rw [upd_of_ne _ _ hab, upd_self]
  obtain ⟨h1, h2⟩ := hw.round f
  refine ⟨12 + 1 + 1, ?_⟩
  rw [run_succ, run_succ]
  refine ⟨h1, ?_⟩
  rw [h2, upd_of_ne _ _ hab.symm, z12]

/-- **C114 (violated).** A test with two DUTs and one task for each: the clock started first keeps waking
its task, and the second clock, which comes right after it in the loop, always finds that task unserved.
The second DUT is never stepped and its task waits forever, while the first DUT is stepped forever. -/
theorem C114_starves_violated (a b : Nat) (hab : a ≠ b) (f : Nat → G → G) (g : G) :
    (∀ m, (run ⟨twoDuts a b, f⟩ (init g 0) m).steps b = 0) ∧
    (∀ N, ∃ m, N ≤ (run ⟨twoDuts a b, f⟩ (init g 0) m).steps a) := by
  obtain ⟨m0, hm1, hm2⟩ := starve_start a b hab f g
  have key : ∀ i, Starve (run ⟨twoDuts a b, f⟩ (init g 0) (m0 + 5 * i)) a b ∧
      (run ⟨twoDuts a b, f⟩ (init g 0) (m0 + 5 * i)).steps b = 0 ∧
      i ≤ (run ⟨twoDuts a b, f⟩ (init g 0) (m0 + 5 * i)).steps a := by
    intro i
    induction i with
    | zero => exact ⟨hm1, hm2, Nat.zero_le _⟩
    | succ i ih =>
      obtain ⟨h1, h2, h3⟩ := ih
      obtain ⟨h4, h5⟩ := h1.round f
      rw [show m0 + 5 * (i + 1) = (m0 + 5 * i) + 5 by omega, run_add]
      refine ⟨h4, ?_, ?_⟩
      · rw [h5, upd_of_ne _ _ hab.symm]; exact h2
      · rw [h5, upd_self]; omega
  constructor
  · intro m
    have h1 := steps_mono ⟨twoDuts a b, f⟩ g 0 b m (m0 + 5 * m - m)
    rw [show m + (m0 + 5 * m - m) = m0 + 5 * m by omega, (key m).2.1] at h1
    omega
  · intro N
    exact ⟨_, (key N).2.2⟩

/-! ### Cases that meet the hypotheses -/

/-- `start_clock(0); start_clock(1)`, and the test returns. -/
def shortTest : Nat → Unit → Cmd Nat Unit
  | 0, _ => .startClock 0 1
  | 1, _ => .startClock 1 2
  | _, _ => .ret

/-- The test of two DUTs that does nothing hangs. -/
example : (∀ m', 11 ≤ m' → ¬ halted (run ⟨shortTest, fun _ g => g⟩ (init () 0) m') ∧
      (run ⟨shortTest, fun _ g => g⟩ (init () 0) m').st 0 = .pend (.final 1) ∧
      (run ⟨shortTest, fun _ g => g⟩ (init () 0) m').steps 1 = 0) ∧
    ∀ N, ∃ m', N ≤ (run ⟨shortTest, fun _ g => g⟩ (init () 0) m').steps 0 :=
  C114_lost_violated ⟨shortTest, fun _ g => g⟩ () 0 11 0 1 rfl (by unfold Steps; decide +kernel) (by decide)

/-- The same test, but it waits for a step of the DUT whose clock was started last. -/
def goodTest : Nat → Unit → Cmd Nat Unit
  | 0, _ => .startClock 0 1
  | 1, _ => .startClock 1 2
  | 2, _ => .waitEv 1 3
  | _, _ => .ret

example : ∃ m', halted (run ⟨goodTest, fun _ g => g⟩ (init () 0) m') ∧
    ∀ t, (run ⟨goodTest, fun _ g => g⟩ (init () 0) m').st t = .done :=
  C114_ends_partial ⟨goodTest, fun _ g => g⟩ () 0 17 1 rfl (by unfold Steps; decide +kernel)

/-- In this test both DUTs are stepped: DUT 0 by micro step 9, DUT 1 by micro step 10. -/
example : Steps ⟨goodTest, fun _ g => g⟩ (run ⟨goodTest, fun _ g => g⟩ (init () 0) 9) 0 ∧
    Steps ⟨goodTest, fun _ g => g⟩ (run ⟨goodTest, fun _ g => g⟩ (init () 0) 10) 1 := by
  unfold Steps; decide +kernel

/-- A test that computes, calls `task_run()` and waits for a step of its DUT. -/
def flagTest : Nat → Nat → Cmd Nat Nat
  | 0, _ => .startClock 0 1
  | 1, g => .comp (g + 5) 2
  | 2, _ => .taskRun 3
  | 3, _ => .waitEv 0 4
  | _, _ => .ret

example : (step ⟨flagTest, fun d g => 10 * g + d⟩ (run ⟨flagTest, fun d g => 10 * g + d⟩ (init 1 0) 3)).g = 6 :=
  (C114_state ⟨flagTest, fun d g => 10 * g + d⟩ 1 0 3).1 0 1 6 2 rfl rfl

example : ∃ i, i < 4 ∧
    ClockTurn (run ⟨flagTest, fun d g => 10 * g + d⟩ (init 1 0) (4 + 1 + i)) ∧
    ∀ d', ¬ Steps ⟨flagTest, fun d g => 10 * g + d⟩ (run ⟨flagTest, fun d g => 10 * g + d⟩ (init 1 0) (4 + 1 + i)) d' :=
  C114_task_run ⟨flagTest, fun d g => 10 * g + d⟩ 1 0 4 0 2 3 rfl rfl 4 0 (by unfold Steps; decide +kernel)

end Toffee.Clocks
