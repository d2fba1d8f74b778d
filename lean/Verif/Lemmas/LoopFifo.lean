import Verif.Lemmas.LoopWait
/-! The deque of the loop: a step of a task only appends to it, so scheduled tasks keep their order. -/

namespace Toffee.Loop

variable {σ G V : Type}

/-- Handles are only appended, and the current task goes on or stops. -/
structure App (t : Nat) (s s' : St σ G V) : Prop where
  batch : s'.batch = s.batch
  ready : ∃ l, s'.ready = s.ready ++ l
  cur : s'.cur = none ∨ ∃ k, s'.cur = some (t, k)

theorem setEv_app (e : Nat) (s : St σ G V) :
    (setEv e s).batch = s.batch ∧ (∃ l, (setEv e s).ready = s.ready ++ l) ∧
      (setEv e s).cur = s.cur := by
  unfold setEv
  split
  · exact ⟨rfl, ⟨[], by simp⟩, rfl⟩
  · exact ⟨rfl, ⟨_, rfl⟩, rfl⟩

theorem putQ_app (y : Nat) (v : V) (s : St σ G V) :
    (putQ y v s).batch = s.batch ∧ (∃ l, (putQ y v s).ready = s.ready ++ l) ∧
      (putQ y v s).cur = s.cur := by
  unfold putQ
  simp only
  split
  · exact ⟨rfl, ⟨[], by simp⟩, rfl⟩
  · exact ⟨rfl, ⟨_, rfl⟩, rfl⟩

theorem finish_app (t u : Nat) (r : Option V) (s : St σ G V) : App u s (finish t r s) := by
  unfold finish
  simp only
  refine ⟨?_, ?_, ?_⟩
  · split <;> rfl
  · split
    · exact ⟨.stop :: (s.joiners t).map .task, by simp [wake, push]⟩
    · exact ⟨(s.joiners t).map .task, rfl⟩
  · left; split <;> rfl

theorem fail_app (t u : Nat) (held : Bool) (s : St σ G V) : App u s (fail t held s) := by
  have h := finish_app t u none { s with failed := upd s.failed t true }
  unfold fail
  simp only
  split
  · exact ⟨h.batch, h.ready, h.cur⟩
  · exact ⟨h.batch, h.ready, h.cur⟩

theorem exec_app (t : Nat) (c : Cmd σ G V) (s : St σ G V) : App t s (exec t c s) := by
  have same : ∀ (s' : St σ G V), s'.batch = s.batch → s'.ready = s.ready →
      (s'.cur = none ∨ ∃ k, s'.cur = some (t, k)) → App t s s' :=
    fun s' h1 h2 h3 => ⟨h1, ⟨[], by simp [h2]⟩, h3⟩
  cases c with
  | ret v =>
    unfold exec
    simp only
    split
    · split
      · have h := finish_app t t (some v) (note .testDone { s with testDone := true })
        exact ⟨h.batch, h.ready, h.cur⟩
      · exact same _ rfl rfl (.inl rfl)
    · exact finish_app t t _ s
  | raise held => exact fail_app t t held s
  | comp g k => exact same _ rfl rfl (.inr ⟨_, rfl⟩)
  | taskRun k => exact same _ rfl rfl (.inr ⟨_, rfl⟩)
  | yield k => exact ⟨rfl, ⟨_, rfl⟩, .inl rfl⟩
  | sleep k => exact same _ rfl rfl (.inl rfl)
  | waitEv e k =>
    unfold exec
    simp only
    split
    · exact same _ rfl rfl (.inr ⟨_, rfl⟩)
    · split <;> exact same _ rfl rfl (.inl rfl)
  | setEv e k =>
    obtain ⟨h1, h2, _⟩ := setEv_app e s
    exact ⟨h1, h2, .inr ⟨_, rfl⟩⟩
  | clearEv e k => exact same _ rfl rfl (.inr ⟨_, rfl⟩)
  | put q v k =>
    obtain ⟨h1, h2, _⟩ := putQ_app q v s
    exact ⟨h1, h2, .inr ⟨_, rfl⟩⟩
  | get q k =>
    unfold exec
    simp only
    split
    · exact same _ rfl rfl (.inl rfl)
    · exact same _ rfl rfl (.inr ⟨_, rfl⟩)
  | spawn s0 k => exact ⟨rfl, ⟨_, rfl⟩, .inr ⟨_, rfl⟩⟩
  | join u k kx =>
    unfold exec
    simp only
    split
    · exact same _ rfl rfl (.inr ⟨_, rfl⟩)
    · split
      · exact same _ rfl rfl (.inr ⟨_, rfl⟩)
      · exact finish_app t t _ s
    · exact same _ rfl rfl (.inl rfl)
  | addHook h p k => exact same _ rfl rfl (.inr ⟨_, rfl⟩)
  | startClock k =>
    unfold exec
    simp only
    split
    · exact ⟨rfl, ⟨_, rfl⟩, .inr ⟨_, rfl⟩⟩
    · exact same _ rfl rfl (.inr ⟨_, rfl⟩)

theorem resume_app (t : Nat) (s : St σ G V) (hc : s.cur = none) : App t s (resume t s) := by
  have same : ∀ (s' : St σ G V), s'.batch = s.batch → s'.ready = s.ready →
      (s'.cur = none ∨ ∃ k, s'.cur = some (t, k)) → App t s s' :=
    fun s' h1 h2 h3 => ⟨h1, ⟨[], by simp [h2]⟩, h3⟩
  unfold resume
  simp only
  split
  · exact same _ rfl rfl (.inr ⟨_, rfl⟩)
  · split <;> exact same _ rfl rfl (.inr ⟨_, rfl⟩)
  · exact same _ rfl rfl (.inr ⟨_, rfl⟩)
  · split
    · exact same _ rfl rfl (.inl hc)
    · exact same _ rfl rfl (.inr ⟨_, rfl⟩)
  · split
    · exact same _ rfl rfl (.inr ⟨_, rfl⟩)
    · split
      · exact same _ rfl rfl (.inr ⟨_, rfl⟩)
      · exact finish_app t t _ s
  · have h := finish_app t t (some ‹V›) (note (.resume t) s)
    exact ⟨h.batch, h.ready, h.cur⟩
  · exact same _ rfl rfl (.inl hc)

/-- While a task is scheduled the clock task does nothing. -/
theorem clock_busy (sys : Sys σ G V) {s : St σ G V} {a : Nat} {k : σ} (ha : s.st a = .ready k)
    (hn : a < s.n) (hac : s.clock ≠ .afterCancel) :
    runClock sys s = s ∨ runClock sys s = clockYield s := by
  have hu : hasUnwait s = true := by
    unfold hasUnwait
    rw [List.any_eq_true]
    exact ⟨a, List.mem_range.2 hn, by simp [ha]⟩
  unfold runClock clockTurn
  cases hc : s.clock with
  | off => exact .inl rfl
  | begin => exact .inr rfl
  | check => right; simp [hu]
  | afterCancel => exact absurd hc hac
  | dead => exact .inl rfl

/-- Task `a` is scheduled, and in front of it there is nothing of task `b`. -/
structure Ahead (a b : Nat) (k : σ) (m : Nat) (s : St σ G V) : Prop where
  st : s.st a = .ready k
  queue : ∃ x z, s.batch ++ s.ready = x ++ .task a :: z ∧ Handle.task b ∉ x ∧ x.length = m
  cur : ∀ k', s.cur ≠ some (b, k')

theorem Stays.ready {s s' : St σ G V} {a : Nat} {k : σ} (h : Stays s s' a) (hn : a < s.n)
    (ha : s.st a = .ready k) : s'.st a = .ready k := by
  rcases h.st hn with h1 | ⟨w, h1, _⟩
  · rw [h1, ha]
  · rw [ha] at h1; cases h1

/-- What one step does while `a` waits for its turn. -/
inductive Turn (a b : Nat) (k : σ) (m : Nat) (s s' : St σ G V) : Prop where
  | ran (h : s'.cur = some (a, k)) (hb : s.batch ≠ [])
  | exec (t : Nat) (k1 : σ) (hc : s.cur = some (t, k1)) (h : Ahead a b k m s')
      (hc' : s'.cur = none ∨ ∃ k2, s'.cur = some (t, k2))
  | handle (m' : Nat) (hm : m' < m) (hc : s.cur = none) (h : Ahead a b k m' s')
  | turn (hc : s.cur = none) (hb : s.batch = []) (h : Ahead a b k m s') (hb' : s'.batch ≠ [])
      (hc' : s'.cur = none)
  | halt (h : halted s) (hs : s' = s)

theorem Ahead.step {sys : Sys σ G V} {g : G} {k0 k : σ} {a b m : Nat} {s : St σ G V}
    (hr : Reach sys g k0 s) (h : Ahead a b k m s) (hne : ∀ k', s.cur ≠ some (a, k'))
    (due : List Nat) : Turn a b k m s (step sys due s) := by
  have hi := reach_inv hr
  have hn : a < s.n := hi.core.lt_of_not_done (by rw [h.st]; rfl)
  have hac : s.clock ≠ .afterCancel := by
    intro hk
    have := (reach_AC hr).st hk a
    rw [h.st] at this; cases this
  obtain ⟨x, z, hq, hx, hm⟩ := h.queue
  -- a handle was taken from the front and others appended at the end
  have popped : ∀ (hd : Handle) (rest l : List Handle) (s' : St σ G V), s.cur = none →
      s.batch = hd :: rest → hd ≠ .task a → s'.batch = rest → s'.ready = s.ready ++ l →
      s'.st a = .ready k → (∀ k', s'.cur ≠ some (b, k')) → Turn a b k m s s' := by
    intro hd rest l s' hc hb hda h1 h2 h3 h4
    rw [hb] at hq
    cases x with
    | nil => injection hq with hq; exact absurd hq hda
    | cons y x =>
      injection hq with hq1 hq2
      have hq2 : rest ++ s.ready = x ++ .task a :: z := hq2
      refine .handle x.length (by rw [← hm]; simp) hc ⟨h3, ⟨x, z ++ l, ?_, ?_, rfl⟩, h4⟩
      · rw [h1, h2, ← List.append_assoc, hq2]; simp
      · exact fun hb => hx (List.mem_cons_of_mem _ hb)
  have hsc := step_case sys due s
  generalize Loop.step sys due s = s' at hsc
  cases hsc with
  | exec t k1 hc =>
    have hta : a ≠ t := by rintro rfl; exact hne _ hc
    have happ := exec_app t (sys.prog k1 s.g) s
    obtain ⟨l, hl⟩ := happ.ready
    refine .exec t k1 hc ⟨(exec_stays _ s hta).ready hn h.st, ⟨x, z ++ l, ?_, hx, hm⟩, ?_⟩ happ.cur
    · rw [happ.batch, hl, ← List.append_assoc, hq]; simp
    · intro k' hk
      rcases happ.cur with h1 | ⟨k2, h1⟩
      · rw [h1] at hk; cases hk
      · rw [h1] at hk
        injection hk with hk; injection hk with hk _
        subst hk
        exact h.cur _ hc
  | task u rest hc hb =>
    by_cases hua : u = a
    · subst hua
      refine .ran ?_ (by rw [hb]; simp)
      unfold resume
      simp only [h.st]
    · have happ := resume_app u { s with batch := rest } hc
      obtain ⟨l, hl⟩ := happ.ready
      refine popped _ rest l _ hc hb (by simpa using hua) happ.batch hl
        ((resume_stays { s with batch := rest } (fun e => hua e.symm)).ready hn h.st) ?_
      intro k' hk
      rcases happ.cur with h1 | ⟨k2, h1⟩
      · rw [h1] at hk; cases hk
      · rw [h1] at hk
        injection hk with hk; injection hk with hk _
        subst hk
        rw [hb] at hq
        cases x with
        | nil => injection hq with hq; injection hq with hq; exact hua hq
        | cons y x => injection hq with hq1 hq2; exact hx (hq1 ▸ List.mem_cons_self ..)
  | clock rest hc hb =>
    have hcur : ∀ k', s.cur ≠ some (b, k') := h.cur
    rcases clock_busy sys (s := { s with batch := rest }) h.st hn hac with h1 | h1 <;> rw [h1]
    · exact popped _ rest [] _ hc hb (by simp) rfl (by simp) h.st hcur
    · exact popped _ rest [.clock] _ hc hb (by simp) rfl rfl h.st hcur
  | stop rest hc hb => exact popped _ rest [] _ hc hb (by simp) rfl (by simp) h.st h.cur
  | fire t k1 rest hc hb hs =>
    exact popped _ rest [.task t] _ hc hb (by simp) rfl rfl
      ((wake_stays [t] { s with batch := rest } a).ready hn h.st) h.cur
  | miss t rest hc hb hs => exact popped _ rest [] _ hc hb (by simp) rfl (by simp) h.st h.cur
  | halt hc hb hs => exact .halt ⟨hs, hc, hb⟩ rfl
  | turn due hc hb hs =>
    rw [hb] at hq
    have hq : s.ready = x ++ .task a :: z := hq
    refine .turn hc hb ⟨h.st, ⟨x, z ++ due.map .fire, ?_, hx, hm⟩, h.cur⟩ ?_ hc
    · show s.ready ++ due.map .fire ++ [] = _
      rw [hq]; simp
    · show s.ready ++ due.map .fire ≠ []
      rw [hq]; simp

/-- A task that is about to run is ahead of every task that waits or does not exist yet. -/
theorem Ahead.init {sys : Sys σ G V} {g : G} {k0 k : σ} {a b : Nat} {s : St σ G V}
    (hr : Reach sys g k0 s) (ha : s.st a = .ready k)
    (hb : s.n ≤ b ∨ ∃ w, s.st b = .pend w) : ∃ m, Ahead a b k m s := by
  have hi := reach_inv hr
  have hm : Handle.task a ∈ s.batch ++ s.ready := by
    have := hi.core.hq a
    rw [ha] at this
    rw [← List.one_le_count_iff]
    have h2 : (s.batch ++ s.ready).count (Handle.task a) = 1 := this
    omega
  have hz : Handle.task b ∉ s.batch ++ s.ready := by
    have := hi.core.hq b
    have h0 : qExp (s.st b) = 0 := by
      rcases hb with hb | ⟨w, hb⟩
      · rw [hi.core.hborn b hb]; rfl
      · rw [hb]; rfl
    rw [h0] at this
    exact List.count_eq_zero.1 this
  obtain ⟨x, z, hq⟩ := List.append_of_mem hm
  refine ⟨_, ha, ⟨x, z, hq, fun h => hz (hq ▸ List.mem_append_left _ h), rfl⟩, ?_⟩
  intro k' hk
  have hrun := (hi.core.hcur b).2 (by rw [hk]; rfl)
  rcases hb with hb | ⟨w, hb⟩
  · rw [hi.core.hborn b hb] at hrun; cases hrun
  · rw [hb] at hrun; cases hrun

end Toffee.Loop
