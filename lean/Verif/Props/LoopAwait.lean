import Verif.Props.LoopCall
import Verif.Props.LoopCycles
import Verif.Props.LoopQuiet
import Verif.Props.LoopGather
/-!
C93: whoever waits for a task, an event, a queue or a timer goes on in the clock cycle in which what it
waits for happens.
-/

namespace Toffee.Props.LoopAwait

open Toffee.Loop

variable {σ G V : Type} {sys : Sys σ G V} {g : G} {k0 : σ}

/-- Executions from `s0` as long as task `t`, which was woken from `w`, has not been resumed; the last
state is included. -/
inductive Held (sys : Sys σ G V) (t : Nat) (w : Wait σ V) (s0 : St σ G V) : St σ G V → Prop where
  | refl : Held sys t w s0 s0
  | step {s} (due : List Nat) : Held sys t w s0 s → s.st t = .fin w →
      Held sys t w s0 (step sys due s)

/-- A task that was woken runs before the DUT is stepped. -/
theorem held {t : Nat} {w : Wait σ V} {s0 s : St σ G V} (hw : ∀ v, w ≠ .final v)
    (h0 : Reach sys g k0 s0) (hd : Held sys t w s0 s) (hf : s0.st t = .fin w) :
    s.cycles = s0.cycles ∧ Reach sys g k0 s ∧
      (s.st t = .fin w ∨ ∃ s1 rest, Reach sys g k0 s1 ∧ Held sys t w s0 s1 ∧ s1.st t = .fin w ∧
        s = resume t { s1 with batch := rest }) := by
  induction hd with
  | refl => exact ⟨rfl, h0, .inl hf⟩
  | @step s due hd hs ih =>
    obtain ⟨h1, hr, _⟩ := ih
    have hi := reach_inv hr
    have hn : t < s.n := hi.core.lt_of_not_done (by rw [hs]; rfl)
    have hac : s.clock ≠ .afterCancel := by
      intro hk
      have := (reach_AC hr).st hk t
      rw [hs] at this
      cases w with
      | final v => exact hw v rfl
      | _ => cases this
    have hq : ¬ ((step sys due s).cycles ≠ s.cycles ∨ (step sys due s).clock = .afterCancel) := by
      intro hx
      obtain ⟨hu, _⟩ := LoopCall.turn_quiet sys due s hac hx
      rcases LoopCall.pend_of_quiet hu hn with ⟨w', hw'⟩ | ⟨r, hw'⟩ <;> rw [hs] at hw' <;> cases hw'
    rw [not_or, Classical.not_not] at hq
    refine ⟨hq.1.trans h1, .step due hr, ?_⟩
    rcases stays_step sys due s t hq.2 with ⟨k', hcu, hst⟩ | ⟨rest, hcu, hb, hst⟩ | ⟨_, hst⟩
    · have := (hi.core.hcur t).2 (by rw [hcu]; rfl)
      rw [hs] at this; cases this
    · exact .inr ⟨s, rest, hr, hd, hs, hst⟩
    · left
      rcases hst.st hn with h3 | ⟨w', h3, _⟩
      · rw [h3, hs]
      · rw [hs] at h3; cases h3

/-- The step in which `u` ends completes every `await` of it. -/
theorem join_fin {t u : Nat} {k : V → σ} {kx : σ} {s : St σ G V} {r : Option V} (due : List Nat)
    (hr : Reach sys g k0 s) (hp : s.st t = .pend (.join u k kx))
    (hu : (step sys due s).st u = .done r) :
    ((step sys due s).st t = .fin (.join u k kx) ∧ (step sys due s).cycles = s.cycles) ∨
      (t ≠ 0 ∧ DoneAs t none (step sys due s) ∧ (step sys due s).clock = .afterCancel) := by
  have hi := reach_inv hr
  have hi' := reach_inv (.step due hr : Reach sys g k0 (step sys due s))
  have hnd : ∀ r, s.st u ≠ .done r := by
    intro r hd
    have h1 := hi.core.hdone u (by rw [hd]; rfl)
    have h2 := hi.core.hj u t
    rw [h1, hp] at h2
    simp [jExp] at h2
  have hnp : (step sys due s).st t ≠ .pend (.join u k kx) := by
    intro hp'
    have h1 := hi'.core.hdone u (by rw [hu]; rfl)
    have h2 := hi'.core.hj u t
    rw [h1, hp'] at h2
    simp [jExp] at h2
  by_cases hcl : (step sys due s).clock = .afterCancel
  · rcases susp_step sys due hi (.inl hp) with h | ⟨h1, h2⟩ | ⟨rest, _, _, hf, _⟩
    · have := (reach_AC (.step due hr : Reach sys g k0 (step sys due s))).st hcl t
      rcases h with h | h <;> rw [h] at this <;> cases this
    · exact .inr ⟨h1, h2, hcl⟩
    · rw [hp] at hf; cases hf
  · left
    have hcy : (step sys due s).cycles = s.cycles := by
      rcases stays_step sys due s u hcl with ⟨k', hcu, hst⟩ | ⟨rest, hcu, hb, hst⟩ | ⟨_, hst⟩
      · rw [hst]; exact LoopCycles.exec_cycles u _ s
      · rw [hst]; exact (resume_neutral u { s with batch := rest }).cycles
      · exfalso
        have hn : u < s.n := hi.core.lt_of_not_done (by
          cases hs : s.st u with
          | done r => exact absurd hs (hnd r)
          | _ => rfl)
        rcases hst.st hn with h3 | ⟨w', _, h3⟩
        · exact hnd r (h3 ▸ hu)
        · rw [hu] at h3; cases h3
    refine ⟨?_, hcy⟩
    rcases stays_step sys due s t hcl with ⟨k', hcu, hst⟩ | ⟨rest, hcu, hb, hst⟩ | ⟨_, hst⟩
    · have := (hi.core.hcur t).2 (by rw [hcu]; rfl)
      rw [hp] at this; cases this
    · have := qExp_one_of_head hi hb
      rw [hp] at this; cases this
    · rcases hst.st (hi.core.lt_of_not_done (by rw [hp]; rfl)) with h3 | ⟨w', h3, h4⟩
      · exact absurd (h3.trans hp) hnp
      · rw [hp] at h3; cases h3; exact h4

theorem held_done {t u : Nat} {w : Wait σ V} {s0 s : St σ G V} {r : Option V}
    (h0 : Reach sys g k0 s0) (hd : Held sys t w s0 s) (hu : DoneAs u r s0) :
    DoneAs u r s ∧ Reach sys g k0 s := by
  induction hd with
  | refl => exact ⟨hu, h0⟩
  | step due _ _ ih => exact ⟨step_done sys due (reach_inv ih.2) ih.1, .step due ih.2⟩

/-- C93: a task that awaits task `u` goes on in the clock cycle in which `u` ends: with its result, or
with its exception (or it is cancelled with it). -/
theorem C93_await (s0 s : St σ G V) (t u : Nat) (k : V → σ) (kx : σ) (r : Option V) (due : List Nat)
    (h0 : Reach sys g k0 s0) (hp : s0.st t = .pend (.join u k kx))
    (hu : (step sys due s0).st u = .done r) (hc : (step sys due s0).clock ≠ .afterCancel)
    (hd : Held sys t (.join u k kx) (step sys due s0) s) :
    s.cycles = s0.cycles ∧
      (s.st t = .fin (.join u k kx) ∨ (∃ v, r = some v ∧ s.cur = some (t, k v)) ∨
        (r = none ∧ s.failed u = true ∧ s.cur = some (t, kx)) ∨
        (r = none ∧ s.failed u = false ∧ s.st t = .done none)) := by
  rcases join_fin due h0 hp hu with ⟨hf, hcy⟩ | ⟨_, _, h⟩
  · have h1 : Reach sys g k0 (step sys due s0) := .step due h0
    have hun : u < (step sys due s0).n := ((reach_inv h1).core.hjfin t u k kx hf).2
    obtain ⟨h2, hr, h3⟩ := held (by intro v; simp) h1 hd hf
    refine ⟨h2.trans hcy, ?_⟩
    rcases h3 with h3 | ⟨s1, rest, hr1, hd1, hf1, rfl⟩
    · exact .inl h3
    · right
      have hu1 := (held_done h1 hd1 ⟨hu, hun⟩).1.1
      cases r with
      | some v =>
        left
        refine ⟨v, rfl, ?_⟩
        unfold resume
        simp [hf1, hu1]
      | none =>
        right
        cases hfl : s1.failed u with
        | true =>
          left
          have : resume t { s1 with batch := rest } =
              { s1 with batch := rest, st := upd s1.st t .running, cur := some (t, kx) } := by
            unfold resume
            simp [hf1, hu1, hfl]
          rw [this]
          exact ⟨rfl, hfl, rfl⟩
        | false =>
          right
          have : resume t { s1 with batch := rest } = finish t none { s1 with batch := rest } := by
            unfold resume
            simp [hf1, hu1, hfl]
          rw [this]
          refine ⟨rfl, ?_, ?_⟩
          · unfold finish
            dsimp only
            split <;> exact hfl
          · unfold finish wake
            dsimp only
            split <;> split <;> simp [push, upd_self, Status.finish]
  · exact absurd h hc

/-- C93: `event.set()` of a task lets everybody who waits for the event go on in the same clock cycle,
even if the event is cleared before they run. -/
theorem C93_event (s0 s : St σ G V) (t v e : Nat) (k k1 k2 : σ) (due : List Nat)
    (h0 : Reach sys g k0 s0) (hp : s0.st t = .pend (.ev e k))
    (hcu : s0.cur = some (v, k1)) (hc : sys.prog k1 s0.g = .setEv e k2)
    (hd : Held sys t (.ev e k) (step sys due s0) s) :
    s.cycles = s0.cycles ∧ (s.st t = .fin (.ev e k) ∨ s.cur = some (t, k)) := by
  have hi := reach_inv h0
  have hst : step sys due s0 = exec v (.setEv e k2) s0 := by unfold step; rw [hcu, ← hc]
  have hm : t ∈ s0.waiters e := by
    rw [← List.count_pos_iff, hi.core.hw e t, hp]
    simp [wExp]
  have hev : s0.ev e = false := by
    cases he : s0.ev e
    · rfl
    · rw [hi.core.hev e he] at hm; cases hm
  have hf : (step sys due s0).st t = .fin (.ev e k) := by
    rw [hst]
    simp [exec, setEv, hev, wake, hm, hp, Status.finish]
  obtain ⟨h1, hr, h2⟩ := held (by intro v; simp) (.step due h0) hd hf
  refine ⟨?_, ?_⟩
  · rw [h1, hst]; exact LoopCycles.exec_cycles v _ s0
  · rcases h2 with h2 | ⟨s1, rest, hr1, hd1, hf1, rfl⟩
    · exact .inl h2
    · right
      unfold resume
      simp only [hf1]

/-- C93: `queue.put(x)` of a task lets the one who has been waiting longest for an item go on in the same
clock cycle; it then gets an item, unless somebody else took it meanwhile. -/
theorem C93_queue (s0 s : St σ G V) (t v q : Nat) (x : V) (k : V → σ) (k1 k2 : σ) (us : List Nat)
    (due : List Nat) (h0 : Reach sys g k0 s0) (hp : s0.st t = .pend (.get q k))
    (hg : s0.getters q = t :: us)
    (hcu : s0.cur = some (v, k1)) (hc : sys.prog k1 s0.g = .put q x k2)
    (hd : Held sys t (.get q k) (step sys due s0) s) :
    s.cycles = s0.cycles ∧ (s.st t = .fin (.get q k) ∨ (∃ y, s.cur = some (t, k y)) ∨
      (s.st t = .pend (.get q k) ∧ s.q q = [])) := by
  have hst : step sys due s0 = exec v (.put q x k2) s0 := by unfold step; rw [hcu, ← hc]
  have hf : (step sys due s0).st t = .fin (.get q k) := by
    rw [hst]
    simp [exec, putQ, hg, wake, hp, Status.finish]
  obtain ⟨h1, hr, h2⟩ := held (by intro v; simp) (.step due h0) hd hf
  refine ⟨?_, ?_⟩
  · rw [h1, hst]; exact LoopCycles.exec_cycles v _ s0
  · rcases h2 with h2 | ⟨s1, rest, hr1, hd1, hf1, rfl⟩
    · exact .inl h2
    · right
      unfold resume
      simp only [hf1]
      cases hq : s1.q q with
      | nil => right; simp [upd_self, hq]
      | cons y ys => left; exact ⟨y, rfl⟩

/-- C93: `asyncio.sleep(d)` with `d > 0` goes on in the clock cycle in which its timer fires. -/
theorem C93_timer (s0 s : St σ G V) (t : Nat) (k : σ) (rest : List Handle) (due : List Nat)
    (h0 : Reach sys g k0 s0) (hp : s0.st t = .pend (.timer k)) (hcu : s0.cur = none)
    (hb : s0.batch = .fire t :: rest) (hd : Held sys t (.timer k) (step sys due s0) s) :
    s.cycles = s0.cycles ∧ (s.st t = .fin (.timer k) ∨ s.cur = some (t, k)) := by
  have hst : step sys due s0 = wake [t] { s0 with batch := rest } := by
    unfold step
    rw [hcu, hb]
    simp [runHandle, hp]
  have hf : (step sys due s0).st t = .fin (.timer k) := by
    rw [hst]
    simp [wake, hp, Status.finish]
  obtain ⟨h1, hr, h2⟩ := held (by intro v; simp) (.step due h0) hd hf
  refine ⟨?_, ?_⟩
  · rw [h1, hst]; rfl
  · rcases h2 with h2 | ⟨s1, rest, hr1, hd1, hf1, rfl⟩
    · exact .inl h2
    · right
      unfold resume
      simp only [hf1]

/-- When the clock steps the DUT (before the final step that follows the end of the test), every task
is suspended in something that has not happened, or has ended. -/
theorem steps_idle {s s' : St σ G V} (hr : Reach sys g k0 s) (hs : StepsAt sys s s')
    (hc : s.clock ≠ .afterCancel) (t : Nat) :
    (∃ w, s.st t = .pend w) ∨ ∃ r, s.st t = .done r := by
  obtain ⟨hcu, rest, hb, hk⟩ := hs
  have hcc := clock_case sys { s with batch := rest }
  rw [hk] at hcc
  cases hcc with
  | step h hu _ _ _ => exact LoopQuiet.idle_of_hasUnwait (InvX.pop (reach_inv hr) hb) hu t
  | last h => exact absurd h hc

/-- C93: when the clock goes about stepping the DUT (except for the final step after the end of the
test), every task has ended or waits for something that has not happened; whatever the hooks do that
are then executed. -/
theorem C93_idle (s s' : St σ G V) (hr : Reach sys g k0 s) (hs : StepsAt sys s s')
    (hc : s.clock ≠ .afterCancel) (t : Nat) : LoopQuiet.Blocked s t :=
  (LoopQuiet.blocked_of_idle (reach_inv hr) (steps_idle hr hs hc)).1 t

/-- C93 (partial): as long as a task is inside `gather(c1, .., cn)`, the clock steps the DUT only while
one of the coroutines has not ended: `gather` returns in the clock cycle in which the last of them
ends.  (Leaving an `Executor` block with exit mode "all" is `gather` of the groups.)  Missing with
respect to the full statement: that an exception of one of them is raised by `gather` in its cycle;
that is false, see `C93_exception_violated`. -/
theorem C93_gather_partial (s0 s s' : St σ G V) (t : Nat) (cs : List σ) (sp : List Nat → σ)
    (jn : List Nat → List V → σ) (after : List V → σ) (exc : σ)
    (hc : LoopGather.GatherCode sys cs sp jn after exc) (h0 : Reach sys g k0 s0)
    (hs : s0.cur = some (t, sp [])) (hd : LoopGather.During sys t after exc s0 s)
    (hst : StepsAt sys s s') :
    s.st t = .done none ∨ ∃ u i, ∃ h : i < cs.length, s0.n ≤ u ∧ s.orig u = some cs[i] ∧
      ∀ r, s.st u ≠ .done r := by
  have hr := hd.reach h0
  have hi := reach_inv hr
  have hcn := hst.1
  cases LoopGather.during_in hc h0 hs hd with
  | creating ids _ _ h => rw [hcn] at h; cases h
  | awaiting ids res _ _ _ h => rw [hcn] at h; cases h
  | returned ids res _ _ _ _ h => rw [hcn] at h; cases h
  | raised ids res _ _ _ _ _ h => rw [hcn] at h; cases h
  | cancelled h => exact .inl h.1
  | blocked ids res hm hl hg hlt h =>
    right
    have hac : s.clock ≠ .afterCancel := by
      intro hk
      have := (reach_AC hr).st hk t
      rcases h with h | h <;> rw [h] at this <;> cases this
    have hp : s.st t = .pend (.join ids[res.length] (fun v => jn ids (res ++ [v])) exc) := by
      rcases h with h | h
      · exact h
      · rcases steps_idle hr hst hac t with ⟨w, hw⟩ | ⟨r, hw⟩ <;> rw [h] at hw <;> cases hw
    refine ⟨ids[res.length], res.length, by omega, hm.new _ (List.getElem_mem _),
      (hm.born _ hlt (by omega)).1, ?_⟩
    intro r hdn
    have h1 := hi.core.hdone _ (by rw [hdn]; rfl)
    have h2 := hi.core.hj ids[res.length] t
    rw [h1, hp] at h2
    simp [jExp] at h2

/-! ### Concrete systems -/

/-- The states of a test with a task that waits for event 1, one that waits for an item of queue 0 and
one that sleeps; after a clock cycle the test sets and clears the event and puts an item. -/
inductive K where
  | start | fork1 | fork2 | fork3 | tick | set | clear | put | last
  | evw | evd | qw | qd (v : Nat) | sl | sld
deriving DecidableEq

def demo : Sys K Nat Nat where
  prog k _ := match k with
    | .start => .startClock .fork1
    | .fork1 => .spawn .evw (fun _ => .fork2)
    | .fork2 => .spawn .qw (fun _ => .fork3)
    | .fork3 => .spawn .sl (fun _ => .tick)
    | .tick => .waitEv 0 .set
    | .set => .setEv 1 .clear
    | .clear => .clearEv 1 .put
    | .put => .put 0 9 .last
    | .last => .waitEv 0 .tick
    | .evw => .waitEv 1 .evd
    | .evd => .ret 1
    | .qw => .get 0 .qd
    | .qd v => .ret v
    | .sl => .sleep .sld
    | .sld => .ret 3
  dutStep g := g + 1
  sample g := g

theorem held_iter {t : Nat} {w : Wait σ V} (m : Nat) {s0 s : St σ G V} (h : Held sys t w s0 s)
    (hn : ∀ i, i < m → (iter sys i s).st t = .fin w) : Held sys t w s0 (iter sys m s) := by
  induction m generalizing s with
  | zero => exact h
  | succ m ih =>
    refine ih (.step [] h (hn 0 (by omega))) ?_
    intro i hi
    exact hn (i + 1) (by omega)

/-- The state after `i` steps. -/
abbrev dst (i : Nat) : St K Nat Nat := iter demo i (init 0 .start)

/-- The hypotheses of `C93_event` are met: the event is set and cleared in cycle 1, and the waiting task
goes on in that cycle. -/
example : ∃ s0 s, Reach demo 0 .start s0 ∧ s0.st 1 = .pend (.ev 1 .evd) ∧ s0.cur = some (0, .set) ∧
    demo.prog .set s0.g = .setEv 1 .clear ∧ Held demo 1 (.ev 1 .evd) (step demo [] s0) s ∧
    s.cur = some (1, .evd) ∧ s.cycles = 1 :=
  ⟨dst 19, dst 26, reach_iter 19 .init, rfl, by decide, rfl,
    held_iter 6 (s := dst 20) .refl (fun i hi => by
      match i, hi with
      | 0, _ => rfl
      | 1, _ => rfl
      | 2, _ => rfl
      | 3, _ => rfl
      | 4, _ => rfl
      | 5, _ => rfl), by decide, by decide⟩

/-- The hypotheses of `C93_queue` are met. -/
example : ∃ s0 s, Reach demo 0 .start s0 ∧ s0.st 2 = .pend (.get 0 .qd) ∧ s0.getters 0 = [2] ∧
    s0.cur = some (0, .put) ∧ demo.prog .put s0.g = .put 0 9 .last ∧
    Held demo 2 (.get 0 .qd) (step demo [] s0) s ∧ s.cur = some (2, .qd 9) ∧ s.cycles = 1 :=
  ⟨dst 21, dst 28, reach_iter 21 .init, rfl, by decide, by decide, rfl,
    held_iter 6 (s := dst 22) .refl (fun i hi => by
      match i, hi with
      | 0, _ => rfl
      | 1, _ => rfl
      | 2, _ => rfl
      | 3, _ => rfl
      | 4, _ => rfl
      | 5, _ => rfl), by decide, by decide⟩

/-- The hypotheses of `C93_timer` are met. -/
example : ∃ s0 s, Reach demo 0 .start s0 ∧ s0.st 3 = .pend (.timer .sld) ∧ s0.cur = none ∧
    s0.batch = [.fire 3] ∧ Held demo 3 (.timer .sld) (step demo [] s0) s ∧
    s.cur = some (3, .sld) ∧ s.cycles = 1 :=
  ⟨iter demo 1 (step demo [3] (dst 15)), iter demo 10 (step demo [3] (dst 15)),
    reach_iter 1 (.step [3] (reach_iter 15 .init)), rfl, by decide, by decide,
    held_iter 8 (s := iter demo 2 (step demo [3] (dst 15))) .refl (fun i hi => by
      match i, hi with
      | 0, _ => rfl
      | 1, _ => rfl
      | 2, _ => rfl
      | 3, _ => rfl
      | 4, _ => rfl
      | 5, _ => rfl
      | 6, _ => rfl
      | 7, _ => rfl), by decide, by decide⟩

/-- The state of `gather(c1, c2)` after `i` steps, `c1` taking two cycles and `c2` one. -/
abbrev gst (i : Nat) : St LoopGather.K Nat Nat := iter LoopGather.demo i (init 0 .start)

/-- The hypotheses of `C93_await` are met. -/
example : ∃ s0 s, Reach LoopGather.demo 0 .start s0 ∧
    s0.st 0 = .pend (.join 1 (fun v => .jn [1, 2] [v]) .exc) ∧
    (step LoopGather.demo [] s0).st 1 = .done (some 70) ∧
    (step LoopGather.demo [] s0).clock ≠ .afterCancel ∧
    Held LoopGather.demo 0 (.join 1 (fun v => .jn [1, 2] [v]) .exc) (step LoopGather.demo [] s0) s ∧
    s.cur = some (0, .jn [1, 2] [70]) ∧ s.cycles = 2 :=
  ⟨gst 23, gst 27, reach_iter 23 .init, rfl, rfl, by decide,
    held_iter 3 (s := gst 24) .refl (fun i hi => by
      match i, hi with
      | 0, _ => rfl
      | 1, _ => rfl
      | 2, _ => rfl), by decide, by decide⟩

/-- The hypotheses of `C93_gather_partial` (and of `C93_idle`) are met: a step during `gather`. -/
example : ∃ s0 s s', Reach LoopGather.demo 0 .start s0 ∧ s0.cur = some (0, .sp []) ∧
    LoopGather.During LoopGather.demo 0 .after .exc s0 s ∧ StepsAt LoopGather.demo s s' ∧
    s.cycles = 1 ∧ s.clock ≠ .afterCancel :=
  ⟨gst 3, gst 20, _, reach_iter 3 .init, by decide,
    LoopGather.during_demo LoopGather.args 17 (by decide), ⟨rfl, [], rfl, rfl⟩, by decide, by decide⟩

/-- `gather` of a coroutine that takes three cycles and one that raises at once. -/
abbrev bad : Sys LoopGather.K Nat Nat := LoopGather.demoOf [.child 3 7, .bad 0]

/-- C93 is false for exceptions in `gather`: the second coroutine raises in cycle 0, but the DUT is
stepped three times before the caller gets the exception, since `gather` first waits for the first
coroutine. -/
theorem C93_exception_violated : ∃ s0 s1 s s' s2, Reach bad 0 .start s0 ∧
    s0.cur = some (0, .sp []) ∧ LoopGather.During bad 0 .after .exc s0 s1 ∧ s1.failed 2 = true ∧
    s1.cycles = 0 ∧ LoopGather.During bad 0 .after .exc s0 s ∧ StepsAt bad s s' ∧ s.cycles = 2 ∧
    LoopGather.During bad 0 .after .exc s0 s2 ∧ s2.cur = some (0, .exc) ∧ s2.cycles = 3 :=
  ⟨iter bad 3 (init 0 .start), iter bad 13 (init 0 .start), iter bad 22 (init 0 .start), _,
    iter bad 30 (init 0 .start), reach_iter 3 .init, by decide,
    LoopGather.during_demo _ 10 (by decide), by decide, by decide,
    LoopGather.during_demo _ 19 (by decide), ⟨rfl, [], rfl, rfl⟩, by decide,
    LoopGather.during_demo _ 27 (by decide), by decide, by decide⟩

end Toffee.Props.LoopAwait
