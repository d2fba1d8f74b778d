import Verif.Props.LoopCycles
import Verif.Props.Triggers
/-!
C89: code that waits for clock events in a loop (the triggers, the monitors) sees every clock cycle
exactly once, so the triggers fire in the right cycle on the event loop, whatever else runs.
-/

namespace Toffee.Props.LoopPoll

open Toffee.Loop Toffee.Props.LoopClock Toffee.Props.LoopCycles

variable {σ G V : Type}

/-- Executions from `s0` while the code of task `t` is in `B`; the list is what the task saw: the shared
state (in particular all pins) at each of its resumptions since `s0`. -/
inductive Seen (sys : Sys σ G V) (t : Nat) (B : σ → Prop) (s0 : St σ G V) :
    List G → St σ G V → Prop where
  | refl : Seen sys t B s0 [] s0
  | resumed {H s} (due : List Nat) (k : σ) : Seen sys t B s0 H s → s.cur = none →
      (step sys due s).cur = some (t, k) →
      Seen sys t B s0 (H ++ [(step sys due s).g]) (step sys due s)
  | other {H s} (due : List Nat) : Seen sys t B s0 H s →
      (∀ k, s.cur = some (t, k) → B k) →
      (s.cur = none → ∀ k, (step sys due s).cur ≠ some (t, k)) →
      Seen sys t B s0 H (step sys due s)

theorem Seen.reach {sys : Sys σ G V} {g : G} {k0 : σ} {t : Nat} {B : σ → Prop} {s0 s : St σ G V}
    {H : List G} (h : Seen sys t B s0 H s) (h0 : Reach sys g k0 s0) : Reach sys g k0 s := by
  induction h with
  | refl => exact h0
  | resumed due _ _ _ _ ih => exact .step due ih
  | other due _ _ _ ih => exact .step due ih

/-- A primitive that does not suspend the task; `P k' g'` holds for the code that follows and the shared
state it starts in. -/
def Nonblocking (c : Cmd σ G V) (g : G) (P : σ → G → Prop) : Prop :=
  match c with
  | .comp g' k => P k g'
  | .taskRun k => P k g
  | .setEv _ k => P k g
  | .clearEv _ k => P k g
  | .put _ _ k => P k g
  | .spawn _ f => ∀ u, P (f u) g
  | .addHook _ _ k => P k g
  | .startClock k => P k g
  | _ => False

/-- Code that, while in `B`, suspends only for the clock event. `Run H k g`: after having seen `H` the
code `k` runs with shared state `g`; `Wt H k`: it waits for the clock event, to go on with `k`. -/
structure Polling (sys : Sys σ G V) (B : σ → Prop) (Run : List G → σ → G → Prop)
    (Wt : List G → σ → Prop) : Prop where
  run : ∀ H k g, Run H k g → B k → (∃ k', sys.prog k g = .waitEv 0 k' ∧ Wt H k') ∨
    Nonblocking (sys.prog k g) g (Run H)
  wake : ∀ H k g, Wt H k → Run (H ++ [g]) k g

/-- Where the task is after having been resumed `n` times since cycle `c`. -/
inductive Pos (Run : List G → σ → G → Prop) (Wt : List G → σ → Prop) (t c : Nat) (H : List G)
    (s : St σ G V) : Prop where
  | run (k : σ) (h : s.cur = some (t, k)) (hr : Run H k s.g) (hc : s.cycles = c + H.length)
  | pend (k : σ) (h : s.st t = .pend (.ev 0 k)) (hr : Wt H k) (hc : s.cycles = c + H.length)
  | fin (k : σ) (h : s.st t = .fin (.ev 0 k)) (hr : Wt H k) (hc : s.cycles = c + H.length + 1)
  | cancelled (h : DoneAs t none s) (ht : Ev.cancelAll ∈ s.log)

theorem nonblocking_exec {c : Cmd σ G V} {P : σ → G → Prop} {t : Nat} {s : St σ G V}
    (h : Nonblocking c s.g P) :
    ∃ k, (exec t c s).cur = some (t, k) ∧ P k (exec t c s).g := by
  cases c with
  | comp g k => exact ⟨k, rfl, h⟩
  | taskRun k => exact ⟨k, rfl, h⟩
  | setEv e k =>
    refine ⟨k, rfl, ?_⟩
    show P k (setEv e s).g
    unfold setEv; split <;> exact h
  | clearEv e k => exact ⟨k, rfl, h⟩
  | put q v k =>
    refine ⟨k, rfl, ?_⟩
    show P k (putQ q v s).g
    unfold putQ; dsimp only; split <;> exact h
  | spawn k f => exact ⟨f s.n, rfl, h s.n⟩
  | addHook h' p k => exact ⟨k, rfl, h⟩
  | startClock k =>
    unfold exec; dsimp only
    split <;> exact ⟨k, rfl, h⟩
  | _ => exact absurd h id

theorem seen_pos {sys : Sys σ G V} {g : G} {k0 : σ} {t : Nat} {B : σ → Prop}
    {Run : List G → σ → G → Prop} {Wt : List G → σ → Prop} (hp : ClockPrivate sys)
    (hc : Polling sys B Run Wt) {s0 s : St σ G V} {k : σ} {H : List G} (h0 : Reach sys g k0 s0)
    (hs : s0.cur = some (t, k)) (hk : Run [] k s0.g) (h : Seen sys t B s0 H s) :
    Pos Run Wt t s0.cycles H s := by
  have running : ∀ {s : St σ G V}, Reach sys g k0 s → ∀ k, s.cur = some (t, k) → s.st t = .running := by
    intro s hr k h
    have := (reach_inv hr).core
    unfold InvS at this
    rw [h] at this
    exact running_of this
  induction h with
  | refl => exact .run k hs hk rfl
  | @resumed H s due k' h hn hcu ih =>
    have hr := h.reach h0
    have hrun := running (.step due hr) _ hcu
    cases ih with
    | run k h _ _ => rw [hn] at h; cases h
    | pend k h _ _ =>
      rcases pend_step hp hr h due with ⟨h1, _⟩ | ⟨h1, _⟩ | ⟨h1, _⟩
      · rw [h1] at hrun; cases hrun
      · rw [h1] at hrun; cases hrun
      · rw [h1.1] at hrun; cases hrun
    | fin k h hw hcy =>
      obtain ⟨h1, h2 | ⟨_, h2⟩⟩ := fin_step hp hr h due
      · rw [h2] at hrun; cases hrun
      · exact .run k h2 (hc.wake _ _ _ hw) (by simp; omega)
    | cancelled h _ =>
      rw [(step_done sys due (reach_inv hr) h).1] at hrun; cases hrun
  | @other H s due h hb hno ih =>
    have hr := h.reach h0
    cases ih with
    | run k h hrn hcy =>
      have hst : step sys due s = exec t (sys.prog k s.g) s := by unfold step; rw [h]
      rcases hc.run _ _ _ hrn (hb k h) with ⟨k', h1, h2⟩ | h1
      · obtain ⟨h3, h4⟩ := wait_exec hp hr h h1 due
        exact .pend k' h3 h2 (by omega)
      · obtain ⟨k', h2, h3⟩ := nonblocking_exec (t := t) h1
        rw [← hst] at h2 h3
        exact .run k' h2 h3 (by rw [hst, exec_cycles]; exact hcy)
    | pend k h hw hcy =>
      rcases pend_step hp hr h due with ⟨h1, h2⟩ | ⟨h1, h2⟩ | ⟨h1, h2⟩
      · exact .pend k h1 hw (by omega)
      · exact .fin k h1 hw (by omega)
      · exact .cancelled h1 h2
    | fin k h hw hcy =>
      obtain ⟨h1, h2 | ⟨h2, h3⟩⟩ := fin_step hp hr h due
      · exact .fin k h2 hw (by omega)
      · exact absurd h3 (hno h2 k)
    | cancelled h ht => exact .cancelled (step_done sys due (reach_inv hr) h) (log_mono due hr ht)

/-! ### Each cycle is seen once -/

/-- The body of a loop that waits for the clock event once per iteration (`while True: await
bundle.step(); ...`, as `Monitor.__monitor_forever`, `_base_agent.py` 238-252, with a monitor method that
does not wait itself): all code in `B` goes on in `B`, and suspends only for the clock event. -/
def Body (sys : Sys σ G V) (B : σ → Prop) : Prop :=
  ∀ k g, B k → (∃ k', sys.prog k g = .waitEv 0 k' ∧ B k') ∨
    Nonblocking (sys.prog k g) g (fun k' _ => B k')

theorem Body.polling {sys : Sys σ G V} {B : σ → Prop} (h : Body sys B) :
    Polling sys B (fun _ k _ => B k) (fun _ k => B k) :=
  ⟨fun _ k g hb _ => h k g hb, fun _ _ _ hb => hb⟩

/-- C89: when the task runs after its `n`-th wait for the clock since cycle `c`, it is cycle `c + n`: in
no cycle does it run twice, and none is left out. -/
theorem C89_once_per_cycle (sys : Sys σ G V) (g : G) (k0 : σ) (t : Nat) (B : σ → Prop)
    (hp : ClockPrivate sys) (hb : Body sys B) (s0 s : St σ G V) (k k' : σ) (H : List G)
    (h0 : Reach sys g k0 s0) (hs : s0.cur = some (t, k)) (hk : B k) (h : Seen sys t B s0 H s)
    (hc : s.cur = some (t, k')) : s.cycles = s0.cycles + H.length ∧ B k' := by
  have hrun : isRunning (s.st t) = true :=
    ((reach_inv (h.reach h0)).core.hcur t).2 (by rw [hc]; rfl)
  cases seen_pos hp hb.polling h0 hs hk h with
  | run k1 h1 hr hcy =>
    rw [hc] at h1; injection h1 with h1; injection h1 with _ h1
    subst h1
    exact ⟨hcy, hr⟩
  | pend k1 h1 _ _ => rw [h1] at hrun; cases hrun
  | fin k1 h1 _ _ => rw [h1] at hrun; cases hrun
  | cancelled h1 _ => rw [h1.1] at hrun; cases hrun

/-- C89: and it does run in every cycle: when the clock is about to step the DUT, the task has run in the
current cycle and waits, unless the test is over and the task was cancelled. -/
theorem C89_every_cycle (sys : Sys σ G V) (g : G) (k0 : σ) (t : Nat) (B : σ → Prop)
    (hp : ClockPrivate sys) (hb : Body sys B) (s0 s s' : St σ G V) (k : σ) (H : List G)
    (h0 : Reach sys g k0 s0) (hs : s0.cur = some (t, k)) (hk : B k) (h : Seen sys t B s0 H s)
    (hst : StepsAt sys s s') :
    (s.cycles = s0.cycles + H.length ∧ ∃ k, B k ∧ s.st t = .pend (.ev 0 k)) ∨
      (s.st t = .done none ∧ Ev.cancelAll ∈ s.log) := by
  have hr := h.reach h0
  cases seen_pos hp hb.polling h0 hs hk h with
  | run k1 h1 _ _ => rw [hst.1] at h1; cases h1
  | pend k1 h1 hw hcy => exact .inl ⟨hcy, k1, hw, h1⟩
  | fin k1 h1 _ _ =>
    obtain ⟨_, rest, hb, _⟩ := hst
    exact (no_fin (reach_inv hr) (reach_WInv hp hr) hb h1).elim
  | cancelled h1 ht => exact .inr ⟨h1.1, ht⟩

/-! ### Triggers on the event loop -/

open Toffee.Triggers (Trigger Res FirstFrom)

variable {W μ : Type}

/-- The command for what the coroutine of a trigger does until it next suspends or ends. -/
def resCmd (rs : μ → σ) (after exc : σ) (g : G) : Res μ → Cmd σ G V
  | .done => .comp g after
  | .wait m => .waitEv 0 (rs m)
  | .raise _ => .comp g exc

/-- A task that calls the trigger `T` at `call`; `view g` is what `T` looks at (the pin's value, ..),
`rs m` the code of `T` behind an `await event.wait()` with local state `m`, `after` the caller's code
behind the call, `exc` the caller's code if the trigger raises. -/
structure TriggerCode (sys : Sys σ G V) (T : Trigger W μ) (view : G → W) (call : σ) (rs : μ → σ)
    (after exc : σ) : Prop where
  start : ∀ g, sys.prog call g = resCmd rs after exc g (T.start (view g))
  resume : ∀ m g, sys.prog (rs m) g = resCmd rs after exc g (T.resume m (view g))
  call_after : call ≠ after
  rs_after : ∀ m, rs m ≠ after
  call_exc : call ≠ exc
  rs_exc : ∀ m, rs m ≠ exc
  after_exc : after ≠ exc

/-- The trace of what the trigger sees: at the call and at each resumption. -/
def trace (view : G → W) (g : G) (H : List G) (j : Nat) : W := view ((g :: H)[j]?.getD g)

theorem trace_snoc (view : G → W) (g g' : G) (H : List G) {j : Nat} (h : j ≤ H.length) :
    trace view g (H ++ [g']) j = trace view g H j := by
  unfold trace
  rw [← List.cons_append, List.getElem?_append_left (by simp; omega)]

theorem trace_last (view : G → W) (g g' : G) (H : List G) :
    trace view g (H ++ [g']) (H.length + 1) = view g' := by
  unfold trace
  rw [← List.cons_append, List.getElem?_append_right (by simp)]
  simp

theorem after_congr (T : Trigger W μ) (tr tr' : Nat → W) (k : Nat) (h : ∀ j, j ≤ k → tr j = tr' j) :
    T.after tr k = T.after tr' k := by
  induction k with
  | zero => simp only [Trigger.after, h 0 (Nat.le_refl _)]
  | succ k ih =>
    simp only [Trigger.after]
    rw [ih (fun j hj => h j (by omega)), h (k + 1) (Nat.le_refl _)]

theorem not_done_of_wait {T : Trigger W μ} {tr : Nat → W} {k : Nat} {m : μ}
    (h : T.after tr k = .wait m) (j : Nat) (hj : j ≤ k) : T.after tr j ≠ .done := by
  intro hd
  have : ∀ d, T.after tr (j + d) = .done := by
    intro d
    induction d with
    | zero => exact hd
    | succ d ih => show T.after tr (j + d + 1) = _; simp only [Trigger.after, ih]
  have h1 := this (k - j)
  rw [show j + (k - j) = k by omega, h] at h1
  cases h1

/-- The states of the task while it executes the trigger. -/
inductive TRun (T : Trigger W μ) (view : G → W) (g0 : G) (call : σ) (rs : μ → σ) (after exc : σ) :
    List G → σ → G → Prop where
  | call : TRun T view g0 call rs after exc [] call g0
  | resume (H : List G) (g : G) (m : μ) (h : T.after (trace view g0 H) H.length = .wait m) :
      TRun T view g0 call rs after exc (H ++ [g]) (rs m) g
  | over (H : List G) (g : G) (h : T.returnsAt (trace view g0 H) H.length) :
      TRun T view g0 call rs after exc H after g
  | raised (H : List G) (g : G) : TRun T view g0 call rs after exc H exc g

inductive TWt (T : Trigger W μ) (view : G → W) (g0 : G) (rs : μ → σ) : List G → σ → Prop where
  | mk (H : List G) (m : μ) (h : T.after (trace view g0 H) H.length = .wait m) :
      TWt T view g0 rs H (rs m)

theorem trigger_polling {sys : Sys σ G V} {T : Trigger W μ} {view : G → W} {call : σ} {rs : μ → σ}
    {after exc : σ} (hc : TriggerCode sys T view call rs after exc) (g0 : G) :
    Polling sys (fun k => k ≠ after ∧ k ≠ exc) (TRun T view g0 call rs after exc)
      (TWt T view g0 rs) where
  run H k g h hb := by
    cases h with
    | call =>
      rw [hc.start]
      have e0 : T.after (trace view g0 []) 0 = T.start (view g0) := rfl
      cases hr : T.start (view g0) with
      | done =>
        right
        refine .over _ _ ⟨e0.trans hr, ?_⟩
        intro j hj; cases hj
      | wait m => exact .inl ⟨_, rfl, .mk _ _ (e0.trans hr)⟩
      | raise e => exact .inr (.raised _ _)
    | resume H g m h =>
      rw [hc.resume]
      have e1 : T.after (trace view g0 (H ++ [g])) H.length = .wait m := by
        rw [← h]; exact after_congr T _ _ _ (fun j hj => trace_snoc view g0 g H hj)
      have e2 : T.after (trace view g0 (H ++ [g])) (H ++ [g]).length = T.resume m (view g) := by
        rw [show (H ++ [g]).length = H.length + 1 by simp]
        simp only [Trigger.after, e1, trace_last]
      cases hr : T.resume m (view g) with
      | done =>
        right
        refine .over _ _ ⟨e2.trans hr, ?_⟩
        intro j hj
        exact not_done_of_wait e1 j (by simp at hj; omega)
      | wait m' => exact .inl ⟨_, rfl, .mk _ _ (e2.trans hr)⟩
      | raise e => exact .inr (.raised _ _)
    | over _ _ => exact absurd rfl hb.1
    | raised _ _ => exact absurd rfl hb.2
  wake H k g h := by
    cases h with
    | mk m h => exact .resume H g m h

/-- C89: a trigger called by a task on the event loop returns in the cycle in which its coroutine, fed
with what the task sees once in every cycle, returns. -/
theorem C89_trigger (sys : Sys σ G V) (g : G) (k0 : σ) (t : Nat) (T : Trigger W μ) (view : G → W)
    (call : σ) (rs : μ → σ) (after exc : σ) (hp : ClockPrivate sys)
    (hc : TriggerCode sys T view call rs after exc) (s0 s : St σ G V) (H : List G)
    (h0 : Reach sys g k0 s0) (hs : s0.cur = some (t, call))
    (h : Seen sys t (fun k => k ≠ after ∧ k ≠ exc) s0 H s) (ha : s.cur = some (t, after)) :
    s.cycles = s0.cycles + H.length ∧ T.returnsAt (trace view s0.g H) H.length := by
  have hrun : isRunning (s.st t) = true :=
    ((reach_inv (h.reach h0)).core.hcur t).2 (by rw [ha]; rfl)
  cases seen_pos hp (trigger_polling hc s0.g) h0 hs .call h with
  | run k1 h1 hr hcy =>
    rw [ha] at h1; injection h1 with h1; injection h1 with _ h1
    subst h1
    refine ⟨hcy, ?_⟩
    generalize hk : after = k at hr
    generalize s.g = gs at hr
    cases hr with
    | call => exact absurd hk.symm hc.call_after
    | resume H g m h => exact absurd hk.symm (hc.rs_after m)
    | over _ _ h => exact h
    | raised _ _ => exact absurd hk hc.after_exc
  | pend k1 h1 _ _ => rw [h1] at hrun; cases hrun
  | fin k1 h1 _ _ => rw [h1] at hrun; cases hrun
  | cancelled h1 _ => rw [h1.1] at hrun; cases hrun

/-- C89: while the trigger has not returned, nothing the task has seen made it return; the clock does not
step the DUT before the task has seen the current cycle. -/
theorem C89_not_missed (sys : Sys σ G V) (g : G) (k0 : σ) (t : Nat) (T : Trigger W μ) (view : G → W)
    (call : σ) (rs : μ → σ) (after exc : σ) (hp : ClockPrivate sys)
    (hc : TriggerCode sys T view call rs after exc) (s0 s s' : St σ G V) (H : List G)
    (h0 : Reach sys g k0 s0) (hs : s0.cur = some (t, call))
    (h : Seen sys t (fun k => k ≠ after ∧ k ≠ exc) s0 H s) (hst : StepsAt sys s s') :
    (s.cycles = s0.cycles + H.length ∧ ∀ j, j ≤ H.length → ¬ T.returnsAt (trace view s0.g H) j) ∨
      (s.st t = .done none ∧ Ev.cancelAll ∈ s.log) := by
  have hr := h.reach h0
  cases seen_pos hp (trigger_polling hc s0.g) h0 hs .call h with
  | run k1 h1 _ _ => rw [hst.1] at h1; cases h1
  | pend k1 h1 hw hcy =>
    refine .inl ⟨hcy, ?_⟩
    intro j hj hd
    cases hw with
    | mk m hw => exact not_done_of_wait hw j hj hd.1
  | fin k1 h1 _ _ =>
    obtain ⟨_, rest, hb, _⟩ := hst
    exact (no_fin (reach_inv hr) (reach_WInv hp hr) hb h1).elim
  | cancelled h1 ht => exact .inr ⟨h1.1, ht⟩

/-- C89: `await Value(pin, target, delay)` continues in the first cycle, at least `delay` cycles after the
call, in which the task sees the pin with that value. -/
theorem C89_value [DecidableEq W] (sys : Sys σ G V) (g : G) (k0 : σ) (t : Nat) (target : W) (delay : Int)
    (pin : G → W) (call : σ) (rs : Triggers.Poll → σ) (after exc : σ) (hp : ClockPrivate sys)
    (hc : TriggerCode sys (Triggers.value target delay) pin call rs after exc) (s0 s : St σ G V)
    (H : List G) (h0 : Reach sys g k0 s0) (hs : s0.cur = some (t, call))
    (h : Seen sys t (fun k => k ≠ after ∧ k ≠ exc) s0 H s) (ha : s.cur = some (t, after)) :
    s.cycles = s0.cycles + H.length ∧
      FirstFrom delay.toNat (fun j => trace pin s0.g H j = target) H.length := by
  obtain ⟨h1, h2⟩ := C89_trigger sys g k0 t _ pin call rs after exc hp hc s0 s H h0 hs h ha
  exact ⟨h1, (Triggers.C10_value_earliest ..).1 h2⟩

/-- C89: `await Condition(item, f, delay)` likewise for the condition. -/
theorem C89_condition (sys : Sys σ G V) (g : G) (k0 : σ) (t : Nat) (f : W → Bool) (delay : Int)
    (item : G → W) (call : σ) (rs : Triggers.Poll → σ) (after exc : σ) (hp : ClockPrivate sys)
    (hc : TriggerCode sys (Triggers.condition f delay) item call rs after exc) (s0 s : St σ G V)
    (H : List G) (h0 : Reach sys g k0 s0) (hs : s0.cur = some (t, call))
    (h : Seen sys t (fun k => k ≠ after ∧ k ≠ exc) s0 H s) (ha : s.cur = some (t, after)) :
    s.cycles = s0.cycles + H.length ∧
      FirstFrom delay.toNat (fun j => f (trace item s0.g H j) = true) H.length := by
  obtain ⟨h1, h2⟩ := C89_trigger sys g k0 t _ item call rs after exc hp hc s0 s H h0 hs h ha
  exact ⟨h1, (Triggers.C10_condition_earliest ..).1 h2⟩

/-- C89: `await AllValid(*pins, delay=delay)` likewise for all pins being non-zero. -/
theorem C89_allValid (sys : Sys σ G V) (g : G) (k0 : σ) (t : Nat) (delay : Int)
    (pins : G → List (Option Int)) (call : σ) (rs : Triggers.Poll → σ) (after exc : σ) (hp : ClockPrivate sys)
    (hc : TriggerCode sys (Triggers.allValid delay) pins call rs after exc) (s0 s : St σ G V)
    (H : List G) (h0 : Reach sys g k0 s0) (hs : s0.cur = some (t, call))
    (h : Seen sys t (fun k => k ≠ after ∧ k ≠ exc) s0 H s) (ha : s.cur = some (t, after))
    (hne : ∀ g, pins g ≠ []) :
    s.cycles = s0.cycles + H.length ∧
      FirstFrom delay.toNat
        (fun j => ∀ v ∈ trace pins s0.g H j, ∃ x : Int, v = some x ∧ x ≠ 0) H.length := by
  obtain ⟨h1, h2⟩ := C89_trigger sys g k0 t _ pins call rs after exc hp hc s0 s H h0 hs h ha
  exact ⟨h1, (Triggers.C10_allValid_earliest _ _ (fun _ => hne _) _).1 h2⟩

/-- C89: `await Change(pin)` continues in the first cycle after the call in which the task sees another
value than at the call. -/
theorem C89_change [DecidableEq W] (sys : Sys σ G V) (g : G) (k0 : σ) (t : Nat)
    (pin : G → W) (call : σ) (rs : W → σ) (after exc : σ) (hp : ClockPrivate sys)
    (hc : TriggerCode sys Triggers.change pin call rs after exc) (s0 s : St σ G V)
    (H : List G) (h0 : Reach sys g k0 s0) (hs : s0.cur = some (t, call))
    (h : Seen sys t (fun k => k ≠ after ∧ k ≠ exc) s0 H s) (ha : s.cur = some (t, after)) :
    s.cycles = s0.cycles + H.length ∧
      FirstFrom 1 (fun j => trace pin s0.g H j ≠ trace pin s0.g H 0) H.length := by
  obtain ⟨h1, h2⟩ := C89_trigger sys g k0 t _ pin call rs after exc hp hc s0 s H h0 hs h ha
  exact ⟨h1, (Triggers.C11_change_earliest ..).1 h2⟩

/-- C89: `await RisingEdge(pin)` continues in the first cycle after the call in which the task sees the
pin non-zero when it saw it zero in the cycle before. -/
theorem C89_rising (sys : Sys σ G V) (g : G) (k0 : σ) (t : Nat)
    (pin : G → Int) (call : σ) (rs : Int → σ) (after exc : σ) (hp : ClockPrivate sys)
    (hc : TriggerCode sys Triggers.risingEdge pin call rs after exc) (s0 s : St σ G V)
    (H : List G) (h0 : Reach sys g k0 s0) (hs : s0.cur = some (t, call))
    (h : Seen sys t (fun k => k ≠ after ∧ k ≠ exc) s0 H s) (ha : s.cur = some (t, after)) :
    s.cycles = s0.cycles + H.length ∧
      FirstFrom 1 (fun j => trace pin s0.g H (j - 1) = 0 ∧ trace pin s0.g H j ≠ 0) H.length := by
  obtain ⟨h1, h2⟩ := C89_trigger sys g k0 t _ pin call rs after exc hp hc s0 s H h0 hs h ha
  exact ⟨h1, (Triggers.C12_risingEdge ..).1 h2⟩

/-- C89: `await FallingEdge(pin)` likewise. -/
theorem C89_falling (sys : Sys σ G V) (g : G) (k0 : σ) (t : Nat)
    (pin : G → Int) (call : σ) (rs : Int → σ) (after exc : σ) (hp : ClockPrivate sys)
    (hc : TriggerCode sys Triggers.fallingEdge pin call rs after exc) (s0 s : St σ G V)
    (H : List G) (h0 : Reach sys g k0 s0) (hs : s0.cur = some (t, call))
    (h : Seen sys t (fun k => k ≠ after ∧ k ≠ exc) s0 H s) (ha : s.cur = some (t, after)) :
    s.cycles = s0.cycles + H.length ∧
      FirstFrom 1 (fun j => trace pin s0.g H (j - 1) ≠ 0 ∧ trace pin s0.g H j = 0) H.length := by
  obtain ⟨h1, h2⟩ := C89_trigger sys g k0 t _ pin call rs after exc hp hc s0 s H h0 hs h ha
  exact ⟨h1, (Triggers.C12_fallingEdge ..).1 h2⟩

/-! ### A concrete system -/

/-- What task `t` sees in the next `n` steps. -/
def hist (sys : Sys σ G V) (t : Nat) : Nat → St σ G V → List G
  | 0, _ => []
  | n + 1, s =>
    (if s.cur.isNone ∧ (step sys [] s).cur.map (·.1) = some t then [(step sys [] s).g] else []) ++
      hist sys t n (step sys [] s)

theorem seen_iter {sys : Sys σ G V} {t : Nat} {B : σ → Prop} {s0 s : St σ G V} {H : List G} (n : Nat)
    (h : Seen sys t B s0 H s) (hb : ∀ i, i < n → ∀ k, (iter sys i s).cur = some (t, k) → B k) :
    Seen sys t B s0 (H ++ hist sys t n s) (iter sys n s) := by
  induction n generalizing H s with
  | zero =>
    show Seen sys t B s0 (H ++ []) s
    rw [List.append_nil]; exact h
  | succ n ih =>
    have hb' : ∀ i, i < n → ∀ k, (iter sys i (step sys [] s)).cur = some (t, k) → B k :=
      fun i hi => hb (i + 1) (by omega)
    have h0 := hb 0 (by omega)
    show Seen sys t B s0 (H ++ (_ ++ hist sys t n (step sys [] s))) (iter sys n (step sys [] s))
    rw [← List.append_assoc]
    split
    · rename_i hc
      obtain ⟨h1, h2⟩ := hc
      cases hcu : (step sys [] s).cur with
      | none => rw [hcu] at h2; cases h2
      | some x =>
        obtain ⟨u, k⟩ := x
        rw [hcu] at h2
        have : u = t := by simpa using h2
        subst this
        exact ih (.resumed [] k h (by simpa using h1) hcu) hb'
    · rename_i hc
      rw [List.append_nil]
      refine ih (.other [] h h0 ?_) hb'
      intro hn k hk
      exact hc ⟨by rw [hn]; rfl, by rw [hk]; rfl⟩

/-- Task 0 starts the clock and task 1, waits for one cycle and for the value 15 with delay 1; task 1
keeps doubling the pin, in every cycle; the DUT adds 1. -/
inductive K where
  | clk | mk | one | call | rs (p : Triggers.Poll) | after | exc | dbl | dblw
deriving DecidableEq

def demo : Sys K Int Nat where
  prog k g := match k with
    | .clk => .startClock .mk
    | .mk => .spawn .dbl (fun _ => .one)
    | .one => .waitEv 0 .call
    | .call => resCmd .rs .after .exc g ((Triggers.value (15 : Int) 1).start g)
    | .rs p => resCmd .rs .after .exc g ((Triggers.value (15 : Int) 1).resume p g)
    | .after => .ret 0
    | .exc => .ret 1
    | .dbl => .comp (g + g) .dblw
    | .dblw => .waitEv 0 .dbl
  dutStep g := g + 1
  sample g := g

theorem demo_code : TriggerCode demo (Triggers.value (15 : Int) 1) id .call .rs .after .exc :=
  ⟨fun _ => rfl, fun _ _ => rfl, (by decide), (by intro m h; cases h), (by decide),
    (by intro m h; cases h), (by decide)⟩

theorem demo_private : ClockPrivate demo := by
  have hr : ∀ g r, (∀ k', (resCmd K.rs K.after K.exc g r : Cmd K Int Nat) ≠ .setEv 0 k') ∧
      ∀ h p k', (resCmd K.rs K.after K.exc g r : Cmd K Int Nat) = .addHook h p k' → PrivHook h := by
    intro g r
    cases r <;> simp [resCmd]
  intro k g
  cases k with
  | call => exact hr g ((Triggers.value (15 : Int) 1).start g)
  | rs p => exact hr g ((Triggers.value (15 : Int) 1).resume p g)
  | _ => simp [demo]

/-- The call in cycle 1. -/
def s0 : St K Int Nat := iter demo 14 (init 0 .clk)

example : Reach demo 0 .clk s0 ∧ s0.cur = some (0, .call) ∧ s0.cycles = 1 ∧ s0.g = 1 :=
  ⟨reach_iter 14 .init, by decide +kernel, by decide +kernel, by decide +kernel⟩

/-- It sees 3, 7 and 15 and returns in cycle 4. -/
example : ∃ s, Seen demo 0 (fun k => k ≠ .after ∧ k ≠ .exc) s0 [3, 7, 15] s ∧
    s.cur = some (0, .after) ∧ s.cycles = 4 := by
  have h := seen_iter (sys := demo) (t := 0) (B := fun k => k ≠ .after ∧ k ≠ .exc) 22
    (.refl (s0 := s0)) ?_
  · exact ⟨_, h, by decide +kernel, by decide +kernel⟩
  · intro i hi k hk
    have : ∀ i, i < 22 → (iter demo i s0).cur ≠ some (0, .after) ∧ (iter demo i s0).cur ≠ some (0, .exc) := by
      decide +kernel
    obtain ⟨h1, h2⟩ := this i hi
    exact ⟨fun e => h1 (e ▸ hk), fun e => h2 (e ▸ hk)⟩

/-- The loop of task 1 is a body that runs once per cycle. -/
example : Body demo (fun k => k = .dbl ∨ k = .dblw) := by
  rintro k g (rfl | rfl)
  · exact .inr (.inr rfl)
  · exact .inl ⟨_, rfl, .inl rfl⟩

end Toffee.Props.LoopPoll
