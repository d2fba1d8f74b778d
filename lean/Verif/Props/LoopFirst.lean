import Verif.Props.LoopPoll
import Verif.Props.LoopQuiet
import Verif.Props.LoopEnv
/-!
C102: in every cycle the monitors run first, each exactly once, and only then anything else.
-/

namespace Toffee.Props.LoopFirst

open Toffee.Loop Toffee.Props.LoopClock Toffee.Props.LoopCycles Toffee.Props.LoopPoll
open Toffee.Props.LoopQuiet (HooksQuiet C13_quiescent_partial)
open Toffee.Props.LoopEnv (From EnvCode)

variable {σ G V : Type}

/-- The task `m` will run code in `B` as soon as it is its turn. -/
def Sched (B : σ → Prop) (s : St σ G V) (m : Nat) : Prop :=
  ∃ k, B k ∧ (s.st m = .ready k ∨ s.st m = .fin (.ev 0 k))

/-- The task `m` waits for the clock, to go on with code in `B`. -/
def Waits (B : σ → Prop) (s : St σ G V) (m : Nat) : Prop := ∃ k, B k ∧ s.st m = .pend (.ev 0 k)

/-- The tasks `ms` come first: they are about to run, in this order, before every other task; or one of
them runs; or they wait for the clock in front of all others. -/
inductive First (B : σ → Prop) (ms : List Nat) (s : St σ G V) : Prop where
  | turn (done todo : List Nat) (pre tail : List Handle) (hms : ms = done ++ todo) (hne : todo ≠ [])
      (hc : s.cur = none) (hq : s.batch ++ s.ready = pre ++ (todo.map .task ++ tail))
      (hpre : ∀ u, Handle.task u ∉ pre) (hw : s.waiters 0 = done) (hs : ∀ m ∈ todo, Sched B s m)
      (hd : ∀ m ∈ done, Waits B s m)
  | run (done todo : List Nat) (m : Nat) (k : σ) (tail : List Handle) (hms : ms = done ++ m :: todo)
      (hc : s.cur = some (m, k)) (hk : B k)
      (hq : s.batch ++ s.ready = todo.map .task ++ tail) (hw : s.waiters 0 = done)
      (hs : ∀ m ∈ todo, Sched B s m) (hd : ∀ m ∈ done, Waits B s m)
  | rest (r : List Nat) (hw : s.waiters 0 = ms ++ r) (hd : ∀ m ∈ ms, Waits B s m)
  | over (h : Ev.cancelAll ∈ s.log)

section
variable {sys : Sys σ G V} {g : G} {k0 : σ} {B : σ → Prop} {ms : List Nat}

theorem Sched.keep {s : St σ G V} {m : Nat} (h : Sched B s m) : keep (s.st m) := by
  obtain ⟨k, _, h | h⟩ := h <;> exact .inl (by rw [h]; rfl)

theorem Waits.keep {s : St σ G V} {m : Nat} (h : Waits B s m) : keep (s.st m) := by
  obtain ⟨k, _, h⟩ := h
  exact .inr (by rw [h]; simp [wExp])

theorem Sched.congr {s s' : St σ G V} {m : Nat} (h : Sched B s m) (e : s'.st m = s.st m) :
    Sched B s' m := by
  unfold Sched at *; rw [e]; exact h

theorem Waits.congr {s s' : St σ G V} {m : Nat} (h : Waits B s m) (e : s'.st m = s.st m) :
    Waits B s' m := by
  unfold Waits at *; rw [e]; exact h

/-- What one micro step does to the tasks that wait for the clock. -/
theorem waiters_case (hp : ClockPrivate sys) {s : St σ G V} (hr : Reach sys g k0 s) (due : List Nat) :
    ((∃ l, (step sys due s).waiters 0 = s.waiters 0 ++ l) ∧ (step sys due s).cycles = s.cycles) ∨
    (∃ s', StepsAt sys s s' ∧ step sys due s = doStep sys s' ∧ s'.waiters 0 = s.waiters 0 ∧
      s'.ev 0 = false) ∨
    Ev.cancelAll ∈ (step sys due s).log := by
  have hi := reach_inv hr
  have hw := reach_WInv hp hr
  have hsc := step_case sys due s
  generalize hst : step sys due s = s1 at hsc
  cases hsc with
  | exec u k hcu =>
    left
    rcases exec_case0 hi hcu (sys.prog k s.g) (hp k s.g).1 hw.ev with ⟨hf, _⟩ | ⟨hf, _⟩
    · exact ⟨⟨[], by rw [hf.w]; simp⟩, exec_cycles ..⟩
    · exact ⟨⟨_, hf.w⟩, exec_cycles ..⟩
  | task u rest hcu hb =>
    left
    exact ⟨⟨[], by rw [(resume_case0 hi hcu hb).1.w]; simp [taken]⟩, (resume_neutral u _).cycles⟩
  | clock rest hcu hb =>
    have hpop := InvX.pop hi hb
    have hfc := callbacks_frame0 sys hpop hw.hooks
    obtain ⟨f1, f2, f3, f4, f5, _⟩ := callbacks_frame sys { s with batch := rest }
    have hcc := clock_case sys { s with batch := rest }
    generalize hk : clockTurn sys { s with batch := rest } = r at hcc
    unfold runClock at hst ⊢
    rw [hk] at hst ⊢
    cases hcc with
    | off _ => exact .inl ⟨⟨[], by simp⟩, rfl⟩
    | dead _ => exact .inl ⟨⟨[], by simp⟩, rfl⟩
    | raise _ _ _ pre x _ hs _ =>
      exact .inl ⟨⟨[], by
        rw [List.append_nil]; exact (raised_frame0 hpop (raises_priv hw.hooks hs)).w⟩,
        (raised_frame pre x _).2.2.1⟩
    | begin _ => exact .inl ⟨⟨[], by simp [clockYield, push]⟩, rfl⟩
    | busy _ _ => exact .inl ⟨⟨[], by simp [clockYield, push]⟩, rfl⟩
    | rerun _ _ _ _ => exact .inl ⟨⟨[], by rw [List.append_nil]; exact hfc.w⟩, f3⟩
    | cancel _ _ _ _ _ =>
      right; right
      show Ev.cancelAll ∈ _ ++ [Ev.cancelAll]
      simp
    | step _ _ _ _ _ => exact .inr (.inl ⟨_, ⟨hcu, rest, hb, hk⟩, rfl, hfc.w, hfc.ev.trans hw.ev⟩)
    | last _ => exact .inr (.inl ⟨_, ⟨hcu, rest, hb, hk⟩, rfl, rfl, hw.ev⟩)
  | stop rest _ _ => exact .inl ⟨⟨[], by simp⟩, rfl⟩
  | fire u k rest _ _ hs' => exact .inl ⟨⟨[], by simp [wake]⟩, rfl⟩
  | miss u rest _ _ _ => exact .inl ⟨⟨[], by simp⟩, rfl⟩
  | halt _ _ _ => exact .inl ⟨⟨[], by simp⟩, rfl⟩
  | turn due _ _ _ => exact .inl ⟨⟨[], by simp⟩, rfl⟩

theorem doStep_queue (sys : Sys σ G V) {s : St σ G V} (hev : s.ev 0 = false) :
    (doStep sys s).batch ++ (doStep sys s).ready =
      (s.batch ++ s.ready) ++ ((s.waiters 0).map .task ++ [.clock]) ∧
    (doStep sys s).waiters 0 = [] ∧ (doStep sys s).cur = s.cur := by
  unfold doStep setEv
  simp only [note, hev]
  refine ⟨?_, ?_, rfl⟩
  · show s.batch ++ ((s.ready ++ _) ++ [Handle.clock]) = _
    simp
  · exact upd_self s.waiters 0 []

/-- `First` while all of `ms` wait. -/
theorem rest_step (hp : ClockPrivate sys) (hq : HooksQuiet sys) {s : St σ G V}
    (hr : Reach sys g k0 s) {r : List Nat} (hw : s.waiters 0 = ms ++ r) (hd : ∀ m ∈ ms, Waits B s m)
    (due : List Nat) : First B ms (step sys due s) := by
  by_cases hnil : ms = []
  · subst hnil
    exact .rest _ rfl (by simp)
  by_cases hca : Ev.cancelAll ∈ (step sys due s).log
  · exact .over hca
  rcases waiters_case hp hr due with ⟨⟨l, hl⟩, hcy⟩ | ⟨s', hst, he, hw', hev⟩ | h
  · refine .rest (r ++ l) (by rw [hl, hw]; simp) ?_
    intro m hm
    obtain ⟨k, hk, hs⟩ := hd m hm
    rcases pend_step hp hr hs due with ⟨h1, _⟩ | ⟨_, h2⟩ | ⟨_, h2⟩
    · exact ⟨k, hk, h1⟩
    · omega
    · exact absurd h2 hca
  · obtain ⟨hquiet, hnt⟩ := C13_quiescent_partial sys g k0 hq s s' hr hst
    obtain ⟨q1, q2, q3⟩ := doStep_queue sys hev
    have hcu : s'.cur = none := by
      obtain ⟨hc, rest, hb, hk⟩ := hst
      have hcc := clock_case sys { s with batch := rest }
      rw [hk] at hcc
      cases hcc with
      | step _ _ _ hrr _ =>
        obtain ⟨g, lg, hcb⟩ := LoopQuiet.callbacks_quiet (sys := sys) (s := { s with batch := rest })
          (fun x hx => LoopQuiet.hooks_quiet hq hr x hx) hrr
        rw [hcb]; exact hc
      | last _ => exact hc
    refine .turn [] ms (s'.batch ++ s'.ready) (r.map .task ++ [.clock]) rfl hnil ?_ ?_ hnt ?_ ?_ (by simp)
    · rw [he, q3, hcu]
    · rw [he, q1, hw', hw]; simp
    · rw [he, q2]
    · intro m hm
      obtain ⟨k, hk, hs⟩ := hd m hm
      have hcy : (step sys due s).cycles = s.cycles + 1 := by
        rcases cycles_step sys due s with ⟨s'', hst'', he''⟩ | ⟨h, _⟩
        · rcases pend_step hp hr hs due with ⟨h1, h2⟩ | ⟨_, h2⟩ | ⟨_, h2⟩
          · exfalso
            have h3 : (step sys due s).waiters 0 = [] := by rw [he, q2]
            have h4 := (reach_inv (.step due hr)).core.hw 0 m
            rw [h3, h1] at h4
            simp [wExp] at h4
          · exact h2
          · exact absurd h2 hca
        · exact absurd hst (h s')
      rcases pend_step hp hr hs due with ⟨h1, h2⟩ | ⟨h1, h2⟩ | ⟨_, h2⟩
      · omega
      · exact ⟨k, hk, .inr h1⟩
      · exact absurd h2 hca
  · exact .over h

theorem head_todo {m u : Nat} {todo : List Nat} {pre tail x : List Handle}
    (h : Handle.task u :: x = pre ++ ((m :: todo).map .task ++ tail))
    (hpre : ∀ v, Handle.task v ∉ pre) : pre = [] ∧ u = m ∧ x = todo.map .task ++ tail := by
  cases pre with
  | nil =>
    simp at h
    exact ⟨rfl, h.1, h.2⟩
  | cons a pre =>
    exfalso
    simp at h
    exact hpre u (by simp [← h.1])

theorem head_pre {m : Nat} {todo : List Nat} {pre tail x : List Handle} {a : Handle}
    (h : a :: x = pre ++ ((m :: todo).map .task ++ tail))
    (ha : ∀ v, a ≠ .task v) : ∃ pre', pre = a :: pre' ∧ x = pre' ++ ((m :: todo).map .task ++ tail) := by
  cases pre with
  | nil =>
    simp at h
    exact absurd h.1 (ha m)
  | cons b pre =>
    simp at h
    refine ⟨pre, by rw [h.1], ?_⟩
    simpa using h.2

/-- The clock does nothing while one of the tasks has still to run. -/
theorem sched_busy (hp : ClockPrivate sys) {s : St σ G V} (hr : Reach sys g k0 s) {m : Nat}
    {rest : List Handle} (hb : s.batch = .clock :: rest) (h : Sched B s m) :
    runClock sys { s with batch := rest } = { s with batch := rest } ∨
      runClock sys { s with batch := rest } = clockYield { s with batch := rest } := by
  have hi := reach_inv hr
  obtain ⟨k, _, h | h⟩ := h
  · refine clock_busy (s := { s with batch := rest }) sys h ?_ ?_
    · exact hi.core.lt_of_not_done (by rw [h]; rfl)
    · intro hac
      have := (reach_AC hr).st hac m
      rw [h] at this; cases this
  · exact (no_fin hi (reach_WInv hp hr) hb h).elim

theorem first_step (hp : ClockPrivate sys) (hq : HooksQuiet sys) (hbody : Body sys B) {s : St σ G V}
    (hr : Reach sys g k0 s) (h : First B ms s) (due : List Nat) : First B ms (step sys due s) := by
  have hi := reach_inv hr
  have hwi := reach_WInv hp hr
  cases h with
  | over h => exact .over (log_mono due hr h)
  | rest r hw hd => exact rest_step hp hq hr hw hd due
  | run done todo m k tail hms hc hk hqu hw hs hd =>
    have hst : step sys due s = exec m (sys.prog k s.g) s := by unfold step; rw [hc]
    have hks : ∀ u ∈ todo, Sched B (step sys due s) u := by
      intro u hu
      exact (hs u hu).congr (by rw [hst]; exact exec_keep hp hi hwi.ev hc (hs u hu).keep)
    have hkd : ∀ u ∈ done, Waits B (step sys due s) u := by
      intro u hu
      exact (hd u hu).congr (by rw [hst]; exact exec_keep hp hi hwi.ev hc (hd u hu).keep)
    rcases hbody k s.g hk with ⟨k', h1, h2⟩ | h1
    · obtain ⟨h3, _⟩ := wait_exec hp hr hc h1 due
      have hex : step sys due s = exec m (.waitEv 0 k') s := by rw [hst, h1]
      have hq1 : (step sys due s).batch ++ (step sys due s).ready = s.batch ++ s.ready ∧
          (step sys due s).waiters 0 = s.waiters 0 ++ [m] ∧ (step sys due s).cur = none := by
        rw [hex]
        unfold exec
        simp only [hwi.ev, note, block]
        exact ⟨rfl, upd_self s.waiters 0 _, rfl⟩
      have hd' : ∀ u ∈ done ++ [m], Waits B (step sys due s) u := by
        intro u hu
        rcases List.mem_append.1 hu with hu | hu
        · exact hkd u hu
        · rw [List.mem_singleton] at hu
          subst hu
          exact ⟨k', h2, h3⟩
      by_cases hn : todo = []
      · subst hn
        exact .rest [] (by rw [hq1.2.1, hw, hms]; simp) (by rw [hms]; exact hd')
      · exact .turn (done ++ [m]) todo [] tail (by rw [hms]; simp) hn hq1.2.2 (by rw [hq1.1, hqu]; simp)
          (by simp) (by rw [hq1.2.1, hw]) hks hd'
    · obtain ⟨k', h2, h3⟩ := nonblocking_exec (t := m) h1
      rw [← hst] at h2
      rcases exec_case0 hi hc (sys.prog k s.g) (hp k s.g).1 hwi.ev with ⟨hf, _⟩ | ⟨hf, _⟩
      · rw [← hst] at hf
        obtain ⟨l, hl, _⟩ := hf.q
        exact .run done todo m k' (tail ++ l) hms h2 h3 (by rw [hl, hqu]; simp) (by rw [hf.w, hw])
          hks hkd
      · exfalso
        obtain ⟨w, h4, _⟩ := hf.st
        have h5 := ((reach_inv (.step due hr)).core.hcur m).2 (by rw [h2]; rfl)
        rw [hst, h4, upd_self] at h5
        cases h5
  | turn done todo pre tail hms hne hc hqu hpre hw hs hd =>
    obtain ⟨m, todo, rfl⟩ : ∃ m t, todo = m :: t := by
      cases todo with
      | nil => exact absurd rfl hne
      | cons m t => exact ⟨m, t, rfl⟩
    have hsc := step_case sys due s
    generalize step sys due s = s' at hsc
    cases hsc with
    | exec u k hcu => rw [hc] at hcu; cases hcu
    | task u rest hcu hb =>
      rw [hb] at hqu
      obtain ⟨rfl, rfl, hx⟩ := head_todo (x := rest ++ s.ready) hqu hpre
      have hnot : Handle.task u ∉ rest ++ s.ready := by
        have h1 := hi.core.hq u
        rw [hb] at h1
        have h3 : qExp (s.st u) ≤ 1 := by cases s.st u <;> simp [qExp]
        simp only [List.nil_append, List.cons_append, List.count_cons_self] at h1
        apply List.count_eq_zero.1
        omega
      have hut : u ∉ todo := by
        intro hu
        apply hnot
        rw [hx]
        exact List.mem_append_left _ (List.mem_map_of_mem hu)
      have hud : u ∉ done := by
        intro hu
        obtain ⟨k, _, h1⟩ := hd u hu
        obtain ⟨k', _, h2 | h2⟩ := hs u (by simp) <;> rw [h1] at h2 <;> cases h2
      obtain ⟨k, hk, hsu⟩ := hs u (by simp)
      have hcu' : (resume u { s with batch := rest }).cur = some (u, k) ∧
          (resume u { s with batch := rest }).batch = rest ∧
          (resume u { s with batch := rest }).ready = s.ready ∧
          (resume u { s with batch := rest }).waiters 0 = s.waiters 0 := by
        unfold resume
        rcases hsu with h | h <;> simp [h, note]
      refine .run done todo u k tail hms hcu'.1 hk (by rw [hcu'.2.1, hcu'.2.2.1, hx])
        (by rw [hcu'.2.2.2, hw]) ?_ ?_
      · intro v hv
        have h1 := hs v (by simp [hv])
        exact h1.congr (resume_keep hi hcu hb (fun e => hut (e ▸ hv)) h1.keep)
      · intro v hv
        have h1 := hd v hv
        exact h1.congr (resume_keep hi hcu hb (fun e => hud (e ▸ hv)) h1.keep)
    | clock rest hcu hb =>
      rw [hb] at hqu
      obtain ⟨pre', rfl, hx⟩ := head_pre (x := rest ++ s.ready) hqu (by intro v h; cases h)
      have hpre' : ∀ u, Handle.task u ∉ pre' := fun u hu => hpre u (by simp [hu])
      rcases sched_busy hp hr hb (hs m (by simp)) with h1 | h1
      · rw [h1]
        exact .turn done (m :: todo) pre' tail hms hne hc hx hpre' hw hs hd
      · rw [h1]
        refine .turn done (m :: todo) pre' (tail ++ [.clock]) hms hne hc ?_ hpre' hw hs hd
        show rest ++ (s.ready ++ [Handle.clock]) = _
        rw [← List.append_assoc, hx]; simp
    | stop rest hcu hb =>
      rw [hb] at hqu
      obtain ⟨pre', rfl, hx⟩ := head_pre (x := rest ++ s.ready) hqu (by intro v h; cases h)
      exact .turn done (m :: todo) pre' tail hms hne hc hx (fun u hu => hpre u (by simp [hu])) hw hs hd
    | fire u k rest hcu hb hf =>
      rw [hb] at hqu
      obtain ⟨pre', rfl, hx⟩ := head_pre (x := rest ++ s.ready) hqu (by intro v h; cases h)
      have hne' : ∀ v, s.st v ≠ .pend (.timer k) → v ≠ u := by
        rintro v hv rfl
        exact hv hf
      have hst : ∀ v, v ≠ u → (wake [u] { s with batch := rest }).st v = s.st v := by
        intro v hv
        show (if v ∈ [u] then _ else _) = _
        rw [if_neg (by simpa using hv)]
      refine .turn done (m :: todo) pre' (tail ++ [.task u]) hms hne hc ?_
        (fun u hu => hpre u (by simp [hu])) hw ?_ ?_
      · show rest ++ (s.ready ++ [Handle.task u]) = _
        rw [← List.append_assoc, hx]; simp
      · intro v hv
        refine (hs v hv).congr (hst v (hne' v ?_))
        obtain ⟨k', _, h | h⟩ := hs v hv <;> rw [h] <;> simp
      · intro v hv
        refine (hd v hv).congr (hst v (hne' v ?_))
        obtain ⟨k', _, h⟩ := hd v hv
        rw [h]; simp
    | miss u rest hcu hb hf =>
      rw [hb] at hqu
      obtain ⟨pre', rfl, hx⟩ := head_pre (x := rest ++ s.ready) hqu (by intro v h; cases h)
      exact .turn done (m :: todo) pre' tail hms hne hc hx (fun u hu => hpre u (by simp [hu])) hw hs hd
    | halt hcu hb hf => exact .turn done (m :: todo) pre tail hms hne hc hqu hpre hw hs hd
    | turn due hcu hb hf =>
      refine .turn done (m :: todo) pre (tail ++ due.map .fire) hms hne hc ?_ hpre hw hs hd
      rw [hb] at hqu
      have hqu : s.ready = _ := hqu
      show (s.ready ++ due.map Handle.fire) ++ [] = _
      rw [hqu]; simp

theorem From.reach {s0 s : St σ G V} (h : From sys s0 s) (h0 : Reach sys g k0 s0) :
    Reach sys g k0 s := by
  induction h with
  | refl => exact h0
  | step due _ ih => exact .step due ih

theorem reach_cancelled {s : St σ G V} (hr : Reach sys g k0 s) :
    s.clock = .afterCancel → Ev.cancelAll ∈ s.log := by
  induction hr with
  | init => intro h; cases h
  | @step s du hr ih =>
    intro h
    cases log_case du hr with
    | quiet l hl hn hh hx hc hk hkd =>
      rcases hk with hk | ⟨_, hk⟩
      · rw [hl]; exact List.mem_append_left _ (ih (by rw [← hk]; exact h))
      · exact absurd h hk
    | req h' p hl hh hx hc hk hk' => exact absurd (hk ▸ h) hk'
    | rerun hl hd hh hx hc hk' hk => rw [hk] at h; cases h
    | step hl hd hh hx hc ht hk' hk => rw [hk] at h; cases h
    | cancel hl hd hh hx hc ht hk' hk => rw [hl]; simp
    | last hl hs hh hx hc hk' hk => rw [hk] at h; cases h
    | raise pre x post hs hl hh hx hc hk' hk ha hra => rw [hk] at h; cases h

/-- The clock waiters of the past cycles began with `ms`. -/
def Led (c : Nat) (ms : List Nat) (s : St σ G V) : Prop :=
  ∀ i, c < i → i ≤ s.cycles → ∃ r, due s.log i = ms ++ r

theorem led_step (hp : ClockPrivate sys) {c : Nat} {s : St σ G V} (hr : Reach sys g k0 s)
    (hf : First B ms s) (h : Led c ms s) (hca : Ev.cancelAll ∉ s.log) (du : List Nat) :
    Led c ms (step sys du s) := by
  have hw := reach_WInv hp hr
  have hcnt := hw.cnt
  have same : ∀ l, (step sys du s).log = s.log ++ l → Ev.step ∉ l →
      (step sys du s).cycles = s.cycles → Led c ms (step sys du s) := by
    intro l hl hn hc i hi hi'
    rw [hl, due_extend i s.log l hn (by omega)]
    exact h i hi (by omega)
  have hclk : ∀ {s' : St σ G V}, s.clock = .check → (step sys du s).cycles = s.cycles + 1 →
      (step sys du s).log = s.log ++ ((Priority.sorted s.hooks).map execEv ++ [.sample, .step]) →
      Led c ms (step sys du s) := by
    intro s' hck hcy hl i hi hi'
    have hn : Ev.step ∉ (Priority.sorted s.hooks).map execEv ++ [Ev.sample] := by
      simp [execEv]
    have hl' : (step sys du s).log =
        (s.log ++ ((Priority.sorted s.hooks).map execEv ++ [.sample])) ++ [.step] := by
      rw [hl]; simp
    rw [hl', due_step]
    by_cases hlast : i = s.cycles + 1
    · subst hlast
      show ∃ r, waiting (cyc s.cycles _) = ms ++ r
      rw [cyc_extend s.cycles s.log _ hn, if_pos hcnt]
      have hwt : waiting (cyc s.cycles s.log ++ ((Priority.sorted s.hooks).map execEv ++ [Ev.sample])) =
          s.waiters 0 := by
        rw [hw.wait]
        have n1 : waitsOf ((Priority.sorted s.hooks).map execEv ++ [Ev.sample]) = [] := by
          apply (noClock _).1
          intro e he
          rcases List.mem_append.1 he with he | he
          · obtain ⟨x, _, rfl⟩ := List.mem_map.1 he; rfl
          · rw [List.mem_singleton] at he; subst he; rfl
        have n2 : Ev.cancelAll ∉ (Priority.sorted s.hooks).map execEv ++ [Ev.sample] := by
          simp [execEv]
        unfold waiting
        rw [waitsOf_append, n1, List.append_nil]
        simp only [List.mem_append (s := cyc s.cycles s.log), n2, or_false]
      rw [hwt]
      have hnotdone : ∀ w : List Nat, First B ms s → w = s.waiters 0 → ∃ r, w = ms ++ r := by
        intro w hf hw'
        -- the clock steps: nobody of `ms` is still to run
        have hsched : ∀ m, ¬ Sched B s m := by
          intro m hm
          rcases cycles_step sys du s with ⟨s', ⟨hcu, rest, hb, hk⟩, he⟩ | ⟨_, h2⟩
          · rcases sched_busy hp hr hb hm with h1 | h1
            · have h3 : step sys du s = runClock sys { s with batch := rest } := by
                unfold step; rw [hcu]; simp only [hb]; rfl
              rw [h3, h1] at hcy
              have hcy : s.cycles = s.cycles + 1 := hcy
              omega
            · have h3 : step sys du s = runClock sys { s with batch := rest } := by
                unfold step; rw [hcu]; simp only [hb]; rfl
              rw [h3, h1] at hcy
              have hcy : s.cycles = s.cycles + 1 := hcy
              omega
          · omega
        cases hf with
        | turn done todo pre tail hms hne hc hq hpre hw2 hs hd =>
          cases todo with
          | nil => exact absurd rfl hne
          | cons m t => exact absurd (hs m (by simp)) (hsched m)
        | run done todo m k tail hms hc hk hq hw2 hs hd =>
          exfalso
          rcases cycles_step sys du s with ⟨s', ⟨hcu, _⟩, _⟩ | ⟨_, h2⟩
          · rw [hc] at hcu; cases hcu
          · omega
        | rest r hw2 hd => exact ⟨r, by rw [hw', hw2]⟩
        | over h => exact absurd h hca
      exact hnotdone _ hf rfl
    · rw [due_extend i s.log _ hn (by omega)]
      exact h i hi (by omega)
  cases log_case du hr with
  | quiet l hl hn hh hx hc hk hkd =>
    exact same l hl (fun h => by have := hn _ h; cases this) hc
  | req h p hl hh hx hc hk hk' => exact same _ hl (by simp) hc
  | rerun hl hd hh hx hc hk' hk => exact same _ hl (by simp [execEv]) hc
  | step hl hd hh hx hc ht hk' hk => exact hclk (s' := s) hk' hc hl
  | cancel hl hd hh hx hc ht hk' hk => exact same _ hl (by simp [execEv]) hc
  | last hl hs hh hx hc hk' hk =>
    exfalso
    exact hca (reach_cancelled hr hk')
  | raise pre x post hs hl hh hx hc hk' hk ha hra => exact same _ hl (by simp [execEv]) hc

theorem first_from (hp : ClockPrivate sys) (hq : HooksQuiet sys) (hbody : Body sys B)
    {s0 s : St σ G V} (h0 : Reach sys g k0 s0) (hf : First B ms s0) (h : From sys s0 s) :
    First B ms s ∧ (Ev.cancelAll ∈ s.log ∨ Led s0.cycles ms s) := by
  induction h with
  | refl => exact ⟨hf, .inr (fun i hi hi' => by omega)⟩
  | @step s due h ih =>
    have hr := From.reach h h0
    refine ⟨first_step hp hq hbody hr ih.1 due, ?_⟩
    by_cases hca : Ev.cancelAll ∈ s.log
    · exact .inl (log_mono due hr hca)
    · rcases ih.2 with h1 | h1
      · exact absurd h1 hca
      · exact .inr (led_step hp hr ih.1 h1 hca due)

theorem prefix_left {α : Type} [DecidableEq α] {a b : List α} {ms r : List α} (h : a ++ b = ms ++ r)
    (hd : ∀ m ∈ ms, m ∉ b) : ms <+: a := by
  rcases List.append_eq_append_iff.1 h with ⟨x, h1, h2⟩ | ⟨x, h1, h2⟩
  · cases x with
    | nil => exact ⟨[], by simpa using h1⟩
    | cons y x =>
      exact absurd (by rw [h2]; simp) (hd y (by rw [h1]; simp))
  · exact ⟨x, h1.symm⟩

theorem woken_not_waits {s : St σ G V} {m : Nat} (h : Waits B s m) (q : List Handle) :
    m ∉ woken s.st q := by
  intro hm
  obtain ⟨a, _, ha⟩ := List.mem_filterMap.1 hm
  obtain ⟨k, _, hk⟩ := h
  cases a with
  | task u =>
    simp only [woken1] at ha
    split at ha
    · rename_i h0
      injection ha with ha
      subst ha
      rw [hk] at h0; cases h0
    · cases ha
  | _ => cases ha

/-- Whenever a task other than `ms` runs (before the remaining tasks of the finished test are
cancelled): all of `ms` have, in this order and before everybody else, resumed in this cycle (if it is
later than cycle `c`) and in every earlier cycle after `c`, and wait for the next one. -/
def RunFirst (ms : List Nat) (c : Nat) (s : St σ G V) : Prop :=
  ∀ u k, s.cur = some (u, k) → u ∉ ms → Ev.cancelAll ∉ s.log →
    (∀ m ∈ ms, ∃ k', s.st m = .pend (.ev 0 k')) ∧
    ∀ i, c < i → i ≤ s.cycles → ms <+: resumesOf (cyc i s.log)

theorem runFirst_of (hp : ClockPrivate sys) {c : Nat} {s : St σ G V} (hr : Reach sys g k0 s)
    (h : First B ms s ∧ (Ev.cancelAll ∈ s.log ∨ Led c ms s)) : RunFirst ms c s := by
  intro u k hc hu hca
  have hw := reach_WInv hp hr
  have hl : Led c ms s := h.2.resolve_left hca
  cases h.1 with
  | over h => exact absurd h hca
  | turn _ _ _ _ _ _ hc' => rw [hc] at hc'; cases hc'
  | run done todo m k' tail hms hc' =>
    exfalso
    rw [hc] at hc'
    injection hc' with hc'
    injection hc' with h1 _
    exact hu (by rw [hms, h1]; simp)
  | rest r hwt hd =>
    refine ⟨fun m hm => ?_, fun i hi hi' => ?_⟩
    · obtain ⟨k', _, h⟩ := hd m hm
      exact ⟨k', h⟩
    · obtain ⟨r', hr'⟩ := hl i hi hi'
      by_cases hlt : i < s.cycles
      · rw [hw.past i hlt, hr']; exact List.prefix_append _ _
      · have : i = s.cycles := by omega
        subst this
        have h1 := hw.cur
        rw [hr'] at h1
        exact prefix_left h1.symm (fun m hm => woken_not_waits (hd m hm) _)

/-! ### The claim -/

/-- C102 (partial): if the tasks `ms` (the monitors, whose methods wait for nothing but clock cycles) are
the first to wait for the clock, then in all later cycles all of them run before any other task does
anything.  Missing with respect to the full statement: hooks without a done event that set events, put
into queues or create tasks, see `C102_hook_violated`, and monitors created by the test itself, see
`C102_inside_test_violated`. -/
theorem C102_monitors_first_partial (sys : Sys σ G V) (g : G) (k0 : σ) (B : σ → Prop) (ms r : List Nat)
    (hp : ClockPrivate sys) (hq : HooksQuiet sys) (hb : Body sys B) (s0 s : St σ G V)
    (h0 : Reach sys g k0 s0) (hw : s0.waiters 0 = ms ++ r)
    (hm : ∀ m ∈ ms, ∃ k, B k ∧ s0.st m = .pend (.ev 0 k)) (h : From sys s0 s) :
    RunFirst ms s0.cycles s :=
  runFirst_of hp (From.reach h h0) (first_from hp hq hb h0 (.rest r hw hm) h)

/-- C102 (partial): this is so in `run(test, env_handle)` if the monitors (`ms`) are created by
`env_handle`, before any other task, and `env_handle` does not wait: from the moment at which `main_coro`
has created the test (by the program `mk`) and waits for its end. -/
theorem C102_env_partial (sys : Sys σ G V) (g : G) (k0 test mk exc : σ) (aw : Nat → σ) (fin : V → σ)
    (B : σ → Prop) (ms : List Nat) (hp : ClockPrivate sys) (hq : HooksQuiet sys) (hb : Body sys B)
    (he : EnvCode sys test mk aw fin exc) (s0 s : St σ G V) (pre tail : List Handle) (d1 d2 : List Nat)
    (h0 : Reach sys g k0 s0) (hc : s0.cur = some (0, mk)) (hms : ms ≠ [])
    (hqu : s0.batch ++ s0.ready = pre ++ (ms.map .task ++ tail)) (hpre : ∀ u, Handle.task u ∉ pre)
    (hw : s0.waiters 0 = []) (hm : ∀ m ∈ ms, ∃ k, B k ∧ s0.st m = .ready k)
    (h : From sys (step sys d2 (step sys d1 s0)) s) : RunFirst ms s0.cycles s := by
  have hi := reach_inv h0
  have e1 : step sys d1 s0 = exec 0 (.spawn test aw) s0 := by
    unfold step; rw [hc]; simp only [he.create]
  have hst1 : (step sys d1 s0).st s0.n = .ready test := by rw [e1]; exact upd_self ..
  have e2 : step sys d2 (step sys d1 s0) = exec 0 (.join s0.n fin exc) (step sys d1 s0) := by
    have hc1 : (step sys d1 s0).cur = some (0, aw s0.n) := by rw [e1]; rfl
    generalize step sys d1 s0 = s1 at hc1
    unfold step
    rw [hc1]
    simp only [he.await]
  have e3 : step sys d2 (step sys d1 s0) =
      { block 0 (.pend (.join s0.n fin exc)) (step sys d1 s0) with
        joiners := upd (step sys d1 s0).joiners s0.n ((step sys d1 s0).joiners s0.n ++ [0]) } := by
    rw [e2]; unfold exec; simp only [hst1]
  have hcy : (step sys d2 (step sys d1 s0)).cycles = s0.cycles := by rw [e3, e1]; rfl
  have hrun : s0.st 0 = .running := by
    have := hi.core
    unfold InvS at this
    rw [hc] at this
    exact running_of this
  have hst : ∀ m ∈ ms, (step sys d2 (step sys d1 s0)).st m = s0.st m := by
    intro m hm'
    obtain ⟨k, _, hk⟩ := hm m hm'
    have hm0 : m ≠ 0 := by rintro rfl; rw [hrun] at hk; cases hk
    have hmn : m ≠ s0.n := by
      rintro rfl
      rw [hi.core.hborn s0.n (Nat.le_refl _)] at hk; cases hk
    rw [e3, e1]
    show upd (upd s0.st s0.n _) 0 _ m = _
    rw [upd_ne _ _ _ _ hm0, upd_ne _ _ _ _ hmn]
  have hr2 : Reach sys g k0 (step sys d2 (step sys d1 s0)) := .step d2 (.step d1 h0)
  rw [← hcy]
  refine runFirst_of hp (From.reach h hr2) (first_from hp hq hb hr2 ?_ h)
  refine .turn [] ms pre (tail ++ [.task s0.n]) rfl hms (by rw [e3]; rfl) ?_ hpre ?_ ?_ (by simp)
  · rw [e3, e1]
    show s0.batch ++ (s0.ready ++ [Handle.task s0.n]) = _
    rw [← List.append_assoc, hqu]; simp
  · rw [e3, e1]; exact hw
  · intro m hm'
    obtain ⟨k, hk, hks⟩ := hm m hm'
    exact ⟨k, hk, .inl (by rw [hst m hm', hks])⟩

theorem exec_td (t : Nat) (c : Cmd σ G V) (s : St σ G V) :
    (exec t c s).testDone = s.testDone ∨ ∃ l, (exec t c s).log = s.log ++ l ∧ Ev.testDone ∈ l := by
  cases c with
  | ret v =>
    unfold exec
    dsimp only
    split
    · right
      split
      · exact ⟨[.testDone], by rw [(finish_frame _ _ _).2.2.2.1]; rfl, by simp⟩
      · exact ⟨[.testDone, .wait t], by simp [note, block], by simp⟩
    · exact .inl (finish_frame _ _ _).2.2.2.2.2.1
  | raise held => exact .inl (fail_frame _ _ _).2.2.2.2.2.1
  | comp g k => exact .inl rfl
  | taskRun k => exact .inl rfl
  | yield k => exact .inl rfl
  | sleep k => exact .inl rfl
  | waitEv e k =>
    left
    unfold exec
    dsimp only
    split
    · rfl
    · split <;> rfl
  | setEv e k => exact .inl (setEv_frame e s).2.2.2.2.2.1
  | clearEv e k => exact .inl rfl
  | put q v k => exact .inl (putQ_frame q v s).2.2.2.2.2.1
  | get q k =>
    left
    unfold exec
    dsimp only
    split <;> rfl
  | spawn s0 k => exact .inl rfl
  | join w k kx =>
    left
    unfold exec
    dsimp only
    split
    · rfl
    · split
      · rfl
      · exact (finish_frame _ _ _).2.2.2.2.2.1
    · rfl
  | addHook hk p k => exact .inl rfl
  | startClock k =>
    left
    unfold exec
    dsimp only
    split <;> rfl

theorem resume_td (t : Nat) (s : St σ G V) : (resume t s).testDone = s.testDone := by
  unfold resume
  dsimp only
  split
  · rfl
  · split <;> rfl
  · rfl
  · split <;> rfl
  · split
    · rfl
    · split
      · rfl
      · exact (finish_frame _ _ _).2.2.2.2.2.1
  · exact (finish_frame _ _ _).2.2.2.2.2.1
  · rfl

theorem testDone_step (sys : Sys σ G V) (s : St σ G V) (du : List Nat)
    (h : (step sys du s).testDone = true) :
    s.testDone = true ∨ ∃ l, (step sys du s).log = s.log ++ l ∧ Ev.testDone ∈ l := by
  have hsc := step_case sys du s
  generalize step sys du s = s' at hsc h
  cases hsc with
  | exec t k hc =>
    rcases exec_td t (sys.prog k s.g) s with h1 | h1
    · exact .inl (h1 ▸ h)
    · exact .inr h1
  | task t rest hc hb => rw [resume_td] at h; exact .inl h
  | clock rest hc hb =>
    left
    have hcc := clock_case sys { s with batch := rest }
    obtain ⟨f1, f2, f3, f4, f5, _⟩ := callbacks_frame sys { s with batch := rest }
    unfold runClock at h
    generalize clockTurn sys { s with batch := rest } = r at hcc h
    cases hcc with
    | off _ => exact h
    | dead _ => exact h
    | raise _ _ _ pre x _ hs _ =>
      have h : (raised pre x { s with batch := rest }).testDone = true := h
      rw [(raised_frame pre x _).2.2.2.2.1] at h; exact h
    | begin _ => exact h
    | busy _ _ => exact h
    | rerun _ _ _ _ =>
      have h : (callbacks sys { s with batch := rest }).2.testDone = true := h
      rw [f5] at h; exact h
    | cancel _ _ _ _ ht => exact ht
    | step _ _ _ _ _ =>
      have h : (doStep sys (callbacks sys { s with batch := rest }).2).testDone = true := h
      rw [(doStep_frame sys _).2.2.2.2.1, f5] at h; exact h
    | last _ =>
      have h : (doStep sys { s with batch := rest }).testDone = true := h
      rw [(doStep_frame sys _).2.2.2.2.1] at h; exact h
  | stop rest hc hb => exact .inl h
  | fire t k rest hc hb hs => exact .inl h
  | miss t rest hc hb hs => exact .inl h
  | halt hc hb hs => exact .inl h
  | turn due hc hb hs => exact .inl h

/-- No step of the DUT between the end of the test and the cancellation. -/
theorem ended_in_cycle (hp : ClockPrivate sys) {s : St σ G V} (hr : Reach sys g k0 s)
    (ht : s.testDone = true) (hca : Ev.cancelAll ∉ s.log) : Ev.testDone ∈ cyc s.cycles s.log := by
  induction hr with
  | init => cases ht
  | @step s du hr ih =>
    have hw := reach_WInv hp hr
    have hca0 : Ev.cancelAll ∉ s.log := fun h => hca (log_mono du hr h)
    have keep : ∀ l, (step sys du s).log = s.log ++ l → Ev.step ∉ l →
        (step sys du s).cycles = s.cycles → s.testDone = true →
        Ev.testDone ∈ cyc (step sys du s).cycles (step sys du s).log := by
      intro l hl hn hc ht
      rw [hl, hc, cyc_extend _ _ _ hn, if_pos hw.cnt]
      exact List.mem_append_left _ (ih ht hca0)
    have new : ∀ l, (step sys du s).log = s.log ++ l → Ev.step ∉ l →
        (step sys du s).cycles = s.cycles → s.testDone = true ∨ Ev.testDone ∈ l →
        Ev.testDone ∈ cyc (step sys du s).cycles (step sys du s).log := by
      intro l hl hn hc h
      rcases h with h | h
      · exact keep l hl hn hc h
      · rw [hl, hc, cyc_extend _ _ _ hn, if_pos hw.cnt]
        exact List.mem_append_right _ h
    have htd := testDone_step sys s du ht
    cases log_case du hr with
    | quiet l hl hn hh hx hc hk hkd =>
      refine new l hl (fun h => by have := hn _ h; cases this) hc ?_
      rcases htd with h | ⟨l', h1, h2⟩
      · exact .inl h
      · right
        rw [hl] at h1
        rw [List.append_cancel_left h1]; exact h2
    | req h p hl hh hx hc hk hk' =>
      refine new _ hl (by simp) hc ?_
      rcases htd with h | ⟨l', h1, h2⟩
      · exact .inl h
      · right
        rw [hl] at h1
        rw [List.append_cancel_left h1]; exact h2
    | rerun hl hd hh hx hc hk' hk =>
      refine new _ hl (by simp [execEv]) hc ?_
      rcases htd with h | ⟨l', h1, h2⟩
      · exact .inl h
      · right
        rw [hl] at h1
        rw [List.append_cancel_left h1]; exact h2
    | step hl hd hh hx hc ht' hk' hk =>
      rcases htd with h | ⟨l', h1, h2⟩
      · rw [ht'] at h; cases h
      · rw [hl] at h1
        rw [← List.append_cancel_left h1] at h2
        simp [execEv] at h2
    | cancel hl hd hh hx hc ht' hk' hk =>
      exact absurd (by rw [hl]; simp) hca
    | last hl hs hh hx hc hk' hk => exact absurd (reach_cancelled hr hk') hca0
    | raise pre x post hs hl hh hx hc hk' hk ha hra =>
      refine new _ hl (by simp [execEv]) hc ?_
      rcases htd with h | ⟨l', h1, h2⟩
      · exact .inl h
      · right
        rw [hl] at h1
        rw [List.append_cancel_left h1]; exact h2

/-- The tasks are cancelled by the clock task, after the test has returned. -/
theorem cancel_at {s : St σ G V} (hr : Reach sys g k0 s) {due : List Nat}
    (hn : Ev.cancelAll ∉ s.log) (hc : Ev.cancelAll ∈ (step sys due s).log) :
    s.testDone = true ∧ s.cur = none ∧ (step sys due s).clock = .afterCancel ∧
      ∃ rest, s.batch = .clock :: rest := by
  have hca : ∀ l, (step sys due s).log = s.log ++ l → Ev.cancelAll ∈ l := by
    intro l hl
    rw [hl] at hc
    exact (List.mem_append.1 hc).resolve_left hn
  have hsc := step_case sys due s
  have hlc := log_case due hr
  generalize step sys due s = s' at hsc hlc hc hca
  have ht : s.testDone = true ∧ s.clock = .check ∧ s'.clock = .afterCancel := by
    cases hlc with
    | quiet l hl hn => have := hn _ (hca l hl); cases this
    | req h p hl => have := hca _ hl; simp at this
    | rerun hl => have := hca _ hl; simp [execEv] at this
    | step hl => have := hca _ hl; simp [execEv] at this
    | cancel hl hd hh hx hc ht hk' hk => exact ⟨ht, hk', hk⟩
    | last hl => have := hca _ hl; simp at this
    | raise pre x post hs hl => have := hca _ hl; simp [execEv] at this
  refine ⟨ht.1, ?_⟩
  cases hsc with
  | exec t k hc =>
    exfalso
    exact exec_clock_ne t _ s (by rw [ht.2.1]; simp) ht.2.2
  | task t rest hc hb =>
    exfalso
    have hk2 := ht.2.2
    rcases (resume_neutral t { s with batch := rest }).clk with h1 | ⟨_, h1⟩
    · rw [h1] at hk2
      have hk2 : s.clock = _ := hk2
      rw [ht.2.1] at hk2; cases hk2
    · rw [h1] at hk2; cases hk2
  | clock rest hcu hb => exact ⟨hcu, ht.2.2, rest, hb⟩
  | stop rest hc hb => have := ht.2.2.symm.trans ht.2.1; cases this
  | fire t k rest hc hb hs => have := ht.2.2.symm.trans ht.2.1; cases this
  | miss t rest hc hb hs => have := ht.2.2.symm.trans ht.2.1; cases this
  | halt hc hb hs => have := ht.2.2.symm.trans ht.2.1; cases this
  | turn due hc hb hs => have := ht.2.2.symm.trans ht.2.1; cases this

/-- C102: the last call: when the remaining tasks of the finished test are cancelled, a monitor that
started in cycle `c` (in `s0`) has been called (`H`: the states it saw) once in each cycle from `c + 1` up
to the current one, which is the one in which the test returned.  (For arbitrary hooks and in any order of
the tasks.) -/
theorem C102_last_call (sys : Sys σ G V) (g : G) (k0 : σ) (m : Nat) (B : σ → Prop)
    (hp : ClockPrivate sys) (hb : Body sys B) (s0 s : St σ G V) (k : σ) (H : List G) (due : List Nat)
    (h0 : Reach sys g k0 s0) (hs : s0.cur = some (m, k)) (hk : B k) (h : Seen sys m B s0 H s)
    (hn : Ev.cancelAll ∉ s.log) (hc : Ev.cancelAll ∈ (step sys due s).log) :
    s.cycles = s0.cycles + H.length ∧ Ev.testDone ∈ cyc s.cycles s.log := by
  have hr := h.reach h0
  have hi := reach_inv hr
  have hw := reach_WInv hp hr
  have hclk := cancel_at hr hn hc
  obtain ⟨htd, hcu, _, rest, hba⟩ := hclk
  refine ⟨?_, ended_in_cycle hp hr htd hn⟩
  cases seen_pos hp hb.polling h0 hs hk h with
  | run k1 h1 _ _ => rw [hcu] at h1; cases h1
  | pend k1 h1 hw hcy => exact hcy
  | fin k1 h1 _ _ => exact (no_fin hi hw hba h1).elim
  | cancelled h1 ht => exact absurd ht hn

end

/-! ### Concrete systems -/

theorem from_iter {sys : Sys σ G V} (n : Nat) {s0 s : St σ G V} (h : From sys s0 s) :
    From sys s0 (iter sys n s) := by
  induction n generalizing s with
  | zero => exact h
  | succ n ih => exact ih (.step [] h)

inductive K where
  | clk | mk1 | mk2 | mk | aw (u : Nat) | fin (v : Nat) | exc
  | test | drive (n : Nat) | stp (n : Nat)
  | mon (i : Nat) | call (i : Nat)
deriving DecidableEq

/-- The shared state is the list of what happened so far: 9 a driver call, 100 a step of the DUT, 1 and 2
a call of the first and the second monitor.  `env_handle` starts the clock and creates two monitors, the
test calls a driver three times, with one cycle each. -/
def demo : Sys K (List Nat) Nat where
  prog k g := match k with
    | .clk => .startClock .mk1
    | .mk1 => .spawn (.mon 1) (fun _ => .mk2)
    | .mk2 => .spawn (.mon 2) (fun _ => .mk)
    | .mk => .spawn .test .aw
    | .aw u => .join u .fin .exc
    | .fin v => .ret v
    | .exc => .raise true
    | .test => .comp g (.drive 3)
    | .drive (n + 1) => .comp (g ++ [9]) (.stp n)
    | .drive 0 => .ret 7
    | .stp n => .waitEv 0 (.drive n)
    | .mon i => .waitEv 0 (.call i)
    | .call i => .comp (g ++ [i]) (.mon i)
  dutStep g := g ++ [100]
  sample g := g

/-- The code of the monitors. -/
def IsMon (k : K) : Prop := (∃ i, k = .mon i) ∨ ∃ i, k = .call i

theorem demo_body : Body demo IsMon := by
  rintro k g (⟨i, rfl⟩ | ⟨i, rfl⟩)
  · exact .inl ⟨_, rfl, .inr ⟨i, rfl⟩⟩
  · exact .inr (.inl ⟨i, rfl⟩)

theorem demo_private : ClockPrivate demo := by
  intro k g
  unfold demo
  dsimp only
  split <;> simp

theorem demo_quiet : HooksQuiet demo := by
  intro k g h p k' he
  cases k with
  | drive n => cases n <;> cases he
  | _ => cases he

/-- `main_coro` is about to create the test; the clock and the two monitors are scheduled. -/
def d0 : St K (List Nat) Nat := iter demo 5 (init [] .clk)

/-- The hypotheses of `C102_env_partial`. -/
example : EnvCode demo .test .mk .aw .fin .exc ∧ Reach demo [] .clk d0 ∧ d0.cur = some (0, .mk) ∧
    d0.batch ++ d0.ready = [.clock] ++ ([1, 2].map .task ++ []) ∧ d0.waiters 0 = [] ∧
    ∀ m ∈ [1, 2], ∃ k, IsMon k ∧ d0.st m = .ready k := by
  refine ⟨⟨fun _ => rfl, fun _ _ => rfl, fun _ _ => rfl, fun _ => ⟨_, rfl⟩⟩, reach_iter 5 .init, rfl, rfl,
    rfl, ?_⟩
  intro m hm
  have : m = 1 ∨ m = 2 := by simpa using hm
  rcases this with rfl | rfl
  · exact ⟨_, .inl ⟨1, rfl⟩, rfl⟩
  · exact ⟨_, .inl ⟨2, rfl⟩, rfl⟩

/-- What happens: the driver call in cycle 0, and in the cycles 1, 2 and 3 the monitors before the test;
the run ends with the result of the test. -/
example : (iter demo 100 d0).g = [9, 100, 1, 2, 9, 100, 1, 2, 9, 100, 1, 2, 100, 100] := by
  decide +kernel

/-- The hypotheses of `C102_monitors_first_partial` in the middle of the run. -/
example : (iter demo 24 d0).waiters 0 = [1, 2] ++ [3] ∧ (iter demo 24 d0).cycles = 1 ∧
    ∀ m ∈ [1, 2], ∃ k, IsMon k ∧ (iter demo 24 d0).st m = .pend (.ev 0 k) := by
  refine ⟨by decide +kernel, by decide +kernel, ?_⟩
  intro m hm
  have : m = 1 ∨ m = 2 := by simpa using hm
  rcases this with rfl | rfl
  · exact ⟨_, .inr ⟨1, rfl⟩, by rfl⟩
  · exact ⟨_, .inr ⟨2, rfl⟩, by rfl⟩

/-- The first monitor starts. -/
def d1 : St K (List Nat) Nat := iter demo 5 d0

/-- The hypotheses of `C102_last_call`: it is called in the cycles 1, 2 and 3, the test returns in
cycle 3. -/
example : ∃ H s, Reach demo [] .clk d1 ∧ d1.cur = some (1, .mon 1) ∧ d1.cycles = 0 ∧
    Seen demo 1 IsMon d1 H s ∧ Ev.cancelAll ∉ s.log ∧ Ev.cancelAll ∈ (step demo [] s).log ∧
    H.length = 3 ∧ s.cycles = 3 := by
  refine ⟨_, iter demo 44 d1, reach_iter 5 (reach_iter 5 .init), by decide +kernel, by decide +kernel,
    seen_iter 44 .refl ?_, by decide +kernel, by decide +kernel, by decide +kernel, by decide +kernel⟩
  intro i hi k hk
  have h : ∀ i, i < 44 → ∀ p ∈ (iter demo i d1).cur, p.1 = 1 →
      p.2 = K.mon 1 ∨ p.2 = K.call 1 := by decide +kernel
  rcases h i hi _ hk rfl with h | h
  · exact .inl ⟨1, h⟩
  · exact .inr ⟨1, h⟩

/-- Here the test itself creates the monitor, and then calls a driver. -/
def inside : Sys K (List Nat) Nat where
  prog k g := match k with
    | .mk1 => .spawn (.mon 1) (fun _ => .drive 3)
    | k => demo.prog k g
  dutStep := demo.dutStep
  sample := demo.sample

/-- C102: a monitor created in the test, before any driver is called, is called after the drivers in
every cycle. -/
theorem C102_inside_test_violated :
    ClockPrivate inside ∧ HooksQuiet inside ∧ Body inside IsMon ∧
    ∃ s0 s, Reach inside [] .clk s0 ∧ s0.waiters 0 = [] ∧ s0.st 1 = .ready (.mon 1) ∧
      s0.batch ++ s0.ready = [.clock, .task 1] ∧ From inside s0 s ∧ ¬ RunFirst [1] s0.cycles s ∧
      s.g = [9, 100, 9, 1, 100] := by
  refine ⟨?_, ?_, ?_, iter inside 4 (init [] .clk), iter inside 18 (iter inside 4 (init [] .clk)),
    reach_iter 4 .init, rfl, rfl, by decide +kernel, from_iter 18 .refl, ?_, by decide +kernel⟩
  · intro k g
    by_cases h : k = .mk1
    · subst h; simp [inside]
    · have : inside.prog k g = demo.prog k g := by cases k <;> first | rfl | exact absurd rfl h
      rw [this]; exact demo_private k g
  · intro k g h p k' he
    cases k with
    | drive n => cases n <;> cases he
    | _ => cases he
  · rintro k g (⟨i, rfl⟩ | ⟨i, rfl⟩)
    · exact .inl ⟨_, rfl, .inr ⟨i, rfl⟩⟩
    · exact .inr (.inl ⟨i, rfl⟩)
  · intro h
    have hc : (iter inside 18 (iter inside 4 (init [] .clk))).cur = some (0, .drive 1) := by decide +kernel
    have h1 := (h 0 _ hc (by simp) (by decide +kernel)).2 2 (by decide +kernel) (by decide +kernel)
    revert h1
    decide +kernel

/-- A hook without a done event that sets an event. -/
def hk : Hook K (List Nat) Nat where
  run g := (g, [.setEv 1])
  done := none
  fails _ := false

/-- One monitor, created by `env_handle`, with that hook; the test waits for the event before it calls the
driver. -/
def hooked : Sys K (List Nat) Nat where
  prog k g := match k with
    | .mk1 => .spawn (.mon 1) (fun _ => .mk)
    | .test => .waitEv 1 (.drive 3)
    | .call i => .comp (g ++ [i]) .mk2
    | .mk2 => .addHook hk 0 (.mon 1)
    | k => demo.prog k g
  dutStep := demo.dutStep
  sample := demo.sample

/-- C102: after such a hook has woken the test, the drivers are called before the monitor, although the
monitor was created first and waited for the clock first. -/
theorem C102_hook_violated :
    ClockPrivate hooked ∧ Body hooked (fun k => IsMon k ∨ k = .mk2) ∧
    ∃ s0 s, Reach hooked [] .clk s0 ∧ s0.waiters 0 = [1] ∧ s0.st 1 = .pend (.ev 0 (.call 1)) ∧
      From hooked s0 s ∧ ¬ RunFirst [1] s0.cycles s ∧ s.g = [100, 1, 100, 9, 1, 100, 9] := by
  refine ⟨?_, ?_, iter hooked 12 (init [] .clk), iter hooked 20 (iter hooked 12 (init [] .clk)),
    reach_iter 12 .init, by decide +kernel, rfl, from_iter 20 .refl, ?_, by decide +kernel⟩
  · intro k g
    cases k with
    | mk2 =>
      refine ⟨by simp [hooked], ?_⟩
      intro h p k' he
      cases he
      exact ⟨by simp [hk], by simp [hk]⟩
    | drive n => cases n <;> simp [hooked, demo]
    | _ => simp [hooked, demo]
  · rintro k g ((⟨i, rfl⟩ | ⟨i, rfl⟩) | rfl)
    · exact .inl ⟨_, rfl, .inl (.inr ⟨i, rfl⟩)⟩
    · exact .inr (.inr rfl)
    · exact .inr (.inl (.inl ⟨1, rfl⟩))
  · intro h
    have hc : (iter hooked 20 (iter hooked 12 (init [] .clk))).cur = some (2, .stp 1) := by decide +kernel
    obtain ⟨k', h1⟩ := (h 2 _ hc (by simp) (by decide +kernel)).1 1 (by simp)
    have h2 := (reach_inv (sys := hooked) (g := []) (k := .clk)
      (reach_iter 20 (reach_iter 12 .init))).core.hw 0 1
    rw [h1] at h2
    have h3 : (iter hooked 20 (iter hooked 12 (init [] .clk))).waiters 0 = [] := by decide +kernel
    rw [h3] at h2
    simp [wExp] at h2

end Toffee.Props.LoopFirst
