import Verif.Props.LoopFifo
/-!
C86: the clock does not stall: when every task waits, the DUT is stepped.
-/

namespace Toffee.Props.LoopIdle

open Toffee.Loop Toffee.Props.LoopFifo

variable {σ G V : Type}

/-- Every task waits for something or has ended. -/
def Quiet (s : St σ G V) : Prop := ∀ t, (∃ w, s.st t = .pend w) ∨ ∃ r, s.st t = .done r

/-- Nothing has happened since `s0`, and `m` handles are in front of the clock's; `ph`: at its turn the
clock will find the flag `new_task_run` cleared. -/
structure Idle (s0 : St σ G V) (ph : Bool) (m : Nat) (s : St σ G V) : Prop where
  st : s.st = s0.st
  g : s.g = s0.g
  cycles : s.cycles = s0.cycles
  hooks : s.hooks = s0.hooks
  td : s.testDone = s0.testDone
  log : s.log = s0.log
  cur : s.cur = none
  clk : s.clock = .check ∨ s.clock = .begin ∧ ph = false
  flag : ph = true → s.flag = false
  queue : ∃ x z, s.batch ++ s.ready = x ++ .clock :: z ∧ x.length = m

/-- The clock's turn comes and it finds nothing that can run. -/
structure Turn (sys : Sys σ G V) (s s' : St σ G V) : Prop where
  eq : ∃ rest, s' = runClock sys { s with batch := rest }
  clk : s.clock = .check
  flag : s.flag = false

inductive Next (sys : Sys σ G V) (s0 : St σ G V) (ph : Bool) (m : Nat) (s s' : St σ G V) : Prop where
  | clock (h : Turn sys s s')
  | woke (t : Nat) (k : σ) (h : s'.st t = .fin (.timer k)) (hcur : s'.cur = none)
  | halt (h : halted s)
  | handle (m' : Nat) (hm : m' < m) (h : Idle s0 ph m' s')
  | turn (hb : s.batch = []) (h : Idle s0 ph m s') (hb' : s'.batch ≠ [])
  | yielded (m' : Nat) (hp : ph = false) (h : Idle s0 true m' s')

theorem clock_flag (sys : Sys σ G V) (s : St σ G V)
    (h : s.clock = .check ∧ s.flag = true ∨ s.clock = .begin) : runClock sys s = clockYield s := by
  unfold runClock clockTurn
  rcases h with ⟨h, h'⟩ | h <;> simp [*]

theorem Idle.step {sys : Sys σ G V} {g : G} {k0 : σ} {s0 s : St σ G V} {ph : Bool} {m : Nat}
    (hr : Reach sys g k0 s) (hq0 : Quiet s0) (h : Idle s0 ph m s) (due : List Nat) :
    Next sys s0 ph m s (step sys due s) := by
  have hi := reach_inv hr
  have hcu := h.cur
  have hquiet : Quiet s := by intro t; rw [h.st]; exact hq0 t
  obtain ⟨x, z, hq, hm⟩ := h.queue
  have popped : ∀ (hd : Handle) (rest : List Handle) (s' : St σ G V),
      s.batch = hd :: rest → hd ≠ .clock → s'.batch = rest → s'.ready = s.ready → s'.st = s.st →
      s'.g = s.g → s'.cycles = s.cycles → s'.hooks = s.hooks → s'.testDone = s.testDone →
      s'.log = s.log → s'.cur = s.cur → s'.clock = s.clock → s'.flag = s.flag →
      Next sys s0 ph m s s' := by
    intro hd rest s' hb hda h1 h2 e1 e2 e3 e4 e5 e6 e7 e8 e9
    rw [hb] at hq
    cases x with
    | nil => injection hq with hq; exact absurd hq hda
    | cons y x =>
      injection hq with hq1 hq2
      have hq2 : rest ++ s.ready = x ++ .clock :: z := hq2
      refine .handle x.length (by rw [← hm]; simp)
        ⟨?_, ?_, ?_, ?_, ?_, ?_, ?_, ?_, ?_, x, z, ?_, rfl⟩
      · rw [e1, h.st]
      · rw [e2, h.g]
      · rw [e3, h.cycles]
      · rw [e4, h.hooks]
      · rw [e5, h.td]
      · rw [e6, h.log]
      · rw [e7, h.cur]
      · rw [e8]; exact h.clk
      · rw [e9]; exact h.flag
      · rw [h1, h2, hq2]
  have hsc := step_case sys due s
  generalize Loop.step sys due s = s' at hsc
  cases hsc with
  | exec t k1 hc => rw [hcu] at hc; cases hc
  | task u rest hc hb =>
    have h1 := qExp_one_of_head hi hb
    rcases hquiet u with ⟨w, hw⟩ | ⟨r, hw⟩ <;> rw [hw] at h1 <;> cases h1
  | clock rest hc hb =>
    have yld : ph = false → Next sys s0 ph m s (clockYield { s with batch := rest }) := by
      intro hp
      refine .yielded _ hp ⟨h.st, h.g, h.cycles, h.hooks, h.td, h.log, h.cur, .inl rfl, fun _ => rfl,
        rest ++ s.ready, [], ?_, rfl⟩
      show rest ++ (s.ready ++ [.clock]) = _
      simp
    rcases h.clk with hk | ⟨hk, hp⟩
    · by_cases hf : s.flag = true
      · have hp : ph = false := by
          cases ph with
          | false => rfl
          | true => rw [h.flag rfl] at hf; cases hf
        rw [clock_flag sys { s with batch := rest } (.inl ⟨hk, hf⟩)]
        exact yld hp
      · exact .clock ⟨⟨rest, rfl⟩, hk, by simpa using hf⟩
    · rw [clock_flag sys { s with batch := rest } (.inr hk)]
      exact yld hp
  | stop rest hc hb => exact popped _ rest _ hb (by simp) rfl rfl rfl rfl rfl rfl rfl rfl rfl rfl rfl
  | fire t k1 rest hc hb hs =>
    refine .woke t k1 ?_ hcu
    simp [wake, hs, Status.finish]
  | miss t rest hc hb hs => exact popped _ rest _ hb (by simp) rfl rfl rfl rfl rfl rfl rfl rfl rfl rfl rfl
  | halt hc hb hs => exact .halt ⟨hs, hc, hb⟩
  | turn due hc hb hs =>
    rw [hb] at hq
    have hq : s.ready = x ++ .clock :: z := hq
    refine .turn hb ⟨h.st, h.g, h.cycles, h.hooks, h.td, h.log, h.cur, h.clk, h.flag, x,
      z ++ due.map .fire, ?_, hm⟩ ?_
    · show s.ready ++ due.map .fire ++ [] = _
      rw [hq]; simp
    · show s.ready ++ due.map .fire ≠ []
      rw [hq]; simp

/-- How the idle time ends, without any task running before. -/
def Ends (sys : Sys σ G V) (s0 : St σ G V) (seq : Nat → St σ G V) (i n : Nat) : Prop :=
  i ≤ n ∧ (∀ j, i ≤ j → j ≤ n → (seq j).cur = none) ∧
    ((∃ ph m, Idle s0 ph m (seq n) ∧ Turn sys (seq n) (seq (n + 1))) ∨
      halted (seq n) ∨ ∃ t k, (seq n).st t = .fin (.timer k))

theorem Ends.later {sys : Sys σ G V} {s0 : St σ G V} {seq : Nat → St σ G V} {i n : Nat}
    (hc : (seq i).cur = none) (h : Ends sys s0 seq (i + 1) n) : Ends sys s0 seq i n := by
  refine ⟨by have := h.1; omega, fun j hj hj' => ?_, h.2.2⟩
  by_cases he : j = i
  · subst he; exact hc
  · exact h.2.1 j (by omega) hj'

theorem idle_ends {sys : Sys σ G V} {g : G} {k0 : σ} {s0 : St σ G V} {seq : Nat → St σ G V}
    (h0 : Reach sys g k0 s0) (hq0 : Quiet s0) (hr : Run sys s0 seq) (ph : Bool) :
    ∀ m i, Idle s0 ph m (seq i) → ∃ n, Ends sys s0 seq i n := by
  have main : ∀ ph, (ph = false → ∀ m i, Idle s0 true m (seq i) → ∃ n, Ends sys s0 seq i n) →
      ∀ m i, Idle s0 ph m (seq i) → ∃ n, Ends sys s0 seq i n := by
    intro ph hyp m
    induction m using Nat.strongRecOn with
    | ind m ih =>
      have one : ∀ i, Idle s0 ph m (seq i) →
          (∀ (_ : (seq i).batch = []), Idle s0 ph m (seq (i + 1)) → (seq (i + 1)).batch ≠ [] →
            ∃ n, Ends sys s0 seq (i + 1) n) → ∃ n, Ends sys s0 seq i n := by
        intro i h hturn
        obtain ⟨due, hd⟩ := hr.next i
        have hs := h.step (run_reach h0 hr i) hq0 due
        rw [← hd] at hs
        have now : ∀ j, i ≤ j → j ≤ i → (seq j).cur = none := by
          intro j h1 h2
          rw [show j = i by omega]; exact h.cur
        cases hs with
        | clock h' => exact ⟨i, by omega, now, .inl ⟨ph, m, h, h'⟩⟩
        | woke t k h' hcur =>
          refine ⟨i + 1, by omega, fun j h1 h2 => ?_, .inr (.inr ⟨t, k, h'⟩)⟩
          by_cases he : j = i
          · subst he; exact h.cur
          · rw [show j = i + 1 by omega]; exact hcur
        | halt h' => exact ⟨i, by omega, now, .inr (.inl h')⟩
        | handle m' hm h' =>
          obtain ⟨n, hn⟩ := ih m' hm (i + 1) h'
          exact ⟨n, hn.later h.cur⟩
        | turn hb h' hb' =>
          obtain ⟨n, hn⟩ := hturn hb h' hb'
          exact ⟨n, hn.later h.cur⟩
        | yielded m' hp h' =>
          obtain ⟨n, hn⟩ := hyp hp m' (i + 1) h'
          exact ⟨n, hn.later h.cur⟩
      intro i h
      exact one i h fun _ h' hb => one (i + 1) h' fun hb' => absurd hb' hb
  cases ph with
  | true => exact main true (by simp)
  | false => exact main false (fun _ => main true (by simp))

theorem quiet_ends {sys : Sys σ G V} {g : G} {k0 : σ} {s0 : St σ G V} {seq : Nat → St σ G V}
    (h0 : Reach sys g k0 s0) (hq : Quiet s0) (hclk : s0.clock = .check ∨ s0.clock = .begin)
    (hr : Run sys s0 seq) : ∃ n, Ends sys s0 seq 0 n := by
  have hi := reach_inv h0
  have hcur : s0.cur = none := by
    cases hc : s0.cur with
    | none => rfl
    | some tk =>
      have h1 := (hi.core.hcur tk.1).2 (by rw [hc]; rfl)
      rcases hq tk.1 with ⟨w, hw⟩ | ⟨r, hw⟩ <;> rw [hw] at h1 <;> cases h1
  have hm : Handle.clock ∈ s0.batch ++ s0.ready := by
    have := hi.core.hclk
    rw [if_neg (by rcases hclk with h | h <;> rw [h] <;> simp)] at this
    rw [← List.one_le_count_iff]
    have h2 : (s0.batch ++ s0.ready).count Handle.clock = 1 := this
    omega
  obtain ⟨x, z, hx⟩ := List.append_of_mem hm
  have hid : Idle s0 false x.length (seq 0) := by
    rw [hr.zero]
    exact ⟨rfl, rfl, rfl, rfl, rfl, rfl, hcur, hclk.imp id (fun h => ⟨h, rfl⟩), by simp, x, z, hx, rfl⟩
  exact idle_ends h0 hq hr false _ 0 hid

theorem clock_step (sys : Sys σ G V) (s : St σ G V) (hk : s.clock = .check) (hu : hasUnwait s = false)
    (hf : s.flag = false) (hh : s.hooks = []) (ht : s.testDone = false) :
    runClock sys s = doStep sys (note .sample { s with hooks := [], g := sys.sample s.g }) := by
  have hs : Priority.sorted ([] : List ((Nat × Hook σ G V) × Int)) = [] := rfl
  unfold runClock clockTurn
  simp only [hk, hu, hf, hs, raising, callbacks, List.foldl_nil, note, ht, hh, List.any_nil,
    Bool.or_false, Bool.false_eq_true, if_false]

theorem doStep_g (sys : Sys σ G V) (s : St σ G V) : (doStep sys s).g = sys.dutStep s.g := by
  unfold doStep
  show (setEv 0 _).g = _
  unfold setEv
  split <;> rfl

theorem Quiet.unwait {s : St σ G V} (h : Quiet s) : hasUnwait s = false := by
  unfold hasUnwait
  rw [List.any_eq_false]
  intro t _
  rcases h t with ⟨w, hw⟩ | ⟨r, hw⟩ <;> simp [hw]

/-- C86: in a state in which every task waits or has ended, no hook is requested and the test has not
ended, the running clock steps the DUT (sampling the delayers once before) without any task running
before, in every execution; unless the timer of a sleeping task fires before, or the loop stops. -/
theorem C86_clock_advances (sys : Sys σ G V) (g : G) (k0 : σ) (s0 : St σ G V)
    (seq : Nat → St σ G V) (h0 : Reach sys g k0 s0) (hq : Quiet s0)
    (hclk : s0.clock = .check ∨ s0.clock = .begin) (hh : s0.hooks = []) (ht : s0.testDone = false)
    (hr : Run sys s0 seq) :
    ∃ n, (∀ j, j ≤ n → (seq j).cur = none) ∧
      ((seq n).cycles = s0.cycles + 1 ∧ (seq n).g = sys.dutStep (sys.sample s0.g) ∨
        halted (seq n) ∨ ∃ t k, (seq n).st t = .fin (.timer k)) := by
  obtain ⟨n, _, h1, h2⟩ := quiet_ends h0 hq hclk hr
  have h1 : ∀ j, j ≤ n → (seq j).cur = none := fun j hj => h1 j (Nat.zero_le _) hj
  rcases h2 with ⟨ph, m, hid, ⟨⟨rest, he⟩, hk, hf⟩⟩ | h2 | h2
  · have hu : hasUnwait ({ seq n with batch := rest } : St σ G V) = false :=
      Quiet.unwait (s := { seq n with batch := rest }) (by intro t; show _ ∨ _; rw [hid.st]; exact hq t)
    have hst := clock_step sys { seq n with batch := rest } hk hu hf (hid.hooks.trans hh)
      (hid.td.trans ht)
    rw [hst] at he
    obtain ⟨d1, d2, d3, d4, d5, d6, d7, d8, _⟩ := doStep_frame sys
      (note .sample { seq n with batch := rest, hooks := [], g := sys.sample (seq n).g })
    refine ⟨n + 1, fun j hj => ?_, .inl ⟨?_, ?_⟩⟩
    · by_cases hj' : j ≤ n
      · exact h1 j hj'
      · rw [show j = n + 1 by omega, he, d8]; exact hid.cur
    · rw [he, d3, ← hid.cycles]; rfl
    · rw [he, doStep_g, ← hid.g]; rfl
  · exact ⟨n, h1, .inr (.inl h2)⟩
  · exact ⟨n, h1, .inr (.inr h2)⟩

/-- C86: in a state in which every task waits or has ended, the running clock executes the requested
hooks (all of them, or up to one that raises) without any task running or the DUT being stepped before;
unless the timer of a sleeping task fires before, or the loop stops. -/
theorem C86_hooks_run (sys : Sys σ G V) (g : G) (k0 : σ) (s0 : St σ G V)
    (seq : Nat → St σ G V) (h0 : Reach sys g k0 s0) (hq : Quiet s0)
    (hclk : s0.clock = .check ∨ s0.clock = .begin) (hr : Run sys s0 seq) :
    ∃ n, (∀ j, j ≤ n → (seq j).cur = none) ∧
      ((∃ l l', (seq (n + 1)).log = s0.log ++ (l ++ l') ∧ Ev.step ∉ l ∧
          ((∀ h ∈ s0.hooks, Ev.exec h.1.1 h.1.2.done.isSome ∈ l) ∨ ∃ h ∈ s0.hooks, .hookRaise h.1.1 ∈ l)) ∨
        halted (seq n) ∨ ∃ t k, (seq n).st t = .fin (.timer k)) := by
  obtain ⟨n, _, h1, h2⟩ := quiet_ends h0 hq hclk hr
  refine ⟨n, fun j hj => h1 j (Nat.zero_le _) hj, ?_⟩
  rcases h2 with ⟨ph, m, hid, ⟨⟨rest, he⟩, hk, hf⟩⟩ | h2 | h2
  · left
    have hu : hasUnwait ({ seq n with batch := rest } : St σ G V) = false :=
      Quiet.unwait (s := { seq n with batch := rest }) (by intro t; show _ ∨ _; rw [hid.st]; exact hq t)
    have hall : ∀ l', (seq (n + 1)).log = (seq n).log ++
        ((Priority.sorted (seq n).hooks).map execEv ++ l') →
        ∃ l l', (seq (n + 1)).log = s0.log ++ (l ++ l') ∧ Ev.step ∉ l ∧
          ((∀ h ∈ s0.hooks, Ev.exec h.1.1 h.1.2.done.isSome ∈ l) ∨
            ∃ h ∈ s0.hooks, .hookRaise h.1.1 ∈ l) := by
      intro l' hl
      refine ⟨_, l', by rw [hl, hid.log], ?_, .inl fun h hh => ?_⟩
      · intro hm
        obtain ⟨y, _, hy⟩ := List.mem_map.1 hm
        cases hy
      · rw [hid.hooks]
        exact List.mem_map.2 ⟨h, (Priority.sorted_perm _).mem_iff.2 hh, rfl⟩
    obtain ⟨f1, f2, f3, f4, f5, _⟩ := callbacks_frame sys { seq n with batch := rest }
    unfold runClock at he
    have hcc := clock_case sys { seq n with batch := rest }
    generalize clockTurn sys { seq n with batch := rest } = r at hcc he
    cases hcc with
    | off h => rw [show (seq n).clock = .off from h] at hk; cases hk
    | dead h => rw [show (seq n).clock = .dead from h] at hk; cases hk
    | begin h => rw [show (seq n).clock = .begin from h] at hk; cases hk
    | last h => rw [show (seq n).clock = .afterCancel from h] at hk; cases hk
    | busy h hb =>
      have hf' : ({ seq n with batch := rest } : St σ G V).flag = false := hf
      rw [hu, hf'] at hb; cases hb
    | raise h _ _ pre x post hs hx =>
      obtain ⟨d1, d2, d3, d4, _⟩ := raised_frame pre x { seq n with batch := rest }
      refine ⟨pre.map execEv ++ [.hookRaise x.1.1], [], ?_, ?_, .inr ⟨x, ?_, by simp⟩⟩
      · rw [he]
        show (raised pre x _).log = _
        rw [d4, ← hid.log]; simp
      · simp [execEv]
      · rw [← hid.hooks]
        refine (Priority.sorted_perm _).mem_iff.1 ?_
        show x ∈ Priority.sorted ({ seq n with batch := rest } : St σ G V).hooks
        rw [hs]; simp
    | rerun h _ _ hrr =>
      apply hall [.sample]
      rw [he]
      show (callbacks sys _).2.log = _
      rw [f4, List.append_assoc]
    | cancel h _ _ hrr ht =>
      apply hall [.sample, .cancelAll]
      rw [he]
      show (callbacks sys _).2.log ++ [.cancelAll] = _
      rw [f4]; simp
    | step h _ _ hrr ht =>
      apply hall [.sample, .step]
      obtain ⟨d1, d2, d3, d4, _⟩ := doStep_frame sys (callbacks sys { seq n with batch := rest }).2
      rw [he]
      show (doStep sys _).log = _
      rw [d4, f4]; simp
  · exact .inr (.inl h2)
  · exact .inr (.inr h2)

/-! ### A concrete system -/

/-- The test starts the clock, requests a hook and waits for the clock; the hook adds 5, the DUT adds 1. -/
def demo : Sys Nat Nat Nat where
  prog k g := match k with
    | 0 => .startClock 1
    | 1 => .addHook { run := fun g => (g + 5, []), done := none } 3 2
    | 2 => .waitEv 0 3
    | 3 => .waitEv 0 4
    | _ => .ret g
  dutStep g := g + 1
  sample g := g

/-- The state when the test waits: first with the hook, then (after the step and a turn of the test)
without. -/
def s0 : St Nat Nat Nat := iter demo 5 (init 0 0)
def s1 : St Nat Nat Nat := iter demo 7 s0

theorem quiet_of (s : St Nat Nat Nat) (hr : Reach demo 0 0 s) (hn : s.n = 1)
    (h : ∃ w, s.st 0 = .pend w) : Quiet s := by
  intro t
  by_cases ht : t = 0
  · subst ht; exact .inl h
  · exact .inr ⟨none, (reach_inv hr).core.hborn t (by omega)⟩

example : Reach demo 0 0 s0 ∧ Quiet s0 ∧ (s0.clock = .check ∨ s0.clock = .begin) ∧
    s0.hooks.map (·.1.1) = [0] ∧ s0.testDone = false ∧ s0.stopping = false :=
  ⟨reach_iter 5 .init, quiet_of _ (reach_iter 5 .init) (by decide +kernel) ⟨.ev 0 3, rfl⟩,
    by decide +kernel, by decide +kernel, by decide +kernel, by decide +kernel⟩

example : Reach demo 0 0 s1 ∧ Quiet s1 ∧ s1.clock = .check ∧ s1.hooks.map (·.1.1) = [] ∧
    s1.testDone = false ∧ s1.cycles = 1 ∧ s1.g = 6 :=
  ⟨reach_iter 7 (reach_iter 5 .init),
    quiet_of _ (reach_iter 7 (reach_iter 5 .init)) (by decide +kernel) ⟨.ev 0 4, rfl⟩,
    by decide +kernel, by decide +kernel, by decide +kernel, by decide +kernel, by decide +kernel⟩

end Toffee.Props.LoopIdle
