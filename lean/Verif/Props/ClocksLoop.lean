import Verif.Props.Clocks
import Verif.Props.LoopEnd

/-!
C114: with one clock, the model of several clocks (`Verif.Model.Clocks`) and the model of the event loop
(`Verif.Model.Loop`) do the same, step by step.
-/

namespace Toffee.Clocks

variable {σ G : Type}

/-- The command in the other model. -/
def Cmd.toLoop : Cmd σ G → Loop.Cmd σ G Unit
  | .ret => .ret ()
  | .comp g k => .comp g k
  | .taskRun k => .taskRun k
  | .yield k => .yield k
  | .waitEv e k => .waitEv e k
  | .setEv e k => .setEv e k
  | .clearEv e k => .clearEv e k
  | .spawn s k => .spawn s fun _ => k
  | .startClock _ k => .startClock k

/-- The program in the other model, without hooks and delayers; the DUT is number 0. -/
def Sys.toLoop (sys : Sys σ G) : Loop.Sys σ G Unit where
  prog k g := (sys.prog k g).toLoop
  dutStep := sys.dutStep 0
  sample := id

def Wait.toLoop : Wait σ → Loop.Wait σ Unit
  | .ev e k => .ev e k
  | .final _ => .final ()

/-- Two tasks in the same state. -/
inductive Status.Same : Status σ → Loop.Status σ Unit → Prop
  | ready (k : σ) : Same (.ready k) (.ready k)
  | pend (w : Wait σ) : Same (.pend w) (.pend w.toLoop)
  | fin (w : Wait σ) : Same (.fin w) (.fin w.toLoop)
  | running : Same .running .running
  | done (r : Option Unit) : Same .done (.done r)

def Handle.toLoop : Handle → Loop.Handle
  | .task t => .task t
  | .clock _ => .clock
  | .stop => .stop

def Pc.toLoop : Pc → Loop.Pc
  | .off => .off
  | .begin => .begin
  | .check => .check
  | .afterCancel => .afterCancel
  | .dead => .dead

/-- The two loops are in the same state. -/
structure Same (s : St σ G) (l : Loop.St σ G Unit) : Prop where
  g : l.g = s.g
  n : l.n = s.n
  st : ∀ t, (s.st t).Same (l.st t)
  batch : l.batch = s.batch.map Handle.toLoop
  ready : l.ready = s.ready.map Handle.toLoop
  ev : l.ev = s.ev
  waiters : l.waiters = s.waiters
  flag : l.flag = s.flag
  testDone : l.testDone = s.testDone
  clock : l.clock = (s.clk 0).toLoop
  cur : l.cur = s.cur
  stopping : l.stopping = s.stopping
  cycles : l.cycles = s.steps 0

/-- What is not used. -/
structure Plain (s : St σ G) (l : Loop.St σ G Unit) : Prop where
  joiners : ∀ t, l.joiners t = []
  hooks : l.hooks = []
  aborted : l.aborted = false
  dut : s.dut 0 = 0
  glob : s.glob = if s.nc = 0 then none else some 0
  off : s.nc = 0 ↔ s.clk 0 = .off

theorem Same.init (g : G) (k : σ) : Same (init g k) (Loop.init g k) where
  g := rfl
  n := rfl
  st t := by
    show (if t = 0 then Status.ready k else .done).Same (if t = 0 then .ready k else .done none)
    split
    · exact .ready k
    · exact .done none
  batch := rfl
  ready := rfl
  ev := rfl
  waiters := rfl
  flag := rfl
  testDone := rfl
  clock := rfl
  cur := rfl
  stopping := rfl
  cycles := rfl

theorem Plain.init (g : G) (k : σ) : Plain (init g k) (Loop.init g k) :=
  ⟨fun _ => rfl, rfl, rfl, rfl, rfl, Iff.of_eq (by simp [Clocks.init])⟩

theorem Status.Same.finish {x : Status σ} {y : Loop.Status σ Unit} (h : x.Same y) : x.finish.Same y.finish := by
  cases h
  · exact .ready _
  · exact .fin _
  · exact .fin _
  · exact .running
  · exact .done _

theorem upd_loop {α : Type} (f : Nat → α) (k : Nat) (v : α) : Loop.upd f k v = upd f k v := rfl

theorem Same.updSt {s : St σ G} {l : Loop.St σ G Unit} (h : ∀ t, (s.st t).Same (l.st t)) {t : Nat}
    {x : Status σ} {y : Loop.Status σ Unit} (hx : x.Same y) (i : Nat) :
    (upd s.st t x i).Same (Loop.upd l.st t y i) := by
  unfold upd Loop.upd
  split
  · exact hx
  · exact h i

theorem Same.setEv {s : St σ G} {l : Loop.St σ G Unit} (h : Same s l) (e : Nat) :
    Same (setEv e s) (Loop.setEv e l) := by
  unfold Clocks.setEv Loop.setEv
  rw [h.ev]
  split
  · exact h
  · refine { h with st := ?_, ready := ?_, ev := rfl, waiters := ?_ }
    · intro t
      show (if t ∈ s.waiters e then (s.st t).finish else s.st t).Same
        (if t ∈ l.waiters e then (l.st t).finish else l.st t)
      rw [h.waiters]
      split
      · exact (h.st t).finish
      · exact h.st t
    · show l.ready ++ (l.waiters e).map Loop.Handle.task = _
      rw [h.ready, h.waiters]
      simp [wake, Handle.toLoop, Function.comp_def]
    · show Loop.upd l.waiters e [] = _
      rw [h.waiters]
      rfl

theorem loop_setEv_joiners (e : Nat) (l : Loop.St σ G Unit) : (Loop.setEv e l).joiners = l.joiners := by
  unfold Loop.setEv; split <;> rfl

theorem loop_setEv_hooks (e : Nat) (l : Loop.St σ G Unit) : (Loop.setEv e l).hooks = l.hooks := by
  unfold Loop.setEv; split <;> rfl

theorem loop_setEv_aborted (e : Nat) (l : Loop.St σ G Unit) : (Loop.setEv e l).aborted = l.aborted := by
  unfold Loop.setEv; split <;> rfl

theorem setEv_dut (e : Nat) (s : St σ G) : (Clocks.setEv e s).dut = s.dut := by
  unfold Clocks.setEv; split <;> rfl

theorem setEv_glob (e : Nat) (s : St σ G) : (Clocks.setEv e s).glob = s.glob := by
  unfold Clocks.setEv; split <;> rfl

theorem Plain.setEv {s : St σ G} {l : Loop.St σ G Unit} (h : Plain s l) (e : Nat) :
    Plain (setEv e s) (Loop.setEv e l) := by
  refine ⟨?_, ?_, ?_, ?_, ?_, ?_⟩
  · rw [loop_setEv_joiners]; exact h.joiners
  · rw [loop_setEv_hooks]; exact h.hooks
  · rw [loop_setEv_aborted]; exact h.aborted
  · rw [setEv_dut]; exact h.dut
  · rw [setEv_glob, setEv_nc]; exact h.glob
  · rw [setEv_nc, setEv_clk]; exact h.off

theorem Same.finish {s : St σ G} {l : Loop.St σ G Unit} (h : Same s l) (hp : Plain s l) (t : Nat)
    (r : Option Unit) : Same (finish t s) (Loop.finish t r l) ∧ Plain (finish t s) (Loop.finish t r l) := by
  have hj := hp.joiners t
  unfold Clocks.finish Loop.finish
  simp only [hj]
  have hst : ∀ i, (upd s.st t .done i).Same (Loop.upd l.st t (.done r) i) := Same.updSt h.st (.done r)
  by_cases h0 : t = 0
  · simp only [h0, if_true]
    subst h0
    constructor
    · refine { h with st := ?_, ready := ?_, cur := rfl }
      · intro i
        show ((upd s.st 0 .done i)).Same (if i ∈ ([] : List Nat) then (Loop.upd l.st 0 (.done r) i).finish else Loop.upd l.st 0 (.done r) i)
        rw [if_neg (by simp)]
        exact hst i
      · show l.ready ++ [.stop] ++ [] = _
        simp [push, h.ready, Handle.toLoop]
    · refine { hp with joiners := ?_ }
      intro i
      show Loop.upd l.joiners 0 [] i = []
      unfold Loop.upd
      split
      · rfl
      · exact hp.joiners i
  · simp only [h0, if_false]
    constructor
    · refine { h with st := ?_, ready := ?_, cur := rfl }
      · intro i
        show ((upd s.st t .done i)).Same (if i ∈ ([] : List Nat) then (Loop.upd l.st t (.done r) i).finish else Loop.upd l.st t (.done r) i)
        rw [if_neg (by simp)]
        exact hst i
      · show l.ready ++ [] = _
        simp [h.ready]
    · refine { hp with joiners := ?_ }
      intro i
      show Loop.upd l.joiners t [] i = []
      unfold Loop.upd
      split
      · rfl
      · exact hp.joiners i

/-- `main_coro` or a task waits. -/
theorem Same.block {s : St σ G} {l l' : Loop.St σ G Unit} (h : Same s l) (hp : Plain s l) (t e : Nat)
    (w : Wait σ)
    (hl : ∃ lg, l' = { Loop.block t (.pend w.toLoop) l with
      waiters := Loop.upd l.waiters e (l.waiters e ++ [t]), log := lg }) :
    Same (block t e w s) l' ∧ Plain (block t e w s) l' := by
  obtain ⟨lg, rfl⟩ := hl
  constructor
  · refine { h with st := Same.updSt h.st (.pend w), waiters := ?_, cur := rfl }
    show Loop.upd l.waiters e (l.waiters e ++ [t]) = _
    rw [h.waiters]
    rfl
  · exact { hp with }

theorem exec_ret_none {s : St σ G} (h : s.glob = none) :
    exec 0 .ret s = finish 0 { s with testDone := true } := by
  unfold exec
  split
  · rw [if_pos rfl]
    split
    · rfl
    · rename_i e he; rw [h] at he; cases he
  all_goals contradiction

theorem exec_ret_some {s : St σ G} {e : Nat} (h : s.glob = some e) :
    exec 0 .ret s = if s.ev e = true then finish 0 { s with testDone := true }
      else block 0 e (.final e) { s with testDone := true } := by
  unfold exec
  split
  · rw [if_pos rfl]
    split
    · rename_i he; rw [h] at he; cases he
    · rename_i e' he; rw [h] at he; injection he with he; subst he; rfl
  all_goals contradiction

theorem Same.exec {s : St σ G} {l : Loop.St σ G Unit} (h : Same s l) (hp : Plain s l) (t : Nat) (c : Cmd σ G)
    (h1 : (exec t c s).nc ≤ 1) (hd : ∀ d k, c = .startClock d k → d = 0) :
    Same (exec t c s) (Loop.exec t c.toLoop l) ∧ Plain (exec t c s) (Loop.exec t c.toLoop l) := by
  cases c with
  | ret =>
    by_cases h0 : t = 0
    · subst h0
      have hs : Same { s with testDone := true } (Loop.note .testDone { l with testDone := true }) :=
        { h with testDone := rfl }
      have hpp : Plain { s with testDone := true } (Loop.note .testDone { l with testDone := true }) :=
        { hp with }
      have hl : Loop.exec 0 (Cmd.ret : Cmd σ G).toLoop l =
          if l.clock = .off ∨ l.ev 0 = true then
            Loop.finish 0 (some ()) (Loop.note .testDone { l with testDone := true })
          else Loop.note (.wait 0)
            { Loop.block 0 (.pend (.final ())) (Loop.note .testDone { l with testDone := true }) with
              waiters := Loop.upd l.waiters 0 (l.waiters 0 ++ [0]) } := rfl
      rw [hl]
      by_cases hn : s.nc = 0
      · have hg : s.glob = none := by rw [hp.glob, if_pos hn]
        have hc : l.clock = .off := by rw [h.clock, hp.off.1 hn]; rfl
        rw [if_pos (.inl hc), exec_ret_none hg]
        exact hs.finish hpp 0 (some ())
      · have hg : s.glob = some 0 := by rw [hp.glob, if_neg hn]
        have hc : l.clock ≠ .off := by
          rw [h.clock]
          intro he
          cases hk : s.clk 0 with
          | off => exact hn (hp.off.2 hk)
          | _ => rw [hk] at he; cases he
        rw [exec_ret_some hg]
        have hev : l.ev 0 = s.ev 0 := by rw [h.ev]
        by_cases he : s.ev 0 = true
        · rw [if_pos (c := l.clock = .off ∨ l.ev 0 = true) (Or.inr (hev.trans he)), if_pos he]
          exact hs.finish hpp 0 (some ())
        · rw [if_neg (c := l.clock = .off ∨ l.ev 0 = true) (fun hx => hx.elim hc fun h => he (hev.symm.trans h)),
            if_neg he]
          exact hs.block hpp 0 0 (.final 0) ⟨_, rfl⟩
    · have hx : Clocks.exec t Cmd.ret s = Clocks.finish t s := by simp only [Clocks.exec]; rw [if_neg h0]
      have hy : Loop.exec t (Cmd.ret : Cmd σ G).toLoop l = Loop.finish t (some ()) l := by
        simp only [Loop.exec, Cmd.toLoop]; rw [if_neg h0]
      rw [hx, hy]
      exact h.finish hp t (some ())
  | comp g k => exact ⟨{ h with g := rfl, cur := rfl }, { hp with }⟩
  | taskRun k => exact ⟨{ h with flag := rfl, cur := rfl }, { hp with }⟩
  | yield k =>
    refine ⟨{ h with st := Same.updSt h.st (.ready k), ready := ?_, cur := rfl }, { hp with }⟩
    show l.ready ++ [Loop.Handle.task t] = (s.ready ++ [Handle.task t]).map Handle.toLoop
    simp [h.ready, Handle.toLoop]
  | waitEv e k =>
    simp only [Clocks.exec, Cmd.toLoop, Loop.exec]
    by_cases he : s.ev e = true
    · rw [if_pos he, if_pos (by rw [h.ev]; exact he)]
      exact ⟨{ h with cur := rfl }, { hp with }⟩
    · rw [if_neg he, if_neg (by rw [h.ev]; exact he)]
      refine h.block hp t e (.ev e k) ?_
      by_cases h0 : e = 0
      · exact ⟨_, by rw [if_pos h0]; rfl⟩
      · exact ⟨_, by rw [if_neg h0]; rfl⟩
  | setEv e k =>
    have h2 := h.setEv e
    have h3 := hp.setEv e
    exact ⟨{ h2 with cur := rfl }, { h3 with }⟩
  | clearEv e k =>
    refine ⟨{ h with ev := ?_, cur := rfl }, { hp with }⟩
    show Loop.upd l.ev e false = _
    rw [h.ev]; rfl
  | spawn s0 k =>
    refine ⟨{ h with n := ?_, st := ?_, ready := ?_, cur := rfl }, { hp with }⟩
    · show l.n + 1 = s.n + 1
      rw [h.n]
    · intro i
      show (upd s.st s.n (.ready s0) i).Same (Loop.upd l.st l.n (.ready s0) i)
      rw [h.n]
      exact Same.updSt h.st (.ready s0) i
    · show l.ready ++ [Loop.Handle.task l.n] = (s.ready ++ [Handle.task s.n]).map Handle.toLoop
      simp [h.ready, h.n, Handle.toLoop]
  | startClock d k =>
    have hd0 := hd d k rfl
    subst hd0
    have hn : s.nc = 0 := by
      have : s.nc + 1 ≤ 1 := h1
      omega
    have hc : l.clock = .off := by rw [h.clock, hp.off.1 hn]; rfl
    simp only [Clocks.exec, Cmd.toLoop, Loop.exec]
    rw [if_pos hc, hn]
    constructor
    · refine { h with ready := ?_, clock := ?_, cur := rfl }
      · show l.ready ++ [Loop.Handle.clock] = (s.ready ++ [Handle.clock 0]).map Handle.toLoop
        simp [h.ready, Handle.toLoop]
      · show Loop.Pc.begin = (upd s.clk 0 .begin 0).toLoop
        rw [upd_self]; rfl
    · refine ⟨hp.joiners, hp.hooks, hp.aborted, ?_, ?_, ?_⟩
      · show upd s.dut 0 0 0 = 0
        exact upd_self _ _ _
      · show some 0 = if 0 + 1 = 0 then none else some 0
        rfl
      · constructor
        · intro hx; cases hx
        · intro hx
          have : upd s.clk 0 .begin 0 = .off := hx
          rw [upd_self] at this
          cases this

theorem Same.resume {s : St σ G} {l : Loop.St σ G Unit} (h : Same s l) (hp : Plain s l) (t : Nat) :
    Same (resume t s) (Loop.resume t l) ∧ Plain (resume t s) (Loop.resume t l) := by
  have ht := h.st t
  unfold Clocks.resume Loop.resume
  generalize hx : s.st t = x at ht ⊢
  generalize hy : l.st t = y at ht ⊢
  cases ht with
  | ready k => exact ⟨{ h with st := Same.updSt h.st .running, cur := rfl }, { hp with }⟩
  | pend w => exact ⟨h, hp⟩
  | running => exact ⟨h, hp⟩
  | done r => exact ⟨h, hp⟩
  | fin w =>
    cases w with
    | ev e k =>
      simp only [Wait.toLoop]
      by_cases h0 : e = 0
      · rw [if_pos h0]
        exact ⟨{ h with st := Same.updSt h.st .running, cur := rfl }, { hp with }⟩
      · rw [if_neg h0]
        exact ⟨{ h with st := Same.updSt h.st .running, cur := rfl }, { hp with }⟩
    | final e =>
      have h1 : Same s (Loop.note (.resume t) l) := { h with }
      have h2 : Plain s (Loop.note (.resume t) l) := { hp with }
      exact h1.finish h2 t (some ())

theorem Same.hasUnwait {s : St σ G} {l : Loop.St σ G Unit} (h : Same s l) :
    Loop.hasUnwait l = hasUnwait s := by
  unfold Loop.hasUnwait Clocks.hasUnwait
  rw [h.n]
  congr 1
  funext t
  have := h.st t
  revert this
  generalize s.st t = x
  generalize l.st t = y
  intro this
  cases this <;> rfl

theorem Same.clockYield {s : St σ G} {l : Loop.St σ G Unit} (h : Same s l) :
    Same (clockYield 0 s) (Loop.clockYield l) := by
  refine { h with flag := rfl, ready := ?_, clock := ?_ }
  · show l.ready ++ [Loop.Handle.clock] = (s.ready ++ [Handle.clock 0]).map Handle.toLoop
    simp [h.ready, Handle.toLoop]
  · show Loop.Pc.check = (upd s.clk 0 .check 0).toLoop
    rw [upd_self]; rfl

theorem Plain.clockYield {s : St σ G} {l : Loop.St σ G Unit} (h : Plain s l) (hn : s.nc ≠ 0) :
    Plain (clockYield 0 s) (Loop.clockYield l) :=
  { h with off := ⟨fun hx => absurd hx hn, fun hx => by
      have : upd s.clk 0 .check 0 = .off := hx
      rw [upd_self] at this
      cases this⟩ }

theorem Same.doStep (sys : Sys σ G) {s : St σ G} {l : Loop.St σ G Unit} (h : Same s l) (hp : Plain s l)
    (hn : s.nc ≠ 0) :
    Same (doStep sys 0 s) (Loop.doStep sys.toLoop l) ∧ Plain (doStep sys 0 s) (Loop.doStep sys.toLoop l) := by
  have h1 : Same { s with g := sys.dutStep 0 s.g, steps := upd s.steps 0 (s.steps 0 + 1) }
      (Loop.note .step { l with g := sys.toLoop.dutStep l.g, cycles := l.cycles + 1 }) := by
    refine { h with g := ?_, cycles := ?_ }
    · show sys.dutStep 0 l.g = _
      rw [h.g]
    · show l.cycles + 1 = upd s.steps 0 (s.steps 0 + 1) 0
      rw [upd_self, h.cycles]
  have hp1 : Plain { s with g := sys.dutStep 0 s.g, steps := upd s.steps 0 (s.steps 0 + 1) }
      (Loop.note .step { l with g := sys.toLoop.dutStep l.g, cycles := l.cycles + 1 }) := { hp with }
  have h2 := h1.setEv 0
  have hp2 := hp1.setEv 0
  unfold Clocks.doStep Loop.doStep
  rw [hp.dut]
  dsimp only
  refine ⟨Same.clockYield { h2 with ev := ?_ }, Plain.clockYield { hp2 with } ?_⟩
  · dsimp only
    rw [h2.ev]
    rfl
  · dsimp only
    rw [setEv_nc]
    exact hn

theorem raising_nil (l : Loop.St σ G Unit) : Loop.raising (Priority.sorted ([] : List ((Nat × Loop.Hook σ G Unit) × Int))) [] l = none := by
  rfl

theorem callbacks_nil (sys : Sys σ G) {l : Loop.St σ G Unit} (h : l.hooks = []) :
    Loop.callbacks sys.toLoop l = (false, Loop.note .sample l) := by
  unfold Loop.callbacks
  rw [h]
  show (false, Loop.note .sample { l with hooks := [], g := l.g }) = _
  rw [← h]

theorem turn_check (sys : Sys σ G) {l : Loop.St σ G Unit} (hk : l.clock = .check) (h : l.hooks = []) :
    Loop.runClock sys.toLoop l =
      if (Loop.hasUnwait l || l.flag) = true then Loop.clockYield l
      else if l.testDone = true then
        Loop.push .clock { Loop.cancelAll (Loop.note .sample l) with clock := .afterCancel }
      else Loop.doStep sys.toLoop (Loop.note .sample l) := by
  unfold Loop.runClock Loop.clockTurn
  simp only [hk]
  by_cases hu : (Loop.hasUnwait l || l.flag) = true
  · rw [if_pos hu, if_pos hu]
  · rw [if_neg hu, if_neg hu]
    have hr : Loop.raising (Priority.sorted l.hooks) [] l = none := by rw [h]; rfl
    simp only [hr, callbacks_nil sys h]
    rw [if_neg (by decide)]
    by_cases ht : l.testDone = true
    · rw [if_pos ht, if_pos (show (Loop.note .sample l).testDone = true from ht)]
    · rw [if_neg ht, if_neg (show ¬ (Loop.note .sample l).testDone = true from ht)]

theorem filter_toLoop (b : List Handle) (hc : Handle.clock 0 ∉ b)
    (h0 : ∀ c, Handle.clock c ∈ b → c = 0) :
    (b.map Handle.toLoop).filter (fun h => match h with | .task t => t == 0 | _ => true) =
      (b.filter fun h => match h with | .task t => t == 0 | .clock _ => false | .stop => true).map
        Handle.toLoop := by
  induction b with
  | nil => rfl
  | cons x b ih =>
    have ih := ih (fun h => hc (List.mem_cons_of_mem _ h)) fun c h => h0 c (List.mem_cons_of_mem _ h)
    cases x with
    | task t =>
      simp only [List.map_cons, Handle.toLoop, List.filter_cons]
      split
      · rw [ih]; rfl
      · exact ih
    | clock c =>
      have := h0 c (by simp)
      subst this
      exact absurd (by simp) hc
    | stop =>
      simp only [List.map_cons, Handle.toLoop, List.filter_cons]
      rw [ih]
      rfl

theorem Same.runClock (sys : Sys σ G) {s : St σ G} {l : Loop.St σ G Unit} (h : Same s l) (hp : Plain s l)
    (hn : s.nc ≠ 0) (hb : Handle.clock 0 ∉ s.batch ++ s.ready)
    (hb0 : ∀ c, Handle.clock c ∈ s.batch ++ s.ready → c = 0) :
    Same (runClock sys 0 s) (Loop.runClock sys.toLoop l) ∧
      Plain (runClock sys 0 s) (Loop.runClock sys.toLoop l) := by
  have hcl : l.clock = (s.clk 0).toLoop := h.clock
  cases hk : s.clk 0 with
  | off =>
    rw [hk] at hcl
    rw [show Clocks.runClock sys 0 s = s by unfold Clocks.runClock; simp only [hk],
      show Loop.runClock sys.toLoop l = l by unfold Loop.runClock Loop.clockTurn; simp only [hcl, Pc.toLoop]]
    exact ⟨h, hp⟩
  | dead =>
    rw [hk] at hcl
    rw [show Clocks.runClock sys 0 s = s by unfold Clocks.runClock; simp only [hk],
      show Loop.runClock sys.toLoop l = l by unfold Loop.runClock Loop.clockTurn; simp only [hcl, Pc.toLoop]]
    exact ⟨h, hp⟩
  | begin =>
    rw [hk] at hcl
    rw [show Clocks.runClock sys 0 s = Clocks.clockYield 0 s by unfold Clocks.runClock; simp only [hk],
      show Loop.runClock sys.toLoop l = Loop.clockYield l by
        unfold Loop.runClock Loop.clockTurn; simp only [hcl, Pc.toLoop]]
    exact ⟨h.clockYield, hp.clockYield hn⟩
  | afterCancel =>
    rw [hk] at hcl
    rw [show Clocks.runClock sys 0 s = Clocks.doStep sys 0 s by unfold Clocks.runClock; simp only [hk],
      show Loop.runClock sys.toLoop l = Loop.doStep sys.toLoop l by
        unfold Loop.runClock Loop.clockTurn; simp only [hcl, Pc.toLoop]]
    exact h.doStep sys hp hn
  | check =>
    rw [hk] at hcl
    rw [runClock_check sys hk, turn_check sys hcl hp.hooks]
    by_cases hu : (Clocks.hasUnwait s || s.flag) = true
    · rw [if_pos hu, if_pos (by rw [h.hasUnwait, h.flag]; exact hu)]
      exact ⟨h.clockYield, hp.clockYield hn⟩
    · rw [if_neg hu, if_neg (c := (Loop.hasUnwait l || l.flag) = true) (by rw [h.hasUnwait, h.flag]; exact hu)]
      have h1 : Same s (Loop.note .sample l) := { h with }
      have hp1 : Plain s (Loop.note .sample l) := { hp with }
      by_cases ht : s.testDone = true
      · rw [if_pos ht, if_pos (c := l.testDone = true) (by rw [h.testDone]; exact ht)]
        constructor
        · refine { h1 with st := ?_, batch := ?_, ready := ?_, waiters := ?_, clock := ?_ }
          · intro t
            have ht := h.st t
            simp only [push, cancelAll, Loop.push, Loop.cancelAll, Loop.note]
            split
            · exact ht
            · split
              · exact .done _
              · exact .done _
          · show l.batch.filter _ = _
            rw [h.batch]
            exact filter_toLoop s.batch (fun hx => hb (List.mem_append_left _ hx))
              fun c hx => hb0 c (List.mem_append_left _ hx)
          · show l.ready.filter _ ++ [Loop.Handle.clock] = ((s.ready.filter _) ++ [Handle.clock 0]).map Handle.toLoop
            rw [h.ready, List.map_append]
            exact congrArg (· ++ [Loop.Handle.clock])
              (filter_toLoop s.ready (fun hx => hb (List.mem_append_right _ hx))
                fun c hx => hb0 c (List.mem_append_right _ hx))
          · show (fun e => (l.waiters e).filter (· == 0)) = _
            rw [h.waiters]
            rfl
          · show Loop.Pc.afterCancel = (upd (cancelAll 0 s).clk 0 Pc.afterCancel 0).toLoop
            rw [upd_self]; rfl
        · have hoff : upd (cancelAll 0 s).clk 0 Pc.afterCancel 0 ≠ .off := by rw [upd_self]; exact Pc.noConfusion
          refine ⟨?_, hp.hooks, hp.aborted, hp.dut, hp.glob, fun hx => absurd hx hn, fun hx => absurd hx hoff⟩
          intro t
          show (l.joiners t).filter (· == 0) = []
          rw [hp.joiners t]
          rfl
      · rw [if_neg ht, if_neg (c := l.testDone = true) (by rw [h.testDone]; exact ht)]
        exact h1.doStep sys hp1 hn

theorem Same.step (sys : Sys σ G) {s : St σ G} {l : Loop.St σ G Unit} (h : Same s l) (hp : Plain s l)
    (hi : Inv s) (h1 : s.nc ≤ 1) (h1' : (step sys s).nc ≤ 1)
    (hd : ∀ κ g d k, sys.prog κ g = .startClock d k → d = 0) :
    Same (step sys s) (Loop.step sys.toLoop [] l) ∧ Plain (step sys s) (Loop.step sys.toLoop [] l) := by
  cases hc : s.cur with
  | some x =>
    obtain ⟨t, k⟩ := x
    have hx : Clocks.step sys s = Clocks.exec t (sys.prog k s.g) s := by
      unfold Clocks.step; simp only [hc]
    have hcl : l.cur = some (t, k) := by rw [h.cur, hc]
    have hy : Loop.step sys.toLoop [] l = Loop.exec t (sys.prog k s.g).toLoop l := by
      unfold Loop.step; simp only [hcl, ← h.g]; rfl
    rw [hx] at h1'
    rw [hx, hy]
    exact h.exec hp t _ h1' (fun d k' he => hd _ _ _ _ he)
  | none =>
    have hcl : l.cur = none := by rw [h.cur, hc]
    cases hb : s.batch with
    | nil =>
      have hbl : l.batch = [] := by rw [h.batch, hb]; rfl
      have hx : Clocks.step sys s = if s.stopping = true then s else { s with batch := s.ready, ready := [] } := by
        unfold Clocks.step; simp only [hc, hb]
      have hy : Loop.step sys.toLoop [] l =
          if l.stopping = true then l else { l with batch := l.ready ++ [], ready := [] } := by
        unfold Loop.step; simp only [hcl, hbl]; rfl
      rw [hx, hy]
      by_cases hst : s.stopping = true
      · rw [if_pos hst, if_pos (by rw [h.stopping]; exact hst)]
        exact ⟨h, hp⟩
      · rw [if_neg hst, if_neg (by rw [h.stopping]; exact hst)]
        refine ⟨{ h with batch := ?_, ready := rfl }, { hp with }⟩
        show l.ready ++ [] = _
        rw [h.ready, List.append_nil]
    | cons x rest =>
      have hbl : l.batch = x.toLoop :: rest.map Handle.toLoop := by rw [h.batch, hb]; rfl
      have hx : Clocks.step sys s = runHandle sys x { s with batch := rest } := by
        unfold Clocks.step; simp only [hc, hb]
      have hy : Loop.step sys.toLoop [] l =
          Loop.runHandle sys.toLoop x.toLoop { l with batch := rest.map Handle.toLoop } := by
        unfold Loop.step; simp only [hcl, hbl]
      rw [hx, hy]
      have hs : Same { s with batch := rest } { l with batch := rest.map Handle.toLoop } :=
        { h with batch := rfl }
      have hpp : Plain { s with batch := rest } { l with batch := rest.map Handle.toLoop } := { hp with }
      cases x with
      | task t => exact hs.resume hpp t
      | stop => exact ⟨{ hs with stopping := rfl }, { hpp with }⟩
      | clock c =>
        have hcl : ∀ c, Handle.clock c ∈ s.batch ++ s.ready → c = 0 ∧ s.nc ≠ 0 := by
          intro c hm
          have h2 := hi.count c
          have h3 : 0 < (s.batch ++ s.ready).count (Handle.clock c) := List.count_pos_iff.2 hm
          have h4 : (s.clk c).active = true := by
            cases ha : (s.clk c).active with
            | true => rfl
            | false => rw [ha, if_neg (by decide)] at h2; omega
          have h5 : ¬ s.nc ≤ c := by
            intro hle
            rw [hi.coff c hle] at h4
            cases h4
          omega
        obtain ⟨hc0, hn⟩ := hcl c (by rw [hb]; simp)
        subst hc0
        refine hs.runClock sys hpp hn ?_ ?_
        · intro hm
          have h2 := hi.count 0
          rw [hb] at h2
          have h3 : 0 < (rest ++ s.ready).count (Handle.clock 0) := List.count_pos_iff.2 hm
          have h4 : (Handle.clock 0 :: rest ++ s.ready).count (Handle.clock 0) =
            (rest ++ s.ready).count (Handle.clock 0) + 1 := by simp
          rw [h4] at h2
          split at h2 <;> omega
        · intro c hm
          refine (hcl c ?_).1
          rw [hb]
          exact List.mem_cons_of_mem _ hm

theorem finish_nc (t : Nat) (s : St σ G) : (finish t s).nc = s.nc := by
  unfold finish; simp only []; split <;> rfl

theorem exec_nc (t : Nat) (c : Cmd σ G) (s : St σ G) : s.nc ≤ (exec t c s).nc := by
  cases c <;> simp only [exec] <;> try exact Nat.le_refl _
  · split
    · split
      · rw [finish_nc]; exact Nat.le_refl _
      · split
        · rw [finish_nc]; exact Nat.le_refl _
        · exact Nat.le_refl _
    · rw [finish_nc]; exact Nat.le_refl _
  · split <;> exact Nat.le_refl _
  · rw [setEv_nc]; exact Nat.le_refl _
  · exact Nat.le_succ _

theorem doStep_nc (sys : Sys σ G) (c : Nat) (s : St σ G) : (doStep sys c s).nc = s.nc := by
  show (setEv (s.dut c) _).nc = _
  rw [setEv_nc]

theorem step_nc (sys : Sys σ G) (s : St σ G) : s.nc ≤ (step sys s).nc := by
  unfold step
  split
  · exact exec_nc _ _ _
  · split
    · rename_i x rest _
      cases x with
      | task t =>
        show s.nc ≤ (resume t _).nc
        unfold resume
        split
        · exact Nat.le_refl _
        · exact Nat.le_refl _
        · rw [finish_nc]; exact Nat.le_refl _
        · exact Nat.le_refl _
      | stop => exact Nat.le_refl _
      | clock c =>
        show s.nc ≤ (runClock sys c _).nc
        unfold runClock
        split
        · exact Nat.le_refl _
        · split
          · exact Nat.le_refl _
          · split
            · exact Nat.le_refl _
            · rw [doStep_nc]; exact Nat.le_refl _
        · rw [doStep_nc]; exact Nat.le_refl _
        · exact Nat.le_refl _
        · exact Nat.le_refl _
    · split <;> exact Nat.le_refl _

/-- The state of the other loop after `m` micro steps without timers. -/
def loopRun {σ G V : Type} (sys : Loop.Sys σ G V) (s : Loop.St σ G V) : Nat → Loop.St σ G V
  | 0 => s
  | m + 1 => Loop.step sys [] (loopRun sys s m)

theorem loopRun_reach {σ G V : Type} (sys : Loop.Sys σ G V) (g : G) (k : σ) (m : Nat) :
    Loop.Reach sys g k (loopRun sys (Loop.init g k) m) := by
  induction m with
  | zero => exact .init
  | succ m ih => exact .step [] ih

theorem same_run (sys : Sys σ G) (g : G) (k : σ)
    (hd : ∀ κ g d k, sys.prog κ g = .startClock d k → d = 0) (m : Nat)
    (h1 : (run sys (init g k) m).nc ≤ 1) :
    Same (run sys (init g k) m) (loopRun sys.toLoop (Loop.init g k) m) ∧
      Plain (run sys (init g k) m) (loopRun sys.toLoop (Loop.init g k) m) := by
  induction m with
  | zero => exact ⟨.init g k, .init g k⟩
  | succ m ih =>
    have h0 := Nat.le_trans (step_nc sys (run sys (init g k) m)) h1
    obtain ⟨h, hp⟩ := ih h0
    exact h.step sys hp ((inv_init g k).run sys m) h0 h1 hd

/-- **C114.** As long as only one clock was started (of DUT 0), the loop with several clocks does, micro step
by micro step, what the event loop of C13 to C18 and C84 to C89 does: the two are in the same state, with the
same tasks, events, handles and shared state, and after the same number of clock steps. -/
theorem C114_one_clock (sys : Sys σ G) (g : G) (k : σ)
    (hd : ∀ κ g d k, sys.prog κ g = .startClock d k → d = 0) (m : Nat)
    (h1 : (run sys (init g k) m).nc ≤ 1) :
    Same (run sys (init g k) m) (loopRun sys.toLoop (Loop.init g k) m) ∧
      Loop.Reach sys.toLoop g k (loopRun sys.toLoop (Loop.init g k) m) :=
  ⟨(same_run sys g k hd m h1).1, loopRun_reach _ _ _ _⟩

theorem nc_mono (sys : Sys σ G) (s : St σ G) (m j : Nat) : (run sys s m).nc ≤ (run sys s (m + j)).nc := by
  induction j with
  | zero => exact Nat.le_refl _
  | succ j ih => exact Nat.le_trans ih (step_nc sys (run sys s (m + j)))

/-- **C114.** With one clock, whose event only the clock sets: a run that ends has stepped the DUT exactly
twice after the test returned (C17, carried over). -/
theorem C114_one_clock_end (sys : Sys σ G) (g : G) (k : σ)
    (hd : ∀ κ g d k, sys.prog κ g = .startClock d k → d = 0)
    (hp : ∀ κ g k', sys.prog κ g ≠ .setEv 0 k') (m j : Nat) (κ : σ)
    (hc : (run sys (init g k) m).cur = some (0, κ)) (hr : sys.prog κ (run sys (init g k) m).g = .ret)
    (hn : (run sys (init g k) m).nc ≠ 0) (h1 : (run sys (init g k) (m + 1 + j)).nc ≤ 1)
    (hh : halted (run sys (init g k) (m + 1 + j))) :
    (run sys (init g k) (m + 1 + j)).steps 0 = (run sys (init g k) m).steps 0 + 2 := by
  have h0 : (run sys (init g k) m).nc ≤ 1 :=
    Nat.le_trans (by rw [Nat.add_assoc]; exact nc_mono sys _ m (1 + j)) h1
  obtain ⟨s0, p0⟩ := same_run sys g k hd m h0
  obtain ⟨s1, p1⟩ := same_run sys g k hd _ h1
  have hpath : ∀ j, Props.LoopEnd.Path sys.toLoop (Loop.step sys.toLoop [] (loopRun sys.toLoop (Loop.init g k) m))
      (loopRun sys.toLoop (Loop.init g k) (m + 1 + j)) := by
    intro j
    induction j with
    | zero => exact .refl
    | succ j ih => exact .step [] ih
  have hpriv : Loop.ClockPrivate sys.toLoop := by
    intro κ g
    constructor
    · intro k' he
      have he : (sys.prog κ g).toLoop = .setEv 0 k' := he
      cases hx : sys.prog κ g with
      | setEv e k'' =>
        rw [hx] at he
        injection he with he1 he2
        subst he1
        exact hp κ g k'' hx
      | _ => rw [hx] at he; cases he
    · intro h p k' he
      have he : (sys.prog κ g).toLoop = .addHook h p k' := he
      cases hx : sys.prog κ g <;> rw [hx] at he <;> cases he
  have hclk : (loopRun sys.toLoop (Loop.init g k) m).clock ≠ .off := by
    rw [s0.clock]
    intro he
    cases hk : (run sys (init g k) m).clk 0 with
    | off => exact hn (p0.off.2 hk)
    | _ => rw [hk] at he; cases he
  have := (Props.LoopEnd.C17_second_step_violated sys.toLoop g k κ _ _ () hpriv (loopRun_reach _ g k m)
    (by rw [s0.cur]; exact hc) (by rw [s0.g]; show (sys.prog κ _).toLoop = _; rw [hr]; rfl) hclk [] (hpath j)
    p1.aborted ⟨by rw [s1.stopping]; exact hh.1, by rw [s1.cur]; exact hh.2.1,
      by rw [s1.batch, hh.2.2]; rfl⟩).2.1
  rw [s1.cycles, s0.cycles] at this
  exact this

theorem flagTest_zero (f : Nat → Nat → Nat) (κ g d k : Nat)
    (h : (⟨flagTest, f⟩ : Sys Nat Nat).prog κ g = .startClock d k) : d = 0 := by
  match κ with
  | 0 => injection h with h1 h2; exact h1.symm
  | 1 => cases h
  | 2 => cases h
  | 3 => cases h
  | _ + 4 => cases h

/-- A test with one clock, in both models. -/
example : Same (run ⟨flagTest, fun d g => 10 * g + d⟩ (init 1 0) 20)
    (loopRun (Sys.toLoop ⟨flagTest, fun d g => 10 * g + d⟩) (Loop.init 1 0) 20) :=
  (C114_one_clock ⟨flagTest, fun d g => 10 * g + d⟩ 1 0 (flagTest_zero _) 20 (by decide +kernel)).1

/-- It returns in micro step 12 after one step of the DUT, and the loop ends after three. -/
example : (run ⟨flagTest, fun d g => 10 * g + d⟩ (init 1 0) (12 + 1 + 9)).steps 0 =
    (run ⟨flagTest, fun d g => 10 * g + d⟩ (init 1 0) 12).steps 0 + 2 :=
  C114_one_clock_end ⟨flagTest, fun d g => 10 * g + d⟩ 1 0 (flagTest_zero _) (by
    intro κ g k' h
    match κ with
    | 0 => cases h
    | 1 => cases h
    | 2 => cases h
    | 3 => cases h
    | _ + 4 => cases h) 12 9 4 rfl rfl (by decide +kernel) (by decide +kernel)
    ⟨by decide +kernel, rfl, by decide +kernel⟩

end Toffee.Clocks
