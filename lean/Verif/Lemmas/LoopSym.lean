import Mathlib.Logic.Function.Iterate
import Verif.Model.Loop

/-! Symbolic execution of the event loop: what is known of a state (`P`), and how one micro step changes
it.  Timers are never due here (`step sys []`). -/

namespace Toffee.LoopSym

open Toffee.Loop

variable {σ G V : Type}

/-- What is known of the status of a task; `none`: it has ended. -/
def Mt : Option (Status σ V) → Status σ V → Prop
  | none, x => ∃ r, x = .done r
  | some y, x => x = y

def busy : Option (Status σ V) → Bool
  | some (.ready _) | some .running | some (.fin _) => true
  | _ => false

structure P (σ G V : Type) where
  cur : Option (Nat × σ) := none
  batch : List Handle := []
  ready : List Handle := []
  n : Nat
  lv : Nat → Option (Status σ V)
  flag : Bool := false
  hooks : List (Hook σ G V × Int) := []
  clock : Pc := .check
  testDone : Bool := false
  g : G
  cycles : Nat
  ev : Nat → Bool
  waiters : Nat → List Nat
  joiners : Nat → List Nat
  stopping : Bool := false
  aborted : Bool := false

structure S (p : P σ G V) (s : St σ G V) : Prop where
  cur : s.cur = p.cur
  batch : s.batch = p.batch
  ready : s.ready = p.ready
  n : s.n = p.n
  st : ∀ t, Mt (p.lv t) (s.st t)
  flag : s.flag = p.flag
  hooks : s.hooks.map (fun h => (h.1.2, h.2)) = p.hooks
  clock : s.clock = p.clock
  testDone : s.testDone = p.testDone
  g : s.g = p.g
  cycles : s.cycles = p.cycles
  ev : s.ev = p.ev
  waiters : s.waiters = p.waiters
  joiners : s.joiners = p.joiners
  stopping : s.stopping = p.stopping
  aborted : s.aborted = p.aborted

theorem mt_upd {lv : Nat → Option (Status σ V)} {st : Nat → Status σ V} (h : ∀ t, Mt (lv t) (st t))
    (k : Nat) (y : Status σ V) (t : Nat) : Mt (upd lv k (some y) t) (upd st k y t) := by
  unfold upd
  by_cases e : t = k
  · simp [e, Mt]
  · simpa [e] using h t

theorem mt_done {lv : Nat → Option (Status σ V)} {st : Nat → Status σ V} (h : ∀ t, Mt (lv t) (st t))
    (k : Nat) (r : Option V) (t : Nat) : Mt (upd lv k none t) (upd st k (.done r) t) := by
  unfold upd
  by_cases e : t = k
  · simp [e, Mt]
  · simpa [e] using h t

theorem mt_wake {lv : Nat → Option (Status σ V)} {st : Nat → Status σ V} (h : ∀ t, Mt (lv t) (st t))
    (ts : List Nat) (t : Nat) :
    Mt (if t ∈ ts then (lv t).map Status.finish else lv t)
      (if t ∈ ts then (st t).finish else st t) := by
  by_cases e : t ∈ ts
  · simp only [e, if_true]
    have := h t
    cases hl : lv t with
    | none =>
      rw [hl] at this
      obtain ⟨r, hr⟩ := this
      exact ⟨r, by rw [hr]; rfl⟩
    | some y =>
      rw [hl] at this
      show (st t).finish = y.finish
      rw [show st t = y from this]
  · simpa [e] using h t

/-- A task that has ended may be forgotten. -/
theorem S.forget {p : P σ G V} {s : St σ G V} (h : S p s) (k : Nat) (r : Option V)
    (hk : p.lv k = some (.done r)) : S { p with lv := upd p.lv k none } s := by
  refine { h with st := fun t => ?_ }
  show Mt (upd p.lv k none t) (s.st t)
  unfold upd
  by_cases e : t = k
  · subst e
    have := h.st t
    rw [hk] at this
    simp only [if_true]
    exact ⟨r, this⟩
  · simpa [e] using h.st t

theorem hasUnwait_eq {p : P σ G V} {s : St σ G V} (h : S p s) :
    hasUnwait s = (List.range p.n).any fun t => busy (p.lv t) := by
  unfold hasUnwait
  rw [h.n]
  congr 1
  funext t
  have := h.st t
  cases hl : p.lv t with
  | none =>
    rw [hl] at this
    obtain ⟨r, hr⟩ := this
    rw [hr]; rfl
  | some y =>
    rw [hl] at this
    rw [show s.st t = y from this]
    cases y <;> rfl

variable {sys : Sys σ G V} {p : P σ G V} {s : St σ G V}

/-! ### The loop -/

theorem newBatch (h : S p s) (hc : p.cur = none) (hb : p.batch = []) (hs : p.stopping = false) :
    S { p with batch := p.ready, ready := [] } (step sys [] s) := by
  have h1 : step sys [] s = { s with batch := s.ready ++ [], ready := [] } := by
    unfold step
    rw [h.cur, hc, h.batch, hb, h.stopping, hs]
    rfl
  rw [h1]
  exact { h with batch := by show s.ready ++ [] = _; rw [List.append_nil, h.ready], ready := rfl }

theorem stepTask (h : S p s) (hc : p.cur = none) {t : Nat} {rest : List Handle}
    (hb : p.batch = .task t :: rest) : step sys [] s = resume t { s with batch := rest } := by
  unfold step
  rw [h.cur, hc, h.batch, hb]
  rfl

theorem runReady (h : S p s) (hc : p.cur = none) {t : Nat} {rest : List Handle} {k : σ}
    (hb : p.batch = .task t :: rest) (ht : p.lv t = some (.ready k)) :
    S { p with batch := rest, cur := some (t, k), lv := upd p.lv t (some .running) }
      (step sys [] s) := by
  have hst : s.st t = .ready k := by have := h.st t; rw [ht] at this; exact this
  rw [stepTask h hc hb]
  have : resume t { s with batch := rest } =
      { s with batch := rest, st := upd s.st t .running, cur := some (t, k) } := by
    unfold resume
    simp only [hst]
  rw [this]
  exact { h with batch := rfl, cur := rfl, st := mt_upd h.st t _ }

theorem runEv (h : S p s) (hc : p.cur = none) {t e : Nat} {rest : List Handle} {k : σ}
    (hb : p.batch = .task t :: rest) (ht : p.lv t = some (.fin (.ev e k))) :
    S { p with batch := rest, cur := some (t, k), lv := upd p.lv t (some .running) }
      (step sys [] s) := by
  have hst : s.st t = .fin (.ev e k) := by have := h.st t; rw [ht] at this; exact this
  rw [stepTask h hc hb]
  unfold resume
  simp only [hst]
  by_cases he : e = 0
  · simp only [he, if_true, note]
    exact { h with batch := rfl, cur := rfl, st := mt_upd h.st t _ }
  · simp only [he, if_false]
    exact { h with batch := rfl, cur := rfl, st := mt_upd h.st t _ }

theorem runJoin (h : S p s) (hc : p.cur = none) {t u : Nat} {rest : List Handle} {k : V → σ} {kx : σ}
    {v : V} (hb : p.batch = .task t :: rest) (ht : p.lv t = some (.fin (.join u k kx)))
    (hu : p.lv u = some (.done (some v))) :
    S { p with batch := rest, cur := some (t, k v), lv := upd p.lv t (some .running) }
      (step sys [] s) := by
  have hst : s.st t = .fin (.join u k kx) := by have := h.st t; rw [ht] at this; exact this
  have hsu : s.st u = .done (some v) := by have := h.st u; rw [hu] at this; exact this
  rw [stepTask h hc hb]
  unfold resume
  simp only [hst, hsu]
  exact { h with batch := rfl, cur := rfl, st := mt_upd h.st t _ }

/-! ### The clock -/

theorem stepClock (h : S p s) (hc : p.cur = none) {rest : List Handle}
    (hb : p.batch = .clock :: rest) : step sys [] s = runClock sys { s with batch := rest } := by
  unfold step
  rw [h.cur, hc, h.batch, hb]
  rfl

theorem S.drop (h : S p s) (rest : List Handle) :
    S { p with batch := rest } { s with batch := rest } := { h with batch := rfl }

theorem clockBegin (h : S p s) (hc : p.cur = none) {rest : List Handle}
    (hb : p.batch = .clock :: rest) (hk : p.clock = .begin) :
    S { p with batch := rest, ready := p.ready ++ [.clock], flag := false, clock := .check }
      (step sys [] s) := by
  rw [stepClock h hc hb]
  have hk' : s.clock = .begin := by rw [h.clock, hk]
  simp only [runClock, clockTurn, hk', clockYield, push]
  exact { h with batch := rfl, ready := by show s.ready ++ _ = _; rw [h.ready], flag := rfl, clock := rfl }

theorem runBusy (h : S p s) (hk : p.clock = .check) (t : Nat) (htn : t < p.n)
    (ht : busy (p.lv t) = true) :
    S { p with ready := p.ready ++ [.clock], flag := false, clock := .check } (runClock sys s) := by
  have hk' : s.clock = .check := by rw [h.clock, hk]
  have hu : hasUnwait s = true := by
    rw [hasUnwait_eq h]
    exact List.any_eq_true.mpr ⟨t, List.mem_range.mpr htn, ht⟩
  simp only [runClock, clockTurn, hk', hu, Bool.true_or, if_true, clockYield, push]
  exact { h with ready := by show s.ready ++ _ = _; rw [h.ready], flag := rfl, clock := rfl }

theorem clockBusy (h : S p s) (hc : p.cur = none) {rest : List Handle}
    (hb : p.batch = .clock :: rest) (hk : p.clock = .check) (t : Nat) (htn : t < p.n)
    (ht : busy (p.lv t) = true) :
    S { p with batch := rest, ready := p.ready ++ [.clock], flag := false, clock := .check }
      (step sys [] s) := by
  rw [stepClock h hc hb]
  exact runBusy (h.drop rest) hk t htn ht

theorem quiet (h : S p s) (hq : ∀ t, busy (p.lv t) = false) : hasUnwait s = false := by
  rw [hasUnwait_eq h]
  exact List.any_eq_false.mpr fun t _ => by simp [hq t]

theorem hooks_nil (h : S p s) (hh : p.hooks = []) : s.hooks = [] := by
  have := h.hooks
  rw [hh] at this
  exact List.map_eq_nil_iff.mp this

theorem runStep (h : S p s) (hk : p.clock = .check) (hq : ∀ t, busy (p.lv t) = false)
    (hf : p.flag = false) (hh : p.hooks = []) (htd : p.testDone = false) (hev : p.ev 0 = false)
    (hsam : sys.sample = id) :
    S { p with
        g := sys.dutStep p.g
        cycles := p.cycles + 1
        lv := fun t => if t ∈ p.waiters 0 then (p.lv t).map Status.finish else p.lv t
        ready := p.ready ++ (p.waiters 0).map .task ++ [.clock]
        waiters := upd p.waiters 0 []
        flag := false
        clock := .check }
      (runClock sys s) := by
  have hk' : s.clock = .check := by rw [h.clock, hk]
  have hu : hasUnwait s = false := quiet h hq
  have hf' : s.flag = false := by rw [h.flag, hf]
  have hh' : s.hooks = [] := hooks_nil h hh
  have htd' : s.testDone = false := by rw [h.testDone, htd]
  have hev' : s.ev 0 = false := by rw [h.ev, hev]
  have hev2 : upd (upd s.ev 0 true) 0 false = s.ev := by
    funext e; unfold upd; by_cases h0 : e = 0 <;> simp [h0, hev']
  simp only [runClock, clockTurn, hk', hu, hf', Bool.or_false, Bool.false_eq_true, if_false, hh',
    Priority.sorted, raising, callbacks, List.foldl_nil, List.any_nil, note, htd',
    doStep, setEv, hev', clockYield, push, wake, hsam, id, hev2]
  exact { h with
    g := by show sys.dutStep s.g = _; rw [h.g]
    cycles := by show s.cycles + 1 = _; rw [h.cycles]
    ready := by show s.ready ++ _ ++ _ = _; rw [h.ready, h.waiters]
    waiters := by show upd s.waiters 0 [] = _; rw [h.waiters]
    st := by rw [← h.waiters]; exact mt_wake h.st _
    flag := rfl
    clock := rfl
    hooks := by simp [hh]
    testDone := by rw [htd] }

/-- The clock steps the DUT. -/
theorem clockStep (h : S p s) (hc : p.cur = none) {rest : List Handle}
    (hb : p.batch = .clock :: rest) (hk : p.clock = .check) (hq : ∀ t, busy (p.lv t) = false)
    (hf : p.flag = false) (hh : p.hooks = []) (htd : p.testDone = false) (hev : p.ev 0 = false)
    (hsam : sys.sample = id) :
    S { p with
        batch := rest
        g := sys.dutStep p.g
        cycles := p.cycles + 1
        lv := fun t => if t ∈ p.waiters 0 then (p.lv t).map Status.finish else p.lv t
        ready := p.ready ++ (p.waiters 0).map .task ++ [.clock]
        waiters := upd p.waiters 0 []
        flag := false
        clock := .check }
      (step sys [] s) := by
  rw [stepClock h hc hb]
  exact runStep (h.drop rest) hk hq hf hh htd hev hsam

/-- The clock runs the one hook that was requested, which sets its event. -/
theorem runHook1 (h : S p s) (hk : p.clock = .check) (hq : ∀ t, busy (p.lv t) = false)
    (hf : p.flag = false) {H : Hook σ G V} {pr : Int} (hh : p.hooks = [(H, pr)]) {e : Nat} {g : G}
    (hd : H.done = some e) (hfails : ∀ g, H.fails g = false) (hrun : H.run p.g = (g, []))
    (hev : p.ev e = false) (hsam : sys.sample = id) :
    S { p with
        g := g
        hooks := []
        lv := fun t => if t ∈ p.waiters e then (p.lv t).map Status.finish else p.lv t
        ready := p.ready ++ (p.waiters e).map .task ++ [.clock]
        waiters := upd p.waiters e []
        ev := upd p.ev e true
        flag := false
        clock := .check }
      (runClock sys s) := by
  have hk' : s.clock = .check := by rw [h.clock, hk]
  have hu : hasUnwait s = false := quiet h hq
  have hf' : s.flag = false := by rw [h.flag, hf]
  have hev' : s.ev e = false := by rw [h.ev, hev]
  obtain ⟨i, hh'⟩ : ∃ i, s.hooks = [((i, H), pr)] := by
    have := h.hooks
    rw [hh] at this
    cases hs : s.hooks with
    | nil => rw [hs] at this; cases this
    | cons a l =>
      rw [hs] at this
      cases l with
      | cons b l => simp at this
      | nil =>
        obtain ⟨⟨i, H'⟩, pr'⟩ := a
        simp at this
        exact ⟨i, by rw [this.1, this.2]⟩
  have hrun' : H.run s.g = (g, []) := by rw [h.g]; exact hrun
  simp only [runClock, clockTurn, hk', hu, hf', Bool.or_false, Bool.false_eq_true, if_false, hh',
    Priority.sorted, Priority.insertStable, raising, callbacks, List.foldl_nil, List.foldl_cons,
    List.any_cons, List.any_nil, note, hfails, runHook, hd, hrun', Option.isSome, if_true,
    setEv, hev', clockYield, push, wake, hsam, id]
  exact { h with
    g := rfl
    ready := by show s.ready ++ _ ++ _ = _; rw [h.ready, h.waiters]
    waiters := by show upd s.waiters e [] = _; rw [h.waiters]
    ev := by show upd s.ev e true = _; rw [h.ev]
    st := by rw [← h.waiters]; exact mt_wake h.st _
    flag := rfl
    clock := rfl
    hooks := rfl }

theorem clockHook (h : S p s) (hc : p.cur = none) {rest : List Handle}
    (hb : p.batch = .clock :: rest) (hk : p.clock = .check) (hq : ∀ t, busy (p.lv t) = false)
    (hf : p.flag = false) {H : Hook σ G V} {pr : Int} (hh : p.hooks = [(H, pr)]) {e : Nat} {g : G}
    (hd : H.done = some e) (hfails : ∀ g, H.fails g = false) (hrun : H.run p.g = (g, []))
    (hev : p.ev e = false) (hsam : sys.sample = id) :
    S { p with
        batch := rest
        g := g
        hooks := []
        lv := fun t => if t ∈ p.waiters e then (p.lv t).map Status.finish else p.lv t
        ready := p.ready ++ (p.waiters e).map .task ++ [.clock]
        waiters := upd p.waiters e []
        ev := upd p.ev e true
        flag := false
        clock := .check }
      (step sys [] s) := by
  rw [stepClock h hc hb]
  exact runHook1 (h.drop rest) hk hq hf hh hd hfails hrun hev hsam

/-! ### Primitives of tasks -/

theorem stepCur (h : S p s) {t : Nat} {k : σ} {c : Cmd σ G V} (hc : p.cur = some (t, k))
    (hp : sys.prog k p.g = c) : step sys [] s = exec t c s := by
  unfold step
  rw [h.cur, hc]
  show exec t (sys.prog k s.g) s = _
  rw [h.g, hp]

theorem exComp (h : S p s) {t : Nat} {k k' : σ} {g : G} (hc : p.cur = some (t, k))
    (hp : sys.prog k p.g = .comp g k') :
    S { p with g := g, cur := some (t, k') } (step sys [] s) := by
  rw [stepCur h hc hp]
  exact { h with g := rfl, cur := rfl }

theorem exTaskRun (h : S p s) {t : Nat} {k k' : σ} (hc : p.cur = some (t, k))
    (hp : sys.prog k p.g = .taskRun k') :
    S { p with flag := true, cur := some (t, k') } (step sys [] s) := by
  rw [stepCur h hc hp]
  exact { h with flag := rfl, cur := rfl }

theorem exHook (h : S p s) {t : Nat} {k k' : σ} {H : Hook σ G V} {pr : Int} (hc : p.cur = some (t, k))
    (hp : sys.prog k p.g = .addHook H pr k') :
    S { p with hooks := p.hooks ++ [(H, pr)], cur := some (t, k') } (step sys [] s) := by
  rw [stepCur h hc hp]
  refine { h with hooks := ?_, cur := rfl }
  show (s.hooks ++ [((s.nextHook, H), pr)]).map _ = _
  rw [List.map_append, h.hooks]
  rfl

theorem exSpawn (h : S p s) {t : Nat} {k k0 : σ} {k' : Nat → σ} (hc : p.cur = some (t, k))
    (hp : sys.prog k p.g = .spawn k0 k') :
    S { p with
        lv := upd p.lv p.n (some (.ready k0))
        n := p.n + 1
        ready := p.ready ++ [.task p.n]
        cur := some (t, k' p.n) } (step sys [] s) := by
  rw [stepCur h hc hp]
  simp only [exec, spawn, push]
  exact { h with
    st := by rw [← h.n]; exact mt_upd h.st _ _
    n := by show s.n + 1 = _; rw [h.n]
    ready := by show s.ready ++ _ = _; rw [h.ready, h.n]
    cur := by show some (t, k' s.n) = _; rw [h.n] }

theorem exWait (h : S p s) {t e : Nat} {k k' : σ} (hc : p.cur = some (t, k))
    (hp : sys.prog k p.g = .waitEv e k') (he : p.ev e = false) :
    S { p with
        lv := upd p.lv t (some (.pend (.ev e k')))
        waiters := upd p.waiters e (p.waiters e ++ [t])
        cur := none } (step sys [] s) := by
  rw [stepCur h hc hp]
  have he' : s.ev e = false := by rw [h.ev, he]
  simp only [exec, he', Bool.false_eq_true, if_false, block, note]
  split
  · exact { h with
      st := mt_upd h.st _ _
      waiters := by show upd s.waiters e (s.waiters e ++ [t]) = _; rw [h.waiters]
      cur := rfl }
  · exact { h with
      st := mt_upd h.st _ _
      waiters := by show upd s.waiters e (s.waiters e ++ [t]) = _; rw [h.waiters]
      cur := rfl }

theorem exJoin (h : S p s) {t u : Nat} {k kx : σ} {k' : V → σ} {k1 : σ} (hc : p.cur = some (t, k))
    (hp : sys.prog k p.g = .join u k' kx) (hu : p.lv u = some (.ready k1)) :
    S { p with
        lv := upd p.lv t (some (.pend (.join u k' kx)))
        joiners := upd p.joiners u (p.joiners u ++ [t])
        cur := none } (step sys [] s) := by
  rw [stepCur h hc hp]
  have hu' : s.st u = .ready k1 := by have := h.st u; rw [hu] at this; exact this
  simp only [exec, hu', block]
  exact { h with
    st := mt_upd h.st _ _
    joiners := by show upd s.joiners u (s.joiners u ++ [t]) = _; rw [h.joiners]
    cur := rfl }

/-- A task other than the main one returns. -/
theorem exRet (h : S p s) {t : Nat} {k : σ} {v : V} (hc : p.cur = some (t, k))
    (hp : sys.prog k p.g = .ret v) (ht : t ≠ 0) :
    S { p with
        lv := fun x => if x ∈ p.joiners t then (upd p.lv t (some (.done (some v))) x).map Status.finish
          else upd p.lv t (some (.done (some v))) x
        ready := p.ready ++ (p.joiners t).map .task
        joiners := upd p.joiners t []
        cur := none } (step sys [] s) := by
  rw [stepCur h hc hp]
  simp only [exec, ht, if_false, finish, wake]
  exact { h with
    st := by rw [← h.joiners]; exact mt_wake (mt_upd h.st _ _) _
    ready := by show s.ready ++ _ = _; rw [h.ready, h.joiners]
    joiners := by show upd s.joiners t [] = _; rw [h.joiners]
    cur := rfl }

/-- A task that nobody awaits and nobody refers to raises. -/
theorem exRaise (h : S p s) {t : Nat} {k : σ} (hc : p.cur = some (t, k))
    (hp : sys.prog k p.g = .raise false) (ht : t ≠ 0) (hj : p.joiners t = []) :
    S { p with lv := upd p.lv t none, stopping := true, aborted := true, cur := none }
      (step sys [] s) := by
  rw [stepCur h hc hp]
  have hj' : s.joiners t = [] := by rw [h.joiners, hj]
  have hj2 : upd s.joiners t [] = s.joiners := by
    funext x; unfold upd; by_cases e : x = t <;> simp [e, hj']
  simp only [exec, fail, ht, hj', finish, wake, if_false, List.not_mem_nil, List.map_nil,
    List.append_nil, hj2, Bool.false_eq_true, ne_eq, not_true_eq_false, or_self]
  exact { h with st := mt_done h.st _ _, stopping := rfl, aborted := rfl, cur := rfl }

/-- The test returns, with the clock running. -/
theorem exRetMain (h : S p s) {k : σ} {v : V} (hc : p.cur = some (0, k))
    (hp : sys.prog k p.g = .ret v) (hk : p.clock ≠ .off) (hev : p.ev 0 = false) :
    S { p with
        testDone := true
        lv := upd p.lv 0 (some (.pend (.final v)))
        waiters := upd p.waiters 0 (p.waiters 0 ++ [0])
        cur := none } (step sys [] s) := by
  rw [stepCur h hc hp]
  have hk' : s.clock ≠ .off := by rw [h.clock]; exact hk
  have hev' : s.ev 0 = false := by rw [h.ev]; exact hev
  simp only [exec, if_true, hk', hev', Bool.false_eq_true, or_self, if_false, note, block]
  exact { h with
    testDone := rfl
    st := mt_upd h.st _ _
    waiters := by show upd s.waiters 0 (s.waiters 0 ++ [0]) = _; rw [h.waiters]
    cur := rfl }

theorem exStart (h : S p s) {t : Nat} {k k' : σ} (hc : p.cur = some (t, k))
    (hp : sys.prog k p.g = .startClock k') (hk : p.clock = .off) :
    S { p with ready := p.ready ++ [.clock], clock := .begin, cur := some (t, k') }
      (step sys [] s) := by
  rw [stepCur h hc hp]
  have hk' : s.clock = .off := by rw [h.clock, hk]
  simp only [exec, hk', if_true, push]
  exact { h with ready := by show s.ready ++ _ = _; rw [h.ready], clock := rfl, cur := rfl }

/-! ### The end of the run -/

/-- The test is done: everything but the main task is cancelled. -/
theorem runCancel (h : S p s) (hk : p.clock = .check) (hq : ∀ t, busy (p.lv t) = false)
    (hf : p.flag = false) (hh : p.hooks = []) (htd : p.testDone = true) (hsam : sys.sample = id) :
    S { p with
        lv := fun t => if t = 0 then p.lv 0 else none
        batch := p.batch.filter fun h => match h with | .task t => t == 0 | _ => true
        ready := (p.ready.filter fun h => match h with | .task t => t == 0 | _ => true) ++ [.clock]
        waiters := fun e => (p.waiters e).filter (· == 0)
        joiners := fun u => (p.joiners u).filter (· == 0)
        clock := .afterCancel }
      (runClock sys s) := by
  have hk' : s.clock = .check := by rw [h.clock, hk]
  have hu : hasUnwait s = false := quiet h hq
  have hf' : s.flag = false := by rw [h.flag, hf]
  have hh' : s.hooks = [] := hooks_nil h hh
  have htd' : s.testDone = true := by rw [h.testDone, htd]
  simp only [runClock, clockTurn, hk', hu, hf', Bool.or_false, Bool.false_eq_true, if_false, hh',
    Priority.sorted, raising, callbacks, List.foldl_nil, List.any_nil, note, htd', if_true,
    push, cancelAll, hsam, id]
  exact { h with
    batch := by
      show List.filter _ s.batch = List.filter _ p.batch
      rw [h.batch]; congr 1
    ready := by
      show List.filter _ s.ready ++ _ = List.filter _ p.ready ++ _
      rw [h.ready]; congr 1
    waiters := by rw [← h.waiters]
    joiners := by rw [← h.joiners]
    clock := rfl
    hooks := by simp [hh]
    testDone := by rw [htd]
    flag := by rw [hf]
    st := by
      intro t
      by_cases e : t = 0
      · subst e; simpa using h.st 0
      · simp only [e, if_false]
        cases hst : s.st t with
        | done r => exact ⟨r, rfl⟩
        | _ => exact ⟨none, rfl⟩ }

theorem clockCancel (h : S p s) (hc : p.cur = none) {rest : List Handle}
    (hb : p.batch = .clock :: rest) (hk : p.clock = .check) (hq : ∀ t, busy (p.lv t) = false)
    (hf : p.flag = false) (hh : p.hooks = []) (htd : p.testDone = true) (hsam : sys.sample = id) :
    S { p with
        lv := fun t => if t = 0 then p.lv 0 else none
        batch := rest.filter fun h => match h with | .task t => t == 0 | _ => true
        ready := (p.ready.filter fun h => match h with | .task t => t == 0 | _ => true) ++ [.clock]
        waiters := fun e => (p.waiters e).filter (· == 0)
        joiners := fun u => (p.joiners u).filter (· == 0)
        clock := .afterCancel }
      (step sys [] s) := by
  rw [stepClock h hc hb]
  exact runCancel (h.drop rest) hk hq hf hh htd hsam

theorem runAfter (h : S p s) (hk : p.clock = .afterCancel) (hev : p.ev 0 = false) :
    S { p with
        g := sys.dutStep p.g
        cycles := p.cycles + 1
        lv := fun t => if t ∈ p.waiters 0 then (p.lv t).map Status.finish else p.lv t
        ready := p.ready ++ (p.waiters 0).map .task ++ [.clock]
        waiters := upd p.waiters 0 []
        flag := false
        clock := .check }
      (runClock sys s) := by
  have hk' : s.clock = .afterCancel := by rw [h.clock, hk]
  have hev' : s.ev 0 = false := by rw [h.ev, hev]
  have hev2 : upd (upd s.ev 0 true) 0 false = s.ev := by
    funext e; unfold upd; by_cases h0 : e = 0 <;> simp [h0, hev']
  simp only [runClock, clockTurn, hk', doStep, note, setEv, hev', Bool.false_eq_true, if_false,
    clockYield, push, wake, hev2]
  exact { h with
    g := by show sys.dutStep s.g = _; rw [h.g]
    cycles := by show s.cycles + 1 = _; rw [h.cycles]
    ready := by show s.ready ++ _ ++ _ = _; rw [h.ready, h.waiters]
    waiters := by show upd s.waiters 0 [] = _; rw [h.waiters]
    st := by rw [← h.waiters]; exact mt_wake h.st _
    flag := rfl
    clock := rfl }

theorem clockAfter (h : S p s) (hc : p.cur = none) {rest : List Handle}
    (hb : p.batch = .clock :: rest) (hk : p.clock = .afterCancel) (hev : p.ev 0 = false) :
    S { p with
        batch := rest
        g := sys.dutStep p.g
        cycles := p.cycles + 1
        lv := fun t => if t ∈ p.waiters 0 then (p.lv t).map Status.finish else p.lv t
        ready := p.ready ++ (p.waiters 0).map .task ++ [.clock]
        waiters := upd p.waiters 0 []
        flag := false
        clock := .check }
      (step sys [] s) := by
  rw [stepClock h hc hb]
  exact runAfter (h.drop rest) hk hev

/-- The main task ends. -/
theorem runFinal (h : S p s) (hc : p.cur = none) {rest : List Handle} {v : V}
    (hb : p.batch = .task 0 :: rest) (ht : p.lv 0 = some (.fin (.final v))) (hj : p.joiners 0 = []) :
    S { p with
        batch := rest
        lv := upd p.lv 0 (some (.done (some v)))
        ready := p.ready ++ [.stop] } (step sys [] s) := by
  have hst : s.st 0 = .fin (.final v) := by have := h.st 0; rw [ht] at this; exact this
  have hj' : s.joiners 0 = [] := by rw [h.joiners, hj]
  have hj2 : upd s.joiners 0 [] = s.joiners := by
    funext x; unfold upd; by_cases e : x = 0 <;> simp [e, hj']
  rw [stepTask h hc hb]
  unfold resume
  simp only [hst, note, finish, wake, if_true, push, hj', List.not_mem_nil, if_false, List.map_nil,
    List.append_nil, hj2]
  exact { h with
    batch := rfl
    st := mt_upd h.st _ _
    ready := by show s.ready ++ _ = _; rw [h.ready]
    cur := by rw [hc] }

theorem runStop (h : S p s) (hc : p.cur = none) {rest : List Handle} (hb : p.batch = .stop :: rest) :
    S { p with batch := rest, stopping := true } (step sys [] s) := by
  have : step sys [] s = { s with batch := rest, stopping := true } := by
    unfold step
    rw [h.cur, hc, h.batch, hb]
    rfl
  rw [this]
  exact { h with batch := rfl, stopping := rfl }

/-! ### Runs -/

/-- From any state of which `p` is known, a run without due timers gets to one of which `q` is known. -/
def To (sys : Sys σ G V) (p q : P σ G V) : Prop :=
  ∀ s, S p s → ∃ n, S q ((step sys [])^[n] s)

theorem To.refl : To sys p p := fun _ h => ⟨0, h⟩

theorem To.eq {q : P σ G V} (h : p = q) : To sys p q := h ▸ To.refl

theorem To.trans {q r : P σ G V} (h1 : To sys p q) (h2 : To sys q r) : To sys p r := by
  intro s h
  obtain ⟨n, hn⟩ := h1 s h
  obtain ⟨m, hm⟩ := h2 _ hn
  exact ⟨m + n, by rw [Function.iterate_add_apply]; exact hm⟩

theorem To.one {q r : P σ G V} (h1 : ∀ s, S p s → S q (step sys [] s)) (h2 : To sys q r) :
    To sys p r :=
  To.trans (fun s h => ⟨1, h1 s h⟩) h2

theorem To.forget {r : P σ G V} (k : Nat) (v : Option V) (hk : p.lv k = some (.done v))
    (h2 : To sys { p with lv := upd p.lv k none } r) : To sys p r :=
  To.trans (fun _ h => ⟨0, h.forget k v hk⟩) h2

end Toffee.LoopSym
