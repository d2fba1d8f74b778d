import Verif.Lemmas.LoopClock
import Verif.Lemmas.LoopRun
/-!
C16: clock waiters resume exactly once per step, in FIFO order.
-/

namespace Toffee.Props.LoopClock

open Toffee.Loop

variable {σ G V : Type}

/-! ### Specification -/

/-- What happened in clock cycle `i`, i.e. after `i` and before `i + 1` calls of `dut.Step(1)`. -/
def cyc : Nat → List Ev → List Ev
  | _, [] => []
  | 0, .step :: _ => []
  | i + 1, .step :: l => cyc i l
  | 0, e :: l => e :: cyc 0 l
  | i + 1, _ :: l => cyc (i + 1) l

/-- The tasks that start to wait for the clock, in order. -/
def waitsOf (l : List Ev) : List Nat :=
  l.filterMap fun e => match e with | .wait t => some t | _ => none

/-- The tasks that resume from waiting for the clock, in order. -/
def resumesOf (l : List Ev) : List Nat :=
  l.filterMap fun e => match e with | .resume t => some t | _ => none

/-- The tasks that wait for the clock at the end of a cycle: those that started to wait in it;
if the remaining tasks of a finished test were cancelled in this cycle, only `main_coro` (task 0)
still waits. -/
def waiting (l : List Ev) : List Nat :=
  if Ev.cancelAll ∈ l then (waitsOf l).filter (· == 0) else waitsOf l

/-- The tasks that have to resume in cycle `i`. -/
def due (log : List Ev) : Nat → List Nat
  | 0 => []
  | i + 1 => waiting (cyc i log)

/-! ### Cycles -/

theorem cyc_append (i : Nat) (l l' : List Ev) :
    cyc i (l ++ l') = if i < l.count .step then cyc i l
      else if i = l.count .step then cyc i l ++ cyc 0 l' else cyc (i - l.count .step) l' := by
  induction l generalizing i with
  | nil =>
    cases i with
    | zero => simp [cyc]
    | succ i => simp
  | cons e l ih =>
    by_cases he : e = .step
    · subst he
      rw [List.count_cons_self, List.cons_append]
      cases i with
      | zero => simp [cyc]
      | succ i =>
        simp only [cyc]
        rw [ih]
        simp only [Nat.add_lt_add_iff_right, Nat.add_right_cancel_iff, Nat.reduceSubDiff]
    · have hc : (e :: l).count .step = l.count .step := List.count_cons_of_ne he
      have h0 : ∀ l, cyc 0 (e :: l) = e :: cyc 0 l := by
        intro l
        cases e <;> simp [cyc] at he ⊢
      have h1 : ∀ i l, cyc (i + 1) (e :: l) = cyc (i + 1) l := by
        intro i l
        cases e <;> simp [cyc] at he ⊢
      rw [hc, List.cons_append]
      cases i with
      | zero =>
        rw [h0, h0, ih]
        by_cases h2 : 0 < l.count .step
        · rw [if_pos h2, if_pos h2]
        · rw [if_neg h2, if_neg h2]
          have : 0 = l.count .step := by omega
          rw [if_pos this, if_pos this, List.cons_append]
      | succ i =>
        rw [h1, h1, ih]

theorem cyc_big (l : List Ev) (i : Nat) (h : l.count .step < i) : cyc i l = [] := by
  have := cyc_append i l []
  rw [List.append_nil] at this
  rw [this, if_neg (by omega), if_neg (by omega)]
  cases i - l.count .step <;> rfl

theorem cyc_zero_of_no_step (l : List Ev) (h : Ev.step ∉ l) : cyc 0 l = l := by
  induction l with
  | nil => rfl
  | cons e l ih =>
    have he : e ≠ .step := fun h' => h (by simp [h'])
    have := ih (fun h' => h (by simp [h']))
    cases e <;> simp_all [cyc]

/-- Extending the trace within the current cycle. -/
theorem cyc_extend (i : Nat) (l l' : List Ev) (h : Ev.step ∉ l') :
    cyc i (l ++ l') = if i = l.count .step then cyc i l ++ l' else cyc i l := by
  rw [cyc_append, cyc_zero_of_no_step l' h]
  by_cases h1 : i < l.count .step
  · rw [if_pos h1, if_neg (by omega)]
  · rw [if_neg h1]
    by_cases h2 : i = l.count .step
    · rw [if_pos h2, if_pos h2]
    · rw [if_neg h2, if_neg h2, cyc_big l i (by omega), cyc_big]
      have : l'.count Ev.step = 0 := List.count_eq_zero.2 h
      omega

theorem cyc_step (i : Nat) (l : List Ev) : cyc i (l ++ [.step]) = cyc i l := by
  rw [cyc_append]
  by_cases h1 : i < l.count .step
  · rw [if_pos h1]
  · rw [if_neg h1]
    by_cases h2 : i = l.count .step
    · rw [if_pos h2]; simp [cyc]
    · rw [if_neg h2, cyc_big l i (by omega)]
      cases i - l.count .step with
      | zero => rfl
      | succ n => cases n <;> rfl

theorem due_extend (i : Nat) (l l' : List Ev) (h : Ev.step ∉ l') (hi : i ≤ l.count .step) :
    due (l ++ l') i = due l i := by
  cases i with
  | zero => rfl
  | succ i =>
    simp only [due]
    rw [cyc_extend i l l' h, if_neg (by omega)]

theorem due_step (i : Nat) (l : List Ev) : due (l ++ [.step]) i = due l i := by
  cases i with
  | zero => rfl
  | succ i => simp only [due, cyc_step]

theorem waitsOf_append (a b : List Ev) : waitsOf (a ++ b) = waitsOf a ++ waitsOf b :=
  List.filterMap_append

theorem resumesOf_append (a b : List Ev) : resumesOf (a ++ b) = resumesOf a ++ resumesOf b :=
  List.filterMap_append

theorem noClock {l : List Ev} (h : ∀ e ∈ l, clockEv e = false) :
    waitsOf l = [] ∧ resumesOf l = [] := by
  constructor
  · apply List.filterMap_eq_nil_iff.2
    intro e he
    have := h e he
    cases e <;> simp [clockEv] at this ⊢
  · apply List.filterMap_eq_nil_iff.2
    intro e he
    have := h e he
    cases e <;> simp [clockEv] at this ⊢

/-! ### Invariant -/

structure WInv (s : St σ G V) : Prop where
  ev : s.ev 0 = false
  cnt : s.cycles = s.log.count .step
  wait : s.waiters 0 = waiting (cyc s.cycles s.log)
  cancel : Ev.cancelAll ∈ cyc s.cycles s.log → s.clock = .afterCancel
  cur : due s.log s.cycles = resumesOf (cyc s.cycles s.log) ++ woken s.st (s.batch ++ s.ready)
  past : ∀ i, i < s.cycles → resumesOf (cyc i s.log) = due s.log i
  behind : Behind s
  hooks : ∀ e ∈ s.hooks, PrivHook e.1.2

/-- A step within the cycle. -/
theorem WInv.within {s s' : St σ G V} (h : WInv s) (l : List Ev) (hl : s'.log = s.log ++ l)
    (hns : Ev.step ∉ l) (hc : s'.cycles = s.cycles) (ev : s'.ev 0 = false)
    (hw : s'.waiters 0 = waiting (cyc s.cycles s.log ++ l))
    (hca : Ev.cancelAll ∈ cyc s.cycles s.log ++ l → s'.clock = .afterCancel)
    (hwo : woken s.st (s.batch ++ s.ready) = resumesOf l ++ woken s'.st (s'.batch ++ s'.ready))
    (hb : Behind s') (hh : ∀ e ∈ s'.hooks, PrivHook e.1.2) : WInv s' := by
  have hcyc : cyc s.cycles s'.log = cyc s.cycles s.log ++ l := by
    rw [hl, cyc_extend _ _ _ hns, if_pos h.cnt]
  refine ⟨ev, ?_, ?_, ?_, ?_, ?_, hb, hh⟩
  · rw [hc, h.cnt, hl, List.count_append, List.count_eq_zero.2 hns]; rfl
  · rw [hc, hcyc]; exact hw
  · rw [hc, hcyc]; exact hca
  · rw [hc, hcyc, hl, due_extend _ _ _ hns (Nat.le_of_eq h.cnt), h.cur, resumesOf_append, hwo,
      List.append_assoc]
  · intro i hi
    rw [hc] at hi
    rw [hl, due_extend _ _ _ hns (by have := h.cnt; omega), cyc_extend _ _ _ hns,
      if_neg (by have := h.cnt; omega)]
    exact h.past i hi

/-- A step without clock-related events. -/
theorem WInv.quiet {s s' : St σ G V} (h : WInv s) (l : List Ev) (hl : s'.log = s.log ++ l)
    (hn : ∀ e ∈ l, clockEv e = false ∧ e ≠ .step ∧ e ≠ .cancelAll)
    (hc : s'.cycles = s.cycles) (ev : s'.ev 0 = false) (hw : s'.waiters 0 = s.waiters 0)
    (hclk : s'.clock = .afterCancel ∨ s.clock ≠ .afterCancel)
    (hwo : woken s.st (s.batch ++ s.ready) = woken s'.st (s'.batch ++ s'.ready))
    (hb : Behind s') (hh : ∀ e ∈ s'.hooks, PrivHook e.1.2) : WInv s' := by
  obtain ⟨n1, n2⟩ := noClock (fun e he => (hn e he).1)
  have hnc : Ev.cancelAll ∉ l := fun h => (hn _ h).2.2 rfl
  refine h.within l hl (fun h => (hn _ h).2.1 rfl) hc ev ?_ ?_ ?_ hb hh
  · rw [hw, h.wait]
    unfold waiting
    simp [hnc, waitsOf_append, n1]
  · intro hm
    rcases List.mem_append.1 hm with hm | hm
    · rcases hclk with hclk | hclk
      · exact hclk
      · exact absurd (h.cancel hm) hclk
    · exact absurd hm hnc
  · rw [n2, hwo]; rfl

theorem behind_last {s : St σ G V} (q : List Handle) (h : s.batch ++ s.ready = q ++ [.clock])
    (hq : Handle.clock ∉ q) : Behind s := by
  intro a b hab
  rw [h] at hab
  rcases split_append' hab with ⟨p, hp, hp'⟩ | ⟨p, hp, hp'⟩
  · exact absurd (by rw [hp]; simp) hq
  · cases p with
    | nil => simp at hp'; rw [hp']; rfl
    | cons x p => simp at hp'

theorem pop_clock {x : List Handle} {s : St σ G V} {b : List Handle}
    (h : InvX (.clock :: x) s) (hb : b = s.batch ++ s.ready) : Handle.clock ∉ b := by
  have := h.core.hclk
  subst hb
  rw [List.cons_append, List.count_cons_self] at this
  split at this
  · omega
  · rw [List.count_append] at this
    exact List.count_eq_zero.1 (by omega)

/-- At the clock's turn nothing woken by the clock is left. -/
theorem turn_woken {s : St σ G V} {rest : List Handle} (h : WInv s)
    (hb : s.batch = .clock :: rest) : woken s.st (rest ++ s.ready) = [] :=
  h.behind [] (rest ++ s.ready) (by rw [hb]; rfl)

theorem WInv.yield {s s' : St σ G V} {rest : List Handle} (h : WInv s) (hi : Inv s)
    (hb : s.batch = .clock :: rest) (hf : Frame0 { s with batch := rest } s')
    (hi' : InvX [.clock] s') (l : List Ev) (hl : s'.log = s.log ++ l)
    (hn : ∀ e ∈ l, clockEv e = false ∧ e ≠ .step ∧ e ≠ .cancelAll) (hc : s'.cycles = s.cycles)
    (hclk : s.clock ≠ .afterCancel)
    (hh : ∀ e ∈ s'.hooks, PrivHook e.1.2) : WInv (clockYield s') := by
  have hpop := InvX.pop hi hb
  have hw1 := hf.woken hpop
  have ht := turn_woken h hb
  refine h.quiet l hl hn hc (hf.ev.trans h.ev) hf.w (.inr hclk) ?_ ?_ hh
  · show _ = woken s'.st (s'.batch ++ (s'.ready ++ [Handle.clock]))
    rw [← List.append_assoc, woken_append s'.st (s'.batch ++ s'.ready), hw1, hb]
    show woken s.st (rest ++ s.ready) = woken s.st (rest ++ s.ready) ++ []
    rw [List.append_nil]
  · refine behind_last (s'.batch ++ s'.ready) ?_ (pop_clock hi' rfl)
    show s'.batch ++ (s'.ready ++ [Handle.clock]) = _
    rw [List.append_assoc]

theorem WInv.doStep (sys : Sys σ G V) {s s' : St σ G V} {rest : List Handle} (h : WInv s)
    (hi : Inv s) (hb : s.batch = .clock :: rest) (hf : Frame0 { s with batch := rest } s')
    (hi' : InvX [.clock] s') (l : List Ev) (hl : s'.log = s.log ++ l)
    (hn : ∀ e ∈ l, clockEv e = false ∧ e ≠ .step ∧ e ≠ .cancelAll) (hc : s'.cycles = s.cycles)
    (hh : s'.hooks = []) : WInv (doStep sys s') := by
  have hpop := InvX.pop hi hb
  have ht := turn_woken h hb
  have hev : s'.ev 0 = false := hf.ev.trans h.ev
  obtain ⟨d1, d2, d3, d4, d5, d6, d7, d8, d9, d10⟩ := doStep_frame sys s'
  obtain ⟨n1, n2⟩ := noClock (fun e he => (hn e he).1)
  have hnc : Ev.cancelAll ∉ l := fun h => (hn _ h).2.2 rfl
  have hns : Ev.step ∉ l := fun h => (hn _ h).2.1 rfl
  have hcnt : s'.log.count .step = s.cycles := by
    rw [hl, List.count_append, List.count_eq_zero.2 hns, h.cnt]; rfl
  have hst : (Loop.doStep sys s').st = wakeSt s'.st (s'.waiters 0) := by
    unfold Loop.doStep Loop.setEv
    simp only [note, hev]
    rfl
  have hrd : (Loop.doStep sys s').batch ++ (Loop.doStep sys s').ready =
      (s'.batch ++ s'.ready ++ (s'.waiters 0).map .task) ++ [.clock] := by
    unfold Loop.doStep Loop.setEv
    simp only [note, hev]
    show s'.batch ++ ((s'.ready ++ _) ++ [Handle.clock]) = _
    simp
  have hwt : (Loop.doStep sys s').waiters 0 = [] := by
    unfold Loop.doStep Loop.setEv
    simp only [note, hev]
    show upd s'.waiters 0 [] 0 = []
    exact upd_self _ _ _
  have hwe : (Loop.doStep sys s').ev 0 = false := by
    unfold Loop.doStep
    simp only [clockYield, push]
    exact upd_self _ 0 _
  have hpend : ∀ t ∈ s'.waiters 0, is0 (wakeSt s'.st (s'.waiters 0) t) = true := by
    intro t ht
    have h1 := hi'.core.hw 0 t
    have h2 := List.one_le_count_iff.2 ht
    rw [h1] at h2
    simp only [wakeSt, ht, if_true]
    cases hs : s'.st t with
    | pend w =>
      rw [hs] at h2
      cases w with
      | ev e k =>
        simp only [wExp] at h2
        split at h2
        · rename_i he; subst he; rfl
        · omega
      | final v => rfl
      | _ => simp [wExp] at h2
    | _ => rw [hs] at h2; simp [wExp] at h2
  have hq0 : ∀ t, Handle.task t ∈ s'.batch ++ s'.ready →
      is0 (wakeSt s'.st (s'.waiters 0) t) = is0 (s'.st t) := by
    intro t ht
    have h1 := hi'.keep_of_mem ht
    unfold wakeSt
    split
    · revert h1
      cases s'.st t <;> simp [qExp, Status.finish]
    · rfl
  have hwoken : woken (Loop.doStep sys s').st
      ((Loop.doStep sys s').batch ++ (Loop.doStep sys s').ready) = s'.waiters 0 := by
    rw [hrd, hst, woken_append, woken_append, woken_congr hq0, hf.woken hpop, ht]
    have hmap : ∀ ws : List Nat, (∀ t ∈ ws, is0 (wakeSt s'.st (s'.waiters 0) t) = true) →
        woken (wakeSt s'.st (s'.waiters 0)) (ws.map .task) = ws := by
      intro ws
      induction ws with
      | nil => intro _; rfl
      | cons w ws ih =>
        intro hws
        have := ih (fun t ht => hws t (by simp [ht]))
        unfold woken at this ⊢
        rw [List.map_cons, List.filterMap_cons]
        simp [woken1, hws w (by simp), this]
    rw [hmap _ hpend]
    simp [woken, woken1]
  have hcyc : cyc s.cycles s'.log = cyc s.cycles s.log ++ l := by
    rw [hl, cyc_extend _ _ _ hns, if_pos h.cnt]
  have hwait : s'.waiters 0 = waiting (cyc s.cycles s'.log) := by
    rw [hf.w, hcyc]
    show s.waiters 0 = _
    rw [h.wait]
    unfold waiting
    simp [hnc, waitsOf_append, n1]
  have hnew : cyc (s.cycles + 1) (s'.log ++ [.step]) = [] := by
    rw [cyc_step, cyc_big _ _ (by omega)]
  refine ⟨hwe, ?_, ?_, ?_, ?_, ?_, ?_, ?_⟩
  · rw [d3, d4, List.count_append, hcnt, hc]; rfl
  · rw [hwt, d3, d4, hc, hnew]; rfl
  · rw [d3, d4, hc, hnew]; simp
  · rw [hwoken, d3, d4, hc, hnew, due_step]
    show waiting (cyc s.cycles s'.log) = _
    rw [← hwait]; rfl
  · intro i hi
    rw [d3, hc] at hi
    rw [d4, cyc_step, due_step]
    by_cases hi' : i = s.cycles
    · subst hi'
      rw [hcyc, resumesOf_append, n2, List.append_nil, hl,
        due_extend _ _ _ hns (Nat.le_of_eq h.cnt), h.cur, hb]
      show _ = _ ++ woken s.st (rest ++ s.ready)
      rw [ht, List.append_nil]
    · rw [hl, due_extend _ _ _ hns (by have := h.cnt; omega), cyc_extend _ _ _ hns,
        if_neg (by have := h.cnt; omega)]
      exact h.past i (by omega)
  · refine behind_last _ hrd ?_
    intro hm
    rcases List.mem_append.1 hm with hm | hm
    · exact pop_clock hi' rfl hm
    · simp at hm
  · rw [d1, hh]; simp

theorem WInv.cancelled {s s' : St σ G V} {rest : List Handle} (h : WInv s)
    (hi : Inv s) (hb : s.batch = .clock :: rest) (hf : Frame0 { s with batch := rest } s')
    (hi' : InvX [.clock] s') (l : List Ev) (hl : s'.log = s.log ++ l)
    (hn : ∀ e ∈ l, clockEv e = false ∧ e ≠ .step ∧ e ≠ .cancelAll) (hc : s'.cycles = s.cycles)
    (hclk : s.clock ≠ .afterCancel)
    (hh : s'.hooks = []) : WInv (push .clock { cancelAll s' with clock := .afterCancel }) := by
  have hpop := InvX.pop hi hb
  have ht := turn_woken h hb
  have hev : s'.ev 0 = false := hf.ev.trans h.ev
  obtain ⟨n1, n2⟩ := noClock (fun e he => (hn e he).1)
  have hnc : Ev.cancelAll ∉ l := fun h => (hn _ h).2.2 rfl
  have hns : Ev.step ∉ l := fun h => (hn _ h).2.1 rfl
  have hw0 : woken s'.st (s'.batch ++ s'.ready) = [] := by
    rw [hf.woken hpop]; exact ht
  have hnil : woken (cancelSt s'.st) (s'.batch.filter keepMain ++ (s'.ready.filter keepMain ++
      [Handle.clock])) = [] := by
    apply woken_nil
    intro t htm
    have htm : Handle.task t ∈ s'.batch ++ s'.ready := by
      simp at htm
      rcases htm with h | h
      · exact List.mem_append_left _ h.1
      · exact List.mem_append_right _ h.1
    have h0 : is0 (s'.st t) = false := by
      cases hz : is0 (s'.st t)
      · rfl
      · exfalso
        have : t ∈ woken s'.st (s'.batch ++ s'.ready) := by
          unfold woken
          rw [List.mem_filterMap]
          exact ⟨_, htm, by simp [woken1, hz]⟩
        rw [hw0] at this; cases this
    unfold cancelSt
    split
    · exact h0
    · split <;> rfl
  refine h.within (l ++ [.cancelAll]) ?_ ?_ hc hev ?_ ?_ ?_ ?_ ?_
  · show s'.log ++ [Ev.cancelAll] = _
    rw [hl, List.append_assoc]
  · simp [hns]
  · show (s'.waiters 0).filter (· == 0) = _
    rw [hf.w]
    show (s.waiters 0).filter (· == 0) = _
    rw [h.wait]
    have hn0 : Ev.cancelAll ∉ cyc s.cycles s.log := fun h' => hclk (h.cancel h')
    unfold waiting
    simp [hn0, waitsOf_append, n1]
    simp [waitsOf]
  · intro _; rfl
  · rw [resumesOf_append, n2, hb]
    show woken s.st (rest ++ s.ready) = _
    rw [ht]
    exact hnil.symm
  · refine behind_last (s'.batch.filter keepMain ++ s'.ready.filter keepMain) ?_ ?_
    · show s'.batch.filter keepMain ++ (s'.ready.filter keepMain ++ [Handle.clock]) = _
      rw [List.append_assoc]
    · have := pop_clock hi' rfl
      simp at this ⊢
      exact ⟨fun h => absurd h this.1, fun h => absurd h this.2⟩
  · show ∀ e ∈ s'.hooks, _
    rw [hh]; simp

theorem round_quiet {l : List ((Nat × Hook σ G V) × Int)} :
    ∀ e ∈ l.map execEv ++ [Ev.sample], clockEv e = false ∧ e ≠ .step ∧ e ≠ .cancelAll := by
  intro e he
  rcases List.mem_append.1 he with he | he
  · obtain ⟨y, _, hy⟩ := List.mem_map.1 he
    subst hy
    simp [execEv, clockEv]
  · rw [List.mem_singleton] at he
    subst he
    simp [clockEv]

theorem reach_WInv {sys : Sys σ G V} {g : G} {k : σ} {s : St σ G V} (hp : ClockPrivate sys)
    (h : Reach sys g k s) : WInv s := by
  induction h with
  | init =>
    refine ⟨rfl, rfl, rfl, by simp [init, cyc], ?_, by simp [init], ?_, by simp [init]⟩
    · simp [init, due, cyc, resumesOf, woken, woken1, is0]
    · intro a b hab
      simp [init] at hab
      cases a with
      | nil => simp at hab
      | cons x a => simp at hab
  | @step s due hr ih =>
    have hinv := reach_inv hr
    have hac := reach_AC hr
    have hsc := step_case sys due s
    generalize step sys due s = s' at hsc
    cases hsc with
    | exec t k hc =>
      have hrun : isRunning (s.st t) = true := by
        have := (hinv.core.hcur t).2
        rw [hc] at this
        exact this rfl
      have hclk : s.clock ≠ .afterCancel := by
        intro h'
        have := hac.cur h'
        rw [hc] at this; cases this
      have hhooks : ∀ e ∈ (exec t (sys.prog k s.g) s).hooks, PrivHook e.1.2 := by
        by_cases hh : ∃ h p k', sys.prog k s.g = .addHook h p k'
        · obtain ⟨h, p, k', hpr⟩ := hh
          rw [hpr]
          intro e he
          have he : e ∈ s.hooks ++ [((s.nextHook, h), p)] := he
          rcases List.mem_append.1 he with he | he
          · exact ih.hooks e he
          · rw [List.mem_singleton] at he
            subst he
            exact (hp k s.g).2 h p k' hpr
        · rw [(exec_neutral t (sys.prog k s.g) s (fun h p k' hp => hh ⟨h, p, k', hp⟩)).hooks]
          exact ih.hooks
      have hcy : (exec t (sys.prog k s.g) s).cycles = s.cycles := by
        by_cases hh : ∃ h p k', sys.prog k s.g = .addHook h p k'
        · obtain ⟨h, p, k', hpr⟩ := hh
          rw [hpr]; rfl
        · exact (exec_neutral t (sys.prog k s.g) s (fun h p k' hp => hh ⟨h, p, k', hp⟩)).cycles
      rcases exec_case0 hinv hc (sys.prog k s.g) (hp k s.g).1 ih.ev with
        ⟨hf, l, hl, hn⟩ | ⟨hf, l, hl, hn⟩
      · exact ih.quiet l hl hn hcy (hf.ev.trans ih.ev) hf.w (.inr hclk) (hf.woken hinv).symm
          (hf.behind hinv ih.behind) hhooks
      · obtain ⟨n1, n2⟩ := noClock (fun e he => (hn e he).1)
        have hnc : Ev.cancelAll ∉ l := fun h => (hn _ h).2.2 rfl
        have hns : Ev.step ∉ l := fun h => (hn _ h).2.1 rfl
        have hn0 : Ev.cancelAll ∉ cyc s.cycles s.log := fun h' => hclk (ih.cancel h')
        refine ih.within (l ++ [.wait t]) hl (by simp [hns]) hcy (hf.ev.trans ih.ev) ?_ ?_ ?_
          (hf.behind hinv hrun ih.behind) hhooks
        · rw [hf.w, ih.wait]
          unfold waiting
          simp [hn0, hnc, waitsOf_append, n1]
          rfl
        · intro hm
          simp [hnc, hn0] at hm
        · rw [resumesOf_append, n2, hf.woken hinv hrun]
          rfl
    | task t rest hc hb =>
      obtain ⟨hf, hl⟩ := resume_case0 hinv hc hb
      have hne := resume_neutral t { s with batch := rest }
      have hcount : (rest ++ s.ready).count (Handle.task t) = 0 := by
        have h1 := hinv.core.hq t
        rw [hb] at h1
        have h3 : qExp (s.st t) ≤ 1 := by cases s.st t <;> simp [qExp]
        simp only [List.nil_append, List.cons_append, List.count_cons_self] at h1
        omega
      have hnot : Handle.task t ∉ rest ++ s.ready := List.count_eq_zero.1 hcount
      have htaken : woken (taken t rest s).st ((taken t rest s).batch ++ (taken t rest s).ready) =
          woken s.st (rest ++ s.ready) := by
        apply woken_congr
        intro u hu
        show is0 (upd s.st t .running u) = _
        rw [upd_ne]
        rintro rfl
        exact hnot hu
      have hinvt : InvC s.n (upd s.st t .running) (rest ++ s.ready) s.ev s.waiters s.q s.getters
          s.joiners s.clock (some t) ∨ True := .inr trivial
      -- the frame condition only needs the scheduled tasks' states
      have hqk : ∀ u, Handle.task u ∈ (taken t rest s).batch ++ (taken t rest s).ready →
          qExp ((taken t rest s).st u) = 1 := by
        intro u hu
        have hne : u ≠ t := by rintro rfl; exact hnot hu
        show qExp (upd s.st t .running u) = 1
        rw [upd_ne _ _ _ _ hne]
        exact hinv.keep_of_mem (by rw [hb]; exact List.mem_cons_of_mem _ hu)
      obtain ⟨l, hq, hql⟩ := hf.q
      have hwok : woken (resume t { s with batch := rest }).st
          ((resume t { s with batch := rest }).batch ++
            (resume t { s with batch := rest }).ready) = woken s.st (rest ++ s.ready) := by
        rw [hq, woken_append, woken_nil hql, List.append_nil, ← htaken]
        apply woken_congr
        intro u hu
        rw [hf.st u (.inl (hqk u hu))]
      refine ih.within _ hl (by split <;> simp) hne.cycles (hf.ev.trans ih.ev) ?_ ?_ ?_ ?_ ?_
      · rw [hf.w]
        show s.waiters 0 = _
        rw [ih.wait]
        unfold waiting
        split <;> split <;> simp_all [waitsOf]
      · intro hm
        have : Ev.cancelAll ∈ cyc s.cycles s.log := by
          rcases List.mem_append.1 hm with hm | hm
          · exact hm
          · split at hm <;> simp at hm
        have hcl := ih.cancel this
        rcases hne.clk with h1 | ⟨h1, _⟩
        · rw [h1]; exact hcl
        · have h1 : s.clock = .off := h1
          rw [hcl] at h1; cases h1
      · rw [hwok, hb]
        show woken s.st (Handle.task t :: (rest ++ s.ready)) = _
        unfold woken
        rw [List.filterMap_cons]
        by_cases h0 : is0 (s.st t) = true <;> simp [woken1, h0, resumesOf]
      · intro a b hab
        rw [hq] at hab
        rcases split_append' hab with ⟨p, hp1, hp'⟩ | ⟨p, hp1, hp'⟩
        · rw [hp', woken_append, woken_nil hql, List.append_nil]
          have hs := ih.behind (.task t :: a) p (by
            rw [hb]
            show Handle.task t :: (rest ++ s.ready) = _
            have : rest ++ s.ready = a ++ .clock :: p := hp1
            rw [this]; rfl)
          rw [← hs]
          apply woken_congr
          intro u hu
          have hu' : Handle.task u ∈ (taken t rest s).batch ++ (taken t rest s).ready := by
            rw [hp1]; simp [hu]
          rw [hf.st u (.inl (hqk u hu'))]
          show is0 (upd s.st t .running u) = _
          rw [upd_ne]
          rintro rfl
          exact hnot hu'
        · apply woken_nil
          intro u hu
          exact hql u (by rw [hp']; simp [hu])
      · rw [hne.hooks]; exact ih.hooks
    | clock rest hc hb =>
      have hpop := InvX.pop hinv hb
      unfold runClock
      have hcc := clock_case sys { s with batch := rest }
      obtain ⟨f1, f2, f3, f4, f5, _⟩ := callbacks_frame sys { s with batch := rest }
      have hfc := callbacks_frame0 sys hpop ih.hooks
      have hic := callbacks_inv sys hpop
      have hlog : (callbacks sys { s with batch := rest }).2.log =
          s.log ++ ((Priority.sorted s.hooks).map execEv ++ [.sample]) := by
        rw [f4, List.append_assoc]
      generalize clockTurn sys { s with batch := rest } = r at hcc
      cases hcc with
      | off h =>
        exfalso
        have h : s.clock = .off := h
        have := hinv.core.hclk
        rw [hb, if_pos (.inl h)] at this
        simp at this
      | dead h =>
        exfalso
        have h : s.clock = .dead := h
        have := hinv.core.hclk
        rw [hb, if_pos (.inr h)] at this
        simp at this
      | raise h hu hf pre y post hs hy =>
        have h : s.clock = _ := h
        have hs : Priority.sorted s.hooks = pre ++ y :: post := hs
        have hpy := raises_priv ih.hooks hs
        have hfr := raised_frame0 hpop hpy
        obtain ⟨r1, r2, r3, r4, r5, r6, r7⟩ := raised_frame pre y { s with batch := rest }
        have hw := hfr.woken hpop
        have ht := turn_woken ih hb
        have hw0 : woken (raised pre y { s with batch := rest }).st
            ((raised pre y { s with batch := rest }).batch ++
              (raised pre y { s with batch := rest }).ready) = [] := hw.trans ht
        refine ih.quiet _ r4 ?_ r3 (hfr.ev.trans ih.ev) hfr.w (.inr (by rw [h]; simp)) ?_ ?_ ?_
        · intro e he
          rcases List.mem_append.1 he with he | he
          · obtain ⟨z, _, rfl⟩ := List.mem_map.1 he
            simp [execEv, clockEv]
          · rw [List.mem_singleton] at he
            subst he
            simp [clockEv]
        · rw [hw0, hb]
          exact ht
        · intro a b hab
          rw [hab, woken_append] at hw0
          have := (List.append_eq_nil_iff.1 hw0).2
          exact this
        · intro e he
          have he : e ∈ (raised pre y { s with batch := rest }).hooks := he
          rw [r1] at he
          rcases mem_spend he with he | ⟨z, hz, rfl⟩
          · exact ih.hooks e he
          · exact ⟨(ih.hooks z hz).1, fun g e he => by cases he⟩
      | begin h =>
        have h : s.clock = _ := h
        exact ih.yield hinv hb (Frame0.refl _) hpop [] (by simp) (by simp) rfl
          (by rw [h]; simp) ih.hooks
      | busy h =>
        have h : s.clock = _ := h
        exact ih.yield hinv hb (Frame0.refl _) hpop [] (by simp) (by simp) rfl
          (by rw [h]; simp) ih.hooks
      | rerun h hu hf hrr =>
        have h : s.clock = _ := h
        exact ih.yield hinv hb hfc hic _ hlog round_quiet f3 (by rw [h]; simp)
          (by rw [f1]; simp)
      | cancel h hu hf hrr ht =>
        have h : s.clock = _ := h
        exact ih.cancelled hinv hb hfc hic _ hlog round_quiet f3 (by rw [h]; simp) f1
      | step h hu hf hrr ht => exact ih.doStep sys hinv hb hfc hic _ hlog round_quiet f3 f1
      | last h =>
        exact ih.doStep sys hinv hb (Frame0.refl _) hpop [] (by simp) (by simp) rfl
          (hac.hooks h)
    | stop rest hc hb =>
      refine ih.quiet [] (by simp) (by simp) rfl ih.ev rfl ?_ ?_ ?_ ih.hooks
      · exact (Classical.em (s.clock = .afterCancel))
      · rw [hb]; rfl
      · intro a b hab
        exact ih.behind (.stop :: a) b (by rw [hb]; exact congrArg _ hab)
    | fire t k rest hc hb hs =>
      have hpf : Frame0 ({ s with batch := rest } : St σ G V) (wake [t] { s with batch := rest }) := by
        refine frame0_wake [t] rfl ?_ ?_ rfl rfl
        · show rest ++ (s.ready ++ _) = _
          rw [List.append_assoc]
        · intro u hu
          rw [List.mem_singleton] at hu
          subst hu
          exact ⟨_, hs, by simp, by simp⟩
      have hpi : InvX [.fire t] ({ s with batch := rest } : St σ G V) := by
        refine ⟨?_, hinv.main⟩
        have := hinv.core
        unfold InvS at this ⊢
        rw [hb] at this
        exact this
      have hbp : Behind ({ s with batch := rest } : St σ G V) := by
        intro a b hab
        exact ih.behind (.fire t :: a) b (by rw [hb]; exact congrArg _ hab)
      refine ih.quiet [] (by simp [wake]) (by simp) rfl ih.ev rfl ?_ ?_ (hpf.behind hpi hbp) ih.hooks
      · exact (Classical.em (s.clock = .afterCancel))
      · rw [hpf.woken hpi, hb]; rfl
    | miss t rest hc hb hs =>
      refine ih.quiet [] (by simp) (by simp) rfl ih.ev rfl ?_ ?_ ?_ ih.hooks
      · exact (Classical.em (s.clock = .afterCancel))
      · rw [hb]; rfl
      · intro a b hab
        exact ih.behind (.fire t :: a) b (by rw [hb]; exact congrArg _ hab)
    | halt hc hb hs => exact ih
    | turn due hc hb hs =>
      have hfire : ∀ b : List Handle, (∀ x ∈ b, ∃ t, x = Handle.fire t) → woken s.st b = [] := by
        intro b hb'
        apply woken_nil
        intro t ht
        obtain ⟨u, hu⟩ := hb' _ ht
        cases hu
      have hm : ∀ x ∈ due.map Handle.fire, ∃ t, x = Handle.fire t := by
        intro x hx
        obtain ⟨t, _, ht⟩ := List.mem_map.1 hx
        exact ⟨t, ht.symm⟩
      refine ih.quiet [] (by simp) (by simp) rfl ih.ev rfl ?_ ?_ ?_ ih.hooks
      · exact (Classical.em (s.clock = .afterCancel))
      · rw [hb]
        show woken s.st s.ready = woken s.st ((s.ready ++ due.map Handle.fire) ++ [])
        rw [List.append_nil, woken_append, hfire _ hm, List.append_nil]
      · intro a b hab
        have hab : (s.ready ++ due.map Handle.fire) ++ [] = a ++ .clock :: b := hab
        rw [List.append_nil] at hab
        rcases split_append' hab with ⟨p, hp1, hp'⟩ | ⟨p, hp1, hp'⟩
        · rw [hp', woken_append, hfire _ hm, List.append_nil]
          exact ih.behind a p (by rw [hb]; exact hp1)
        · exact hfire b (fun x hx => hm x (by rw [hp']; simp [hx]))

/-- C16: in every completed cycle exactly the tasks that were waiting for the clock when it began
resume, each once, in the order in which they started to wait; in the running cycle a prefix
of them has resumed so far.  (`ClockPrivate`: only the clock loop sets `dut.event`.) -/
theorem C16_fifo_once (sys : Sys σ G V) (g : G) (k : σ) (hp : ClockPrivate sys) (s : St σ G V)
    (hr : Reach sys g k s) :
    (∀ i, i < s.cycles → resumesOf (cyc i s.log) = due s.log i) ∧
    (∃ todo, due s.log s.cycles = resumesOf (cyc s.cycles s.log) ++ todo) ∧
    s.cycles = s.log.count .step := by
  have h := reach_WInv hp hr
  exact ⟨h.past, ⟨_, h.cur⟩, h.cnt⟩

/-- C16: when `dut.Step(1)` is called, the tasks that started to wait in this cycle are exactly the
tasks that are suspended in a wait for the clock, and everybody who was to resume in this cycle has
resumed. -/
theorem C16_waiting_at_step (sys : Sys σ G V) (g : G) (k : σ) (hp : ClockPrivate sys)
    (s s' : St σ G V) (hr : Reach sys g k s) (hs : StepsAt sys s s') :
    resumesOf (cyc s.cycles s.log) = due s.log s.cycles ∧
    ∀ t, t ∈ waiting (cyc s.cycles s.log) ↔
      ((∃ k, s'.st t = .pend (.ev 0 k)) ∨ ∃ v, s'.st t = .pend (.final v)) := by
  have h := reach_WInv hp hr
  have hinv := reach_inv hr
  obtain ⟨hc, rest, hb, hk⟩ := hs
  have hpop := InvX.pop hinv hb
  have ht := turn_woken h hb
  refine ⟨?_, ?_⟩
  · have := h.cur
    rw [hb] at this
    rw [this]
    show _ = _ ++ woken s.st (rest ++ s.ready)
    rw [ht, List.append_nil]
  · have hf : Frame0 { s with batch := rest } s' ∧ InvX [.clock] s' := by
      have hcc := clock_case sys { s with batch := rest }
      rw [hk] at hcc
      cases hcc with
      | step => exact ⟨callbacks_frame0 sys hpop h.hooks, callbacks_inv sys hpop⟩
      | last => exact ⟨Frame0.refl _, hpop⟩
    intro t
    rw [← h.wait]
    have hw : s.waiters 0 = s'.waiters 0 := hf.1.w.symm
    rw [hw, ← List.one_le_count_iff, hf.2.core.hw 0 t]
    cases s'.st t with
    | pend w =>
      cases w with
      | ev e k =>
        by_cases he : e = 0
        · subst he; simp [wExp]
        · simp [wExp, he]
      | _ => simp [wExp]
    | _ => simp [wExp]

/-! ### A concrete system -/

/-- Task 0 starts the clock and tasks 1 and 2; task 2 waits for two cycles, the others for one;
afterwards task 0 waits for one more. -/
def demo : Sys Nat Nat Nat where
  prog k _ := match k with
    | 0 => .startClock 1
    | 1 => .spawn 10 (fun _ => 2)
    | 2 => .spawn 20 (fun _ => 3)
    | 3 => .waitEv 0 4
    | 4 => .waitEv 0 5
    | 10 => .waitEv 0 11
    | 20 => .waitEv 0 21
    | 21 => .waitEv 0 22
    | _ => .ret 7
  dutStep g := g + 1
  sample g := g

example : ClockPrivate demo := by
  intro k g
  unfold demo
  dsimp only
  split <;> simp

/-- The three waiters of cycle 0 resume in cycle 1 in order; those of cycle 1 in cycle 2. -/
example : (iter demo 60 (init 0 0)).log =
    [.wait 0, .wait 1, .wait 2, .sample, .step,
     .resume 0, .wait 0, .resume 1, .resume 2, .wait 2, .sample, .step,
     .resume 0, .testDone, .wait 0, .resume 2, .sample, .cancelAll, .step,
     .resume 0, .sample, .cancelAll, .step] := by decide

end Toffee.Props.LoopClock
