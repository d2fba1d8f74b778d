import Verif.Lemmas.BenchMon

/-! The run of the test bench of `Verif.Model.BenchMon`: the test, from its first step to the end of the run. -/

namespace Toffee.BenchMon

open Toffee.Loop Toffee.LoopSym

variable {Y D M : Type} {b : Bench Y D M}

/-- `toffee.run(test, env_handle)` returns. -/
def Passes (s : St (Pc Y D) (G D M) Unit) : Prop :=
  halted s ∧ s.aborted = false ∧ s.st 0 = .done (some ())

/-- `toffee.run(test, env_handle)` raises; the test has not been answered. -/
def Fails (s : St (Pc Y D) (G D M) Unit) : Prop :=
  halted s ∧ s.aborted = true ∧ ∀ r, s.st 0 ≠ .done r

/-- How the run ends, `c` clock cycles having gone by before. -/
def End (b : Bench Y D M) (c : Nat) : Option (D × M × Nat) → St (Pc Y D) (G D M) Unit → Prop
  | none, s => Fails s
  | some r, s => Passes s ∧ s.g.dut = b.clk (b.clk r.1) ∧ s.g.ref = r.2.1 ∧ s.cycles = c + r.2.2 + 2

/-- The main task awaits the test. -/
def joinSt (N : Nat) : Stat Y D := some (.pend (.join (N + 1) (fun _ => .finish) .failed))

def jn (N t : Nat) : List Nat := if t = N + 1 then [0] else []

theorem upd_jn (N : Nat) : upd (jn N) (N + 1) [] = fun _ => [] := by
  funext t; by_cases h : t = N + 1 <;> simp [upd, jn, h]

/-- The test runs; in its first slice (`f`) the clock is behind it. -/
def testing (N : Nat) (f : Bool) (ms : List (Mon Y D M × Meth (Option Y) D)) (k : Meth Unit D) (hs : List (Y × Chk Y M))
    (g : G D M) (c : Nat) : BP Y D M where
  cur := some (N + 1, .test k)
  batch := if f then [] else [.clock]
  ready := if f then [.clock] else []
  n := N + 2
  lv := lvL (joinSt N :: pendL 0 ms ++ [some .running])
  hooks := hs.map req
  g := g
  cycles := c
  ev := fun _ => false
  waiters := wt (List.range' 1 N)
  joiners := jn N

/-- Everybody waits for the clock. -/
def idle (N : Nat) (ms : List (Mon Y D M × Meth (Option Y) D)) (k : Meth Unit D) (hs : List (Y × Chk Y M))
    (g : G D M) (c : Nat) : BP Y D M where
  cur := none
  batch := [.clock]
  ready := []
  n := N + 2
  lv := lvL (joinSt N :: pendL 0 ms ++ [some (.pend (.ev 0 (.test k)))])
  hooks := hs.map req
  g := g
  cycles := c
  ev := fun _ => false
  waiters := wt (List.range' 1 (N + 1))
  joiners := jn N

/-- The test has returned. -/
def fini (N : Nat) (ms : List (Mon Y D M × Meth (Option Y) D)) (hs : List (Y × Chk Y M)) (g : G D M) (c : Nat) : BP Y D M where
  cur := none
  batch := [.clock]
  ready := []
  n := N + 2
  lv := lvL (some (.pend (.final ())) :: pendL 0 ms ++ [some (.done (some ()))])
  hooks := hs.map req
  testDone := true
  g := g
  cycles := c
  ev := fun _ => false
  waiters := wt (List.range' 1 N ++ [0])
  joiners := fun _ => []

theorem quiet_list {x y : Stat Y D} (hx : busy x = false) (hy : busy y = false) (ms : List (Mon Y D M × Meth (Option Y) D)) (t : Nat) :
    busy (lvL (x :: pendL 0 ms ++ [y]) t) = false := by
  refine lvL_busy ?_ t
  intro z hz
  simp only [List.cons_append, List.mem_cons, List.mem_append, List.not_mem_nil, or_false] at hz
  rcases hz with h | h | h
  · rw [h]; exact hx
  · exact pendL_quiet _ _ _ h
  · rw [h]; exact hy

theorem wt_filter (N : Nat) : (fun e => (wt (List.range' 1 N ++ [0]) e).filter (· == 0)) = wt [0] := by
  funext e
  by_cases h : e = 0
  · subst h
    simp only [wt, if_true, List.filter_append]
    have : (List.range' 1 N).filter (· == 0) = [] := by
      rw [List.filter_eq_nil_iff]
      intro a ha
      rw [List.mem_range'_1] at ha
      simp; omega
    rw [this]; rfl
  · simp [wt, h]

/-- A hook raises. -/
theorem fail_end {p : BP Y D M} {hs : List (Y × Chk Y M)} (hc : p.cur = none) (hb : p.batch = [.clock]) (hk : p.clock = .check)
    (hq : ∀ t, busy (p.lv t) = false) (hf : p.flag = false) (hh : p.hooks = hs.map req) (hm : ∃ z, p.lv 0 = some (.pend z))
    (hn : checks p.g.ref hs = none) : ToSt (sys b) p Fails := by
  refine ToSt.one fun s h => ?_
  rw [stepClock h hc hb]
  obtain ⟨h1, h2, h3, h4, h5⟩ := silent_bad (sys := sys b) (h.drop []) hk hq hf (by rw [hh]; exact req_silent hs)
    (by
      show tryAll ((Priority.sorted p.hooks).map Prod.fst) p.g = none
      rw [hh, try_checks, hn]; rfl)
  refine ⟨⟨h3, by rw [h1]; show s.cur = none; rw [h.cur, hc], by rw [h2]⟩, h4, ?_⟩
  intro r
  rw [h5]
  show s.st 0 ≠ _
  obtain ⟨z, hz⟩ := hm
  have := h.st 0
  rw [hz] at this
  rw [show s.st 0 = .pend z from this]
  simp

local macro "norm" : tactic =>
  `(tactic| simp only [upd, if_true, List.map_cons, List.map_nil, List.cons_append, List.nil_append, List.append_nil])

theorem fini_end (N : Nat) (ms : List (Mon Y D M × Meth (Option Y) D)) (hs : List (Y × Chk Y M)) (g : G D M) (c : Nat) :
    ToSt (sys b) (fini N ms hs g c) (End b c ((checks g.ref hs).map fun m => (g.dut, m, 0))) := by
  have hq : ∀ t, busy ((fini N ms hs g c).lv t) = false := quiet_list rfl rfl ms
  cases hch : checks g.ref hs with
  | none => exact fail_end rfl rfl rfl hq rfl rfl ⟨.final (), rfl⟩ hch
  | some m =>
    have h1 : ∃ q : BP Y D M, To (sys b) (fini N ms hs g c) q ∧
        q.cur = none ∧ q.batch = [] ∧ q.stopping = true ∧ q.aborted = false ∧
        q.lv 0 = some (.done (some ())) ∧ q.g = { dut := b.clk (b.clk g.dut), ref := m } ∧ q.cycles = c + 2 := by
      refine ⟨?q, ?_, ?_⟩
      rotate_left
      · refine To.one (fun s h => clockCancelSilent (g := { g with ref := m }) h rfl rfl rfl hq rfl (req_silent hs) rfl rfl
          (by show tryAll ((Priority.sorted (hs.map req)).map Prod.fst) g = _; rw [try_checks, hch]; rfl)) ?_
        unfold fini
        rw [wt_filter]
        refine To.one (fun s h => newBatch h rfl rfl rfl) ?_
        simp only [List.filter_nil, List.nil_append]
        refine To.one (fun s h => clockAfter h rfl rfl rfl (by rfl)) ?_
        refine To.one (fun s h => newBatch h rfl rfl rfl) ?_
        rw [upd_wt]
        simp only [wt, if_true, List.map_cons, List.map_nil, List.cons_append, List.nil_append]
        refine To.one (fun s h => runFinal (v := ()) h rfl rfl (by simp [lvL, Status.finish]) rfl) ?_
        norm
        refine To.one (fun s h => clockCancel h rfl rfl rfl ?_ rfl rfl rfl rfl) ?_
        · intro t
          by_cases h1 : t = 0 <;> simp [h1, busy, upd]
        refine To.one (fun s h => newBatch h rfl rfl rfl) ?_
        norm
        simp only [List.filter, List.cons_append, List.nil_append]
        refine To.one (fun s h => runStop h rfl rfl) ?_
        refine To.one (fun s h => clockAfter h rfl rfl rfl (by rfl)) ?_
        exact To.refl
      · refine ⟨rfl, rfl, rfl, rfl, ?_, rfl, rfl⟩
        simp [wt]
    obtain ⟨q, h1, h2, h3, h4, h5, h6, h7, h8⟩ := h1
    refine ToSt.to h1 (ToSt.zero fun s hs => ?_)
    refine ⟨⟨⟨by rw [hs.stopping, h4], by rw [hs.cur, h2], by rw [hs.batch, h3]⟩, by rw [hs.aborted, h5], ?_⟩,
      by rw [hs.g, h7], by rw [hs.g, h7], by rw [hs.cycles, h8]; rfl⟩
    have := hs.st 0
    rw [h6] at this
    exact this

/-- The test returns. -/
theorem test_ret {N : Nat} {f : Bool} {ms : List (Mon Y D M × Meth (Option Y) D)} {hs : List (Y × Chk Y M)} {g : G D M} {c : Nat}
    {u : Unit} (hN : ms.length = N) : To (sys b) (testing N f ms (.ret u) hs g c) (fini N ms hs g c) := by
  have hlen : N + 1 = (joinSt N :: pendL 0 ms : List (Stat Y D)).length := by simp [pendL_length, hN]
  have hlv : (fun x => if x ∈ jn N (N + 1) then (upd (lvL (joinSt N :: pendL 0 ms ++ [some .running])) (N + 1) (some (.done (some ()))) x).map Status.finish
      else upd (lvL (joinSt N :: pendL 0 ms ++ [some .running])) (N + 1) (some (.done (some ()))) x) =
      (lvL (some (.fin (.join (N + 1) (fun _ => .finish) .failed)) :: pendL 0 ms ++ [some (.done (some ()))]) : Nat → Stat Y D) := by
    rw [lvL_upd (joinSt N :: pendL 0 ms) [] _ _ hlen]
    funext x
    cases x with
    | zero => simp [jn, lvL, joinSt, Status.finish]
    | succ x => simp [jn, lvL]
  have hd : ∀ z : Stat Y D, lvL (z :: pendL 0 ms ++ [some (.done (some ()))]) (N + 1) = some (.done (some ())) := fun z =>
    lvL_at (z :: pendL 0 ms) [] _ (by simp [pendL_length, hN])
  have hl : upd (upd (lvL (some (.fin (.join (N + 1) (fun _ => .finish) .failed)) :: pendL 0 ms ++ [some (.done (some ()))])) 0
      (some .running)) 0 (some (.pend (.final ()))) =
      (lvL (some (.pend (.final ())) :: pendL 0 ms ++ [some (.done (some ()))]) : Nat → Stat Y D) := by
    have h1 := lvL_upd [] (pendL 0 ms ++ [some (.done (some ()))]) (some (.fin (.join (N + 1) (fun _ => .finish) .failed)))
      (some .running) (t := 0) rfl
    have h2 := lvL_upd [] (pendL 0 ms ++ [some (.done (some ()))]) (some .running) (some (.pend (.final ()))) (t := 0) rfl
    simp only [List.nil_append] at h1 h2
    simp only [List.cons_append]
    rw [h1, h2]
  unfold testing
  refine To.one (fun s h => exRet (v := ()) h rfl rfl (by omega)) ?_
  dsimp only
  rw [hlv, upd_jn]
  cases f with
  | true =>
    simp only [if_true, jn, List.map_cons, List.map_nil, List.cons_append, List.nil_append]
    refine To.one (fun s h => newBatch h rfl rfl rfl) ?_
    refine To.one (fun s h => clockBusy h rfl rfl rfl 0 (by show 0 < N + 2; omega) rfl) ?_
    refine To.one (fun s h => runJoin (t := 0) (u := N + 1) (v := ()) (k := fun _ => .finish) (kx := .failed) h rfl rfl rfl (hd _)) ?_
    refine To.one (fun s h => exRetMain (v := ()) h rfl rfl (by simp) rfl) ?_
    refine To.one (fun s h => newBatch h rfl rfl rfl) (To.eq ?_)
    unfold fini
    dsimp only
    simp only [List.cons_append] at hl ⊢
    rw [hl, upd_wt]
    rfl
  | false =>
    simp only [Bool.false_eq_true, if_false, jn, if_true, List.map_cons, List.map_nil, List.nil_append]
    refine To.one (fun s h => clockBusy h rfl rfl rfl 0 (by show 0 < N + 2; omega) rfl) ?_
    refine To.one (fun s h => newBatch h rfl rfl rfl) ?_
    simp only [List.cons_append, List.nil_append]
    refine To.one (fun s h => runJoin (t := 0) (u := N + 1) (v := ()) (k := fun _ => .finish) (kx := .failed) h rfl rfl rfl (by exact hd _)) ?_
    refine To.one (fun s h => exRetMain (v := ()) h rfl rfl (by simp) rfl) (To.eq ?_)
    unfold fini
    dsimp only
    simp only [List.cons_append] at hl ⊢
    rw [hl, upd_wt]
    rfl

/-- The test waits for the clock. -/
theorem test_step {N : Nat} {f : Bool} {ms : List (Mon Y D M × Meth (Option Y) D)} {k : Meth Unit D} {hs : List (Y × Chk Y M)} {g : G D M}
    {c : Nat} (hN : ms.length = N) : To (sys b) (testing N f ms (.step k) hs g c) (idle N ms k hs g c) := by
  have hlen : N + 1 = (joinSt N :: pendL 0 ms : List (Stat Y D)).length := by simp [pendL_length, hN]
  unfold testing
  refine To.one (fun s h => exWait (e := 0) (k' := .test k) h rfl rfl rfl) ?_
  dsimp only
  rw [lvL_upd (joinSt N :: pendL 0 ms) [] _ _ hlen, upd_wt]
  have hw : wt (List.range' 1 N) 0 ++ [N + 1] = List.range' 1 (N + 1) := by
    rw [List.range'_1_concat, Nat.add_comm 1 N]; rfl
  rw [hw]
  cases f with
  | true => exact To.one (fun s h => newBatch h rfl rfl rfl) To.refl
  | false => exact To.refl

/-- The checks pass, the clock steps the DUT, and the monitors run. -/
theorem idle_step {N : Nat} {ms : List (Mon Y D M × Meth (Option Y) D)} {k : Meth Unit D} {hs : List (Y × Chk Y M)} {g : G D M}
    {c : Nat} {m : M} (hN : ms.length = N) (hms : b.mons = ms.map Prod.fst) (hch : checks g.ref hs = some m) :
    To (sys b) (idle N ms k hs g c)
      (testing N false (cycle ms (b.clk g.dut)).2.1 k (cycle ms (b.clk g.dut)).2.2 ⟨(cycle ms (b.clk g.dut)).1, m⟩ (c + 1)) := by
  have hq : ∀ t, busy ((idle N ms k hs g c).lv t) = false := quiet_list rfl rfl ms
  refine To.one (fun s h => clockStepSilent (g := { g with ref := m }) h rfl rfl rfl hq rfl (req_silent hs) rfl rfl rfl
    (by show tryAll ((Priority.sorted (hs.map req)).map Prod.fst) g = _; rw [try_checks, hch]; rfl)) ?_
  unfold idle
  dsimp only
  have hlv : (fun t => if t ∈ wt (List.range' 1 (N + 1)) 0 then
      (lvL (joinSt N :: pendL 0 ms ++ [some (.pend (.ev 0 (.test k)))]) t).map Status.finish
      else lvL (joinSt N :: pendL 0 ms ++ [some (.pend (.ev 0 (.test k)))]) t) =
      (lvL (joinSt N :: pendL (M := M) 0 [] ++ (finL 0 ms ++ [some (.fin (.ev 0 (.test k)))])) : Nat → Stat Y D) := by
    have := lvL_wake (joinSt N) (pendL 0 ms ++ [some (.pend (.ev 0 (.test k)))])
    rw [List.length_append, pendL_length, hN] at this
    simp only [List.map_append, pendL_fin] at this
    exact this
  rw [hlv, upd_wt]
  refine To.one (fun s h => newBatch h rfl rfl rfl) ?_
  refine (mons_loop (tail := [.task (N + 1), .clock]) (x := joinSt N) (T := [some (.fin (.ev 0 (.test k)))]) ms [] _
    (by exact hms) (by rfl) ?_ (by rfl) (by rfl) (by rfl)).trans ?_
  · show [] ++ (wt (List.range' 1 (N + 1)) 0).map Handle.task ++ [Handle.clock] = _
    rw [List.range'_1_concat, Nat.add_comm 1 N]
    simp [wt, hN]
  have hlen : N + 1 = (joinSt N :: pendL 0 (cycle ms (b.clk g.dut)).2.1 : List (Stat Y D)).length := by
    simp [pendL_length, cycle_length, hN]
  refine To.one (fun s h => runEv (t := N + 1) (e := 0) (k := .test k) h rfl rfl (by exact lvL_at _ _ _ hlen)) (To.eq ?_)
  unfold testing
  simp only [sys, List.nil_append, List.length_nil, Nat.zero_add, hN]
  rw [lvL_upd (joinSt N :: pendL 0 (cycle ms (b.clk g.dut)).2.1) [] _ _ hlen]
  rfl

/-- The test, from where it is to the end of the run. -/
theorem test_run {N : Nat} (k : Meth Unit D) : ∀ (f : Bool) (ms : List (Mon Y D M × Meth (Option Y) D)) (hs : List (Y × Chk Y M))
    (g : G D M) (c : Nat), ms.length = N → b.mons = ms.map Prod.fst →
    ToSt (sys b) (testing N f ms k hs g c) (End b c ((checks g.ref hs).bind fun m => play b.clk k ms g.dut m)) := by
  induction k with
  | ret u =>
    intro f ms hs g c hN hms
    refine ToSt.to (test_ret hN) ?_
    have := fini_end (b := b) N ms hs g c
    cases h : checks g.ref hs <;> (rw [h] at this; exact this)
  | read r ih =>
    intro f ms hs g c hN hms
    refine ToSt.to ?_ (ih g.dut f ms hs g c hN hms)
    unfold testing
    exact To.one (fun s h => exComp (g := g) (k' := .test (r g.dut)) h rfl rfl) To.refl
  | write w k ih =>
    intro f ms hs g c hN hms
    refine ToSt.to ?_ (ih f ms hs { g with dut := w g.dut } c hN hms)
    unfold testing
    exact To.one (fun s h => exComp (g := { g with dut := w g.dut }) (k' := .test k) h rfl rfl) To.refl
  | step k ih =>
    intro f ms hs g c hN hms
    refine ToSt.to (test_step hN) ?_
    cases h : checks g.ref hs with
    | none => exact fail_end rfl rfl rfl (quiet_list rfl rfl ms) rfl rfl ⟨_, rfl⟩ h
    | some m =>
      refine ToSt.to (idle_step hN hms h) ?_
      have := ih false (cycle ms (b.clk g.dut)).2.1 (cycle ms (b.clk g.dut)).2.2 ⟨(cycle ms (b.clk g.dut)).1, m⟩ (c + 1)
        (by rw [cycle_length, hN]) (by rw [cycle_fst]; exact hms)
      simp only [Option.bind_some, play]
      cases h1 : checks m (cycle ms (b.clk g.dut)).2.2 with
      | none => simp only [h1, Option.bind_none] at this; exact this
      | some m1 =>
        simp only [h1, Option.bind_some] at this
        dsimp only
        cases h2 : play b.clk k (cycle ms (b.clk g.dut)).2.1 (cycle ms (b.clk g.dut)).1 m1 with
        | none => rw [h2] at this; exact this
        | some r =>
          rw [h2] at this
          intro s hs'
          obtain ⟨n, hp, h3, h4, h5⟩ := this s hs'
          exact ⟨n, hp, h3, h4, by rw [h5]; show _ = c + (r.2.2 + 1) + 2; omega⟩

end Toffee.BenchMon
