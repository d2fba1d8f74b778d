import Verif.Props.LoopCycles
import Verif.Props.LoopCall
/-!
C87: the main function of a component starts one clock cycle after the component was created.
-/

namespace Toffee.Props.LoopComponent

open Toffee.Loop Toffee.Props.LoopCycles

variable {σ G V : Type}

/-- `Component.__main_wrapper` (`asynchronous.py` 326-335): `lp` is the head of the loop, `has g` says
whether the event loop has the attribute `global_clock_event`, `wt` is
`await loop.global_clock_event.wait()`, `mn` the begin of `main`. -/
structure ComponentCode (sys : Sys σ G V) (has : G → Bool) (lp wt mn : σ) : Prop where
  spin : ∀ g, has g = false → sys.prog lp g = .yield lp
  found : ∀ g, has g = true → sys.prog lp g = .comp g wt
  wait : ∀ g, sys.prog wt g = .waitEv 0 mn
  lp_mn : lp ≠ mn
  wt_mn : wt ≠ mn

section
variable {sys : Sys σ G V} {g : G} {k0 lp wt mn : σ} {has : G → Bool}

/-- Where the wrapper is before `main` starts; `c` is the cycle in which the component was created. -/
inductive Pos (sys : Sys σ G V) (g : G) (k0 lp wt mn : σ) (t c : Nat) (s : St σ G V) : Prop where
  | ready (h : s.st t = .ready lp) (hc : s.cycles = c)
  | head (h : s.cur = some (t, lp)) (hc : s.cycles = c)
  | waits (s1 : St σ G V) (h1 : Reach sys g k0 s1) (hcu : s1.cur = some (t, wt))
      (hc : s1.cycles = c) (h : Until sys t mn s1 s)

theorem pos_step (hc : ComponentCode sys has lp wt mn) {t c : Nat} {s : St σ G V}
    (hr : Reach sys g k0 s) (h : Pos sys g k0 lp wt mn t c s) (hne : s.cur ≠ some (t, mn))
    (due : List Nat) : Pos sys g k0 lp wt mn t c (step sys due s) := by
  cases h with
  | ready h hcy =>
    have hcur : ∀ k, s.cur ≠ some (t, k) := by
      intro k hk
      have := ((reach_inv hr).core.hcur t).2 (by rw [hk]; rfl)
      rw [h] at this; cases this
    obtain ⟨h1, h2, _⟩ := LoopCall.until_ready hr h (.step due .refl hcur)
    rcases h2 with h2 | h2
    · exact .ready h2 (h1.trans hcy)
    · exact .head h2 (h1.trans hcy)
  | head h hcy =>
    have hst : step sys due s = exec t (sys.prog lp s.g) s := by unfold step; rw [h]
    cases hh : has s.g with
    | false =>
      rw [hst, hc.spin _ hh]
      exact .ready (upd_self ..) hcy
    | true =>
      refine .waits _ (.step due hr) ?_ ?_ .refl
      · rw [hst, hc.found _ hh]; rfl
      · rw [hst, hc.found _ hh]; exact hcy
  | waits s1 h1 hcu hcy hu => exact .waits s1 h1 hcu hcy (.step due hu hne)

theorem pos_of (hc : ComponentCode sys has lp wt mn) {s0 s : St σ G V} {u : Nat} {k : σ}
    {kc : Nat → σ} {due : List Nat} (h0 : Reach sys g k0 s0) (hcu : s0.cur = some (u, k))
    (hp : sys.prog k s0.g = .spawn lp kc) (hu : Until sys s0.n mn (step sys due s0) s) :
    Pos sys g k0 lp wt mn s0.n s0.cycles s := by
  have e1 : step sys due s0 = exec u (.spawn lp kc) s0 := by unfold step; rw [hcu, ← hp]
  have h1 : Reach sys g k0 (step sys due s0) := .step due h0
  induction hu with
  | refl =>
    rw [e1]
    exact .ready (upd_self ..) rfl
  | step d hu hne ih => exact pos_step hc (hu.reach h1) ih hne d

theorem loop_of (hc : ComponentCode sys has lp wt mn) :
    CycleLoop sys (fun j => if j = 0 then mn else wt) 1 where
  wait j g hj := by
    have : j = 0 := by omega
    subst this
    exact hc.wait g
  after j hj := by simpa using hc.wt_mn

/-- C87: the `main` of a component that is created in clock cycle `c` (while the clock runs, or before it
is started) starts in cycle `c + 1`, whatever the other tasks, hooks and timers do. -/
theorem C87_starts_in_next_cycle (hp : ClockPrivate sys) (hc : ComponentCode sys has lp wt mn)
    (s0 s : St σ G V) (u : Nat) (k : σ) (kc : Nat → σ) (due : List Nat) (h0 : Reach sys g k0 s0)
    (hcu : s0.cur = some (u, k)) (hpr : sys.prog k s0.g = .spawn lp kc)
    (hu : Until sys s0.n mn (step sys due s0) s) (hm : s.cur = some (s0.n, mn)) :
    s.cycles = s0.cycles + 1 := by
  have hr := hu.reach (.step due h0)
  have hrun : isRunning (s.st s0.n) = true := ((reach_inv hr).core.hcur _).2 (by rw [hm]; rfl)
  cases pos_of hc h0 hcu hpr hu with
  | ready h _ => rw [h] at hrun; cases hrun
  | head h _ =>
    rw [hm] at h; injection h with h; injection h with _ h
    exact absurd h.symm hc.lp_mn
  | waits s1 h1 hcu hcy hu =>
    rw [← hcy]
    exact C09_resumes_in_cycle sys g k0 (fun j => if j = 0 then mn else wt) s0.n 1 hp (loop_of hc) s1 s
      h1 hcu hu hm

/-- C87: the clock does not get beyond cycle `c + 1` before `main` starts, unless the test is over and
the component is cancelled. -/
theorem C87_not_later (hp : ClockPrivate sys) (hc : ComponentCode sys has lp wt mn)
    (s0 s : St σ G V) (u : Nat) (k : σ) (kc : Nat → σ) (due : List Nat) (h0 : Reach sys g k0 s0)
    (hcu : s0.cur = some (u, k)) (hpr : sys.prog k s0.g = .spawn lp kc)
    (hu : Until sys s0.n mn (step sys due s0) s) :
    s.cycles ≤ s0.cycles + 1 ∨ s.st s0.n = .done none ∧ Ev.cancelAll ∈ s.log := by
  cases pos_of hc h0 hcu hpr hu with
  | ready h hcy => left; omega
  | head h hcy => left; omega
  | waits s1 h1 hcu hcy hu =>
    rcases C09_not_later sys g k0 (fun j => if j = 0 then mn else wt) s0.n 1 hp (loop_of hc) s1 s s
      h1 hcu hu with h | h
    · left; rw [← hcy]; exact h.1
    · exact .inr h

end

/-! ### A concrete system -/

/-- Task 0 creates a component (task 1), lets it try once, starts the clock and waits for it. -/
inductive K where
  | make | idle | mark | clk | wait (n : Nat) | lp | wt | mn | over
deriving DecidableEq

def demo : Sys K Bool Nat where
  prog k g := match k with
    | .make => .spawn .lp (fun _ => .idle)
    | .idle => .yield .mark
    | .mark => .comp true .clk
    | .clk => .startClock (.wait 3)
    | .wait (n + 1) => .waitEv 0 (.wait n)
    | .wait 0 => .ret 0
    | .lp => if g then .comp g .wt else .yield .lp
    | .wt => .waitEv 0 .mn
    | .mn => .ret 7
    | .over => .ret 0
  dutStep g := g
  sample g := g

theorem demo_code : ComponentCode demo id .lp .wt .mn where
  spin g h := by have h : g = false := h; subst h; rfl
  found g h := by have h : g = true := h; subst h; rfl
  wait g := rfl
  lp_mn := by decide
  wt_mn := by decide

/-- The component is created before the clock is started, and its `main` starts in cycle 1. -/
example : ClockPrivate demo ∧ ∃ s0 s, Reach demo false .make s0 ∧ s0.cur = some (0, .make) ∧
    demo.prog .make s0.g = .spawn .lp (fun _ => .idle) ∧ s0.n = 1 ∧ s0.cycles = 0 ∧
    Until demo 1 .mn (step demo [] s0) s ∧ s.cur = some (1, .mn) ∧ s.cycles = 1 := by
  refine ⟨?_, iter demo 2 (init false .make), iter demo 19 (step demo [] (iter demo 2 (init false .make))),
    reach_iter 2 .init, by decide +kernel, rfl, by decide +kernel, by decide +kernel,
    until_iter 19 .refl (by decide +kernel), by decide +kernel, by decide +kernel⟩
  intro k g
  cases k with
  | wait n => cases n <;> simp [demo]
  | lp => cases g <;> simp [demo]
  | _ => simp [demo]

end Toffee.Props.LoopComponent
