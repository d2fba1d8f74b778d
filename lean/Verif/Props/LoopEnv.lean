import Verif.Props.LoopFifo
/-!
C88: `run(test, env_handle)`: the test runs in a task of its own, after everything that was started when
the environment was created, and the run ends as the test does.
-/

namespace Toffee.Props.LoopEnv

open Toffee.Loop Toffee.Props.LoopFifo

variable {σ G V : Type}

/-- The end of `main_coro` with an `env_handle` (`asynchronous.py` 245): `mk` is
`create_task(test(*args))`, reached when `env_handle()` has returned, `aw u` the `await` of the created
task `u`, `fin v` what follows with `ret = v`, `exc` the exception handler (none: `main_coro` raises). -/
structure EnvCode (sys : Sys σ G V) (test mk : σ) (aw : Nat → σ) (fin : V → σ) (exc : σ) : Prop where
  create : ∀ g, sys.prog mk g = .spawn test aw
  await : ∀ u g, sys.prog (aw u) g = .join u fin exc
  ret : ∀ v g, sys.prog (fin v) g = .ret v
  raise : ∀ g, ∃ b, sys.prog exc g = .raise b

/-- Executions from `s0`. -/
inductive From (sys : Sys σ G V) (s0 : St σ G V) : St σ G V → Prop where
  | refl : From sys s0 s0
  | step {s} (due : List Nat) : From sys s0 s → From sys s0 (step sys due s)

section
variable {sys : Sys σ G V} {g : G} {k0 test mk exc : σ} {aw : Nat → σ} {fin : V → σ}

/-- Where `main_coro` is after the creation of the task `u` of the test. -/
inductive Pos (test : σ) (aw : Nat → σ) (fin : V → σ) (exc : σ) (u : Nat) (s : St σ G V) : Prop where
  | made (h : s.cur = some (0, aw u))
  | waits (h : Susp (.join u fin exc) 0 s)
  | got (v : V) (h : s.cur = some (0, fin v)) (hu : DoneAs u (some v) s)
  | raises (h : s.cur = some (0, exc)) (hu : s.failed u = true)
  | final (v : V) (h : Susp (.final v) 0 s) (hu : DoneAs u (some v) s)
  | over (v : V) (h : DoneAs 0 (some v) s) (hu : DoneAs u (some v) s)
  | none (h : DoneAs 0 none s) (hu : DoneAs u none s) (hf : s.failed 0 = s.failed u)

theorem failed_done {s : St σ G V} (hi : Loop.Inv s) {t : Nat} {r : Option V} (h : DoneAs t r s)
    (due : List Nat) : (step sys due s).failed t = s.failed t := by
  rcases fail_case sys due s with h1 | ⟨v, k, held, hc, _, h1⟩ | ⟨pre, x, rest, _, h1⟩
  · rw [h1.1]
  · rw [h1, fail_failed]
    have hne : t ≠ v := by
      rintro rfl
      have := (hi.core.hcur t).2 (by rw [hc]; rfl)
      rw [h.1] at this; cases this
    simp [upd, hne]
  · rw [h1, raised_failed]

theorem failed_of_not {s : St σ G V} (hr : Reach sys g k0 s) {t : Nat} (h : s.st t ≠ .done none) :
    s.failed t = false := by
  cases hf : s.failed t with
  | false => rfl
  | true => exact absurd (reach_failed hr t hf).1 h

theorem pos_step (hc : EnvCode sys test mk aw fin exc) {u : Nat} {s : St σ G V}
    (hr : Reach sys g k0 s) (hb : Born test u s) (h : Pos test aw fin exc u s) (due : List Nat) :
    Pos test aw fin exc u (step sys due s) := by
  have hi := reach_inv hr
  have hr' : Reach sys g k0 (step sys due s) := .step due hr
  have hrun : ∀ k, s.cur = some (0, k) → s.st 0 = .running ∧ 0 < s.n := by
    intro k h
    have := hi.core
    unfold InvS at this
    rw [h] at this
    exact ⟨running_of this, this.lt_of_running⟩
  -- the task of the test has ended without a result and without an exception
  have hnone : s.st 0 ≠ .done none → DoneAs u none s → s.failed u = false →
      step sys due s = finish 0 none s ∨ (∃ rest, step sys due s = finish 0 none { s with batch := rest }) →
      0 < s.n → Pos test aw fin exc u (step sys due s) := by
    intro h0 hu hf he hn
    have hd : DoneAs 0 none (step sys due s) := by
      rcases he with he | ⟨rest, he⟩ <;> rw [he]
      · exact finish_self none hn
      · exact finish_self none (s := { s with batch := rest }) hn
    have hff : (step sys due s).failed = s.failed := by
      rcases he with he | ⟨rest, he⟩ <;> rw [he]
      · exact (finish_sameF 0 none s).1
      · exact (finish_sameF 0 none { s with batch := rest }).1
    exact .none hd (step_done sys due hi hu) (by rw [hff, hf]; exact failed_of_not hr h0)
  cases h with
  | made h =>
    have hst : step sys due s = exec 0 (.join u fin exc) s := by
      unfold step; rw [h]; simp only [hc.await]
    obtain ⟨h0, hn⟩ := hrun _ h
    cases hu : s.st u with
    | done r =>
      cases r with
      | some v =>
        refine .got v ?_ (step_done sys due hi ⟨hu, hb.2⟩)
        rw [hst]; unfold exec; simp only [hu]
      | none =>
        cases hf : s.failed u with
        | true =>
          refine .raises ?_ (failed_mono sys due hf)
          rw [hst]; unfold exec; simp only [hu, hf, if_true]
        | false =>
          refine hnone (by rw [h0]; intro e; cases e) ⟨hu, hb.2⟩ hf (.inl ?_) hn
          rw [hst]; unfold exec; simp only [hu, hf]; rfl
    | _ =>
      refine .waits (.inl ?_)
      rw [hst]; unfold exec; simp only [hu]
      exact upd_self s.st 0 _
  | waits h =>
    rcases susp_step sys due hi h with h1 | h1 | ⟨rest, hbt, hcu, hf0, hst⟩
    · exact .waits h1
    · exact absurd rfl h1.1
    · have hn : 0 < s.n := hi.core.lt_of_not_done (by rw [hf0]; rfl)
      have hd : isDone (s.st u) = true := (hi.core.hjfin 0 u fin exc hf0).1
      cases hu : s.st u with
      | done r =>
        cases r with
        | some v =>
          refine .got v ?_ (step_done sys due hi ⟨hu, hb.2⟩)
          rw [hst]; unfold resume; simp only [hf0, hu]
        | none =>
          cases hf : s.failed u with
          | true =>
            refine .raises ?_ (failed_mono sys due hf)
            rw [hst]; unfold resume; simp only [hf0, hu, hf, if_true]
          | false =>
            refine hnone (by rw [hf0]; intro e; cases e) ⟨hu, hb.2⟩ hf (.inr ⟨rest, ?_⟩) hn
            rw [hst]; unfold resume; simp only [hf0, hu, hf]; rfl
      | _ => rw [hu] at hd; cases hd
  | got v h hu =>
    have hst : step sys due s = exec 0 (.ret v) s := by
      unfold step; rw [h]; simp only [hc.ret]
    obtain ⟨_, hn⟩ := hrun _ h
    have hu' := step_done sys due hi hu
    by_cases hx : s.clock = .off ∨ s.ev 0 = true
    · refine .over v ?_ hu'
      rw [hst]; unfold exec; simp only [if_true, if_pos hx]
      exact finish_self (some v) (s := note .testDone { s with testDone := true }) hn
    · refine .final v (.inl ?_) hu'
      rw [hst]; unfold exec; simp only [if_true, if_neg hx]
      exact upd_self s.st 0 _
  | raises h hu =>
    obtain ⟨b, hb'⟩ := hc.raise s.g
    have hst : step sys due s = fail 0 b s := by
      unfold step; rw [h]; simp only [hb']; rfl
    have hf0 : (step sys due s).failed 0 = true := by rw [hst, fail_failed]; exact upd_self ..
    have hfu := failed_mono sys due hu
    exact .none (reach_failed hr' 0 hf0) (reach_failed hr' u hfu) (hf0.trans hfu.symm)
  | final v h hu =>
    have hu' := step_done sys due hi hu
    rcases susp_step sys due hi h with h1 | h1 | ⟨rest, hbt, hcu, hf0, hst⟩
    · exact .final v h1 hu'
    · exact absurd rfl h1.1
    · have hn : 0 < s.n := hi.core.lt_of_not_done (by rw [hf0]; rfl)
      refine .over v ?_ hu'
      rw [hst]; unfold resume; simp only [hf0]
      exact finish_self (some v) (s := note (.resume 0) { s with batch := rest }) hn
  | over v h hu => exact .over v (step_done sys due hi h) (step_done sys due hi hu)
  | none h hu hf =>
    exact .none (step_done sys due hi h) (step_done sys due hi hu)
      (by rw [failed_done hi h, failed_done hi hu, hf])

theorem pos_of (hc : EnvCode sys test mk aw fin exc) {s0 s : St σ G V} {due : List Nat}
    (h0 : Reach sys g k0 s0) (hcu : s0.cur = some (0, mk)) (hs : From sys (step sys due s0) s) :
    Reach sys g k0 s ∧ Born test s0.n s ∧ Pos test aw fin exc s0.n s := by
  have e1 : step sys due s0 = exec 0 (.spawn test aw) s0 := by
    unfold step; rw [hcu]; simp only [hc.create]
  induction hs with
  | refl =>
    refine ⟨.step due h0, ?_, .made (by rw [e1]; rfl)⟩
    rw [e1]
    exact ⟨upd_self .., Nat.lt_succ_self _⟩
  | @step s d hs ih =>
    exact ⟨.step d ih.1, (step_grows sys d s).born _ _ ih.2.1, pos_step hc ih.1 ih.2.1 ih.2.2 d⟩

/-- C88: when `run(test, env_handle)` ends, the test (the task created last by `main_coro`) has ended, and
in the same way: with the returned value; with an exception if and only if the run raises it. -/
theorem C88_ends_as_test (hc : EnvCode sys test mk aw fin exc) (s0 s : St σ G V) (due : List Nat)
    (h0 : Reach sys g k0 s0) (hcu : s0.cur = some (0, mk)) (hs : From sys (step sys due s0) s)
    (r : Option V) (hd : s.st 0 = .done r) :
    s.orig s0.n = some test ∧ s.st s0.n = .done r ∧ s.failed 0 = s.failed s0.n := by
  obtain ⟨hr, hb, hp⟩ := pos_of hc h0 hcu hs
  refine ⟨hb.1, ?_⟩
  have hrun : ∀ k, s.cur ≠ some (0, k) := by
    intro k h
    have := ((reach_inv hr).core.hcur 0).2 (by rw [h]; rfl)
    rw [hd] at this; cases this
  cases hp with
  | made h => exact absurd h (hrun _)
  | waits h => rcases h with h | h <;> rw [hd] at h <;> cases h
  | got v h _ => exact absurd h (hrun _)
  | raises h _ => exact absurd h (hrun _)
  | final v h _ => rcases h with h | h <;> rw [hd] at h <;> cases h
  | over v h hu =>
    have : r = some v := by have := h.1; rw [hd] at this; injection this
    subst this
    refine ⟨hu.1, ?_⟩
    rw [failed_of_not hr (by rw [hd]; intro e; cases e),
      failed_of_not hr (by rw [hu.1]; intro e; cases e)]
  | none h hu hf =>
    have : r = none := by have := h.1; rw [hd] at this; injection this
    subst this
    exact ⟨hu.1, hf⟩

/-- C88: every task started while the environment was created (the monitors, the `main` wrappers of the
components, the tasks of `env_handle`) runs before the test does. -/
theorem C88_environment_first (hc : EnvCode sys test mk aw fin exc) (s0 s : St σ G V) (due : List Nat)
    (h0 : Reach sys g k0 s0) (hcu : s0.cur = some (0, mk)) (a : Nat) (k : σ)
    (ha : s0.st a = .ready k) (hs : Before sys a (step sys due s0) s) (k' : σ) :
    (step sys due s0).orig s0.n = some test ∧ s.cur ≠ some (s0.n, k') := by
  have e1 : step sys due s0 = exec 0 (.spawn test aw) s0 := by
    unfold step; rw [hcu]; simp only [hc.create]
  have hne : ∀ k'', s0.cur ≠ some (a, k'') := by
    intro k'' h
    have := ((reach_inv h0).core.hcur a).2 (by rw [h]; rfl)
    rw [ha] at this; cases this
  refine ⟨by rw [e1]; exact upd_self .., ?_⟩
  have hall : Before sys a s0 s := by
    clear k'
    induction hs with
    | refl => exact .step due .refl hne
    | step d _ hx ih => exact .step d ih hx
  exact C85_first_come a s0.n k s0 s h0 ha (.inl (Nat.le_refl _)) hall k'

end

/-! ### A concrete system -/

/-- `env_handle` starts the clock and a task (1) that waits for two clock events; the test (task 2)
waits for one and returns 7, or raises when `g` is 1. -/
inductive K where
  | env | env1 | mk | aw (u : Nat) | fin (v : Nat) | exc | bg (n : Nat) | test | test1
deriving DecidableEq

def demo : Sys K Nat Nat where
  prog k g := match k with
    | .env => .startClock .env1
    | .env1 => .spawn (.bg 2) (fun _ => .mk)
    | .mk => .spawn .test .aw
    | .aw u => .join u .fin .exc
    | .fin v => .ret v
    | .exc => .raise true
    | .bg n => match n with
      | 0 => .ret 0
      | n + 1 => .waitEv 0 (.bg n)
    | .test => .waitEv 0 .test1
    | .test1 => if g = 1 then .raise true else .ret 7
  dutStep g := g
  sample g := g

theorem demo_code : EnvCode demo .test .mk .aw .fin .exc :=
  ⟨fun _ => rfl, fun _ _ => rfl, fun _ _ => rfl, fun _ => ⟨true, rfl⟩⟩

theorem from_iter {sys : Sys σ G V} {s0 s : St σ G V} (n : Nat) (h : From sys s0 s) :
    From sys s0 (iter sys n s) := by
  induction n generalizing s with
  | zero => exact h
  | succ n ih => exact ih (.step [] h)

/-- `main_coro` after `env_handle()`. -/
def s0 (g : Nat) : St K Nat Nat := iter demo 4 (init g .env)

example (g : Nat) : Reach demo g .env (s0 g) := reach_iter 4 .init

/-- Task 1 of the environment is ready when the test is created (as task 2). -/
example : (s0 0).cur = some (0, .mk) ∧ (s0 0).n = 2 ∧ (s0 0).st 1 = .ready (.bg 2) :=
  ⟨by decide +kernel, by decide +kernel, rfl⟩

/-- The run returns what the test returned, -/
example : (iter demo 40 (step demo [] (s0 0))).st 0 = .done (some 7) := rfl

/-- or fails as it did. -/
example : (iter demo 40 (step demo [] (s0 1))).st 0 = .done none ∧
    (iter demo 40 (step demo [] (s0 1))).failed 2 = true := ⟨rfl, by decide +kernel⟩

end Toffee.Props.LoopEnv
