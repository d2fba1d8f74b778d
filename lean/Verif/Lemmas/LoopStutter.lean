import Mathlib.Logic.Function.Iterate
import Verif.Model.Bench

/-! Due timers do not matter to a program that never sleeps: a run with any timer oracle is a run without
due timers, with stutter. -/

namespace Toffee.LoopStutter

open Toffee.Loop

variable {σ G V : Type}

/-- The state with timers due at the end of the batch. -/
def fires (F : List Nat) (s : St σ G V) : St σ G V := { s with batch := s.batch ++ F.map .fire }

variable (F : List Nat)

theorem push_f (h : Handle) (s : St σ G V) : push h (fires F s) = fires F (push h s) := rfl

theorem setEv_f (e : Nat) (s : St σ G V) : setEv e (fires F s) = fires F (setEv e s) := by
  unfold setEv
  show (if s.ev e = true then _ else _) = _
  split <;> rfl

theorem putQ_f (q : Nat) (v : V) (s : St σ G V) : putQ q v (fires F s) = fires F (putQ q v s) := by
  unfold putQ
  show (match s.getters q with | [] => _ | u :: us => _) = _
  cases h : s.getters q <;> rfl

theorem finish_f (t : Nat) (r : Option V) (s : St σ G V) :
    finish t r (fires F s) = fires F (finish t r s) := by
  unfold finish
  split <;> rfl

theorem fail_f (t : Nat) (b : Bool) (s : St σ G V) : fail t b (fires F s) = fires F (fail t b s) := by
  have h : finish t none { fires F s with failed := upd (fires F s).failed t true } =
      fires F (finish t none { s with failed := upd s.failed t true }) :=
    finish_f F t none { s with failed := upd s.failed t true }
  unfold fail
  simp only [h]
  show (if t = 0 ∨ b = true ∨ s.joiners t ≠ [] then _ else _) = _
  split <;> rfl

theorem exec_f (t : Nat) (c : Cmd σ G V) (s : St σ G V) :
    exec t c (fires F s) = fires F (exec t c s) := by
  cases c with
  | ret v =>
    unfold exec
    simp only
    split
    · show (if s.clock = .off ∨ s.ev 0 = true then _ else _) = _
      split
      · exact finish_f F t _ (note .testDone { s with testDone := true })
      · rfl
    · exact finish_f F t _ s
  | raise b => exact fail_f F t b s
  | comp g k => rfl
  | taskRun k => rfl
  | «yield» k => rfl
  | sleep k => rfl
  | waitEv e k =>
    unfold exec
    simp only
    show (if s.ev e = true then _ else _) = _
    split
    · rfl
    · split <;> rfl
  | setEv e k => unfold exec; simp only [setEv_f]; rfl
  | clearEv e k => rfl
  | put q v k => unfold exec; simp only [putQ_f]; rfl
  | get q k =>
    cases h : s.q q <;>
      (have h' : (fires F s).q q = _ := h
       simp only [exec, h, h']
       rfl)
  | spawn s0 k => rfl
  | join u k kx =>
    cases h : s.st u with
    | done r =>
      have h' : (fires F s).st u = _ := h
      cases r with
      | some v =>
        simp only [exec, h, h']
        rfl
      | none =>
        simp only [exec, h, h']
        show (if s.failed u = true then _ else _) = _
        split
        · rfl
        · exact finish_f F t none s
    | _ =>
      have h' : (fires F s).st u = _ := h
      simp only [exec, h, h']
      rfl
  | addHook h p k => rfl
  | startClock k =>
    unfold exec
    show (if s.clock = .off then _ else _) = (fires F (if s.clock = .off then _ else _))
    split <;> rfl

theorem resume_f (t : Nat) (s : St σ G V) : resume t (fires F s) = fires F (resume t s) := by
  cases h : s.st t with
  | fin w =>
    have h' : (fires F s).st t = _ := h
    cases w with
    | ev e k =>
      simp only [resume, h, h']
      split <;> rfl
    | get q k =>
      cases hq : s.q q <;>
        (have hq' : (fires F s).q q = _ := hq
         simp only [resume, h, h', hq, hq']
         rfl)
    | join u k kx =>
      simp only [resume, h, h']
      cases hu : s.st u with
      | done r =>
        have hu' : (fires F s).st u = _ := hu
        cases r with
        | some v =>
          simp only [hu']
          rfl
        | none =>
          simp only [hu']
          show (if s.failed u = true then _ else _) = _
          split
          · rfl
          · exact finish_f F t none s
      | _ =>
        have hu' : (fires F s).st u = _ := hu
        simp only [hu']
        show (if s.failed u = true then _ else _) = _
        split
        · rfl
        · exact finish_f F t none s
    | timer k =>
      simp only [resume, h, h']
      rfl
    | final v =>
      simp only [resume, h, h']
      exact finish_f F t _ (note (.resume t) s)
  | _ =>
    have h' : (fires F s).st t = _ := h
    simp only [resume, h, h']
    try rfl

theorem runEff_f (s : St σ G V) (e : Eff σ V) : runEff (fires F s) e = fires F (runEff s e) := by
  cases e with
  | setEv e => exact setEv_f F e s
  | put q v => exact putQ_f F q v s
  | spawn k => rfl

theorem effs_f (l : List (Eff σ V)) (s : St σ G V) :
    l.foldl runEff (fires F s) = fires F (l.foldl runEff s) := by
  induction l generalizing s with
  | nil => rfl
  | cons e l ih => rw [List.foldl_cons, List.foldl_cons, runEff_f, ih]

theorem runHook_f (s : St σ G V) (h : (Nat × Hook σ G V) × Int) :
    runHook (fires F s) h = fires F (runHook s h) := by
  have h1 := effs_f F (h.1.2.run s.g).2
    { note (.exec h.1.1 h.1.2.done.isSome) s with g := (h.1.2.run s.g).1 }
  unfold runHook
  cases hd : h.1.2.done with
  | none => rw [hd] at h1; exact h1
  | some e => rw [hd] at h1; exact (congrArg (setEv e) h1).trans (setEv_f F e _)

theorem hooks_f (l : List ((Nat × Hook σ G V) × Int)) (s : St σ G V) :
    l.foldl runHook (fires F s) = fires F (l.foldl runHook s) := by
  induction l generalizing s with
  | nil => rfl
  | cons e l ih => rw [List.foldl_cons, List.foldl_cons, runHook_f, ih]

theorem raising_f (l : List ((Nat × Hook σ G V) × Int)) (ran : List Nat) (s : St σ G V) :
    raising l ran (fires F s) = (raising l ran s).map fun r => (r.1, fires F r.2) := by
  induction l generalizing s ran with
  | nil => rfl
  | cons h l ih =>
    unfold raising
    show (if h.1.2.fails s.g = true then _ else _) = _
    split
    · have h1 := effs_f F (h.1.2.run s.g).2 { note (.hookRaise h.1.1) s with g := (h.1.2.run s.g).1 }
      exact congrArg (fun x => some (ran ++ [h.1.1], x)) h1
    · rw [runHook_f, ih]

theorem callbacks_f (sys : Sys σ G V) (s : St σ G V) :
    callbacks sys (fires F s) = ((callbacks sys s).1, fires F (callbacks sys s).2) := by
  have h := hooks_f F (Priority.sorted s.hooks) s
  unfold callbacks
  simp only [show (fires F s).hooks = s.hooks from rfl, h]
  rfl

theorem cancelAll_f (s : St σ G V) : cancelAll (fires F s) = fires F (cancelAll s) := by
  unfold cancelAll fires note
  simp only [List.filter_append]
  congr 2
  rw [List.filter_eq_self]
  intro x hx
  obtain ⟨t, _, rfl⟩ := List.mem_map.mp hx
  rfl

theorem doStep_f (sys : Sys σ G V) (s : St σ G V) :
    doStep sys (fires F s) = fires F (doStep sys s) := by
  have h := setEv_f F 0 (note .step { s with g := sys.dutStep s.g, cycles := s.cycles + 1 })
  unfold doStep
  exact congrArg (fun s2 : St σ G V => clockYield { s2 with ev := upd s2.ev 0 false }) h

theorem hasUnwait_f (s : St σ G V) : hasUnwait (fires F s) = hasUnwait s := rfl

theorem runClock_f (sys : Sys σ G V) (s : St σ G V) :
    runClock sys (fires F s) = fires F (runClock sys s) := by
  cases hc : s.clock with
  | check =>
    have hc' : (fires F s).clock = _ := hc
    simp only [runClock, clockTurn, hc, hc', hasUnwait_f, show (fires F s).flag = s.flag from rfl,
      show (fires F s).hooks = s.hooks from rfl, raising_f, callbacks_f]
    by_cases h1 : (hasUnwait s || s.flag) = true
    · simp only [h1, if_true]; rfl
    · simp only [h1]
      cases h2 : raising (Priority.sorted s.hooks) [] s with
      | some r => rfl
      | none =>
        simp only [Option.map_none]
        by_cases h3 : (callbacks sys s).1 = true
        · simp only [h3, if_true]; rfl
        · simp only [h3]
          by_cases h4 : (callbacks sys s).2.testDone = true
          · simp only [show (fires F (callbacks sys s).2).testDone = (callbacks sys s).2.testDone from rfl,
              h4, if_true, cancelAll_f]
            rfl
          · simp only [show (fires F (callbacks sys s).2).testDone = (callbacks sys s).2.testDone from rfl,
              h4]
            exact doStep_f F sys _
  | afterCancel =>
    have hc' : (fires F s).clock = _ := hc
    simp only [runClock, clockTurn, hc, hc']
    exact doStep_f F sys _
  | _ =>
    have hc' : (fires F s).clock = _ := hc
    simp only [runClock, clockTurn, hc, hc']
    try rfl

/-! ### No task waits for a timer -/

/-- No task waits for a timer. -/
def NT (s : St σ G V) : Prop := ∀ t k, s.st t ≠ .pend (.timer k)

variable {F}

theorem NT.upd' {s : St σ G V} (h : NT s) (t : Nat) (x : Status σ V) (hx : ∀ k, x ≠ .pend (.timer k)) :
    ∀ u k, upd s.st t x u ≠ .pend (.timer k) := by
  intro u k
  unfold upd
  split
  · exact hx k
  · exact h u k

theorem NT.wake {s : St σ G V} (h : NT s) (ts : List Nat) : NT (wake ts s) := by
  intro u k
  show (if u ∈ ts then (s.st u).finish else s.st u) ≠ _
  split
  · cases hs : s.st u <;> simp [Status.finish]
  · exact h u k

theorem NT.setEv {s : St σ G V} (h : NT s) (e : Nat) : NT (setEv e s) := by
  unfold Loop.setEv
  split
  · exact h
  · exact h.wake _

theorem NT.putQ {s : St σ G V} (h : NT s) (q : Nat) (v : V) : NT (putQ q v s) := by
  unfold Loop.putQ
  simp only
  cases s.getters q with
  | nil => exact h
  | cons u us => exact fun t k => NT.wake (s := { s with q := _, putH := _ }) h [u] t k

theorem NT.finish {s : St σ G V} (h : NT s) (t : Nat) (r : Option V) : NT (finish t r s) := by
  unfold Loop.finish
  simp only
  split
  · exact fun u k => NT.wake (s := push .stop { s with st := upd s.st t (.done r), cur := none })
      (h.upd' t _ (by simp)) _ u k
  · exact fun u k => NT.wake (s := { s with st := upd s.st t (.done r), cur := none })
      (h.upd' t _ (by simp)) _ u k

theorem NT.fail {s : St σ G V} (h : NT s) (t : Nat) (b : Bool) : NT (fail t b s) := by
  unfold Loop.fail
  simp only
  split
  · exact NT.finish (s := { s with failed := upd s.failed t true }) h t none
  · exact NT.finish (s := { s with failed := upd s.failed t true }) h t none

theorem NT.spawn {s : St σ G V} (h : NT s) (k : σ) : NT (spawn k s) :=
  h.upd' _ _ (by simp)

theorem NT.exec {s : St σ G V} (h : NT s) (t : Nat) (c : Cmd σ G V) (hc : ∀ k, c ≠ .sleep k) :
    NT (exec t c s) := by
  cases c with
  | ret v =>
    unfold Loop.exec
    simp only
    split
    · split
      · exact NT.finish (s := note .testDone { s with testDone := true }) h t _
      · exact h.upd' t _ (by simp)
    · exact h.finish t _
  | raise b => exact h.fail t b
  | comp g k => exact h
  | taskRun k => exact h
  | «yield» k => exact h.upd' t _ (by simp)
  | sleep k => exact absurd rfl (hc k)
  | waitEv e k =>
    unfold Loop.exec
    simp only
    split
    · exact h
    · split <;> exact h.upd' t _ (by simp)
  | setEv e k => exact h.setEv e
  | clearEv e k => exact h
  | put q v k => exact h.putQ q v
  | get q k =>
    unfold Loop.exec
    simp only
    split
    · exact h.upd' t _ (by simp)
    · exact h
  | spawn s0 k => exact h.spawn s0
  | join u k kx =>
    unfold Loop.exec
    simp only
    split
    · exact h
    · split
      · exact h
      · exact h.finish t none
    · exact h.upd' t _ (by simp)
  | addHook h' p k => exact h
  | startClock k =>
    unfold Loop.exec
    simp only
    split <;> exact h

theorem NT.resume {s : St σ G V} (h : NT s) (t : Nat) : NT (resume t s) := by
  unfold Loop.resume
  simp only
  split
  · exact h.upd' t _ (by simp)
  · split <;> exact h.upd' t _ (by simp)
  · exact h.upd' t _ (by simp)
  · split <;> exact h.upd' t _ (by simp)
  · split
    · exact h.upd' t _ (by simp)
    · split
      · exact h.upd' t _ (by simp)
      · exact h.finish t none
  · exact NT.finish (s := note (.resume t) s) h t _
  · exact h

theorem NT.runEff {s : St σ G V} (h : NT s) (e : Eff σ V) : NT (runEff s e) := by
  cases e with
  | setEv e => exact h.setEv e
  | put q v => exact h.putQ q v
  | spawn k => exact h.spawn k

theorem NT.effs {s : St σ G V} (h : NT s) (l : List (Eff σ V)) : NT (l.foldl Loop.runEff s) := by
  induction l generalizing s with
  | nil => exact h
  | cons e l ih => exact ih (h.runEff e)

theorem NT.runHook {s : St σ G V} (h : NT s) (x : (Nat × Hook σ G V) × Int) : NT (runHook s x) := by
  have h1 : NT ((x.1.2.run s.g).2.foldl Loop.runEff
    { note (.exec x.1.1 x.1.2.done.isSome) s with g := (x.1.2.run s.g).1 }) :=
    NT.effs (s := { note (.exec x.1.1 x.1.2.done.isSome) s with g := (x.1.2.run s.g).1 }) h _
  unfold Loop.runHook
  simp only
  split
  · exact h1.setEv _
  · exact h1

theorem NT.hooks {s : St σ G V} (h : NT s) (l : List ((Nat × Hook σ G V) × Int)) :
    NT (l.foldl Loop.runHook s) := by
  induction l generalizing s with
  | nil => exact h
  | cons e l ih => exact ih (h.runHook e)

theorem NT.raising {s : St σ G V} (h : NT s) (l : List ((Nat × Hook σ G V) × Int)) (ran : List Nat)
    (r : List Nat × St σ G V) (hr : raising l ran s = some r) : NT r.2 := by
  induction l generalizing s ran with
  | nil => cases hr
  | cons x l ih =>
    unfold Loop.raising at hr
    split at hr
    · cases hr
      exact NT.effs (s := { note (.hookRaise x.1.1) s with g := (x.1.2.run s.g).1 }) h _
    · exact ih (h.runHook x) _ hr

theorem NT.doStep {s : St σ G V} (h : NT s) (sys : Sys σ G V) : NT (doStep sys s) := by
  have : NT (Loop.setEv 0 (note .step { s with g := sys.dutStep s.g, cycles := s.cycles + 1 })) :=
    NT.setEv (s := note .step { s with g := sys.dutStep s.g, cycles := s.cycles + 1 }) h 0
  exact this

theorem NT.runClock {s : St σ G V} (h : NT s) (sys : Sys σ G V) : NT (runClock sys s) := by
  have hcb : NT (callbacks sys s).2 := h.hooks (Priority.sorted s.hooks)
  cases hc : s.clock with
  | check =>
    simp only [Loop.runClock, clockTurn, hc]
    by_cases h1 : (hasUnwait s || s.flag) = true
    · simp only [h1, if_true]; exact h
    · simp only [h1]
      cases h2 : Loop.raising (Priority.sorted s.hooks) [] s with
      | some r => exact h.raising _ _ r h2
      | none =>
        by_cases h3 : (callbacks sys s).1 = true
        · simp only [h3, if_true]; exact hcb
        · simp only [h3]
          by_cases h4 : (callbacks sys s).2.testDone = true
          · simp only [h4, if_true]
            intro t k
            show (if t = 0 then (callbacks sys s).2.st t else _) ≠ _
            split
            · exact hcb t k
            · cases (callbacks sys s).2.st t <;> simp
          · simp only [h4]
            exact hcb.doStep sys
  | afterCancel =>
    simp only [Loop.runClock, clockTurn, hc]
    exact h.doStep sys
  | begin =>
    simp only [Loop.runClock, clockTurn, hc]
    exact h
  | _ =>
    simp only [Loop.runClock, clockTurn, hc]
    exact h

theorem NT.step {s : St σ G V} (h : NT s) (sys : Sys σ G V)
    (hp : ∀ k g k', sys.prog k g ≠ .sleep k') (due : List Nat) : NT (step sys due s) := by
  unfold Loop.step
  split
  · exact h.exec _ _ (hp _ _)
  · split
    · rename_i x rest _
      cases x with
      | task t => exact NT.resume (s := { s with batch := rest }) h t
      | clock => exact NT.runClock (s := { s with batch := rest }) h sys
      | stop => exact h
      | fire t =>
        unfold runHandle
        simp only
        split
        · exact NT.wake (s := { s with batch := rest }) h _
        · exact h
    · split
      · exact h
      · exact h

/-! ### Stutter -/

theorem fires_nil (s : St σ G V) : fires [] s = s := by
  unfold fires
  simp

theorem step_cons (sys : Sys σ G V) (due : List Nat) {s : St σ G V} {x : Handle} {rest : List Handle}
    (hc : s.cur = none) (hb : s.batch = x :: rest) :
    step sys due s = runHandle sys x { s with batch := rest } := by
  obtain ⟨g, n, st, b, r, e, w, q, gt, j, h, nh, fl, td, c, cu, sp, fd, ab, cy, o, ph, gh, l⟩ := s
  subst hc hb
  rfl

/-- As long as there is something else to do, due timers change nothing. -/
theorem step_f (sys : Sys σ G V) (due : List Nat) (s : St σ G V) (h : s.cur ≠ none ∨ s.batch ≠ [])
    (ht : NT s) (F : List Nat) : step sys due (fires F s) = fires F (step sys [] s) := by
  cases hc : s.cur with
  | some tk =>
    obtain ⟨t, k⟩ := tk
    have hc' : (fires F s).cur = some (t, k) := hc
    unfold step
    rw [hc, hc']
    exact exec_f F t _ s
  | none =>
    have hc' : (fires F s).cur = none := hc
    cases hb : s.batch with
    | nil => simp [hc, hb] at h
    | cons x rest =>
      have hb' : (fires F s).batch = x :: (rest ++ F.map .fire) := by
        show s.batch ++ _ = _
        rw [hb]; rfl
      rw [step_cons sys due hc' hb', step_cons sys [] hc hb]
      show runHandle sys x (fires F { s with batch := rest }) = _
      cases x with
      | task t => exact resume_f F t _
      | clock => exact runClock_f F sys _
      | stop => rfl
      | fire t =>
        unfold runHandle
        cases hs : s.st t with
        | pend w =>
          cases w with
          | timer k => exact absurd hs (ht t k)
          | _ =>
            have h1 : (fires F { s with batch := rest }).st t = _ := hs
            simp only [h1, hs]
        | _ =>
          have h1 : (fires F { s with batch := rest }).st t = _ := hs
          simp only [h1, hs]

/-- Timers that are due are used up without effect. -/
theorem drain (sys : Sys σ G V) (due : List Nat) (s : St σ G V) (hc : s.cur = none) (hb : s.batch = [])
    (ht : NT s) (f : Nat) (F : List Nat) : step sys due (fires (f :: F) s) = fires F s := by
  have hc' : (fires (f :: F) s).cur = none := hc
  have hb' : (fires (f :: F) s).batch = .fire f :: F.map .fire := by
    show s.batch ++ _ = _
    rw [hb]; rfl
  have e : { fires (f :: F) s with batch := F.map .fire } = fires F s := by
    unfold fires; simp [hb]
  rw [step_cons sys due hc' hb', e]
  unfold runHandle
  cases hs : s.st f with
  | pend w =>
    cases w with
    | timer k => exact absurd hs (ht f k)
    | _ =>
      have h1 : (fires F s).st f = _ := hs
      simp only [h1]
  | _ =>
    have h1 : (fires F s).st f = _ := hs
    simp only [h1]

theorem run_nt (sys : Sys σ G V) (hp : ∀ k g k', sys.prog k g ≠ .sleep k') {s : St σ G V} (ht : NT s)
    (m : Nat) : NT ((step sys [])^[m] s) := by
  induction m with
  | zero => exact ht
  | succ m ih => rw [Function.iterate_succ_apply']; exact ih.step sys hp []

/-- Whatever the run without due timers gets to, the run with due timers gets to. -/
theorem lift (sys : Sys σ G V) (hp : ∀ k g k', sys.prog k g ≠ .sleep k') (due : Nat → List Nat)
    {s : St σ G V} (ht : NT s) (m : Nat) :
    ∃ n F, Bench.runFor sys due s n = fires F ((step sys [])^[m] s) := by
  induction m with
  | zero => exact ⟨0, [], (fires_nil s).symm⟩
  | succ m ih =>
    obtain ⟨n, F, hn⟩ := ih
    rw [Function.iterate_succ_apply']
    have hm := run_nt sys hp ht m
    generalize (step sys [])^[m] s = u at *
    by_cases h : u.cur ≠ none ∨ u.batch ≠ []
    · exact ⟨n + 1, F, by show step sys (due n) _ = _; rw [hn]; exact step_f sys _ u h hm F⟩
    · have hc : u.cur = none := by
        cases hu : u.cur with
        | none => rfl
        | some x => exact absurd (Or.inl (by simp [hu])) h
      have hb : u.batch = [] := by
        cases hu : u.batch with
        | nil => rfl
        | cons x l => exact absurd (Or.inr (by simp [hu])) h
      have key : ∃ n', Bench.runFor sys due s n' = u := by
        induction F generalizing n with
        | nil => exact ⟨n, by rw [hn, fires_nil]⟩
        | cons f F ih =>
          exact ih (n + 1) (by show step sys (due n) _ = _; rw [hn]; exact drain sys _ u hc hb hm f F)
      obtain ⟨n', hn'⟩ := key
      by_cases hs : u.stopping = true
      · refine ⟨n', [], ?_⟩
        rw [fires_nil, hn']
        unfold step
        rw [hc]
        simp only [hb, hs, if_true]
      · refine ⟨n' + 1, due n', ?_⟩
        show step sys (due n') _ = _
        rw [hn']
        unfold step
        rw [hc]
        simp [hb, hs, fires]

/-- If the run without due timers ends, the run with due timers ends in the same state. -/
theorem lift_halted (sys : Sys σ G V) (hp : ∀ k g k', sys.prog k g ≠ .sleep k') (due : Nat → List Nat)
    {s : St σ G V} (ht : NT s) (m : Nat) (hh : halted ((step sys [])^[m] s)) :
    ∃ n, Bench.runFor sys due s n = (step sys [])^[m] s := by
  obtain ⟨n, F, hn⟩ := lift sys hp due ht m
  have hm := run_nt sys hp ht m
  generalize (step sys [])^[m] s = u at *
  obtain ⟨_, hc, hb⟩ := hh
  induction F generalizing n with
  | nil => exact ⟨n, by rw [hn, fires_nil]⟩
  | cons f F ih =>
    exact ih (n + 1) (by show step sys (due n) _ = _; rw [hn]; exact drain sys _ u hc hb hm f F)

/-- A run that has ended stays as it is. -/
theorem stay (sys : Sys σ G V) (due : Nat → List Nat) (s : St σ G V) (n : Nat)
    (h : halted (Bench.runFor sys due s n)) (m : Nat) (hm : n ≤ m) :
    Bench.runFor sys due s m = Bench.runFor sys due s n := by
  induction hm with
  | refl => rfl
  | step _ ih =>
    show step sys (due _) _ = _
    rw [ih]
    obtain ⟨h1, h2, h3⟩ := h
    unfold step
    rw [h2]
    simp only [h3, h1, if_true]

end Toffee.LoopStutter
