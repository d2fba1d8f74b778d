import Verif.Lemmas.LoopRun
/-!
C76: a queue delivers everything that is put into it once and in order.
-/

namespace Toffee.Props.LoopQueue

open Toffee.Loop

variable {σ G V : Type}

/-- What was put into a queue is what was taken out of it followed by what is still in it. -/
def Fifo (s : St σ G V) : Prop := ∀ y, s.putH y = s.gotH y ++ s.q y

/-- The queues are not touched. -/
structure SameQ (s s' : St σ G V) : Prop where
  q : s'.q = s.q
  putH : s'.putH = s.putH
  gotH : s'.gotH = s.gotH

theorem Fifo.same {s s' : St σ G V} (h : Fifo s) (e : SameQ s s') : Fifo s' := by
  intro y
  rw [e.q, e.putH, e.gotH]
  exact h y

theorem setEv_sameQ (e : Nat) (s : St σ G V) : SameQ s (setEv e s) := by
  unfold setEv
  split <;> exact ⟨rfl, rfl, rfl⟩

theorem finish_sameQ (t : Nat) (r : Option V) (s : St σ G V) : SameQ s (finish t r s) := by
  unfold finish
  by_cases h : t = 0
  · simp only [h, if_true]
    exact ⟨rfl, rfl, rfl⟩
  · simp only [h, if_false]
    exact ⟨rfl, rfl, rfl⟩

theorem fail_sameQ (t : Nat) (held : Bool) (s : St σ G V) : SameQ s (fail t held s) := by
  obtain ⟨b, c, hb⟩ := fail_eq t held s
  rw [hb]
  have h := finish_sameQ t none { s with failed := upd s.failed t true }
  exact ⟨h.q, h.putH, h.gotH⟩

theorem putQ_fifo {y : Nat} {v : V} {s : St σ G V} (h : Fifo s) : Fifo (putQ y v s) := by
  have h1 : Fifo ({ s with
      q := upd s.q y (s.q y ++ [v])
      putH := upd s.putH y (s.putH y ++ [v]) } : St σ G V) := by
    intro z
    show upd s.putH y _ z = s.gotH z ++ upd s.q y _ z
    by_cases hz : z = y
    · subst hz
      rw [upd_self, upd_self, h z, List.append_assoc]
    · rw [upd_ne _ _ _ _ hz, upd_ne _ _ _ _ hz]
      exact h z
  unfold putQ
  dsimp only
  split
  · exact h1
  · exact h1

theorem take_fifo {y : Nat} {v : V} {vs : List V} {s s' : St σ G V} (h : Fifo s)
    (hq : s.q y = v :: vs) (e1 : s'.q = upd s.q y vs) (e2 : s'.putH = s.putH)
    (e3 : s'.gotH = upd s.gotH y (s.gotH y ++ [v])) : Fifo s' := by
  intro z
  rw [e1, e2, e3]
  by_cases hz : z = y
  · subst hz
    rw [upd_self, upd_self, h z, hq]
    simp
  · rw [upd_ne _ _ _ _ hz, upd_ne _ _ _ _ hz]
    exact h z

theorem runEff_fifo {s : St σ G V} {e : Eff σ V} (h : Fifo s) : Fifo (runEff s e) := by
  cases e with
  | setEv e => exact h.same (setEv_sameQ e s)
  | put q v => exact putQ_fifo h
  | spawn k => exact h

theorem runHook_fifo {s : St σ G V} {x : (Nat × Hook σ G V) × Int} (h : Fifo s) :
    Fifo (runHook s x) := by
  unfold runHook
  dsimp only
  have h1 : Fifo ((x.1.2.run (note (.exec x.1.1 x.1.2.done.isSome) s).g).2.foldl runEff
      { note (.exec x.1.1 x.1.2.done.isSome) s with
        g := (x.1.2.run (note (.exec x.1.1 x.1.2.done.isSome) s).g).1 }) :=
    foldl_inv Fifo runEff (fun _ _ h => runEff_fifo h) _ _ h
  split
  · exact h1.same (setEv_sameQ _ _)
  · exact h1

theorem callbacks_fifo (sys : Sys σ G V) {s : St σ G V} (h : Fifo s) : Fifo (callbacks sys s).2 :=
  foldl_inv Fifo runHook (fun _ _ h => runHook_fifo h) (Priority.sorted s.hooks) s h

theorem doStep_fifo (sys : Sys σ G V) {s : St σ G V} (h : Fifo s) : Fifo (doStep sys s) := by
  have e := setEv_sameQ 0 (note .step { s with g := sys.dutStep s.g, cycles := s.cycles + 1 })
  exact h.same ⟨e.q, e.putH, e.gotH⟩

theorem exec_fifo {t : Nat} {c : Cmd σ G V} {s : St σ G V} (h : Fifo s) : Fifo (exec t c s) := by
  cases c with
  | ret v =>
    unfold exec
    dsimp only
    split
    · split
      · exact Fifo.same (s := note .testDone { s with testDone := true }) h (finish_sameQ _ _ _)
      · exact h
    · exact h.same (finish_sameQ _ _ _)
  | raise held => exact h.same (fail_sameQ _ _ _)
  | comp g k => exact h
  | taskRun k => exact h
  | yield k => exact h
  | sleep k => exact h
  | waitEv e k =>
    unfold exec
    dsimp only
    split
    · exact h
    · split <;> exact h
  | setEv e k =>
    have e := setEv_sameQ e s
    exact h.same ⟨e.q, e.putH, e.gotH⟩
  | clearEv e k => exact h
  | put q v k => exact putQ_fifo (y := q) (v := v) h
  | get q k =>
    unfold exec
    dsimp only
    split
    · exact h
    · rename_i v vs hq
      exact take_fifo h hq rfl rfl rfl
  | spawn s0 k => exact h
  | join w k kx =>
    unfold exec
    dsimp only
    split
    · exact h
    · split
      · exact h
      · exact h.same (finish_sameQ _ _ _)
    · exact h
  | addHook hk p k => exact h
  | startClock k =>
    unfold exec
    dsimp only
    split <;> exact h

theorem resume_fifo {t : Nat} {s : St σ G V} (h : Fifo s) : Fifo (resume t s) := by
  unfold resume
  dsimp only
  split
  · exact h
  · split <;> exact h
  · exact h
  · split
    · exact h
    · rename_i v vs hq
      exact take_fifo h hq rfl rfl rfl
  · split
    · exact h
    · split
      · exact h
      · exact h.same (finish_sameQ _ _ _)
  · exact Fifo.same (s := note _ s) h (finish_sameQ _ _ _)
  · exact h

/-- C76: at every moment of every run, whatever tasks and hooks put into and get from a queue, what
has been put into it is exactly what has been taken out of it, in the same order, followed by what is
still in it: nothing is lost, duplicated or reordered. -/
theorem C76_fifo (sys : Sys σ G V) (g : G) (k : σ) (s : St σ G V) (h : Reach sys g k s) (y : Nat) :
    s.putH y = s.gotH y ++ s.q y := by
  suffices h : Fifo s from h y
  clear y
  induction h with
  | init => intro y; rfl
  | @step s due hr ih =>
    have hsc := step_case sys due s
    generalize step sys due s = s' at hsc
    cases hsc with
    | exec t k hc => exact exec_fifo ih
    | task t rest hc hb => exact resume_fifo (s := { s with batch := rest }) ih
    | clock rest hc hb =>
      have h1 : Fifo ({ s with batch := rest } : St σ G V) := ih
      unfold runClock
      have hcc := clock_case sys { s with batch := rest }
      generalize clockTurn sys { s with batch := rest } = x at hcc
      cases hcc with
      | off _ => exact h1
      | dead _ => exact h1
      | raise _ _ _ pre x _ _ _ =>
        exact raised_rule (P := Fifo) (fun _ _ h => runHook_fifo h)
          (fun _ _ h => foldl_inv Fifo runEff (fun _ _ h => runEff_fifo h) _ _ h) (fun _ _ h => h) pre x h1
      | begin _ => exact h1
      | busy _ _ => exact h1
      | rerun _ _ _ _ => exact callbacks_fifo sys h1
      | cancel _ _ _ _ _ => exact callbacks_fifo sys h1
      | step _ _ _ _ _ => exact doStep_fifo sys (callbacks_fifo sys h1)
      | last _ => exact doStep_fifo sys h1
    | stop rest hc hb => exact ih
    | fire u k rest hc hb hs => exact ih
    | miss u rest hc hb hs => exact ih
    | halt hc hb hs => exact ih
    | turn due hc hb hs => exact ih

/-- The ghost lists record what the tasks do: a task that executes `put` adds its item to the one,
and nothing else happens to the queue histories. -/
theorem C76_put (sys : Sys σ G V) (due : List Nat) (s : St σ G V) (t y : Nat) (v : V) (k k' : σ)
    (hc : s.cur = some (t, k)) (hp : sys.prog k s.g = .put y v k') :
    (step sys due s).putH = upd s.putH y (s.putH y ++ [v]) ∧ (step sys due s).gotH = s.gotH ∧
    (step sys due s).cur = some (t, k') := by
  have hst : step sys due s = exec t (.put y v k') s := by
    unfold step; rw [hc]; simp only [hp]
  rw [hst]
  unfold exec putQ
  dsimp only
  split <;> exact ⟨rfl, rfl, rfl⟩

/-- A task that executes `get` goes on with the oldest item of the queue, or is suspended if there is
none. -/
theorem C76_get (sys : Sys σ G V) (due : List Nat) (s : St σ G V) (t y : Nat) (k : σ) (k' : V → σ)
    (hc : s.cur = some (t, k)) (hp : sys.prog k s.g = .get y k') :
    (step sys due s).putH = s.putH ∧
    ((∃ v vs, s.q y = v :: vs ∧ (step sys due s).cur = some (t, k' v) ∧
        (step sys due s).gotH = upd s.gotH y (s.gotH y ++ [v])) ∨
      (s.q y = [] ∧ (step sys due s).st t = .pend (.get y k') ∧ (step sys due s).cur = none ∧
        (step sys due s).gotH = s.gotH)) := by
  have hst : step sys due s = exec t (.get y k') s := by
    unfold step; rw [hc]; simp only [hp]
  rw [hst]
  unfold exec
  dsimp only
  split
  · rename_i hq
    exact ⟨rfl, .inr ⟨hq, upd_self _ _ _, rfl, rfl⟩⟩
  · rename_i v vs hq
    exact ⟨rfl, .inl ⟨v, vs, hq, rfl, rfl⟩⟩

/-- A task that is woken in `get` goes on with the oldest item of the queue; if another task took it
before, it waits again. -/
theorem C76_woken (s : St σ G V) (t y : Nat) (k' : V → σ) (hf : s.st t = .fin (.get y k')) :
    (resume t s).putH = s.putH ∧
    ((∃ v vs, s.q y = v :: vs ∧ (resume t s).cur = some (t, k' v) ∧
        (resume t s).gotH = upd s.gotH y (s.gotH y ++ [v])) ∨
      (s.q y = [] ∧ (resume t s).st t = .pend (.get y k') ∧ (resume t s).gotH = s.gotH)) := by
  unfold resume
  simp only [hf]
  split
  · rename_i hq
    exact ⟨rfl, .inr ⟨hq, upd_self _ _ _, rfl⟩⟩
  · rename_i v vs hq
    exact ⟨rfl, .inl ⟨v, vs, hq, rfl, rfl⟩⟩

/-- Two producers and a consumer that stores the sum of ten times the first item and the second. -/
def demo : Sys Nat Nat Nat where
  prog k g := match k with
    | 0 => .startClock 1
    | 1 => .spawn 10 (fun _ => 2)
    | 2 => .spawn 20 (fun _ => 3)
    | 3 => .get 5 (fun v => 100 + v)
    | 10 => .put 5 7 11
    | 11 => .waitEv 0 12
    | 12 => .put 5 8 13
    | 20 => .put 5 9 21
    | 107 => .get 5 (fun v => 200 + v)
    | 209 => .waitEv 0 210
    | _ => .ret g
  dutStep g := g + 1
  sample g := g

/-- Two items are in the history of queue 5 when the consumer has taken both. -/
example : ∃ s, Reach demo 0 0 s ∧ s.putH 5 = [7, 9] ∧ s.gotH 5 = [7, 9] ∧ s.cur = some (0, 209) :=
  ⟨iter demo 18 (init 0 0), reach_iter 18 .init, by decide, by decide, by decide⟩

/-- A later state in which an item is still in the queue. -/
example : ∃ s, Reach demo 0 0 s ∧ s.putH 5 = [7, 9, 8] ∧ s.gotH 5 = [7, 9] ∧ s.q 5 = [8] :=
  ⟨iter demo 40 (init 0 0), reach_iter 40 .init, by decide, by decide, by decide⟩

end Toffee.Props.LoopQueue
