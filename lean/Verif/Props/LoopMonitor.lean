import Verif.Props.LoopFirst
import Verif.Props.LoopQueue
/-!
C103: on the event loop, what a monitor hands over to a port or to its message queue is exactly what its
method returned, once per clock cycle, in the order of the cycles.
-/

namespace Toffee.Props.LoopMonitor

open Toffee.Loop Toffee.Props.LoopClock Toffee.Props.LoopCycles Toffee.Props.LoopPoll

variable {σ G V : Type}

/-! ### Who puts into a queue -/

/-- A hook does not put into the queue `q`. -/
def NoPut (q : Nat) (h : Hook σ G V) : Prop := ∀ g v, Eff.put q v ∉ (h.run g).2

/-- The queue `q` is filled only by code in `Out`: other code, and hooks, do not put into it. -/
structure OwnQ (sys : Sys σ G V) (Out : σ → Prop) (q : Nat) : Prop where
  prog : ∀ k g v k', sys.prog k g = .put q v k' → Out k
  hook : ∀ k g h p k', sys.prog k g = .addHook h p k' → NoPut q h

theorem reach_hooks {sys : Sys σ G V} {g : G} {k0 : σ} {s : St σ G V} {P : Hook σ G V → Prop}
    (ha : ∀ k g h p k', sys.prog k g = .addHook h p k' → P h) (hs : ∀ h, P (spent h))
    (h : Reach sys g k0 s) : ∀ x ∈ s.hooks, P x.1.2 := by
  induction h with
  | init => simp [init]
  | @step s due hr ih =>
    have hsc := step_case sys due s
    generalize step sys due s = s' at hsc
    cases hsc with
    | exec t k hc =>
      by_cases hh : ∃ h p k', sys.prog k s.g = .addHook h p k'
      · obtain ⟨h, p, k', hp⟩ := hh
        rw [hp]
        intro x hx
        have hx : x ∈ s.hooks ++ [((s.nextHook, h), p)] := hx
        rcases List.mem_append.1 hx with hx | hx
        · exact ih x hx
        · rw [List.mem_singleton] at hx
          subst hx
          exact ha k s.g h p k' hp
      · rw [(exec_neutral t (sys.prog k s.g) s (fun h p k' hp => hh ⟨h, p, k', hp⟩)).hooks]
        exact ih
    | task t rest hc hb => rw [(resume_neutral t _).hooks]; exact ih
    | clock rest hc hb =>
      unfold runClock
      have hcc := clock_case sys { s with batch := rest }
      have hf := (callbacks_frame sys { s with batch := rest }).1
      generalize clockTurn sys { s with batch := rest } = r at hcc
      cases hcc with
      | off h => exact ih
      | dead h => exact ih
      | begin h => exact ih
      | busy h => exact ih
      | raise h hu hx pre y post hs' hy =>
        intro x hx
        have hx : x ∈ (raised pre y { s with batch := rest }).hooks := hx
        rw [(raised_frame pre y _).1] at hx
        rcases mem_spend hx with hx | ⟨z, hz, rfl⟩
        · exact ih x hx
        · exact hs _
      | rerun h =>
        intro x hx
        have hx : x ∈ (callbacks sys { s with batch := rest }).2.hooks := hx
        rw [hf] at hx; cases hx
      | cancel h =>
        intro x hx
        have hx : x ∈ (callbacks sys { s with batch := rest }).2.hooks := hx
        rw [hf] at hx; cases hx
      | step h =>
        intro x hx
        simp only [(doStep_frame sys _).1] at hx
        rw [hf] at hx; cases hx
      | last h =>
        intro x hx
        simp only [(doStep_frame sys _).1] at hx
        exact ih x hx
    | stop rest hc hb => exact ih
    | fire t k rest hc hb hs => exact ih
    | miss t rest hc hb hs => exact ih
    | halt hc hb hs => exact ih
    | turn due hc hb hs => exact ih

theorem setEv_putH (e : Nat) (s : St σ G V) : (setEv e s).putH = s.putH :=
  (LoopQueue.setEv_sameQ e s).putH

theorem putQ_putH (y : Nat) (v : V) (s : St σ G V) :
    (putQ y v s).putH = upd s.putH y (s.putH y ++ [v]) := by
  unfold putQ
  dsimp only
  split <;> rfl

theorem effs_putH {q : Nat} (l : List (Eff σ V)) (s : St σ G V) (h : ∀ v, Eff.put q v ∉ l) :
    (l.foldl runEff s).putH q = s.putH q := by
  induction l generalizing s with
  | nil => rfl
  | cons e l ih =>
    rw [List.foldl_cons, ih _ (fun v hv => h v (by simp [hv]))]
    cases e with
    | setEv e => exact congrFun (setEv_putH e s) q
    | put y v =>
      show (putQ y v s).putH q = _
      rw [putQ_putH]
      exact upd_ne _ _ _ _ (by rintro rfl; exact h v (by simp))
    | spawn k => rfl

theorem runHook_putH {q : Nat} {s : St σ G V} {x : (Nat × Hook σ G V) × Int} (h : NoPut q x.1.2) :
    (runHook s x).putH q = s.putH q := by
  unfold runHook
  dsimp only
  have h1 := effs_putH (q := q) (x.1.2.run (note (.exec x.1.1 x.1.2.done.isSome) s).g).2
    { note (.exec x.1.1 x.1.2.done.isSome) s with
      g := (x.1.2.run (note (.exec x.1.1 x.1.2.done.isSome) s).g).1 } (h _)
  split
  · rw [setEv_putH]; exact h1
  · exact h1

theorem runHooks_putH {q : Nat} (l : List ((Nat × Hook σ G V) × Int)) (s : St σ G V)
    (h : ∀ x ∈ l, NoPut q x.1.2) : (l.foldl runHook s).putH q = s.putH q := by
  induction l generalizing s with
  | nil => rfl
  | cons x l ih =>
    rw [List.foldl_cons, ih _ (fun y hy => h y (by simp [hy])), runHook_putH (h x (by simp))]

theorem exec_putH {t q : Nat} {c : Cmd σ G V} {s : St σ G V} (h : ∀ v k, c ≠ .put q v k) :
    (exec t c s).putH q = s.putH q := by
  cases c with
  | ret v =>
    unfold exec
    dsimp only
    split
    · split
      · exact congrFun (LoopQueue.finish_sameQ _ _ (note .testDone { s with testDone := true })).putH q
      · rfl
    · exact congrFun (LoopQueue.finish_sameQ _ _ _).putH q
  | raise held => exact congrFun (LoopQueue.fail_sameQ _ _ _).putH q
  | waitEv e k =>
    unfold exec
    dsimp only
    split
    · rfl
    · split <;> rfl
  | setEv e k => exact congrFun (setEv_putH e s) q
  | put y v k =>
    show (putQ y v s).putH q = _
    rw [putQ_putH]
    exact upd_ne _ _ _ _ (by rintro rfl; exact h v k rfl)
  | get y k =>
    unfold exec
    dsimp only
    split <;> rfl
  | join w k kx =>
    unfold exec
    dsimp only
    split
    · rfl
    · split
      · rfl
      · exact congrFun (LoopQueue.finish_sameQ _ _ _).putH q
    · rfl
  | startClock k =>
    unfold exec
    dsimp only
    split <;> rfl
  | _ => rfl

theorem resume_putH (t : Nat) (s : St σ G V) : (resume t s).putH = s.putH := by
  unfold resume
  dsimp only
  repeat' split
  all_goals first
    | rfl
    | exact (LoopQueue.finish_sameQ _ _ _).putH

theorem doStep_putH (sys : Sys σ G V) (s : St σ G V) : (doStep sys s).putH = s.putH := by
  unfold doStep clockYield push
  exact setEv_putH 0 _

/-- Only the task that runs code in `Out` puts something into the queue. -/
theorem step_putH {sys : Sys σ G V} {g : G} {k0 : σ} {Out : σ → Prop} {q : Nat} {s : St σ G V}
    (ho : OwnQ sys Out q) (hr : Reach sys g k0 s) (hn : ∀ u k, s.cur = some (u, k) → ¬ Out k)
    (due : List Nat) : (step sys due s).putH q = s.putH q := by
  have hh : ∀ x ∈ s.hooks, NoPut q x.1.2 := reach_hooks ho.hook (fun h g v hv => by cases hv) hr
  have hcb : ∀ rest, (callbacks sys { s with batch := rest }).2.putH q = s.putH q := fun rest =>
    runHooks_putH (Priority.sorted s.hooks) { s with batch := rest }
      (fun x hx => hh x (Priority.mem_sorted.1 hx))
  have hsc := step_case sys due s
  generalize step sys due s = s' at hsc
  cases hsc with
  | exec t k hc => exact exec_putH fun v k' h => hn t k hc (ho.prog _ _ _ _ h)
  | task t rest hc hb => exact congrFun (resume_putH t _) q
  | clock rest hc hb =>
    unfold runClock
    have hcc := clock_case sys { s with batch := rest }
    generalize clockTurn sys { s with batch := rest } = r at hcc
    cases hcc with
    | raise _ _ _ pre x post hs _ =>
      have hmem : ∀ y ∈ pre ++ [x], NoPut q y.1.2 := by
        intro y hy
        have h1 : y ∈ Priority.sorted ({ s with batch := rest } : St σ G V).hooks := ?_
        · exact hh y (Priority.mem_sorted.1 h1)
        rw [hs]
        rcases List.mem_append.1 hy with h | h
        · simp [h]
        · rw [List.mem_singleton] at h; simp [h]
      have h1 := runHooks_putH (q := q) pre { s with batch := rest } (fun y hy => hmem y (by simp [hy]))
      have h2 : (raised pre x { s with batch := rest }).putH q =
          (pre.foldl runHook { s with batch := rest }).putH q :=
        effs_putH _ _ (hmem x (by simp) _)
      exact h2.trans h1
    | rerun _ _ _ _ => exact hcb rest
    | cancel _ _ _ _ _ => exact hcb rest
    | step _ _ _ _ _ => exact (congrFun (doStep_putH sys _) q).trans (hcb rest)
    | last _ => exact congrFun (doStep_putH sys _) q
    | _ => rfl
  | _ => rfl

/-! ### The monitor task -/

/-- Where a monitor hands its messages to (`process_monitor_call`, `_base_agent.py` 217-236, and the
message queue, 246-252): a port or queue, or a hook that is requested with a priority. -/
inductive Sink (σ G V : Type) where
  | queue (q : Nat)
  | hook (h : V → Hook σ G V) (prio : Int)

/-- `Monitor.__monitor_forever` (`_base_agent.py` 238-252).  `f g`: what the monitor method returns if
the shared state is `g` (`none`: it returns None); `act g`: what it does to the shared state.  `lp`:
the beginning of an iteration; `rs`, `ev`: behind the wait for the clock event (`Event.wait` of toffee ends
with `task_run`); `out v i`: about to serve the `i`-th sink with the message `v`; `out' v i`: behind the
`asyncio.Queue.put` in `Queue.put` of toffee. -/
structure MonitorCode (sys : Sys σ G V) (f : G → Option V) (act : G → G) (sinks : List (Sink σ G V))
    (lp rs ev : σ) (out out' : V → Nat → σ) : Prop where
  start : ∀ g, sys.prog lp g = .waitEv 0 rs
  woken : ∀ g, sys.prog rs g = .taskRun ev
  call : ∀ g, sys.prog ev g = .comp (act g) (match f g with | some v => out v 0 | none => lp)
  queue : ∀ v i q g, sinks[i]? = some (.queue q) → sys.prog (out v i) g = .put q v (out' v i)
  queue' : ∀ v i g, sys.prog (out' v i) g = .taskRun (out v (i + 1))
  hook : ∀ v i h p g, sinks[i]? = some (.hook h p) →
    sys.prog (out v i) g = .addHook (h v) p (out v (i + 1))
  last : ∀ v i g, sinks[i]? = none → sys.prog (out v i) g = .comp g lp

/-- How often the sinks contain the queue `q`. -/
def mult (q : Nat) (sinks : List (Sink σ G V)) : Nat :=
  sinks.countP fun | .queue y => y == q | .hook _ _ => false

/-- What one message adds to queue `q`. -/
def copies (q : Nat) (sinks : List (Sink σ G V)) (v : V) : List V := List.replicate (mult q sinks) v

/-- What the messages of the cycles with shared states `H` add to queue `q`. -/
def msgs (q : Nat) (sinks : List (Sink σ G V)) (f : G → Option V) (H : List G) : List V :=
  (H.filterMap f).flatMap (copies q sinks)

/-- Executions from `s0`, with the list of what task `m` saw at each of its resumptions (as `Seen`), in
which the code that fills the queue is run by `m` alone. -/
inductive Heard (sys : Sys σ G V) (m : Nat) (Out : σ → Prop) (s0 : St σ G V) :
    List G → St σ G V → Prop where
  | refl : Heard sys m Out s0 [] s0
  | resumed {H s} (due : List Nat) (k : σ) : Heard sys m Out s0 H s → s.cur = none →
      (step sys due s).cur = some (m, k) →
      Heard sys m Out s0 (H ++ [(step sys due s).g]) (step sys due s)
  | other {H s} (due : List Nat) : Heard sys m Out s0 H s →
      (∀ u k, s.cur = some (u, k) → Out k → u = m) →
      (s.cur = none → ∀ k, (step sys due s).cur ≠ some (m, k)) →
      Heard sys m Out s0 H (step sys due s)

theorem Heard.reach {sys : Sys σ G V} {g : G} {k0 : σ} {m : Nat} {Out : σ → Prop} {s0 s : St σ G V}
    {H : List G} (h : Heard sys m Out s0 H s) (h0 : Reach sys g k0 s0) : Reach sys g k0 s := by
  induction h with
  | refl => exact h0
  | resumed due _ _ _ _ ih => exact .step due ih
  | other due _ _ _ ih => exact .step due ih

/-- The list is that of `Seen`. -/
theorem Heard.seen {sys : Sys σ G V} {m : Nat} {Out : σ → Prop} {s0 s : St σ G V} {H : List G}
    (h : Heard sys m Out s0 H s) : Seen sys m (fun _ => True) s0 H s := by
  induction h with
  | refl => exact .refl
  | resumed due k _ h1 h2 ih => exact .resumed due k ih h1 h2
  | other due _ _ h2 ih => exact .other due ih (fun _ _ => trivial) h2

section
variable {sys : Sys σ G V} {g : G} {k0 : σ} {f : G → Option V} {act : G → G}
  {sinks : List (Sink σ G V)} {lp rs ev : σ} {out out' : V → Nat → σ} {m q : Nat}

/-- Where in its code the monitor is, after having seen `H`, and what it has put into `q` so far. -/
inductive At (q : Nat) (sinks : List (Sink σ G V)) (f : G → Option V) (lp rs ev : σ)
    (out out' : V → Nat → σ) (H : List G) (g : G) : σ → List V → Prop where
  | lp : At q sinks f lp rs ev out out' H g lp (msgs q sinks f H)
  | rs (H' : List G) (hH : H = H' ++ [g]) : At q sinks f lp rs ev out out' H g rs (msgs q sinks f H')
  | ev (H' : List G) (hH : H = H' ++ [g]) : At q sinks f lp rs ev out out' H g ev (msgs q sinks f H')
  | out (H' : List G) (g' : G) (v : V) (i : Nat) (hH : H = H' ++ [g']) (hv : f g' = some v)
      (hi : i ≤ sinks.length) : At q sinks f lp rs ev out out' H g (out v i)
        (msgs q sinks f H' ++ copies q (sinks.take i) v)
  | out' (H' : List G) (g' : G) (v : V) (i : Nat) (hH : H = H' ++ [g']) (hv : f g' = some v)
      (hi : i < sinks.length) : At q sinks f lp rs ev out out' H g (out' v i)
        (msgs q sinks f H' ++ copies q (sinks.take (i + 1)) v)

/-- Where the monitor task is. -/
inductive MPos (q : Nat) (sinks : List (Sink σ G V)) (f : G → Option V) (lp rs ev : σ)
    (out out' : V → Nat → σ) (m c : Nat) (p0 : List V) (H : List G) (s : St σ G V) : Prop where
  | run (k : σ) (L : List V) (h : s.cur = some (m, k)) (ha : At q sinks f lp rs ev out out' H s.g k L)
      (hq : s.putH q = p0 ++ L) (hc : s.cycles = c + H.length)
  | pend (h : s.st m = .pend (.ev 0 rs)) (hq : s.putH q = p0 ++ msgs q sinks f H)
      (hc : s.cycles = c + H.length)
  | fin (h : s.st m = .fin (.ev 0 rs)) (hq : s.putH q = p0 ++ msgs q sinks f H)
      (hc : s.cycles = c + H.length + 1)
  | cancelled (h : DoneAs m none s) (hq : s.putH q = p0 ++ msgs q sinks f H)
      (ht : Ev.cancelAll ∈ s.log)

theorem msgs_snoc (H : List G) (g : G) :
    msgs q sinks f (H ++ [g]) = msgs q sinks f H ++ (match f g with
      | some v => copies q sinks v | none => []) := by
  unfold msgs
  cases h : f g <;> simp [h]

theorem heard_pos {Out : σ → Prop} (hp : ClockPrivate sys)
    (hm : MonitorCode sys f act sinks lp rs ev out out') (ho : OwnQ sys Out q) (hlp : ¬ Out lp)
    (hrs : ¬ Out rs) (hev : ¬ Out ev) (hout' : ∀ v i, ¬ Out (out' v i))
    {s0 s : St σ G V} {H : List G} (h0 : Reach sys g k0 s0) (hs : s0.cur = some (m, lp))
    (h : Heard sys m Out s0 H s) :
    MPos q sinks f lp rs ev out out' m s0.cycles (s0.putH q) H s := by
  have running : ∀ {s : St σ G V}, Reach sys g k0 s → ∀ k, s.cur = some (m, k) →
      s.st m = .running := by
    intro s hr k h
    have := (reach_inv hr).core
    unfold InvS at this
    rw [h] at this
    exact running_of this
  induction h with
  | refl => exact .run lp _ hs .lp (by simp [msgs]) rfl
  | @resumed H s due k' h hn hcu ih =>
    have hr := h.reach h0
    have hrun := running (.step due hr) _ hcu
    have hput := step_putH ho hr (fun u k hc => by rw [hn] at hc; cases hc) due
    cases ih with
    | run k _ h _ _ => rw [hn] at h; cases h
    | pend h _ _ =>
      rcases pend_step hp hr h due with ⟨h1, _⟩ | ⟨h1, _⟩ | ⟨h1, _⟩
      · rw [h1] at hrun; cases hrun
      · rw [h1] at hrun; cases hrun
      · rw [h1.1] at hrun; cases hrun
    | fin h hq hcy =>
      obtain ⟨h1, h2 | ⟨_, h2⟩⟩ := fin_step hp hr h due
      · rw [h2] at hrun; cases hrun
      · exact .run rs _ h2 (.rs H rfl) (hput.trans hq) (by simp; omega)
    | cancelled h _ _ =>
      rw [(step_done sys due (reach_inv hr) h).1] at hrun; cases hrun
  | @other H s due h hal hno ih =>
    have hr := h.reach h0
    have frame : (∀ k, s.cur ≠ some (m, k)) → (step sys due s).putH q = s.putH q := by
      intro hne
      exact step_putH ho hr (fun u k hc hk => hne k (by rw [hc, hal u k hc hk])) due
    have notcur : ∀ x : Status σ V, x ≠ .running → s.st m = x → ∀ k, s.cur ≠ some (m, k) := by
      intro x hx hst k hk
      rw [running hr k hk] at hst
      exact hx hst.symm
    cases ih with
    | run k L h ha hq hcy =>
      have hst : step sys due s = exec m (sys.prog k s.g) s := by unfold step; rw [h]
      have hcyc : (step sys due s).cycles = s0.cycles + H.length := by
        rw [hst, exec_cycles]; exact hcy
      have keep : ¬ Out k → (step sys due s).putH q = s0.putH q ++ L := by
        intro hk
        rw [step_putH ho hr (fun u k' hc => by rw [h] at hc; injection hc with hc; injection hc with _ hc; exact hc ▸ hk) due]
        exact hq
      cases ha with
      | lp =>
        have := hm.start s.g
        obtain ⟨h3, h4⟩ := wait_exec hp hr h this due
        exact .pend h3 (keep hlp) (by omega)
      | rs H' hH =>
        have hx := keep hrs
        rw [hst, hm.woken] at hx hcyc ⊢
        exact .run ev _ rfl (.ev H' hH) hx hcyc
      | ev H' hH =>
        have hx := keep hev
        rw [hst, hm.call] at hx hcyc ⊢
        cases hf : f s.g with
        | none =>
          refine .run lp _ (by simp [exec]) .lp ?_ (by simpa [hf] using hcyc)
          rw [hH, msgs_snoc, hf, List.append_nil]
          simpa [hf] using hx
        | some v =>
          refine .run (out v 0) _ (by simp [exec]) (.out H' s.g v 0 hH hf (by omega)) ?_
            (by simpa [hf] using hcyc)
          simpa [hf, copies, mult] using hx
      | out H' g' v i hH hv hi =>
        cases hsi : sinks[i]? with
        | none =>
          have hi' : i = sinks.length := by
            have := List.getElem?_eq_none_iff.1 hsi; omega
          have hx : (step sys due s).putH q = s.putH q := by
            rw [hst, hm.last _ _ _ hsi]; rfl
          rw [hst, hm.last _ _ _ hsi] at hx hcyc ⊢
          refine .run lp _ rfl .lp ?_ hcyc
          rw [hx, hq, hH, msgs_snoc, hv, hi', List.take_length]
        | some sk =>
          have hi' : i < sinks.length := by
            rcases Nat.lt_or_ge i sinks.length with h | h
            · exact h
            · rw [List.getElem?_eq_none_iff.2 h] at hsi; cases hsi
          have htk : sinks.take (i + 1) = sinks.take i ++ [sk] := by
            rw [List.take_add_one, hsi]; rfl
          cases sk with
          | queue y =>
            have hpq := hm.queue v i y s.g hsi
            obtain ⟨e1, _, _⟩ := LoopQueue.C76_put sys due s m y v _ _ h hpq
            have hcu : (step sys due s).cur = some (m, out' v i) := by rw [hst, hpq]; rfl
            refine .run (out' v i) _ hcu (.out' H' g' v i hH hv hi') ?_ hcyc
            rw [e1, htk]
            unfold copies mult at hq ⊢
            rw [List.countP_append]
            by_cases hy : y = q
            · subst hy
              rw [upd_self, hq]
              simp [List.replicate_succ']
            · rw [upd_ne _ _ _ _ (Ne.symm hy), hq]
              simp [hy]
          | hook hk p =>
            have hpq := hm.hook v i hk p s.g hsi
            have hx : (step sys due s).putH q = s.putH q := by rw [hst, hpq]; rfl
            rw [hst, hpq] at hx hcyc ⊢
            refine .run (out v (i + 1)) _ rfl (.out H' g' v (i + 1) hH hv hi') ?_ hcyc
            rw [hx, hq, htk]
            simp [copies, mult, List.countP_append]
      | out' H' g' v i hH hv hi =>
        have hx := keep (hout' v i)
        rw [hst, hm.queue'] at hx hcyc ⊢
        exact .run (out v (i + 1)) _ rfl (.out H' g' v (i + 1) hH hv hi) hx hcyc
    | pend h hq hcy =>
      have hf := frame (notcur _ (by rintro ⟨⟩) h)
      rcases pend_step hp hr h due with ⟨h1, h2⟩ | ⟨h1, h2⟩ | ⟨h1, h2⟩
      · exact .pend h1 (hf.trans hq) (by omega)
      · exact .fin h1 (hf.trans hq) (by omega)
      · exact .cancelled h1 (hf.trans hq) h2
    | fin h hq hcy =>
      have hf := frame (notcur _ (by rintro ⟨⟩) h)
      obtain ⟨h1, h2 | ⟨h2, h3⟩⟩ := fin_step hp hr h due
      · exact .fin h2 (hf.trans hq) (by omega)
      · exact absurd h3 (hno h2 _)
    | cancelled h hq ht =>
      have hf := frame (notcur _ (by rintro ⟨⟩) h.1)
      exact .cancelled (step_done sys due (reach_inv hr) h) (hf.trans hq) (log_mono due hr ht)

/-- One message to `q` per message of the monitor, if `q` is one of its sinks, once. -/
theorem msgs_once (hq : mult q sinks = 1) (H : List G) : msgs q sinks f H = H.filterMap f := by
  unfold msgs
  induction H.filterMap f with
  | nil => rfl
  | cons v l ih => rw [List.flatMap_cons, ih]; simp [copies, hq]

/-- C103: a monitor task `m` starts in `s0`; `q` is one of the ports (or queues) it serves, and only this
task puts into it.  Whenever the task is not running, what was put into `q` since `s0` is exactly what
the monitor method returned (unless None) for the values it found in the cycles `H` it has seen,
in the order of these cycles. -/
theorem C103_messages {Out : σ → Prop} (hp : ClockPrivate sys)
    (hm : MonitorCode sys f act sinks lp rs ev out out') (ho : OwnQ sys Out q) (hlp : ¬ Out lp)
    (hrs : ¬ Out rs) (hev : ¬ Out ev) (hout' : ∀ v i, ¬ Out (out' v i)) (hq : mult q sinks = 1)
    (s0 s : St σ G V) (H : List G) (h0 : Reach sys g k0 s0) (hs : s0.cur = some (m, lp))
    (h : Heard sys m Out s0 H s) (hn : ∀ k, s.cur ≠ some (m, k)) :
    s.putH q = s0.putH q ++ H.filterMap f := by
  rw [← msgs_once (f := f) hq H]
  cases heard_pos hp hm ho hlp hrs hev hout' h0 hs h with
  | run k _ h _ _ => exact absurd h (hn k)
  | pend _ hq _ => exact hq
  | fin _ hq _ => exact hq
  | cancelled _ hq _ => exact hq

/-- C103: `H` has one entry for each cycle: whenever the DUT is stepped, the messages of all cycles since
the monitor was started, the current one included, are in the queue or were taken out of it, unless
the test is over. -/
theorem C103_every_cycle {Out : σ → Prop} (hp : ClockPrivate sys)
    (hm : MonitorCode sys f act sinks lp rs ev out out') (ho : OwnQ sys Out q) (hlp : ¬ Out lp)
    (hrs : ¬ Out rs) (hev : ¬ Out ev) (hout' : ∀ v i, ¬ Out (out' v i)) (hq : mult q sinks = 1)
    (s0 s s' : St σ G V) (H : List G) (h0 : Reach sys g k0 s0) (hs : s0.cur = some (m, lp))
    (h : Heard sys m Out s0 H s) (hst : StepsAt sys s s') :
    s.gotH q ++ s.q q = s0.gotH q ++ s0.q q ++ H.filterMap f ∧
      (s.cycles = s0.cycles + H.length ∨ Ev.cancelAll ∈ s.log) := by
  have hr := h.reach h0
  constructor
  · rw [← LoopQueue.C76_fifo sys g k0 s hr, ← LoopQueue.C76_fifo sys g k0 s0 h0]
    exact C103_messages hp hm ho hlp hrs hev hout' hq s0 s H h0 hs h
      (fun k hk => by rw [hst.1] at hk; cases hk)
  · cases heard_pos hp hm ho hlp hrs hev hout' h0 hs h with
    | run k _ h _ _ => rw [hst.1] at h; cases h
    | pend _ _ hc => exact .inl hc
    | fin hf _ _ =>
      obtain ⟨_, rest, hb, _⟩ := hst
      exact (no_fin (reach_inv hr) (reach_WInv hp hr) hb hf).elim
    | cancelled _ _ ht => exact .inr ht

/-- C103: the run reaches its end (`cancel_all_tasks`) in the cycle in which the test has returned, and
then the messages of all cycles up to this one have been handed over; nothing is added later. -/
theorem C103_end {Out : σ → Prop} (hp : ClockPrivate sys)
    (hm : MonitorCode sys f act sinks lp rs ev out out') (ho : OwnQ sys Out q) (hlp : ¬ Out lp)
    (hrs : ¬ Out rs) (hev : ¬ Out ev) (hout' : ∀ v i, ¬ Out (out' v i)) (hq : mult q sinks = 1)
    (s0 s s1 : St σ G V) (H H1 : List G) (due : List Nat) (h0 : Reach sys g k0 s0)
    (hs : s0.cur = some (m, lp)) (h : Heard sys m Out s0 H s) (hn : Ev.cancelAll ∉ s.log)
    (hc : Ev.cancelAll ∈ (step sys due s).log) (h1 : Heard sys m Out (step sys due s) H1 s1) :
    H1 = [] ∧ s.cycles = s0.cycles + H.length ∧ s1.putH q = s0.putH q ++ H.filterMap f := by
  have hr := h.reach h0
  have hi := reach_inv hr
  obtain ⟨_, hcu, hk, rest, hb⟩ := LoopFirst.cancel_at hr hn hc
  have hac := (reach_AC (.step due hr)).st hk m
  have hcm : s.cycles = s0.cycles + H.length ∧ DoneAs m none (step sys due s) := by
    cases heard_pos hp hm ho hlp hrs hev hout' h0 hs h with
    | run k _ h _ _ => rw [hcu] at h; cases h
    | pend hst _ hcy =>
      refine ⟨hcy, ?_⟩
      rcases pend_step hp hr hst due with ⟨h1, _⟩ | ⟨h1, _⟩ | ⟨h1, _⟩
      · rw [h1] at hac; cases hac
      · rw [h1] at hac; cases hac
      · exact h1
    | fin hf _ _ => exact (no_fin hi (reach_WInv hp hr) hb hf).elim
    | cancelled _ _ ht => exact absurd ht hn
  have hput : (step sys due s).putH q = s0.putH q ++ H.filterMap f := by
    rw [step_putH ho hr (fun u k hk => by rw [hcu] at hk; cases hk) due]
    exact C103_messages hp hm ho hlp hrs hev hout' hq s0 s H h0 hs h
      (fun k hk => by rw [hcu] at hk; cases hk)
  suffices h2 : H1 = [] ∧ DoneAs m none s1 ∧ s1.putH q = (step sys due s).putH q from
    ⟨h2.1, hcm.1, h2.2.2.trans hput⟩
  clear hput hcu hb hk hac
  have hrs1 : Reach sys g k0 (step sys due s) := .step due hr
  have hdn := hcm.2
  clear hcm hc
  generalize step sys due s = s2 at *
  have running : ∀ {s : St σ G V}, Reach sys g k0 s → DoneAs m none s → ∀ k, s.cur ≠ some (m, k) := by
    intro s hr hd k hk
    have := (reach_inv hr).core
    unfold InvS at this
    rw [hk] at this
    have := running_of this
    rw [hd.1] at this; cases this
  induction h1 with
  | refl => exact ⟨rfl, hdn, rfl⟩
  | @resumed H s due k' h hn' hcu ih =>
    obtain ⟨_, h2, _⟩ := ih
    have hr := h.reach hrs1
    exact absurd hcu (running (.step due hr) (step_done sys due (reach_inv hr) h2) k')
  | @other H s due h hal hno ih =>
    obtain ⟨h1, h2, h3⟩ := ih
    have hr := h.reach hrs1
    refine ⟨h1, step_done sys due (reach_inv hr) h2, ?_⟩
    rw [← h3]
    refine step_putH ho hr (fun u k hk hk' => ?_) due
    exact running hr h2 k (by rw [hk, hal u k hk hk'])

end

/-! ### A concrete system -/

theorem heard_iter {sys : Sys σ G V} {m : Nat} {Out : σ → Prop} {s0 s : St σ G V} {H : List G} (n : Nat)
    (h : Heard sys m Out s0 H s)
    (hb : ∀ i, i < n → ∀ u k, (iter sys i s).cur = some (u, k) → Out k → u = m) :
    Heard sys m Out s0 (H ++ hist sys m n s) (iter sys n s) := by
  induction n generalizing H s with
  | zero =>
    show Heard sys m Out s0 (H ++ []) s
    rw [List.append_nil]; exact h
  | succ n ih =>
    have hb' : ∀ i, i < n → ∀ u k, (iter sys i (step sys [] s)).cur = some (u, k) → Out k → u = m :=
      fun i hi => hb (i + 1) (by omega)
    have h0 := hb 0 (by omega)
    show Heard sys m Out s0 (H ++ (_ ++ hist sys m n (step sys [] s))) (iter sys n (step sys [] s))
    rw [← List.append_assoc]
    split
    · rename_i hc
      obtain ⟨h1, h2⟩ := hc
      cases hcu : (step sys [] s).cur with
      | none => rw [hcu] at h2; cases h2
      | some x =>
        obtain ⟨u, k⟩ := x
        rw [hcu] at h2
        have : u = m := by simpa using h2
        subst this
        exact ih (.resumed [] k h (by simpa using h1) hcu) hb'
    · rename_i hc
      rw [List.append_nil]
      refine ih (.other [] h h0 ?_) hb'
      intro hn k hk
      exact hc ⟨by rw [hn]; rfl, by rw [hk]; rfl⟩

inductive K where
  | start
  | mk
  | rd
  | got (v : Nat)
  | pause (n : Nat)
  | lp
  | rs
  | ev
  | out (v i : Nat)
  | out' (v i : Nat)
deriving DecidableEq

/-- A hook of the reference model: it notes the message. -/
def note1 (v : Nat) : Hook K (Nat × List Nat) Nat where
  run g := ((g.1, g.2 ++ [v]), [])
  done := none

def sinks : List (Sink K (Nat × List Nat) Nat) := [.queue 4, .hook note1 0, .queue 5]

/-- The monitor method returns the value of a counter in the DUT if it is odd; the test reads two messages
from queue 5 and then waits for two cycles. -/
def demo : Sys K (Nat × List Nat) Nat where
  prog k g := match k with
    | .start => .startClock .mk
    | .mk => .spawn .lp (fun _ => .rd)
    | .rd => .get 5 .got
    | .got v => if v < 3 then .comp g .rd else .comp g (.pause 2)
    | .pause (n + 1) => .waitEv 0 (.pause n)
    | .pause 0 => .ret 7
    | .lp => .waitEv 0 .rs
    | .rs => .taskRun .ev
    | .ev => .comp g (if g.1 % 2 = 1 then .out g.1 0 else .lp)
    | .out v i => match sinks[i]? with
      | some (.queue q) => .put q v (.out' v i)
      | some (.hook h p) => .addHook (h v) p (.out v (i + 1))
      | none => .comp g .lp
    | .out' v i => .taskRun (.out v (i + 1))
  dutStep g := (g.1 + 1, g.2)
  sample g := g

theorem demo_code : MonitorCode demo (fun g => if g.1 % 2 = 1 then some g.1 else none) id sinks
    .lp .rs .ev .out .out' := by
  refine ⟨fun _ => rfl, fun _ => rfl, ?_, ?_, fun _ _ _ => rfl, ?_, ?_⟩
  · intro g
    by_cases h : g.1 % 2 = 1 <;> simp [demo, h]
  · intro v i q g h
    simp only [demo, h]
  · intro v i hk p g h
    simp only [demo, h]
  · intro v i g h
    simp only [demo, h]

theorem demo_shape (k : K) (g : Nat × List Nat) :
    (∀ e k', demo.prog k g ≠ .setEv e k') ∧
    (∀ h p k', demo.prog k g = .addHook h p k' → ∃ v, h = note1 v) ∧
    (∀ q v k', demo.prog k g = .put q v k' → ∃ v i, k = .out v i) := by
  have triv : ∀ c : Cmd K (Nat × List Nat) Nat, demo.prog k g = c →
      (match c with | .setEv _ _ => False | .addHook _ _ _ => False | .put _ _ _ => False | _ => True) →
      (∀ e k', demo.prog k g ≠ .setEv e k') ∧
      (∀ h p k', demo.prog k g = .addHook h p k' → ∃ v, h = note1 v) ∧
      (∀ q v k', demo.prog k g = .put q v k' → ∃ v i, k = .out v i) := by
    intro c hc h
    rw [hc]
    refine ⟨?_, ?_, ?_⟩
    · rintro e k' rfl; exact h
    · rintro h' p k' rfl; exact h.elim
    · rintro q v k' rfl; exact h.elim
  cases k with
  | got v =>
    by_cases h : v < 3
    · exact triv (.comp g .rd) (by simp [demo, h]) trivial
    · exact triv (.comp g (.pause 2)) (by simp [demo, h]) trivial
  | pause n => cases n <;> exact triv _ rfl trivial
  | ev => exact triv _ rfl trivial
  | out v i =>
    match i with
    | 0 => exact ⟨nofun, nofun, fun _ _ _ _ => ⟨v, 0, rfl⟩⟩
    | 1 => exact ⟨nofun, fun h p k' hh => ⟨v, by cases hh; rfl⟩, nofun⟩
    | 2 => exact ⟨nofun, nofun, fun _ _ _ _ => ⟨v, 2, rfl⟩⟩
    | i + 3 => exact triv (.comp g .lp) rfl trivial
  | _ => exact triv _ rfl trivial

theorem demo_private : ClockPrivate demo := by
  intro k g
  obtain ⟨h1, h2, _⟩ := demo_shape k g
  refine ⟨fun k' => h1 0 k', fun h p k' hp => ?_⟩
  obtain ⟨v, rfl⟩ := h2 h p k' hp
  exact ⟨nofun, fun g => nofun⟩

theorem demo_own : OwnQ demo (fun k => ∃ v i, k = .out v i) 5 :=
  ⟨fun k g v k' h => (demo_shape k g).2.2 5 v k' h, fun k g h p k' hp => by
    obtain ⟨v, rfl⟩ := (demo_shape k g).2.1 h p k' hp
    exact fun g v => nofun⟩

/-- The monitor task (1) starts. -/
def d0 : St K (Nat × List Nat) Nat := iter demo 8 (init (0, []) .start)

def IsOut (k : K) : Bool := match k with | .out _ _ => true | _ => false

/-- The hypotheses of `C103_end`, and thereby of `C103_messages` and `C103_every_cycle`. -/
example : mult 5 sinks = 1 ∧ Reach demo (0, []) .start d0 ∧ d0.cur = some (1, .lp) ∧
    ∃ H s H1 s1, Heard demo 1 (fun k => ∃ v i, k = .out v i) d0 H s ∧ Ev.cancelAll ∉ s.log ∧
      Ev.cancelAll ∈ (step demo [] s).log ∧
      Heard demo 1 (fun k => ∃ v i, k = .out v i) (step demo [] s) H1 s1 ∧
      H.map (·.1) = [1, 2, 3, 4, 5] ∧ s.gotH 5 = [1, 3] ∧ s.q 5 = [5] ∧ s.cycles = 5 ∧
      s1.stopping = true := by
  have hal : ∀ i, i < 71 → ∀ p ∈ (iter demo i d0).cur, IsOut p.2 = true → p.1 = 1 := by
    decide +kernel
  have hal' : ∀ i, i < 20 → (iter demo i (step demo [] (iter demo 70 d0))).cur = none := by
    decide +kernel
  refine ⟨by decide, reach_iter 8 .init, by decide +kernel, _, iter demo 70 d0, _,
    iter demo 20 (step demo [] (iter demo 70 d0)), heard_iter 70 .refl ?_, by decide +kernel,
    by decide +kernel, heard_iter 20 .refl ?_, by decide +kernel, by decide +kernel, by decide +kernel,
    by decide +kernel, by decide +kernel⟩
  · rintro i hi u k hk ⟨v, j, rfl⟩
    exact hal i (by omega) _ hk rfl
  · rintro i hi u k hk _
    rw [hal' i hi] at hk; cases hk

end Toffee.Props.LoopMonitor
