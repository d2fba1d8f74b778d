import Verif.Lemmas.LoopShared
import Verif.Props.LoopCall
import Verif.Props.LoopFail
/-!
C97: a test that passes has compared every driver call.
-/

namespace Toffee.Props.LoopScore

open Toffee.Loop Toffee.Props.LoopGather Toffee.Props.LoopCall Toffee.Props.LoopEnd
open Toffee.Props.LoopFail Toffee.Props.LoopClock

variable {σ G V : Type}

/-! ### When the run has a result, all tasks have ended -/

/-- The run has a result: the test returned with the clock running, some time ago. -/
theorem passed_origin {sys : Sys σ G V} {g : G} {k0 : σ} {s0 s : St σ G V} (hp : ClockPrivate sys)
    (h0 : Reach sys g k0 s0) (hclk : s0.clock ≠ .off) (hnd : isDone (s0.st 0) = false)
    (hpath : Path sys s0 s) {v : V} (hd : s.st 0 = .done (some v)) :
    ∃ s1 k w due, Reach sys g k0 s1 ∧ s1.cur = some (0, k) ∧ sys.prog k s1.g = .ret w ∧
      s1.clock ≠ .off ∧ Path sys (step sys due s1) s := by
  have hck : ∀ {s}, Path sys s0 s → s.clock ≠ .off := by
    intro s h
    induction h with
    | refl => exact hclk
    | step due _ ih => exact clock_step sys due ih
  induction hpath generalizing v with
  | refl => rw [hd] at hnd; cases hnd
  | @step s due hpath ih =>
    have hr := hpath.reach h0
    have hi := reach_inv hr
    have hw := reach_WInv hp hr
    cases hs : isDone (s.st 0) with
    | true =>
      cases hx : s.st 0 with
      | done r =>
        cases r with
        | none =>
          have := step_done sys due hi (t := 0) (r := none) ⟨hx, hi.core.hpos⟩
          rw [this.1] at hd; cases hd
        | some w =>
          obtain ⟨s1, k, w, due', h1, h2, h3, h4, h5⟩ := ih hx
          exact ⟨s1, k, w, due', h1, h2, h3, h4, .step due h5⟩
      | _ => rw [hx] at hs; cases hs
    | false =>
      have hf : fin0 ((step sys due s).st 0) = true := by rw [hd]; rfl
      rcases main_step (sys := sys) due hi with ⟨k, hc, hst⟩ | ⟨rest, hc, hb, hst⟩ | hst | ⟨w, _, hst⟩
      · exfalso
        have hrun := main_running hi hc
        by_cases hret : ∃ v, sys.prog k s.g = .ret v
        · obtain ⟨w, hv⟩ := hret
          have : (step sys due s).st 0 = .pend (.final w) := by
            rw [hst, hv]
            unfold exec
            simp only [if_true, hck hpath, hw.ev, false_or, Bool.false_eq_true, if_false]
            exact upd_self s.st 0 _
          rw [this] at hd; cases hd
        · have := exec_main (c := sys.prog k s.g) hrun hi.core.hpos (fun v hv => hret ⟨v, hv⟩)
          rw [← hst, hf] at this
          cases this
      · have hq := qExp_one_of_head hi hb
        have hsf : ∃ w, s.st 0 = .fin (.final w) := by
          cases hx : fin0 (s.st 0) with
          | false =>
            have := resume_main (s := { s with batch := rest }) hx
            rw [← hst, hf] at this
            cases this
          | true =>
            cases hz : s.st 0 with
            | fin w =>
              cases w with
              | final v => exact ⟨v, rfl⟩
              | _ => rw [hz] at hx; cases hx
            | pend w => rw [hz] at hq; cases hq
            | done r => rw [hz] at hq; cases hq
            | _ => rw [hz] at hx; cases hx
        obtain ⟨w, hw⟩ := hsf
        obtain ⟨s1, k, due', h1, h2, h3, h4, h5⟩ := final_origin hr (.inr hw)
        exact ⟨s1, k, w, due', h1, h2, h3, h4, .step due h5⟩
      · rw [hst] at hd; rw [hd] at hs; cases hs
      · rw [hst] at hd; cases hd

theorem passed_rest {sys : Sys σ G V} {g : G} {k0 : σ} {s0 s : St σ G V} (hp : ClockPrivate sys)
    (h0 : Reach sys g k0 s0) (hclk : s0.clock ≠ .off) (hnd : isDone (s0.st 0) = false)
    (hpath : Path sys s0 s) {v : V} (hd : s.st 0 = .done (some v)) : Rest s := by
  obtain ⟨s1, k, w, due, h1, h2, h3, h4, h5⟩ := passed_origin hp h0 hclk hnd hpath hd
  cases ha : s.aborted with
  | true => exact absurd hd ((path_lost hp h1 h2 h3 h4 due h5 ha).main v)
  | false =>
    obtain ⟨b, rk, _, hph⟩ := path_phase hp h1 h2 h3 h4 due h5 ha
    generalize marks b = m at hph
    cases hph with
    | p1 h => rw [h] at hd; cases hd
    | p1a F hr h => exact hr
    | p1b F F' hr h => exact hr
    | p2a hr h => exact hr
    | p2b F F' hr h => exact hr
    | p3 F' hr h => exact hr
    | p4a hr h => exact hr
    | p4b F F' hr h => exact hr
    | p5 F' hr h => exact hr
    | p6 hr h => exact hr

/-! ### The background part of a driver call -/

/-- Executions from `s0` in which the code that requests the hooks of this call is executed by task `u`
alone, and nobody awaits `u` (`background_exec` and its task are local to the call). -/
inductive Alone (sys : Sys σ G V) (u : Nat) (rq : Nat → σ) (s0 : St σ G V) : St σ G V → Prop where
  | refl : Alone sys u rq s0 s0
  | step {s} (due : List Nat) : Alone sys u rq s0 s → (∀ w i, s.cur = some (w, rq i) → w = u) →
      s.joiners u = [] → Alone sys u rq s0 (step sys due s)

theorem Path.trans {sys : Sys σ G V} {s0 s1 s2 : St σ G V} (h : Path sys s0 s1)
    (h' : Path sys s1 s2) : Path sys s0 s2 := by
  induction h' with
  | refl => exact h
  | step due _ ih => exact .step due ih

theorem Alone.path {sys : Sys σ G V} {u : Nat} {rq : Nat → σ} {s0 s : St σ G V}
    (h : Alone sys u rq s0 s) : Path sys s0 s := by
  induction h with
  | refl => exact .refl
  | step due _ _ _ ih => exact .step due ih

theorem until_path {sys : Sys σ G V} {u : Nat} {s0 s : St σ G V} (h : Until sys u s0 s) :
    Path sys s0 s := by
  induction h with
  | refl => exact .refl
  | step due _ _ ih => exact .step due ih

theorem calling_path {sys : Sys σ G V} {t : Nat} {rq : Nat → σ} {after : List V → σ} {exc : σ}
    {s0 s : St σ G V} (h : Calling sys t rq after exc s0 s) : Path sys s0 s := by
  induction h with
  | refl => exact .refl
  | step due _ _ _ _ ih => exact .step due ih

section

variable {sys : Sys σ G V} {g : G} {k0 : σ} {items : List (Item σ G V)} {rq rp wt wt' wt'' : Nat → σ}
  {sp : List Nat → σ} {jn : List Nat → List V → σ} {after : List V → σ} {exc : σ}

/-- How far the background task is. -/
inductive Stage (sys : Sys σ G V) (items : List (Item σ G V)) (rq : Nat → σ) (after : List V → σ)
    (exc : σ) (u : Nat) (s0 s : St σ G V) : Prop where
  | new (h : Until sys u s0 s) (hf : ∀ e ∈ evs items, Unasked e s)
  | calling (s1 : St σ G V) (h1 : Until sys u s0 s1) (hc : s1.cur = some (u, rq 0))
      (hf : ∀ e ∈ evs items, Unasked e s1) (h : Calling sys u rq after exc s1 s)
  | past (s1 s2 : St σ G V) (res : List V) (due : List Nat) (h1 : Until sys u s0 s1)
      (hc : s1.cur = some (u, rq 0)) (hf : ∀ e ∈ evs items, Unasked e s1)
      (h : Calling sys u rq after exc s1 s2) (hc2 : s2.cur = some (u, after res))
      (hj : s2.joiners u = []) (hp : Path sys (step sys due s2) s)

theorem stage (hc : CallCode sys items rq rp wt wt' wt'' sp jn after exc)
    (hrq : ∀ i, rq i ≠ exc) (hrp : ∀ i, rp i ≠ exc) (hsp : ∀ ids, sp ids ≠ exc)
    (hjn : ∀ ids r, jn ids r ≠ exc) (hex : ∀ res, after res ≠ exc) (hra : ∀ i res, rq i ≠ after res)
    {s0 s : St σ G V} {u : Nat} (h0 : Reach sys g k0 s0) (hs : s0.st u = .ready (rq 0))
    (hf : ∀ e ∈ evs items, Unasked e s0) (ha : Alone sys u rq s0 s) :
    Stage sys items rq after exc u s0 s := by
  induction ha with
  | refl => exact .new .refl hf
  | @step s due ha hal hj ih =>
    have hr := ha.path.reach h0
    cases ih with
    | new h hf =>
      by_cases hcu : ∃ k, s.cur = some (u, k)
      · obtain ⟨k, hcu⟩ := hcu
        have hk : s.cur = some (u, rq 0) := by
          rcases (until_ready h0 hs h).2.1 with h1 | h1
          · have hrun : isRunning (s.st u) = true :=
              ((reach_inv hr).core.hcur u).2 (by rw [hcu]; rfl)
            rw [h1] at hrun; cases hrun
          · exact h1
        refine .calling s h hk hf (.step due .refl ?_ ?_ hal)
        · intro res h1
          rw [hk] at h1
          injection h1 with h1; injection h1 with _ h1
          exact hra _ _ h1
        · intro h1
          rw [hk] at h1
          injection h1 with h1; injection h1 with _ h1
          exact hrq _ h1
      · refine .new (.step due h fun k hk => hcu ⟨k, hk⟩) fun e he => ?_
        refine (hf e he).step due (hc.own e he) hr ?_
        rintro w k hw ⟨i, rfl⟩
        obtain rfl := hal w i hw
        exact hcu ⟨_, hw⟩
    | calling s1 h1 hc1 hf1 h =>
      by_cases hcu : ∃ res, s.cur = some (u, after res)
      · obtain ⟨res, hcu⟩ := hcu
        exact .past s1 s res due h1 hc1 hf1 h hcu hj .refl
      · refine .calling s1 h1 hc1 hf1 (.step due h (fun res hk => hcu ⟨res, hk⟩) ?_ hal)
        exact C84_no_exception hc hrq hrp hsp hjn hex s1 s ((until_path h1).reach h0) hc1 hf1 h
    | past s1 s2 res due' h1 hc1 hf1 h hc2 hj2 hp =>
      exact .past s1 s2 res due' h1 hc1 hf1 h hc2 hj2 (.step due hp)

/-- C97: a driver call creates its background task in `s0`, while a clock runs and the run is not over.
If the run ends with a result, then the comparison was carried out: in some state `s2` in between the
background task is behind the wait for its hooks, in the clock cycle of `s0`, each of the hooks has left
its result in the shared state (`R`), and the results match (`Match`; if they do not, the comparison
raises AssertionError). -/
theorem C97_compared (hp : ClockPrivate sys)
    (hc : CallCode sys items rq rp wt wt' wt'' sp jn after exc)
    (hinj : ∀ res res', after res = after res' → res = res')
    (hrq : ∀ i, rq i ≠ exc ∧ ∀ res, rq i ≠ after res) (hrp : ∀ i, rp i ≠ exc ∧ ∀ res, rp i ≠ after res)
    (hsp : ∀ ids, sp ids ≠ exc ∧ ∀ res, sp ids ≠ after res)
    (hjn : ∀ ids r, jn ids r ≠ exc ∧ ∀ res, jn ids r ≠ after res) (hex : ∀ res, after res ≠ exc)
    (R : Nat → G → Prop) (hR : ∀ e ∈ evs items, Records sys e (R e)) (Match : G → Prop)
    (hcmp : ∀ res g, ¬ Match g → sys.prog (after res) g = .raise false)
    (s0 s : St σ G V) (t : Nat) (k : σ) (kc : Nat → σ) (due : List Nat) (v : V)
    (h0 : Reach sys g k0 s0) (hcu : s0.cur = some (t, k)) (hk : sys.prog k s0.g = .spawn (rq 0) kc)
    (hclk : s0.clock ≠ .off) (hnd : isDone (s0.st 0) = false) (hf : ∀ e ∈ evs items, Unasked e s0)
    (ha : Alone sys s0.n rq (step sys due s0) s) (hd : s.st 0 = .done (some v)) :
    ∃ s2 res, Path sys (step sys due s0) s2 ∧ s2.cur = some (s0.n, after res) ∧ Path sys s2 s ∧
      s2.cycles = s0.cycles ∧ (∃ l, s2.log = s0.log ++ l ∧ Ev.step ∉ l) ∧
      (∀ e ∈ evs items, R e s2.g) ∧ Match s2.g := by
  have hi0 := reach_inv h0
  have hst : step sys due s0 = exec t (.spawn (rq 0) kc) s0 := by unfold step; rw [hcu, ← hk]
  have hs : (step sys due s0).st s0.n = .ready (rq 0) := by rw [hst]; exact upd_self s0.st s0.n _
  have hf' : ∀ e ∈ evs items, Unasked e (step sys due s0) := by
    intro e he; rw [hst]; exact ⟨(hf e he).ev, (hf e he).none⟩
  have h0' : Reach sys g k0 (step sys due s0) := .step due h0
  have hclk' := clock_step sys due hclk
  have hpos := hi0.core.hpos
  have hnd' : isDone ((step sys due s0).st 0) = false := by
    rw [hst]
    show isDone (upd s0.st s0.n _ 0) = false
    rw [upd_ne _ _ _ _ (by omega)]
    exact hnd
  have hrest := passed_rest hp h0' hclk' hnd' ha.path hd
  have hu := hrest.others s0.n (by omega)
  cases stage hc (fun i => (hrq i).1) (fun i => (hrp i).1) (fun i => (hsp i).1)
    (fun i r => (hjn i r).1) hex (fun i => (hrq i).2) h0' hs hf' ha with
  | new h hf1 =>
    exfalso
    rcases (until_ready h0' hs h).2.1 with h1 | h1
    · rw [h1] at hu; cases hu
    · rw [hrest.cur] at h1; cases h1
  | calling s1 h1 hc1 hf1 h =>
    exfalso
    have := (C84_no_cycle hc s1 s ((until_path h1).reach h0') hc1 hf1 h).2.1
    cases hx : s.st s0.n with
    | done r => exact this r hx
    | _ => rw [hx] at hu; cases hu
  | past s1 s2 res due' h1 hc1 hf1 h hc2 hj hp2 =>
    have hr1 := (until_path h1).reach h0'
    have hr2 := h.reach hr1
    have hp02 := Path.trans (until_path h1) (calling_path h)
    obtain ⟨ht1, _, l1, hl1, hs1⟩ := C84_task_starts s0 s1 t k (rq 0) kc due h0 hcu hk h1
    obtain ⟨ht2, _, l2, hl2, hs2⟩ := C84_no_cycle hc s1 s2 hr1 hc1 hf1 h
    obtain ⟨_, hset⟩ := returned_set hc hinj (fun i => (hrq i).2) (fun i => (hrp i).2)
      (fun i => (hsp i).2) (fun i r => (hjn i r).2) hex hr1 hc1 hf1 h hc2
    refine ⟨s2, res, hp02, hc2, Path.trans (.step due' .refl) hp2, ht2.trans ht1,
      ⟨l1 ++ l2, by rw [hl2, hl1, List.append_assoc], by simp [hs1, hs2]⟩,
      fun e he => (reach_records (hc.own e he) (hR e he) hr2).now (hset e he), ?_⟩
    apply Classical.byContradiction
    intro hm
    have hnd2 : isDone (s2.st 0) = false := by
      cases hx : isDone (s2.st 0) with
      | false => rfl
      | true =>
        exfalso
        cases hz : s2.st 0 with
        | done r =>
          cases r with
          | some w =>
            have := (passed_rest hp h0' hclk' hnd' hp02 hz).cur
            rw [hc2] at this; cases this
          | none =>
            have : ∀ {s}, Path sys s2 s → DoneAs 0 none s := by
              intro s h
              induction h with
              | refl => exact ⟨hz, (reach_inv hr2).core.hpos⟩
              | step due h ih => exact step_done sys due (reach_inv (h.reach hr2)) ih
            have := (this (Path.trans (.step due' .refl) hp2)).1
            rw [hd] at this; cases this
        | _ => rw [hz] at hx; cases hx
    have hclk2 : s2.clock ≠ .off := by
      have : ∀ {s}, Path sys (step sys due s0) s → s.clock ≠ .off := by
        intro s h
        induction h with
        | refl => exact hclk'
        | step due _ ih => exact clock_step sys due ih
      exact this hp02
    exact C77_reported_partial sys g k0 (after res) s2 s s0.n hp hr2 hc2 (by omega)
      (hcmp res s2.g hm) hj hclk2 hnd2 due' hp2 v hd

end

/-! ### A concrete system -/

/-- The states of a test that starts the clock and makes a driver call, of which the background part is
left, and then waits for a clock cycle. -/
inductive K where
  | start
  | call
  | idle
  | rq (i : Nat)
  | rp (i : Nat)
  | wt (e : Nat)
  | wt' (e : Nat)
  | wt'' (e : Nat)
  | sp (ids : List Nat)
  | jn (ids : List Nat) (res : List Nat)
  | after (res : List Nat)
  | exc
  | last
deriving DecidableEq

/-- A hook that leaves the result `n` in `model_results`, with done event `e`. -/
def result (n e : Nat) : Hook K (List (Nat × Nat)) Nat where
  run g := (g ++ [(e, n)], [])
  done := some e

def items (n : Nat) : List (Item K (List (Nat × Nat)) Nat) :=
  [.hook (result 42 5) 5 1, .hook (result n 6) 6 0]

/-- The result of the driver method is 42, the second model returns `n`. -/
def demo (n : Nat) : Sys K (List (Nat × Nat)) Nat where
  prog k g := match k with
    | .start => .startClock .call
    | .call => .spawn (.rq 0) (fun _ => .idle)
    | .idle => .waitEv 0 .last
    | .rq i => match i with
      | 0 => .addHook (result 42 5) 1 (.rq 1)
      | 1 => .addHook (result n 6) 0 (.rq 2)
      | _ => .comp g (.sp [])
    | .rp i => .taskRun (.rq (i + 1))
    | .wt e => .waitEv e (.wt' e)
    | .wt' e => .taskRun (.wt'' e)
    | .wt'' _ => .ret 0
    | .sp ids => if h : ids.length < 2 then
        .spawn ([K.wt 5, K.wt 6][ids.length]) (fun u => .sp (ids ++ [u])) else .comp g (.jn ids [])
    | .jn ids res => if h : res.length < ids.length then
        .join ids[res.length] (fun v => .jn ids (res ++ [v])) .exc else .comp g (.after res)
    | .after _ => if g.all (fun x => x.2 == 42) then .ret 0 else .raise false
    | .exc => .ret 0
    | .last => .ret 7
  dutStep g := g
  sample g := g

theorem demo_shape (n : Nat) (k : K) (g : List (Nat × Nat)) :
    (∀ e k', (demo n).prog k g ≠ .setEv e k') ∧ (∀ e k', (demo n).prog k g ≠ .clearEv e k') ∧
    (∀ h p k', (demo n).prog k g = .addHook h p k' → (∃ i, k = .rq i) ∧
      (h = result 42 5 ∨ h = result n 6)) ∧
    (∀ g' k', (demo n).prog k g = .comp g' k' → g' = g) := by
  cases k with
  | rq i =>
    match i with
    | 0 => exact ⟨nofun, nofun, fun h p k' hh => by cases hh; exact ⟨⟨0, rfl⟩, .inl rfl⟩, nofun⟩
    | 1 => exact ⟨nofun, nofun, fun h p k' hh => by cases hh; exact ⟨⟨1, rfl⟩, .inr rfl⟩, nofun⟩
    | i + 2 => exact ⟨nofun, nofun, nofun, fun g' k' hh => by cases hh; rfl⟩
  | sp ids =>
    by_cases h : ids.length < 2
    · have : ∃ a f, (demo n).prog (.sp ids) g = .spawn a f :=
        ⟨[K.wt 5, K.wt 6][ids.length], fun u => .sp (ids ++ [u]), by simp only [demo, h, dite_true]⟩
      obtain ⟨a, f, h1⟩ := this
      rw [h1]
      exact ⟨nofun, nofun, nofun, nofun⟩
    · have h1 : (demo n).prog (.sp ids) g = .comp g (.jn ids []) := by
        simp only [demo, h, dite_false]
      rw [h1]
      exact ⟨nofun, nofun, nofun, fun g' k' hh => by cases hh; rfl⟩
  | jn ids res =>
    by_cases h : res.length < ids.length
    · have : ∃ a f x, (demo n).prog (.jn ids res) g = .join a f x :=
        ⟨ids[res.length], fun v => .jn ids (res ++ [v]), .exc, by simp only [demo, h, dite_true]⟩
      obtain ⟨a, f, x, h1⟩ := this
      rw [h1]
      exact ⟨nofun, nofun, nofun, nofun⟩
    · have h1 : (demo n).prog (.jn ids res) g = .comp g (.after res) := by
        simp only [demo, h, dite_false]
      rw [h1]
      exact ⟨nofun, nofun, nofun, fun g' k' hh => by cases hh; rfl⟩
  | after res =>
    by_cases h : g.all (fun x => x.2 == 42) = true
    · have h1 : (demo n).prog (.after res) g = .ret 0 := by simp only [demo, h, if_true]
      rw [h1]
      exact ⟨nofun, nofun, nofun, nofun⟩
    · have h1 : (demo n).prog (.after res) g = .raise false := by simp only [demo, h]; rfl
      rw [h1]
      exact ⟨nofun, nofun, nofun, nofun⟩
  | _ => exact ⟨nofun, nofun, nofun, nofun⟩

theorem demo_private (n : Nat) : ClockPrivate (demo n) := by
  intro k g
  obtain ⟨h1, _, h3, _⟩ := demo_shape n k g
  refine ⟨fun k' => h1 0 k', fun h p k' hp => ?_⟩
  rcases (h3 h p k' hp).2 with rfl | rfl
  · exact ⟨nofun, fun g => nofun⟩
  · exact ⟨nofun, fun g => nofun⟩

theorem demo_own (n e : Nat) (he : e ≠ 0) : OwnEv (demo n) (fun k => ∃ i, k = .rq i) e := by
  refine ⟨he, fun k g => (demo_shape n k g).1 e, fun k g => (demo_shape n k g).2.1 e, ?_, ?_⟩
  · intro k g h p k' hp g' hm
    rcases ((demo_shape n k g).2.2.1 h p k' hp).2 with rfl | rfl <;> cases hm
  · intro k g h p k' hp hd
    exact ((demo_shape n k g).2.2.1 h p k' hp).1

theorem demo_code (n : Nat) :
    CallCode (demo n) (items n) .rq .rp .wt .wt' .wt'' .sp .jn .after .exc := by
  refine ⟨?_, ?_, ?_, ?_, ⟨?_, ?_, ?_, ?_⟩, ⟨?_, ?_, ?_⟩, (by show [5, 6].Nodup; decide), ?_, ?_, ?_⟩
  · intro i h e p g hi
    match i, hi with
    | 0, hi => cases hi; exact ⟨rfl, rfl⟩
    | 1, hi => cases hi; exact ⟨rfl, rfl⟩
    | i + 2, hi => cases hi
  · intro i q v g hi
    match i, hi with
    | i + 2, hi => cases hi
  · intro i g hi; rfl
  · intro g; rfl
  · intro ids g h
    have h : ids.length < 2 := h
    simp only [demo, h, dite_true]
    rfl
  · intro ids g h
    have h : ids.length = 2 := h
    simp [demo, h]
  · intro ids res g h _; simp [demo, h]
  · intro ids res g _ h; simp [demo, h]
  · intro e g; rfl
  · intro e g; rfl
  · intro e g; exact ⟨0, rfl⟩
  · intro e he
    apply demo_own
    have he : e ∈ [5, 6] := he
    rintro rfl
    simp at he
  · intro i ids h; cases h
  · intro i ids r h; cases h

/-- The result of the hook with the event `e` is in `model_results`. -/
def HasResult (e : Nat) (g : List (Nat × Nat)) : Prop := ∃ n, (e, n) ∈ g

theorem demo_records (n e : Nat) : Records (demo n) e (HasResult e) := by
  refine ⟨?_, ?_, ?_, fun _ h => h, fun _ h => h⟩
  · intro k g g' k' hp h
    rw [(demo_shape n k g).2.2.2 g' k' hp]; exact h
  · rintro k g h p k' hp g' ⟨m, hm⟩
    rcases ((demo_shape n k g).2.2.1 h p k' hp).2 with rfl | rfl <;>
      exact ⟨m, List.mem_append_left _ hm⟩
  · intro k g h p k' hp hd g'
    rcases ((demo_shape n k g).2.2.1 h p k' hp).2 with rfl | rfl <;> cases hd
    · exact ⟨42, List.mem_append_right _ (List.mem_singleton.2 rfl)⟩
    · exact ⟨n, List.mem_append_right _ (List.mem_singleton.2 rfl)⟩

/-- The state in which the call creates its background task. -/
def s0 (n : Nat) : St K (List (Nat × Nat)) Nat := iter (demo n) 3 (init [] .start)

def strays : Option (Nat × K) → Bool
  | some (1, .rq _) => false
  | some (_, .rq _) => true
  | _ => false

theorem alone_iter (n m : Nat) {a s : St K (List (Nat × Nat)) Nat} (h : Alone (demo n) 1 .rq a s)
    (hn : ∀ i, i < m → strays (iter (demo n) i s).cur = false ∧ (iter (demo n) i s).joiners 1 = []) :
    Alone (demo n) 1 .rq a (iter (demo n) m s) := by
  induction m generalizing s with
  | zero => exact h
  | succ m ih =>
    obtain ⟨h0, h1⟩ := hn 0 (by omega)
    refine ih (.step [] h ?_ h1) (fun i hi => hn (i + 1) (by omega))
    intro w i hc
    have h0 : strays s.cur = false := h0
    rw [hc] at h0
    match w, h0 with
    | 1, _ => rfl

/-- The hypotheses of `C97_compared` are met by a run that passes; 42 and 42 were compared. -/
example : Reach (demo 42) [] .start (s0 42) ∧ (s0 42).cur = some (0, .call) ∧ (s0 42).n = 1 ∧
    (s0 42).clock ≠ .off ∧ isDone ((s0 42).st 0) = false ∧
    (∀ e ∈ evs (items 42), Unasked e (s0 42)) ∧
    Alone (demo 42) 1 .rq (step (demo 42) [] (s0 42)) (iter (demo 42) 60 (step (demo 42) [] (s0 42))) ∧
    (iter (demo 42) 60 (step (demo 42) [] (s0 42))).st 0 = .done (some 7) ∧
    (iter (demo 42) 60 (step (demo 42) [] (s0 42))).g = [(6, 42), (5, 42)] :=
  ⟨reach_iter 3 .init, by decide +kernel, by decide +kernel, by decide +kernel, by decide +kernel,
    by
      intro e he
      have he : e = 5 ∨ e = 6 := by simpa [evs, items] using he
      rcases he with rfl | rfl <;> exact ⟨by decide +kernel, nofun⟩,
    alone_iter 42 60 .refl (by decide +kernel), rfl, by decide +kernel⟩

/-- With 42 and 41 the run ends, without a result. -/
example : halted (iter (demo 41) 60 (s0 41)) ∧ (iter (demo 41) 60 (s0 41)).aborted = true ∧
    isDone ((iter (demo 41) 60 (s0 41)).st 0) = false ∧
    (iter (demo 41) 60 (s0 41)).g = [(6, 41), (5, 42)] :=
  ⟨⟨by decide +kernel, by decide +kernel, by decide +kernel⟩, by decide +kernel, by decide +kernel,
    by decide +kernel⟩

end Toffee.Props.LoopScore
