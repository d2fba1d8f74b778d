import Verif.Lemmas.LoopFail
import Verif.Lemmas.LoopRun
/-!
C18: `gather` waits for everything and keeps the argument order.
-/

namespace Toffee.Props.LoopGather

open Toffee.Loop

variable {σ G V : Type}

/-- The code of `gather(*coros)` (`asynchronous.py` 295-308) inside a task: `sp ids` is the first
loop after the tasks `ids` were created, `jn ids res` the second loop after the results `res` were
collected, `after res` the caller with the returned list, `exc` the caller when `gather` raises. -/
structure GatherCode (sys : Sys σ G V) (cs : List σ) (sp : List Nat → σ)
    (jn : List Nat → List V → σ) (after : List V → σ) (exc : σ) : Prop where
  create : ∀ ids g (h : ids.length < cs.length),
    sys.prog (sp ids) g = .spawn cs[ids.length] (fun u => sp (ids ++ [u]))
  created : ∀ ids g, ids.length = cs.length → sys.prog (sp ids) g = .comp g (jn ids [])
  await : ∀ ids res g (h : res.length < ids.length), ids.length = cs.length →
    sys.prog (jn ids res) g = .join ids[res.length] (fun v => jn ids (res ++ [v])) exc
  awaited : ∀ ids res g, ids.length = cs.length → res.length = ids.length →
    sys.prog (jn ids res) g = .comp g (after res)

/-- Executions from `s0` while task `t` has not got behind the call. -/
inductive During (sys : Sys σ G V) (t : Nat) (after : List V → σ) (exc : σ) (s0 : St σ G V) :
    St σ G V → Prop where
  | refl : During sys t after exc s0 s0
  | step {s} (due : List Nat) : During sys t after exc s0 s →
      (∀ res, s.cur ≠ some (t, after res)) → s.cur ≠ some (t, exc) →
      During sys t after exc s0 (step sys due s)

theorem During.reach {sys : Sys σ G V} {g : G} {k0 : σ} {t : Nat} {after : List V → σ}
    {exc : σ} {s0 s : St σ G V} (h : During sys t after exc s0 s) (h0 : Reach sys g k0 s0) :
    Reach sys g k0 s := by
  induction h with
  | refl => exact h0
  | step due _ _ _ ih => exact .step due ih

/-- The tasks created so far are those of the first coroutines, in order. -/
structure Made (cs : List σ) (lo : Nat) (ids : List Nat) (s : St σ G V) : Prop where
  le : ids.length ≤ cs.length
  born : ∀ i (h : i < ids.length) (h' : i < cs.length), Born cs[i] ids[i] s
  new : ∀ u ∈ ids, lo ≤ u
  inc : ids.Pairwise (· < ·)

/-- The results collected so far are those of the first tasks, in order. -/
structure Got (ids : List Nat) (res : List V) (s : St σ G V) : Prop where
  le : res.length ≤ ids.length
  res : ∀ i (h : i < res.length) (h' : i < ids.length), DoneAs ids[i] (some res[i]) s

theorem Made.step {cs : List σ} {lo : Nat} {ids : List Nat} {s s' : St σ G V}
    (h : Made cs lo ids s) (hg : Grows s s') : Made cs lo ids s' :=
  ⟨h.le, fun i h1 h2 => hg.born _ _ (h.born i h1 h2), h.new, h.inc⟩

/-- Where task `t` is inside `gather`. -/
inductive In (cs : List σ) (sp : List Nat → σ) (jn : List Nat → List V → σ) (after : List V → σ)
    (exc : σ) (t lo : Nat) (s : St σ G V) : Prop where
  | creating (ids : List Nat) (hm : Made cs lo ids s) (hlo : lo ≤ s.n)
      (h : s.cur = some (t, sp ids))
  | awaiting (ids : List Nat) (res : List V) (hm : Made cs lo ids s)
      (hl : ids.length = cs.length) (hg : Got ids res s) (h : s.cur = some (t, jn ids res))
  | blocked (ids : List Nat) (res : List V) (hm : Made cs lo ids s)
      (hl : ids.length = cs.length) (hg : Got ids res s) (hr : res.length < ids.length)
      (h : Susp (.join ids[res.length] (fun v => jn ids (res ++ [v])) exc) t s)
  | returned (ids : List Nat) (res : List V) (hm : Made cs lo ids s)
      (hl : ids.length = cs.length) (hg : Got ids res s) (hr : res.length = ids.length)
      (h : s.cur = some (t, after res))
  | raised (ids : List Nat) (res : List V) (hm : Made cs lo ids s)
      (hl : ids.length = cs.length) (hg : Got ids res s) (hr : res.length < ids.length)
      (hf : s.failed ids[res.length] = true) (h : s.cur = some (t, exc))
  | cancelled (h : DoneAs t none s)

theorem Got.snoc {ids : List Nat} {res : List V} {s : St σ G V} {v : V} (h : Got ids res s)
    (hr : res.length < ids.length) (hd : DoneAs ids[res.length] (some v) s) :
    Got ids (res ++ [v]) s := by
  refine ⟨by simp; omega, ?_⟩
  intro i h1 h2
  simp only [List.length_append, List.length_singleton] at h1
  by_cases hi : i < res.length
  · rw [List.getElem_append_left hi]
    exact h.res i hi h2
  · have : i = res.length := by omega
    subst this
    simpa using hd

theorem Got.step {sys : Sys σ G V} {ids : List Nat} {res : List V} {s : St σ G V} (hi : Inv s)
    (due : List Nat) (h : Got ids res s) : Got ids res (Loop.step sys due s) :=
  ⟨h.le, fun i h1 h2 => step_done sys due hi (h.res i h1 h2)⟩

theorem Made.snoc {cs : List σ} {lo : Nat} {ids : List Nat} {s s' : St σ G V}
    (h : Made cs lo ids s) (hlt : ids.length < cs.length) (hlo : lo ≤ s.n) (hg : Grows s s')
    (hb : Born cs[ids.length] s.n s') : Made cs lo (ids ++ [s.n]) s' := by
  refine ⟨by simp; omega, ?_, ?_, ?_⟩
  · intro i h1 h2
    simp only [List.length_append, List.length_singleton] at h1
    by_cases hi : i < ids.length
    · rw [List.getElem_append_left hi]
      exact hg.born _ _ (h.born i hi h2)
    · have : i = ids.length := by omega
      subst this
      simpa using hb
  · intro u hu
    rcases List.mem_append.1 hu with hu | hu
    · exact h.new u hu
    · rw [List.mem_singleton] at hu; subst hu; exact hlo
  · rw [List.pairwise_append]
    refine ⟨h.inc, by simp, ?_⟩
    intro a ha b hb
    rw [List.mem_singleton] at hb
    subst hb
    obtain ⟨i, hi, rfl⟩ := List.mem_iff_getElem.1 ha
    exact (h.born i hi (by omega)).2

theorem during_in {sys : Sys σ G V} {g : G} {k0 : σ} {t : Nat} {cs : List σ} {sp : List Nat → σ}
    {jn : List Nat → List V → σ} {after : List V → σ} {exc : σ}
    (hc : GatherCode sys cs sp jn after exc) {s0 s : St σ G V} (h0 : Reach sys g k0 s0) (hs : s0.cur = some (t, sp []))
    (hd : During sys t after exc s0 s) : In cs sp jn after exc t s0.n s := by
  induction hd with
  | refl =>
    exact .creating [] ⟨by simp, by simp, by simp, by simp⟩ (Nat.le_refl _) hs
  | @step s due hd hne hne' ih =>
    have hr := hd.reach h0
    have hi := reach_inv hr
    have hgr := step_grows sys due s
    have hlt : ∀ k, s.cur = some (t, k) → t < s.n := by
      intro k h
      have := hi.core
      unfold InvS at this
      rw [h] at this
      exact this.lt_of_running
    cases ih with
    | cancelled h => exact .cancelled (step_done sys due hi h)
    | returned ids res hm hl hg hr' h => exact absurd h (hne res)
    | raised ids res hm hl hg hr' hf h => exact absurd h hne'
    | creating ids hm hlo h =>
      have hst : step sys due s = exec t (sys.prog (sp ids) s.g) s := by
        unfold step; rw [h]
      by_cases hlt' : ids.length < cs.length
      · rw [hc.create ids s.g hlt'] at hst
        refine .creating (ids ++ [s.n]) ?_ (Nat.le_trans hlo hgr.mono) ?_
        · refine hm.snoc hlt' hlo hgr ?_
          rw [hst]
          refine ⟨?_, ?_⟩
          · exact upd_self s.orig s.n _
          · show s.n < s.n + 1
            omega
        · rw [hst]; rfl
      · have hl : ids.length = cs.length := by have := hm.le; omega
        rw [hc.created ids s.g hl] at hst
        refine .awaiting ids [] (hm.step hgr) hl ⟨by simp, by simp⟩ ?_
        rw [hst]; rfl
    | awaiting ids res hm hl hg h =>
      have hst : step sys due s = exec t (sys.prog (jn ids res) s.g) s := by
        unfold step; rw [h]
      by_cases hlt' : res.length < ids.length
      · rw [hc.await ids res s.g hlt' hl] at hst
        cases hu : s.st ids[res.length] with
        | done r =>
          have hb : ids[res.length] < s.n :=
            (hm.born res.length hlt' (by omega)).2
          cases r with
          | some v =>
            have hex : exec t (.join ids[res.length] (fun v => jn ids (res ++ [v])) exc) s =
                { s with cur := some (t, jn ids (res ++ [v])) } := by
              unfold exec
              simp only [hu]
            refine .awaiting ids (res ++ [v]) (hm.step hgr) hl ?_ (by rw [hst, hex])
            exact (hg.snoc hlt' ⟨hu, hb⟩).step hi due
          | none =>
            cases hfl : s.failed ids[res.length] with
            | true =>
              have hex : exec t (.join ids[res.length] (fun v => jn ids (res ++ [v])) exc) s =
                  { s with cur := some (t, exc) } := by
                unfold exec
                simp only [hu, hfl, if_true]
              refine .raised ids res (hm.step hgr) hl (hg.step hi due) hlt'
                (failed_mono sys due hfl) ?_
              rw [hst, hex]
            | false =>
              have hex : exec t (.join ids[res.length] (fun v => jn ids (res ++ [v])) exc) s =
                  finish t none s := by
                unfold exec
                simp only [hu, hfl]
                rfl
              rw [hst, hex]
              exact .cancelled (finish_self none (hlt _ h))
        | _ =>
          refine .blocked ids res (hm.step hgr) hl (hg.step hi due) hlt' ?_
          left
          rw [hst]
          unfold exec
          simp only [hu]
          exact upd_self s.st t _
      · have hl' : res.length = ids.length := by have := hg.le; omega
        rw [hc.awaited ids res s.g hl hl'] at hst
        refine .returned ids res (hm.step hgr) hl (hg.step hi due) hl' ?_
        rw [hst]; rfl
    | blocked ids res hm hl hg hlt' h =>
      rcases susp_step sys due hi h with h1 | h1 | ⟨rest, hb, hcu, hf, hst⟩
      · exact .blocked ids res (hm.step hgr) hl (hg.step hi due) hlt' h1
      · exact .cancelled h1.2
      · have hb : ids[res.length] < s.n := (hm.born res.length hlt' (by omega)).2
        have htn : t < s.n := hi.core.lt_of_not_done (by rw [hf]; rfl)
        have hnone : (∀ v, s.st ids[res.length] ≠ .done (some v)) →
            In cs sp jn after exc t s0.n (step sys due s) := by
          intro hu
          cases hfl : s.failed ids[res.length] with
          | true =>
            refine .raised ids res (hm.step hgr) hl (hg.step hi due) hlt'
              (failed_mono sys due hfl) ?_
            rw [hst]
            unfold resume
            simp only [hf, hfl, if_true]
          | false =>
            have hre : resume t { s with batch := rest } =
                finish t none { s with batch := rest } := by
              unfold resume
              simp only [hf, hfl]
              rfl
            rw [hst, hre]
            exact .cancelled (finish_self none htn)
        cases hu : s.st ids[res.length] with
        | done r =>
          cases r with
          | some v =>
            have hre : (resume t { s with batch := rest }).cur =
                some (t, jn ids (res ++ [v])) := by
              unfold resume
              simp only [hf, hu]
            refine .awaiting ids (res ++ [v]) (hm.step hgr) hl ?_ (by rw [hst, hre])
            exact (hg.snoc hlt' ⟨hu, hb⟩).step hi due
          | none => exact hnone (by rw [hu]; intro v hv; cases hv)
        | _ => exact hnone (by rw [hu]; intro v hv; cases hv)

/-- C18: when a call of `gather(c1, .., cn)` returns, it has created one new task per coroutine,
all of these tasks have finished, and the returned list consists of their results in the order
of the arguments, whatever the order in which they finished. -/
theorem C18_gather (sys : Sys σ G V) (g : G) (k0 : σ) (t : Nat) (cs : List σ) (sp : List Nat → σ)
    (jn : List Nat → List V → σ) (after : List V → σ) (exc : σ)
    (hc : GatherCode sys cs sp jn after exc)
    (hinj : ∀ res res', after res = after res' → res = res')
    (hsp : ∀ ids res, sp ids ≠ after res) (hjn : ∀ ids r res, jn ids r ≠ after res)
    (hex : ∀ res, after res ≠ exc)
    (s0 s : St σ G V) (h0 : Reach sys g k0 s0) (hs : s0.cur = some (t, sp []))
    (hd : During sys t after exc s0 s) (res : List V) (hret : s.cur = some (t, after res)) :
    ∃ ids : List Nat, ids.length = cs.length ∧ res.length = cs.length ∧
      (∀ u ∈ ids, s0.n ≤ u) ∧ ids.Pairwise (· < ·) ∧
      ∀ i (h : i < cs.length) (h1 : i < ids.length) (h2 : i < res.length),
        s.orig ids[i] = some cs[i] ∧ s.st ids[i] = .done (some res[i]) := by
  have hi := reach_inv (hd.reach h0)
  have hrun : isRunning (s.st t) = true := (hi.core.hcur t).2 (by rw [hret]; rfl)
  cases during_in hc h0 hs hd with
  | cancelled h => rw [h.1] at hrun; cases hrun
  | blocked ids res' hm hl hg hr h => rcases h with h | h <;> rw [h] at hrun <;> cases hrun
  | creating ids hm hlo h =>
    rw [hret] at h
    injection h with h
    injection h with _ h
    exact absurd h.symm (hsp _ _)
  | awaiting ids res' hm hl hg h =>
    rw [hret] at h
    injection h with h
    injection h with _ h
    exact absurd h.symm (hjn _ _ _)
  | raised ids res' hm hl hg hr hf h =>
    rw [hret] at h
    injection h with h
    injection h with _ h
    exact absurd h (hex _)
  | returned ids res' hm hl hg hr h =>
    rw [hret] at h
    injection h with h
    injection h with _ h
    have h := hinj _ _ h
    subst h
    refine ⟨ids, hl, by omega, hm.new, hm.inc, ?_⟩
    intro i h1 h2 h3
    exact ⟨(hm.born i h2 h1).1, (hg.res i h3 h2).1⟩

/-- C18: when a call of `gather(c1, .., cn)` raises, all the tasks were created, and the exception is
the one of the first of them, in the order of the arguments, that did not return; those before it
have finished. -/
theorem C18_raises (sys : Sys σ G V) (g : G) (k0 : σ) (t : Nat) (cs : List σ) (sp : List Nat → σ)
    (jn : List Nat → List V → σ) (after : List V → σ) (exc : σ)
    (hc : GatherCode sys cs sp jn after exc)
    (hsp : ∀ ids, sp ids ≠ exc) (hjn : ∀ ids r, jn ids r ≠ exc) (hex : ∀ res, after res ≠ exc)
    (s0 s : St σ G V) (h0 : Reach sys g k0 s0) (hs : s0.cur = some (t, sp []))
    (hd : During sys t after exc s0 s) (hret : s.cur = some (t, exc)) :
    ∃ (ids : List Nat) (m : Nat), ids.length = cs.length ∧ (∀ u ∈ ids, s0.n ≤ u) ∧
      ids.Pairwise (· < ·) ∧
      (∀ i (h : i < cs.length) (h1 : i < ids.length), s.orig ids[i] = some cs[i]) ∧
      (∀ i (h1 : i < ids.length), i < m → ∃ v, s.st ids[i] = .done (some v)) ∧
      ∃ h : m < ids.length, s.st ids[m] = .done none ∧ s.failed ids[m] = true := by
  have hr := hd.reach h0
  have hi := reach_inv hr
  have hrun : isRunning (s.st t) = true := (hi.core.hcur t).2 (by rw [hret]; rfl)
  cases during_in hc h0 hs hd with
  | cancelled h => rw [h.1] at hrun; cases hrun
  | blocked ids res' hm hl hg hr h => rcases h with h | h <;> rw [h] at hrun <;> cases hrun
  | creating ids hm hlo h =>
    rw [hret] at h
    injection h with h
    injection h with _ h
    exact absurd h.symm (hsp _)
  | awaiting ids res' hm hl hg h =>
    rw [hret] at h
    injection h with h
    injection h with _ h
    exact absurd h.symm (hjn _ _)
  | returned ids res' hm hl hg hr h =>
    rw [hret] at h
    injection h with h
    injection h with _ h
    exact absurd h.symm (hex _)
  | raised ids res hm hl hg hlt hf h =>
    refine ⟨ids, res.length, hl, hm.new, hm.inc, fun i h1 h2 => (hm.born i h2 h1).1, ?_, hlt,
      (reach_failed hr _ hf).1, hf⟩
    intro i h1 h2
    exact ⟨_, (hg.res i h2 h1).1⟩

/-! ### A concrete system -/

/-- The states of a test that calls `gather` on coroutines that wait for some clock cycles. -/
inductive K where
  | start
  | sp (ids : List Nat)
  | jn (ids : List Nat) (res : List Nat)
  | after (res : List Nat)
  | exc
  | child (left v : Nat)
  | bad (left : Nat)
deriving DecidableEq

def args : List K := [.child 2 70, .child 1 80]

/-- `gather` of the coroutines `args`, each of which takes some cycles; `bad` ones then raise. -/
def demoOf (args : List K) : Sys K Nat Nat where
  prog k g := match k with
    | .start => .startClock (.sp [])
    | .sp ids => if h : ids.length < args.length then
        .spawn args[ids.length] (fun u => .sp (ids ++ [u])) else .comp g (.jn ids [])
    | .jn ids res => if h : res.length < ids.length then
        .join ids[res.length] (fun v => .jn ids (res ++ [v])) .exc else .comp g (.after res)
    | .after res => .ret res.length
    | .exc => .ret 0
    | .child 0 v => .ret v
    | .bad 0 => .raise true
    | .bad (n + 1) => .waitEv 0 (.bad n)
    | .child (n + 1) v => .waitEv 0 (.child n v)
  dutStep g := g + 1
  sample g := g

/-- A coroutine that takes two cycles and one that takes one cycle. -/
def demo : Sys K Nat Nat := demoOf args

theorem demo_code (args : List K) : GatherCode (demoOf args) args .sp .jn .after .exc := by
  refine ⟨?_, ?_, ?_, ?_⟩
  · intro ids g h; simp [demoOf, h]
  · intro ids g h; simp [demoOf, h]
  · intro ids res g h _; simp [demoOf, h]
  · intro ids res g _ h; simp [demoOf, h]

theorem during_iter {sys : Sys σ G V} {t : Nat} {after : List V → σ} {exc : σ} (m : Nat)
    {s0 s : St σ G V} (h : During sys t after exc s0 s)
    (hn : ∀ i, i < m → (∀ res, (iter sys i s).cur ≠ some (t, after res)) ∧
      (iter sys i s).cur ≠ some (t, exc)) :
    During sys t after exc s0 (iter sys m s) := by
  induction m generalizing s with
  | zero => exact h
  | succ m ih =>
    refine ih (.step [] h (hn 0 (by omega)).1 (hn 0 (by omega)).2) ?_
    intro i hi
    exact hn (i + 1) (by omega)

def isAfter : Option (Nat × K) → Bool
  | some (_, .after _) | some (_, .exc) => true
  | _ => false

theorem during_demo (args : List K) (m : Nat)
    (h : ∀ i, i < m → isAfter (iter (demoOf args) i (iter (demoOf args) 3 (init 0 .start))).cur =
      false) :
    During (demoOf args) 0 .after .exc (iter (demoOf args) 3 (init 0 .start))
      (iter (demoOf args) m (iter (demoOf args) 3 (init 0 .start))) := by
  refine during_iter m .refl ?_
  intro i hi
  have := h i hi
  constructor
  · intro res hc
    rw [hc] at this
    cases this
  · intro hc
    rw [hc] at this
    cases this

/-- The hypotheses are met; although the second coroutine finishes first, its result comes last. -/
example : ∃ s0 s, Reach demo 0 .start s0 ∧ s0.cur = some (0, .sp []) ∧
    During demo 0 .after .exc s0 s ∧ s.cur = some (0, .after [70, 80]) :=
  ⟨iter demo 3 (init 0 .start), iter demo 26 (iter demo 3 (init 0 .start)),
    reach_iter 3 .init, by decide, during_demo args 26 (by decide), by decide⟩

/-- The hypotheses of `C18_raises` are met: of three coroutines the third raises first, then the
second one, which is the one whose exception `gather` raises. -/
example : ∃ s0 s, Reach (demoOf [.child 0 7, .bad 2, .bad 1]) 0 .start s0 ∧
    s0.cur = some (0, .sp []) ∧
    During (demoOf [.child 0 7, .bad 2, .bad 1]) 0 .after .exc s0 s ∧ s.cur = some (0, .exc) ∧
    s.cycles = 2 ∧ s.failed 3 = true :=
  ⟨iter (demoOf [.child 0 7, .bad 2, .bad 1]) 3 (init 0 .start),
    iter (demoOf [.child 0 7, .bad 2, .bad 1]) 31
      (iter (demoOf [.child 0 7, .bad 2, .bad 1]) 3 (init 0 .start)),
    reach_iter 3 .init, by decide, during_demo _ 31 (by decide), by decide, by decide, by decide⟩

end Toffee.Props.LoopGather
