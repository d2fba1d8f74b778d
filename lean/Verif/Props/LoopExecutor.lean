import Verif.Lemmas.LoopCtl
import Verif.Props.LoopAwait
/-!
C96: leaving an `Executor` block takes no extra clock cycle (`executor.py` 70-161, 218-246), on the
event loop.
-/

namespace Toffee.Props.LoopExecutor

open Toffee.Loop

variable {σ G V : Type} {sys : Sys σ G V} {g : G} {k0 : σ}

/-- The code of `__exit_any` (`executor.py` 132-147) behind `__exit_any_event.clear()`, for the event
`e`: `sp ids` is the loop that creates the tasks of the groups `cs`, after the tasks `ids` were created;
`wk` is `Event.wait` of toffee behind the wait of asyncio (`asynchronous.py` 121-125); `after` is the code
behind the block.  `B` are the states of `__sequential_execution_all` (`executor.py` 218-246), the
coroutines of the group included, up to `complete_event.set()`, and `E` those behind it (`set()` of an
event that is set does nothing, so that `is_set` of 243 makes no difference). -/
structure AnyCode (sys : Sys σ G V) (cs : List σ) (e : Nat) (sp : List Nat → σ) (wk after : σ)
    (B E : σ → Prop) : Prop where
  ne0 : e ≠ 0
  create : ∀ ids g (h : ids.length < cs.length),
    sys.prog (sp ids) g = .spawn cs[ids.length] (fun u => sp (ids ++ [u]))
  wait : ∀ ids g, ids.length = cs.length → sys.prog (sp ids) g = .waitEv e wk
  woken : ∀ g, sys.prog wk g = .taskRun after
  start : ∀ c ∈ cs, B c
  body : ∀ k g, B k → (sys.prog k g).Go B ∨ ∃ k', sys.prog k g = .setEv e k'
  last : ∀ k g k', B k → sys.prog k g = .setEv e k' → E k'
  ends : ∀ k g, E k → ∃ v, sys.prog k g = .ret v

/-- The event of the executor is private to it: in this state nobody goes about clearing it, nobody but
the tasks `lo`, .., `hi - 1` goes about setting it, and no pending hook has anything to do with it. -/
structure Private (sys : Sys σ G V) (e lo hi : Nat) (s : St σ G V) : Prop where
  hooks : NoHook e s.hooks
  clear : ∀ u k, s.cur = some (u, k) → ∀ k', sys.prog k s.g ≠ .clearEv e k'
  set : ∀ u k, s.cur = some (u, k) → ∀ k', sys.prog k s.g = .setEv e k' → lo ≤ u ∧ u < hi

/-- Executions from `s0` while task `t` has not got behind the block. -/
inductive Inside (sys : Sys σ G V) (t e lo m : Nat) (after : σ) (s0 : St σ G V) :
    St σ G V → Prop where
  | refl : Inside sys t e lo m after s0 s0
  | step {s} (due : List Nat) : Inside sys t e lo m after s0 s → Private sys e lo (lo + m) s →
      s.cur ≠ some (t, after) → Inside sys t e lo m after s0 (step sys due s)

theorem Inside.reach {t e lo m : Nat} {after : σ} {s0 s : St σ G V}
    (h : Inside sys t e lo m after s0 s) (h0 : Reach sys g k0 s0) : Reach sys g k0 s := by
  induction h with
  | refl => exact h0
  | step due _ _ _ ih => exact .step due ih

theorem Inside.trans {t e lo m : Nat} {after : σ} {s0 s1 s : St σ G V}
    (h0 : Inside sys t e lo m after s0 s1) (h : Inside sys t e lo m after s1 s) :
    Inside sys t e lo m after s0 s := by
  induction h with
  | refl => exact h0
  | step due _ h1 h2 ih => exact .step due ih h1 h2

/-- Where the task of a group is. -/
inductive Pos (B E : σ → Prop) (e u : Nat) (s : St σ G V) : Prop where
  | body (h : Ctl B u s)
  | ended (k : σ) (hc : s.cur = some (u, k)) (hE : E k) (hev : s.ev e = true)
  | done (r : Option V) (h : DoneAs u r s) (hev : r ≠ none → s.ev e = true)

/-- The task of a group has set the event. -/
def Set (E : σ → Prop) (u : Nat) (s : St σ G V) : Prop :=
  (∃ k, s.cur = some (u, k) ∧ E k) ∨ ∃ v, DoneAs u (some v) s

theorem step_of_cur {s : St σ G V} {t : Nat} {k : σ} (due : List Nat) (h : s.cur = some (t, k)) :
    step sys due s = exec t (sys.prog k s.g) s := by
  unfold step; rw [h]

theorem set_ev {s : St σ G V} {u e : Nat} {k k' : σ} (due : List Nat) (h : s.cur = some (u, k))
    (hp : sys.prog k s.g = .setEv e k') :
    (step sys due s).cur = some (u, k') ∧ (step sys due s).ev e = true := by
  rw [step_of_cur due h, hp]
  refine ⟨rfl, ?_⟩
  show (setEv e s).ev e = true
  rw [setEv_ev]; simp

theorem ev_keep {s : St σ G V} {e lo hi : Nat} (he : e ≠ 0) (due : List Nat)
    (hp : Private sys e lo hi s) (h : s.ev e = true) : (step sys due s).ev e = true := by
  by_cases hx : ∃ u k k', s.cur = some (u, k) ∧ sys.prog k s.g = .setEv e k'
  · obtain ⟨u, k, k', h1, h2⟩ := hx
    exact (set_ev due h1 h2).2
  · rw [step_noHook_ev he due hp.hooks (fun u k h1 k' h2 => hx ⟨u, k, k', h1, h2⟩) hp.clear, h]

theorem ret_done {s : St σ G V} {u : Nat} {k : σ} {v : V} (due : List Nat) (hu : u ≠ 0) (hi : Inv s)
    (h : s.cur = some (u, k)) (hp : sys.prog k s.g = .ret v) :
    DoneAs u (some v) (step sys due s) := by
  have hn : u < s.n := by
    have := hi.core
    unfold InvS at this
    rw [h] at this
    exact this.lt_of_running
  have : exec u (.ret v) s = finish u (some v) s := by
    unfold exec
    simp [hu]
  rw [step_of_cur due h, hp, this]
  exact finish_self (some v) hn

variable {cs : List σ} {e : Nat} {sp : List Nat → σ} {wk after : σ} {B E : σ → Prop}

theorem Pos.step (hc : AnyCode sys cs e sp wk after B E) {s : St σ G V} {u lo hi : Nat}
    (due : List Nat) (hr : Reach sys g k0 s) (hu : u ≠ 0) (hp : Private sys e lo hi s)
    (h : Pos B E e u s) : Pos B E e u (Loop.step sys due s) := by
  have hi' := reach_inv hr
  cases h with
  | ended k h1 h2 h3 =>
    obtain ⟨v, hv⟩ := hc.ends k s.g h2
    exact .done (some v) (ret_done due hu hi' h1 hv) (fun _ => ev_keep hc.ne0 due hp h3)
  | done r h1 h2 =>
    exact .done r (step_done sys due hi' h1) (fun hne => ev_keep hc.ne0 due hp (h2 hne))
  | body h =>
    by_cases hx : ∃ k k', s.cur = some (u, k) ∧ sys.prog k s.g = .setEv e k'
    · obtain ⟨k, k', h1, h2⟩ := hx
      obtain ⟨h3, h4⟩ := set_ev due h1 h2
      exact .ended k' h3 (hc.last k s.g k' (h.cur hi' h1) h2) h4
    · rcases Ctl.step (sys := sys) due hr h (by
        intro k h1
        rcases hc.body k s.g (h.cur hi' h1) with h2 | ⟨k', h2⟩
        · exact h2
        · exact absurd ⟨k, k', h1, h2⟩ hx) with h1 | h1
      · exact .body h1
      · exact .done none h1 (fun hne => absurd rfl hne)

/-- The invariant about the `m` tasks of groups that were created. -/
structure Core (cs : List σ) (B E : σ → Prop) (e lo m : Nat) (s : St σ G V) : Prop where
  born : ∀ i (_ : i < m) (h' : i < cs.length), Born cs[i] (lo + i) s
  pos : ∀ i, i < m → Pos B E e (lo + i) s
  fin : FinSet e s
  ev : s.ev e = true → ∃ i, i < m ∧ Set E (lo + i) s

theorem Core.step (hc : AnyCode sys cs e sp wk after B E) {s : St σ G V} {lo hi m : Nat}
    (due : List Nat) (hr : Reach sys g k0 s) (hlo : 0 < lo) (hp : Private sys e lo hi s)
    (hset : ∀ u k, s.cur = some (u, k) → ∀ k', sys.prog k s.g = .setEv e k' → lo ≤ u ∧ u < lo + m)
    (h : Core cs B E e lo m s) : Core cs B E e lo m (Loop.step sys due s) := by
  have hi' := reach_inv hr
  refine ⟨fun i h1 h2 => (step_grows sys due s).born _ _ (h.born i h1 h2),
    fun i h1 => (h.pos i h1).step hc due hr (by omega) hp, ?_, ?_⟩
  · exact step_finSet hc.ne0 due hi' hp.clear h.fin
  · intro hev
    cases hs : s.ev e with
    | true =>
      obtain ⟨i, h1, h2⟩ := h.ev hs
      refine ⟨i, h1, .inr ?_⟩
      rcases h2 with ⟨k, h2, h3⟩ | ⟨v, h2⟩
      · obtain ⟨v, hv⟩ := hc.ends k s.g h3
        exact ⟨v, ret_done due (by omega) hi' h2 hv⟩
      · exact ⟨v, step_done sys due hi' h2⟩
    | false =>
      by_cases hx : ∃ u k k', s.cur = some (u, k) ∧ sys.prog k s.g = .setEv e k'
      · obtain ⟨u, k, k', h1, h2⟩ := hx
        obtain ⟨h3, h4⟩ := hset u k h1 k' h2
        refine ⟨u - lo, by omega, .inl ?_⟩
        have hu : lo + (u - lo) = u := by omega
        rw [hu]
        refine ⟨k', (set_ev due h1 h2).1, ?_⟩
        have hpos := h.pos (u - lo) (by omega)
        rw [hu] at hpos
        cases hpos with
        | body hb => exact hc.last k s.g k' (hb.cur hi' h1) h2
        | ended k2 h5 h6 _ =>
          rw [h1] at h5; cases h5
          obtain ⟨v, hv⟩ := hc.ends k s.g h6
          rw [h2] at hv; cases hv
        | done r h5 _ =>
          have := (hi'.core.hcur u).2 (by rw [h1]; rfl)
          rw [h5.1] at this; cases this
      · rw [step_noHook_ev hc.ne0 due hp.hooks (fun u k h1 k' h2 => hx ⟨u, k, k', h1, h2⟩) hp.clear,
          hs] at hev
        cases hev

/-- Where task `t` is inside the block. -/
inductive At (cs : List σ) (B E : σ → Prop) (e : Nat) (sp : List Nat → σ) (wk after : σ) (t lo : Nat)
    (s : St σ G V) : Prop where
  | creating (ids : List Nat) (hm : Core cs B E e lo ids.length s) (hn : s.n = lo + ids.length)
      (hl : ids.length ≤ cs.length) (h : s.cur = some (t, sp ids))
  | waiting (hm : Core cs B E e lo cs.length s) (h : Susp (.ev e wk) t s)
  | woken (hm : Core cs B E e lo cs.length s) (hev : s.ev e = true) (h : s.cur = some (t, wk))
  | returned (hm : Core cs B E e lo cs.length s) (hev : s.ev e = true) (h : s.cur = some (t, after))
  | cancelled (hm : Core cs B E e lo cs.length s) (h : DoneAs t none s)

theorem at_inside (hc : AnyCode sys cs e sp wk after B E) {s0 s : St σ G V} {t : Nat}
    (h0 : Reach sys g k0 s0) (hs : s0.cur = some (t, sp [])) (hev : s0.ev e = false)
    (hfin : ∀ u k, s0.st u ≠ .fin (.ev e k))
    (hd : Inside sys t e s0.n cs.length after s0 s) :
    At cs B E e sp wk after t s0.n s := by
  have hlo : 0 < s0.n := (reach_inv h0).core.hpos
  induction hd with
  | refl =>
    refine .creating [] ⟨by simp, by simp, ?_, ?_⟩ (by simp) (by simp) hs
    · intro u k hu; exact absurd hu (hfin u k)
    · intro h; rw [hev] at h; cases h
  | @step s due hd hp hne ih =>
    have hr := hd.reach h0
    have hi := reach_inv hr
    cases ih with
    | returned _ _ h => exact absurd h hne
    | cancelled hm h => exact .cancelled (hm.step hc due hr hlo hp hp.set) (step_done sys due hi h)
    | woken hm hev h =>
      refine .returned (hm.step hc due hr hlo hp hp.set) (ev_keep hc.ne0 due hp hev) ?_
      rw [step_of_cur due h, hc.woken]; rfl
    | waiting hm h =>
      have hm' := hm.step hc due hr hlo hp hp.set
      rcases susp_step sys due hi h with h1 | h1 | ⟨rest, hb, hcu, hf, hst⟩
      · exact .waiting hm' h1
      · exact .cancelled hm' h1.2
      · refine .woken hm' (ev_keep hc.ne0 due hp (hm.fin t wk hf)) ?_
        rw [hst]
        unfold resume
        simp only [hf]
    | creating ids hm hn hl h =>
      by_cases hlt : ids.length < cs.length
      · have hpr := hc.create ids s.g hlt
        have hm' := hm.step hc due hr hlo hp (by
          intro u k h1 k' h2
          rw [h] at h1; cases h1
          rw [hpr] at h2; cases h2)
        have hst := step_of_cur (sys := sys) due h
        rw [hpr] at hst
        have hnn : (step sys due s).n = s.n + 1 := by rw [hst]; rfl
        have hlen : (ids ++ [s.n]).length = ids.length + 1 := by simp
        refine .creating (ids ++ [s.n]) ?_ (by rw [hnn, hlen]; omega) (by rw [hlen]; omega)
          (by rw [hst]; rfl)
        rw [hlen]
        refine ⟨?_, ?_, hm'.fin, ?_⟩
        · intro i h1 h2
          by_cases hi' : i < ids.length
          · exact hm'.born i hi' h2
          · have : i = ids.length := by omega
            subst this
            rw [← hn, hst]
            exact ⟨upd_self s.orig s.n _, Nat.lt_succ_self _⟩
        · intro i h1
          by_cases hi' : i < ids.length
          · exact hm'.pos i hi'
          · have : i = ids.length := by omega
            subst this
            rw [← hn, hst]
            refine .body ?_
            unfold Ctl
            have : (exec t (.spawn cs[ids.length] fun u => sp (ids ++ [u])) s).st s.n =
                .ready cs[ids.length] := upd_self s.st s.n _
            rw [this]
            exact hc.start _ (List.getElem_mem _)
        · intro hev
          obtain ⟨i, h1, h2⟩ := hm'.ev hev
          exact ⟨i, by omega, h2⟩
      · have hl' : ids.length = cs.length := by omega
        have hpr := hc.wait ids s.g hl'
        rw [hl'] at hm
        have hm' := hm.step hc due hr hlo hp hp.set
        have hst := step_of_cur (sys := sys) due h
        rw [hpr] at hst
        cases hev : s.ev e with
        | true =>
          refine .woken hm' (ev_keep hc.ne0 due hp hev) ?_
          rw [hst]
          unfold exec
          simp [hev]
        | false =>
          refine .waiting hm' (.inl ?_)
          rw [hst]
          unfold exec block
          simp [hev, hc.ne0, upd_self]

/-- C96 (partial): as long as a task is inside an `Executor` block with exit mode "any", the clock steps the DUT
only while none of the groups has completed: the block is left in the clock cycle in which the first
group completes.  The tasks of the groups are `s0.n`, `s0.n + 1`, ..; `s.st t = .done none`: the task was
cancelled.  Missing with respect to the full statement: groups that raise exceptions, see
`C96_any_raise_violated`, and blocks without groups, see `C96_any_empty_violated`. -/
theorem C96_any_partial (hc : AnyCode sys cs e sp wk after B E) (s0 s s' : St σ G V) (t : Nat)
    (h0 : Reach sys g k0 s0) (hs : s0.cur = some (t, sp [])) (hev : s0.ev e = false)
    (hfin : ∀ u k, s0.st u ≠ .fin (.ev e k))
    (hd : Inside sys t e s0.n cs.length after s0 s)
    (hst : StepsAt sys s s') :
    (∀ i (h : i < cs.length), s.orig (s0.n + i) = some cs[i]) ∧
      (s.st t = .done none ∨ ∀ i, i < cs.length → ∀ v, s.st (s0.n + i) ≠ .done (some v)) := by
  have hr := hd.reach h0
  have hi := reach_inv hr
  have hcn := hst.1
  cases at_inside hc h0 hs hev hfin hd with
  | creating ids _ _ _ h => rw [hcn] at h; cases h
  | woken _ _ h => rw [hcn] at h; cases h
  | returned _ _ h => rw [hcn] at h; cases h
  | cancelled hm h => exact ⟨fun i h' => (hm.born i h' h').1, .inl h.1⟩
  | waiting hm h =>
    refine ⟨fun i h' => (hm.born i h' h').1, .inr ?_⟩
    have hac : s.clock ≠ .afterCancel := by
      intro hk
      have := (reach_AC hr).st hk t
      rcases h with h | h <;> rw [h] at this <;> cases this
    have hp : s.st t = .pend (.ev e wk) := by
      rcases h with h | h
      · exact h
      · rcases LoopAwait.steps_idle hr hst hac t with ⟨w, hw⟩ | ⟨r, hw⟩ <;> rw [h] at hw <;> cases hw
    have hne : s.ev e = false := by
      cases he : s.ev e
      · rfl
      · have h1 := hi.core.hev e he
        have h2 := hi.core.hw e t
        rw [h1, hp] at h2
        simp [wExp] at h2
    intro i hi' v hv
    cases hm.pos i hi' with
    | body h' => exact h'.not_done _ hv
    | ended k h1 _ _ => rw [hcn] at h1; cases h1
    | done r h1 h2 =>
      rw [h1.1] at hv
      injection hv with hv
      rw [h2 (by rw [hv]; simp)] at hne
      cases hne

/-- C96: when a block with exit mode "any" is left, one of its groups has completed. -/
theorem C96_any_completed (hc : AnyCode sys cs e sp wk after B E) (s0 s : St σ G V) (t : Nat)
    (h0 : Reach sys g k0 s0) (hs : s0.cur = some (t, sp [])) (hev : s0.ev e = false)
    (hfin : ∀ u k, s0.st u ≠ .fin (.ev e k))
    (hd : Inside sys t e s0.n cs.length after s0 s)
    (hsp : ∀ ids, sp ids ≠ after) (hwk : wk ≠ after) (hret : s.cur = some (t, after)) :
    ∃ i v, ∃ h : i < cs.length, s.orig (s0.n + i) = some cs[i] ∧ s.st (s0.n + i) = .done (some v) := by
  have hi := reach_inv (hd.reach h0)
  have htn : t < s0.n := by
    have := (reach_inv h0).core
    unfold InvS at this
    rw [hs] at this
    exact this.lt_of_running
  have hrun : isRunning (s.st t) = true := (hi.core.hcur t).2 (by rw [hret]; rfl)
  cases at_inside hc h0 hs hev hfin hd with
  | creating ids _ _ _ h => rw [hret] at h; cases h; exact absurd rfl (hsp ids)
  | woken _ _ h => rw [hret] at h; cases h; exact absurd rfl hwk
  | waiting _ h => rcases h with h | h <;> rw [h] at hrun <;> cases hrun
  | cancelled _ h => rw [h.1] at hrun; cases hrun
  | returned hm hev _ =>
    obtain ⟨i, h1, h2⟩ := hm.ev hev
    rcases h2 with ⟨k, h2, _⟩ | ⟨v, h2⟩
    · rw [hret] at h2
      injection h2 with h2
      injection h2 with h2
      omega
    · exact ⟨i, v, h1, (hm.born i h1 h1).1, h2.1⟩

/-- C96: a block with exit mode "any" all of whose groups ended without completing (they raised
exceptions), or that has no groups, is never left. -/
theorem C96_any_stuck (hc : AnyCode sys cs e sp wk after B E) (s0 s1 s : St σ G V) (t : Nat)
    (h0 : Reach sys g k0 s0) (hs : s0.cur = some (t, sp [])) (hev : s0.ev e = false)
    (hfin : ∀ u k, s0.st u ≠ .fin (.ev e k)) (hsp : ∀ ids, sp ids ≠ after) (hwk : wk ≠ after)
    (hd1 : Inside sys t e s0.n cs.length after s0 s1) (hn : s0.n + cs.length ≤ s1.n)
    (hdone : ∀ i, i < cs.length → s1.st (s0.n + i) = .done none)
    (hd : Inside sys t e s0.n cs.length after s1 s) : s.cur ≠ some (t, after) := by
  intro hret
  obtain ⟨i, v, hi, ho, hv⟩ :=
    C96_any_completed hc s0 s t h0 hs hev hfin (hd1.trans hd) hsp hwk hret
  have h1 := hd1.reach h0
  have key : DoneAs (s0.n + i) none s ∧ Reach sys g k0 s := by
    clear hret hv ho
    induction hd with
    | refl => exact ⟨⟨hdone i hi, by omega⟩, h1⟩
    | step due _ _ _ ih => exact ⟨step_done sys due (reach_inv ih.2) ih.1, .step due ih.2⟩
  rw [key.1.1] at hv
  cases hv

/-! ### Exit mode "none", and waiting for the groups afterwards -/

/-- Executions from `s0` while task `t` has not got to one of the states `out`. -/
inductive Until (sys : Sys σ G V) (t : Nat) (out : σ → Prop) (s0 : St σ G V) : St σ G V → Prop where
  | refl : Until sys t out s0 s0
  | step {s} (due : List Nat) : Until sys t out s0 s → (∀ k, s.cur = some (t, k) → ¬ out k) →
      Until sys t out s0 (step sys due s)

theorem Until.reach {t : Nat} {out : σ → Prop} {s0 s : St σ G V}
    (h : Until sys t out s0 s) (h0 : Reach sys g k0 s0) : Reach sys g k0 s := by
  induction h with
  | refl => exact h0
  | step due _ _ ih => exact .step due ih

/-- The code of `__exit_none` (`executor.py` 123-130). -/
structure NoneCode (sys : Sys σ G V) (cs : List σ) (sp : List Nat → σ) (after : σ) : Prop where
  create : ∀ ids g (h : ids.length < cs.length),
    sys.prog (sp ids) g = .spawn cs[ids.length] (fun u => sp (ids ++ [u]))
  created : ∀ ids g, ids.length = cs.length → sys.prog (sp ids) g = .comp g after

/-- C96: leaving a block with exit mode "none" does not suspend: the task that leaves it goes on without
any other task running, let alone the clock; when it is behind the block one task per group was created,
in order, none of which has begun. -/
theorem C96_none (hc : NoneCode sys cs sp after) (s0 s : St σ G V) (t : Nat)
    (h0 : Reach sys g k0 s0) (hs : s0.cur = some (t, sp [])) (hd : Until sys t (· = after) s0 s) :
    s.cycles = s0.cycles ∧ (∃ k, s.cur = some (t, k)) ∧
      (s.cur = some (t, after) → (∀ ids, sp ids ≠ after) →
        s.n = s0.n + cs.length ∧ ∀ i (h : i < cs.length), s.st (s0.n + i) = .ready cs[i]) := by
  have htn : t < s0.n := by
    have := (reach_inv h0).core
    unfold InvS at this
    rw [hs] at this
    exact this.lt_of_running
  have key : s.cycles = s0.cycles ∧ ∃ m, m ≤ cs.length ∧ s.n = s0.n + m ∧
      (∀ i (_ : i < m) (h : i < cs.length), s.st (s0.n + i) = .ready cs[i]) ∧
      ((∃ ids : List Nat, ids.length = m ∧ s.cur = some (t, sp ids)) ∨
        (m = cs.length ∧ s.cur = some (t, after))) := by
    induction hd with
    | refl => exact ⟨rfl, 0, by omega, rfl, by simp, .inl ⟨[], rfl, hs⟩⟩
    | @step s due hd hne ih =>
      obtain ⟨h1, m, h2, h3, h4, h5⟩ := ih
      rcases h5 with ⟨ids, h5, h6⟩ | ⟨_, h6⟩
      · have hst := step_of_cur (sys := sys) due h6
        by_cases hlt : ids.length < cs.length
        · rw [hc.create ids s.g hlt] at hst
          rw [hst]
          refine ⟨h1, m + 1, by omega, ?_, ?_, .inl ⟨ids ++ [s.n], by simp [h5], rfl⟩⟩
          · show s.n + 1 = _
            omega
          · intro i hi hi'
            show upd s.st s.n (.ready cs[ids.length]) (s0.n + i) = _
            by_cases him : i < m
            · rw [upd_ne _ _ _ _ (by omega)]
              exact h4 i him hi'
            · have : i = ids.length := by omega
              subst this
              have : s0.n + ids.length = s.n := by omega
              rw [this, upd_self]
        · rw [hc.created ids s.g (by omega)] at hst
          rw [hst]
          exact ⟨h1, m, h2, h3, h4, .inr ⟨by omega, rfl⟩⟩
      · exact absurd rfl (hne _ h6)
  obtain ⟨h1, m, h2, h3, h4, h5⟩ := key
  refine ⟨h1, ?_, ?_⟩
  · rcases h5 with ⟨ids, _, h⟩ | ⟨_, h⟩
    · exact ⟨_, h⟩
    · exact ⟨_, h⟩
  · intro ha hsp
    rcases h5 with ⟨ids, _, h⟩ | ⟨h, _⟩
    · rw [ha] at h; cases h; exact absurd rfl (hsp ids)
    · subst h
      exact ⟨h3, fun i h => h4 i h h⟩

/-- The code of `wait_all` (`executor.py` 149-160) for the uncompleted tasks `ids`: `jn res` is the loop
after the results `res` were collected, `after res` the caller behind it, `exc` the caller when it raises.
The tasks are those the block created with exit mode "none" or "any". -/
structure WaitCode (sys : Sys σ G V) (ids : List Nat) (jn after : List V → σ) (exc : σ) : Prop where
  await : ∀ res g (h : res.length < ids.length),
    sys.prog (jn res) g = .join ids[res.length] (fun v => jn (res ++ [v])) exc
  awaited : ∀ res g, res.length = ids.length → sys.prog (jn res) g = .comp g (after res)

/-- Where task `t` is inside `wait_all`. -/
inductive InWait (ids : List Nat) (jn after : List V → σ) (exc : σ) (t : Nat) (s : St σ G V) :
    Prop where
  | awaiting (res : List V) (hg : LoopGather.Got ids res s) (h : s.cur = some (t, jn res))
  | blocked (res : List V) (hg : LoopGather.Got ids res s) (hr : res.length < ids.length)
      (h : Susp (.join ids[res.length] (fun v => jn (res ++ [v])) exc) t s)
  | returned (res : List V) (hg : LoopGather.Got ids res s) (hr : res.length = ids.length)
      (h : s.cur = some (t, after res))
  | raised (h : s.cur = some (t, exc))
  | cancelled (h : DoneAs t none s)

theorem in_wait {ids : List Nat} {jn after' : List V → σ} {exc : σ} {t : Nat}
    (hc : WaitCode sys ids jn after' exc) {s0 s : St σ G V} (h0 : Reach sys g k0 s0)
    (hb : ∀ u ∈ ids, u < s0.n) (hs : s0.cur = some (t, jn []))
    (hd : Until sys t (fun k => k = exc ∨ ∃ res, k = after' res) s0 s) :
    InWait ids jn after' exc t s ∧ s0.n ≤ s.n := by
  induction hd with
  | refl => exact ⟨.awaiting [] ⟨by simp, by simp⟩ hs, Nat.le_refl _⟩
  | @step s due hd hne ih =>
    have hr := hd.reach h0
    have hi := reach_inv hr
    obtain ⟨ih, hn⟩ := ih
    refine ⟨?_, Nat.le_trans hn (step_grows sys due s).mono⟩
    have hlt : ∀ k, s.cur = some (t, k) → t < s.n := by
      intro k h
      have := hi.core
      unfold InvS at this
      rw [h] at this
      exact this.lt_of_running
    cases ih with
    | cancelled h => exact .cancelled (step_done sys due hi h)
    | returned res hg hr' h => exact absurd (.inr ⟨res, rfl⟩) (hne _ h)
    | raised h => exact absurd (.inl rfl) (hne _ h)
    | awaiting res hg h =>
      have hst := step_of_cur (sys := sys) due h
      by_cases hlt' : res.length < ids.length
      · have hbu : ids[res.length] < s.n := Nat.lt_of_lt_of_le (hb _ (List.getElem_mem _)) hn
        rw [hc.await res s.g hlt'] at hst
        cases hu : s.st ids[res.length] with
        | done r =>
          cases r with
          | some v =>
            have hex : exec t (.join ids[res.length] (fun v => jn (res ++ [v])) exc) s =
                { s with cur := some (t, jn (res ++ [v])) } := by
              unfold exec
              simp only [hu]
            refine .awaiting (res ++ [v]) ?_ (by rw [hst, hex])
            exact (hg.snoc hlt' ⟨hu, hbu⟩).step hi due
          | none =>
            cases hfl : s.failed ids[res.length] with
            | true =>
              refine .raised ?_
              rw [hst]
              unfold exec
              simp only [hu, hfl, if_true]
            | false =>
              have hex : exec t (.join ids[res.length] (fun v => jn (res ++ [v])) exc) s =
                  finish t none s := by
                unfold exec
                simp only [hu, hfl]
                rfl
              rw [hst, hex]
              exact .cancelled (finish_self none (hlt _ h))
        | _ =>
          refine .blocked res (hg.step hi due) hlt' ?_
          left
          rw [hst]
          unfold exec
          simp only [hu]
          exact upd_self s.st t _
      · have hl' : res.length = ids.length := by have := hg.le; omega
        rw [hc.awaited res s.g hl'] at hst
        exact .returned res (hg.step hi due) hl' (by rw [hst]; rfl)
    | blocked res hg hlt' h =>
      have hbu : ids[res.length] < s.n := Nat.lt_of_lt_of_le (hb _ (List.getElem_mem _)) hn
      rcases susp_step sys due hi h with h1 | h1 | ⟨rest, hb, hcu, hf, hst⟩
      · exact .blocked res (hg.step hi due) hlt' h1
      · exact .cancelled h1.2
      · have htn : t < s.n := hi.core.lt_of_not_done (by rw [hf]; rfl)
        by_cases hu : ∃ v, s.st ids[res.length] = .done (some v)
        · obtain ⟨v, hu⟩ := hu
          refine .awaiting (res ++ [v]) ((hg.snoc hlt' ⟨hu, hbu⟩).step hi due) ?_
          rw [hst]
          unfold resume
          simp only [hf, hu]
        · have hre : resume t { s with batch := rest } =
              if s.failed ids[res.length] then
                { s with batch := rest, st := upd s.st t .running, cur := some (t, exc) }
              else finish t none { s with batch := rest } := by
            unfold resume
            simp only [hf]
            split
            · rename_i v hv; exact absurd ⟨v, hv⟩ hu
            · rfl
          rw [hst, hre]
          split
          · exact .raised rfl
          · exact .cancelled (finish_self none htn)

/-- C96: while a task is inside `wait_all`, the clock steps the DUT only while one of the uncompleted
groups has not ended. -/
theorem C96_wait_all {ids : List Nat} {jn after' : List V → σ} {exc : σ} {t : Nat}
    (hc : WaitCode sys ids jn after' exc) (s0 s s' : St σ G V) (h0 : Reach sys g k0 s0)
    (hb : ∀ u ∈ ids, u < s0.n) (hs : s0.cur = some (t, jn []))
    (hd : Until sys t (fun k => k = exc ∨ ∃ res, k = after' res) s0 s) (hst : StepsAt sys s s') :
    s.st t = .done none ∨ ∃ u ∈ ids, ∀ r, s.st u ≠ .done r := by
  have hr := hd.reach h0
  have hi := reach_inv hr
  have hcn := hst.1
  cases (in_wait hc h0 hb hs hd).1 with
  | awaiting res _ h => rw [hcn] at h; cases h
  | returned res _ _ h => rw [hcn] at h; cases h
  | raised h => rw [hcn] at h; cases h
  | cancelled h => exact .inl h.1
  | blocked res hg hlt h =>
    right
    have hac : s.clock ≠ .afterCancel := by
      intro hk
      have := (reach_AC hr).st hk t
      rcases h with h | h <;> rw [h] at this <;> cases this
    have hp : s.st t = .pend (.join ids[res.length] (fun v => jn (res ++ [v])) exc) := by
      rcases h with h | h
      · exact h
      · rcases LoopAwait.steps_idle hr hst hac t with ⟨w, hw⟩ | ⟨r, hw⟩ <;> rw [h] at hw <;> cases hw
    refine ⟨ids[res.length], List.getElem_mem _, ?_⟩
    intro r hdn
    have h1 := hi.core.hdone _ (by rw [hdn]; rfl)
    have h2 := hi.core.hj ids[res.length] t
    rw [h1, hp] at h2
    simp [jExp] at h2

/-- C96: when `wait_all` returns, all the uncompleted groups have completed, and it has collected their
results in the order of the groups. -/
theorem C96_wait_all_results {ids : List Nat} {jn after' : List V → σ} {exc : σ} {t : Nat}
    (hc : WaitCode sys ids jn after' exc) (s0 s : St σ G V) (h0 : Reach sys g k0 s0)
    (hb : ∀ u ∈ ids, u < s0.n) (hs : s0.cur = some (t, jn []))
    (hd : Until sys t (fun k => k = exc ∨ ∃ res, k = after' res) s0 s)
    (hinj : ∀ res res', after' res = after' res' → res = res')
    (hjn : ∀ r res, jn r ≠ after' res) (hex : ∀ res, exc ≠ after' res)
    (res : List V) (hret : s.cur = some (t, after' res)) :
    res.length = ids.length ∧
      ∀ i (h1 : i < ids.length) (h2 : i < res.length), s.st ids[i] = .done (some res[i]) := by
  have hi := reach_inv (hd.reach h0)
  have hrun : isRunning (s.st t) = true := (hi.core.hcur t).2 (by rw [hret]; rfl)
  cases (in_wait hc h0 hb hs hd).1 with
  | cancelled h => rw [h.1] at hrun; cases hrun
  | blocked res' hg hr h => rcases h with h | h <;> rw [h] at hrun <;> cases hrun
  | awaiting res' _ h =>
    rw [hret] at h
    injection h with h
    injection h with _ h
    exact absurd h.symm (hjn _ _)
  | raised h =>
    rw [hret] at h
    injection h with h
    injection h with _ h
    exact absurd h.symm (hex _)
  | returned res' hg hr h =>
    rw [hret] at h
    injection h with h
    injection h with _ h
    have h := hinj _ _ h
    subst h
    exact ⟨hr, fun i h1 h2 => (hg.res i h2 h1).1⟩

/-! ### Concrete systems -/

/-- The states of a test with a block; its groups take some clock cycles (`child`), or raise an
exception after some cycles (`bad`).  `any`: exit mode "any", otherwise "none"; behind the block it
calls `wait_all`. -/
inductive K where
  | start | clear
  | sp (ids : List Nat)
  | wk
  | jn (ids : List Nat) (res : List Nat)
  | after (res : List Nat)
  | exc
  | child (left v : Nat)
  | set (v : Nat)
  | bad (left : Nat)
deriving DecidableEq

/-- A test with an `Executor` block with the groups `args`; in the mode "any" the test ends behind it,
in the mode "none" it calls `wait_all` for the tasks 1, .., then ends. -/
def demoOf (any : Bool) (args : List K) : Sys K Nat Nat where
  prog k g := match k with
    | .start => .startClock .clear
    | .clear => if any then .clearEv 1 (.sp []) else .comp g (.sp [])
    | .sp ids => if h : ids.length < args.length then
        .spawn args[ids.length] (fun u => .sp (ids ++ [u])) else
        if any then .waitEv 1 .wk else .comp g (.jn [1, 2] [])
    | .wk => .taskRun (.after [])
    | .jn ids res => if h : res.length < ids.length then
        .join ids[res.length] (fun v => .jn ids (res ++ [v])) .exc else .comp g (.after res)
    | .after res => .ret res.length
    | .exc => .ret 0
    | .child 0 v => if any then .setEv 1 (.set v) else .ret v
    | .child (n + 1) v => .waitEv 0 (.child n v)
    | .set v => .ret v
    | .bad 0 => .raise true
    | .bad (n + 1) => .waitEv 0 (.bad n)
  dutStep g := g + 1
  sample g := g

def isBody : K → Prop
  | .child _ _ | .bad _ => True
  | _ => False

def isSet : K → Prop
  | .set _ => True
  | _ => False

theorem demo_code (args : List K) (ha : ∀ c ∈ args, isBody c) :
    AnyCode (demoOf true args) args 1 .sp .wk (.after []) isBody isSet := by
  refine ⟨by decide, ?_, ?_, ?_, ha, ?_, ?_, ?_⟩
  · intro ids g h; simp [demoOf, h]
  · intro ids g h; simp [demoOf, h]
  · intro g; rfl
  · intro k g hk
    cases k with
    | child n v =>
      cases n with
      | zero => exact .inr ⟨.set v, rfl⟩
      | succ n => exact .inl trivial
    | bad n => cases n <;> exact .inl trivial
    | _ => exact hk.elim
  · intro k g k' hk hp
    cases k with
    | child n v =>
      cases n with
      | zero => simp [demoOf] at hp; subst hp; trivial
      | succ n => simp [demoOf] at hp
    | bad n => cases n <;> simp [demoOf] at hp
    | _ => exact hk.elim
  · intro k g hk
    cases k with
    | set v => exact ⟨v, rfl⟩
    | _ => exact hk.elim

theorem demo_none (args : List K) :
    NoneCode (demoOf false args) args .sp (.jn [1, 2] []) := by
  refine ⟨?_, ?_⟩
  · intro ids g h; simp [demoOf, h]
  · intro ids g h; simp [demoOf, h]

theorem demo_wait (args : List K) :
    WaitCode (demoOf false args) [1, 2] (.jn [1, 2]) .after .exc := by
  refine ⟨?_, ?_⟩
  · intro res g h
    have : res.length < 2 := h
    simp [demoOf, this]
  · intro res g h
    have : res.length = 2 := h
    simp [demoOf, this]

theorem until_iter {t : Nat} {out : σ → Prop} (m : Nat) {s0 s : St σ G V} (h : Until sys t out s0 s)
    (hn : ∀ i, i < m → ∀ k, (iter sys i s).cur = some (t, k) → ¬ out k) :
    Until sys t out s0 (iter sys m s) := by
  induction m generalizing s with
  | zero => exact h
  | succ m ih =>
    refine ih (.step [] h (hn 0 (by omega))) ?_
    intro i hi
    exact hn (i + 1) (by omega)

theorem inside_iter {t e lo m : Nat} {after : σ} (n : Nat) {s0 s : St σ G V}
    (h : Inside sys t e lo m after s0 s)
    (hn : ∀ i, i < n → Private sys e lo (lo + m) (iter sys i s) ∧
      (iter sys i s).cur ≠ some (t, after)) :
    Inside sys t e lo m after s0 (iter sys n s) := by
  induction n generalizing s with
  | zero => exact h
  | succ m ih =>
    refine ih (.step [] h (hn 0 (by omega)).1 (hn 0 (by omega)).2) ?_
    intro i hi
    exact hn (i + 1) (by omega)

/-- A decidable form of `Private` for states without hooks, for `e = 1`. -/
def privB (lo hi : Nat) (s : St K Nat Nat) : Bool :=
  s.hooks.isEmpty && match s.cur with
    | some (u, .child 0 _) => decide (lo ≤ u ∧ u < hi)
    | some (_, .clear) => false
    | _ => true

theorem privB_spec {args : List K} {lo hi : Nat} {s : St K Nat Nat} (h : privB lo hi s = true) :
    Private (demoOf true args) 1 lo hi s := by
  unfold privB at h
  rw [Bool.and_eq_true] at h
  obtain ⟨h1, h2⟩ := h
  have h1 : s.hooks = [] := by simpa using h1
  refine ⟨(by rw [h1]; exact fun _ hx => nomatch hx), ?_, ?_⟩
  · intro u k hc k' hp
    rw [hc] at h2
    cases k with
    | child n v => cases n <;> simp [demoOf] at hp
    | bad n => cases n <;> simp [demoOf] at hp
    | clear => cases h2
    | sp ids => simp only [demoOf] at hp; split at hp <;> simp at hp
    | jn ids res => simp only [demoOf] at hp; split at hp <;> simp at hp
    | _ => simp [demoOf] at hp
  · intro u k hc k' hp
    rw [hc] at h2
    cases k with
    | child n v =>
      cases n with
      | zero => simpa using h2
      | succ n => simp [demoOf] at hp
    | bad n => cases n <;> simp [demoOf] at hp
    | clear => simp [demoOf] at hp
    | sp ids => simp only [demoOf] at hp; split at hp <;> simp at hp
    | jn ids res => simp only [demoOf] at hp; split at hp <;> simp at hp
    | _ => simp [demoOf] at hp

/-- Groups that take two cycles and one cycle, and one that raises at once. -/
def args : List K := [.child 2 70, .child 1 80, .bad 0]

abbrev any0 : St K Nat Nat := iter (demoOf true args) 4 (init 0 .start)

theorem any0_fin (u : Nat) (k : K) : any0.st u ≠ .fin (.ev 1 k) := by
  intro h
  cases u with
  | zero => cases (show (Status.running : Status K Nat) = _ from h)
  | succ n => cases (show (Status.done none : Status K Nat) = _ from h)

theorem any0_inside (n : Nat) (h : ∀ i, i < n → privB 1 4 (iter (demoOf true args) i any0) = true ∧
    (iter (demoOf true args) i any0).cur ≠ some (0, .after [])) :
    Inside (demoOf true args) 0 1 1 3 (.after []) any0 (iter (demoOf true args) n any0) :=
  inside_iter n .refl (fun i hi => ⟨privB_spec (h i hi).1, (h i hi).2⟩)

/-- The hypotheses of `C96_any_partial` are met: the DUT is stepped while the first two groups wait. -/
example : ∃ s s', AnyCode (demoOf true args) args 1 .sp .wk (.after []) isBody isSet ∧
    Reach (demoOf true args) 0 .start any0 ∧ any0.cur = some (0, .sp []) ∧ any0.ev 1 = false ∧
    Inside (demoOf true args) 0 1 any0.n args.length (.after []) any0 s ∧
    StepsAt (demoOf true args) s s' ∧ s.failed 3 = true :=
  ⟨iter (demoOf true args) 13 any0, _, demo_code args (by simp [args, isBody]), reach_iter 4 .init,
    by decide, by decide, any0_inside 13 (by decide), ⟨rfl, [], rfl, rfl⟩, by decide⟩

/-- The hypotheses of `C96_any_completed` are met: the block is left in the cycle in which the second
group completes. -/
example : ∃ s, Inside (demoOf true args) 0 1 any0.n args.length (.after []) any0 s ∧
    s.cur = some (0, .after []) ∧ s.cycles = 1 ∧ s.st 2 = .done (some 80) :=
  ⟨iter (demoOf true args) 24 any0, any0_inside 24 (by decide), by decide, by decide, rfl⟩

abbrev none0 : St K Nat Nat := iter (demoOf false args) 4 (init 0 .start)

/-- The hypotheses of `C96_none` are met. -/
example : ∃ s, NoneCode (demoOf false args) args .sp (.jn [1, 2] []) ∧
    Reach (demoOf false args) 0 .start none0 ∧ none0.cur = some (0, .sp []) ∧
    Until (demoOf false args) 0 (· = .jn [1, 2] []) none0 s ∧ s.cur = some (0, .jn [1, 2] []) :=
  ⟨iter (demoOf false args) 4 none0, demo_none args, reach_iter 4 .init, by decide,
    until_iter 4 .refl (fun i hi k hc he => by
      subst he
      match i, hi with
      | 0, _ => cases hc
      | 1, _ => cases hc
      | 2, _ => cases hc
      | 3, _ => cases hc), by decide⟩

abbrev wait0 : St K Nat Nat := iter (demoOf false args) 8 (init 0 .start)

def isOut : Option (Nat × K) → Bool
  | some (_, .after _) | some (_, .exc) => true
  | _ => false

theorem wait0_until (n : Nat)
    (h : ∀ i, i < n → isOut (iter (demoOf false args) i wait0).cur = false) :
    Until (demoOf false args) 0 (fun k => k = .exc ∨ ∃ res, k = .after res) wait0
      (iter (demoOf false args) n wait0) := by
  refine until_iter n .refl ?_
  intro i hi k hc ho
  have := h i hi
  rw [hc] at this
  rcases ho with rfl | ⟨res, rfl⟩ <;> cases this

/-- The hypotheses of `C96_wait_all` are met: a step while the first group has not ended, though the
second one has. -/
example : ∃ s s', WaitCode (demoOf false args) [1, 2] (.jn [1, 2]) .after .exc ∧
    Reach (demoOf false args) 0 .start wait0 ∧ wait0.cur = some (0, .jn [1, 2] []) ∧ wait0.n = 4 ∧
    Until (demoOf false args) 0 (fun k => k = .exc ∨ ∃ res, k = .after res) wait0 s ∧
    StepsAt (demoOf false args) s s' ∧ s.st 2 = .done (some 80) ∧ s.cycles = 1 :=
  ⟨iter (demoOf false args) 16 wait0, _, demo_wait args, reach_iter 8 .init, by decide, by decide,
    wait0_until 16 (by decide), ⟨rfl, [], rfl, rfl⟩, rfl, by decide⟩

/-- The hypotheses of `C96_wait_all_results` are met. -/
example : ∃ s, Until (demoOf false args) 0 (fun k => k = .exc ∨ ∃ res, k = .after res) wait0 s ∧
    s.cur = some (0, .after [70, 80]) ∧ s.cycles = 2 :=
  ⟨iter (demoOf false args) 25 wait0, wait0_until 25 (by decide), by decide, by decide⟩

/-! ### Blocks that are never left -/

/-- The states of a test with a block with exit mode "any" and groups that raise an exception. -/
inductive S where
  | start
  | sp (ids : List Nat)
  | wk | after | bad
deriving DecidableEq

/-- A block with `m` groups, all of which raise an exception at once. -/
def stuckOf (m : Nat) : Sys S Nat Nat where
  prog k _ := match k with
    | .start => .startClock (.sp [])
    | .sp ids => if h : ids.length < (List.replicate m S.bad).length then
        .spawn (List.replicate m S.bad)[ids.length] (fun u => .sp (ids ++ [u])) else .waitEv 1 .wk
    | .wk => .taskRun .after
    | .after => .ret 0
    | .bad => .raise true
  dutStep g := g + 1
  sample g := g

theorem stuck_code (m : Nat) :
    AnyCode (stuckOf m) (List.replicate m .bad) 1 .sp .wk .after (· = .bad) (fun _ => False) := by
  refine ⟨by decide, ?_, ?_, ?_, ?_, ?_, ?_, ?_⟩
  · intro ids g h; simp only [stuckOf, h, dif_pos]
  · intro ids g h; simp only [stuckOf, h, Nat.lt_irrefl, dif_neg, not_false_eq_true]
  · intro g; rfl
  · intro c hc; exact List.eq_of_mem_replicate hc
  · intro k g hk; subst hk; exact .inl trivial
  · intro k g k' hk hp; subst hk; cases hp
  · intro k g hk; exact hk.elim

theorem stuck_prog (m : Nat) (k : S) (g : Nat) :
    (∀ h p k', (stuckOf m).prog k g ≠ .addHook h p k') ∧ (∀ e k', (stuckOf m).prog k g ≠ .setEv e k') ∧
      ∀ e k', (stuckOf m).prog k g ≠ .clearEv e k' := by
  cases k with
  | sp ids =>
    simp only [stuckOf]
    split <;> simp
  | _ => simp [stuckOf]

theorem stuck_hooks {m : Nat} {s : St S Nat Nat} (h : Reach (stuckOf m) 0 .start s) :
    s.hooks = [] := by
  induction h with
  | init => rfl
  | @step s due _ ih =>
    rw [List.eq_nil_iff_forall_not_mem]
    intro x hx
    rcases hooks_step (stuckOf m) due s hx with h | ⟨y, hy, _⟩ | ⟨t, k, k', _, hp, _⟩
    · rw [ih] at h; cases h
    · rw [ih] at hy; cases hy
    · exact (stuck_prog m k s.g).1 _ _ _ hp

theorem stuck_private {m lo hi : Nat} {s : St S Nat Nat} (h : Reach (stuckOf m) 0 .start s) :
    Private (stuckOf m) 1 lo hi s := by
  refine ⟨(by rw [stuck_hooks h]; exact fun _ hx => nomatch hx), ?_, ?_⟩
  · intro u k _ k'; exact (stuck_prog m k s.g).2.2 1 k'
  · intro u k _ k' hp; exact absurd hp ((stuck_prog m k s.g).2.1 1 k')

abbrev stuck0 (m : Nat) : St S Nat Nat := iter (stuckOf m) 3 (init 0 .start)

theorem stuck_forever (m n : Nat) (s1 s : St S Nat Nat) (h1 : s1 = iter (stuckOf m) n (stuck0 m))
    (hne : ∀ i, i < n → (iter (stuckOf m) i (stuck0 m)).cur ≠ some (0, .after))
    (hn : 1 + m ≤ s1.n) (hdone : ∀ i, i < m → s1.st (1 + i) = .done none)
    (hd : Until (stuckOf m) 0 (fun _ => False) s1 s) : s.cur ≠ some (0, .after) := by
  have hc := stuck_code m
  have h0 : Reach (stuckOf m) 0 .start (stuck0 m) := reach_iter 3 .init
  have hd1 : Inside (stuckOf m) 0 1 (stuck0 m).n (List.replicate m S.bad).length .after (stuck0 m) s1 := by
    rw [h1]
    exact inside_iter n .refl (fun i hi => ⟨stuck_private (reach_iter i h0), hne i hi⟩)
  have hr1 := hd1.reach h0
  have hfin : ∀ u k, (stuck0 m).st u ≠ .fin (.ev 1 k) := by
    intro u k h
    cases u with
    | zero => cases (show (Status.running : Status S Nat) = _ from h)
    | succ n => cases (show (Status.done none : Status S Nat) = _ from h)
  have key : ∀ s, Inside (stuckOf m) 0 1 (stuck0 m).n (List.replicate m S.bad).length .after s1 s →
      s.cur ≠ some (0, .after) := fun s hd =>
    C96_any_stuck hc (stuck0 m) s1 s 0 h0 rfl rfl hfin (by simp) (by simp) hd1
      (by rw [List.length_replicate]; exact hn) (by rw [List.length_replicate]; exact hdone) hd
  apply key
  induction hd with
  | refl => exact .refl
  | step due h _ ih => exact .step due ih (stuck_private (h.reach hr1)) (key _ ih)

/-- C96 is false for groups that raise exceptions: the only group of a block with exit mode "any"
raises, the exception is not reported, and the block is never left, whatever happens; the clock goes
on. -/
theorem C96_any_raise_violated : ∃ s1, Reach (stuckOf 1) 0 .start s1 ∧ s1.failed 1 = true ∧
    s1.st 0 = .pend (.ev 1 .wk) ∧
    (∀ s, Until (stuckOf 1) 0 (fun _ => False) s1 s → s.cur ≠ some (0, .after)) ∧
    ∃ s, Until (stuckOf 1) 0 (fun _ => False) s1 s ∧ s.cycles = 3 :=
  ⟨iter (stuckOf 1) 7 (stuck0 1), reach_iter 7 (reach_iter 3 .init), by decide, rfl,
    fun s => stuck_forever 1 7 _ s rfl (by decide) (by decide) (fun i hi => by
      match i, hi with
      | 0, _ => rfl),
    iter (stuckOf 1) 5 (iter (stuckOf 1) 7 (stuck0 1)), until_iter 5 .refl (fun _ _ _ _ h => h),
    by decide⟩

/-- C96 is false for blocks without groups: with exit mode "any" they are never left. -/
theorem C96_any_empty_violated : ∃ s1, Reach (stuckOf 0) 0 .start s1 ∧ s1.cur = some (0, .sp []) ∧
    ∀ s, Until (stuckOf 0) 0 (fun _ => False) s1 s → s.cur ≠ some (0, .after) :=
  ⟨stuck0 0, reach_iter 3 .init, by decide,
    fun s => stuck_forever 0 0 _ s rfl (by decide) (by decide) (fun i hi => absurd hi (by omega))⟩

end Toffee.Props.LoopExecutor
