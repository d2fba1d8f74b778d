import Verif.Lemmas.LoopWait
import Verif.Props.LoopGather
import Verif.Props.LoopHooks
/-!
C84: the reference-model hooks of a driver call take no clock cycles.
-/

namespace Toffee.Props.LoopCall

open Toffee.Loop Toffee.Props.LoopGather Toffee.Props.LoopHooks

variable {σ G V : Type}

/-- What `process_driver_call` does for a matched model (`_base_agent.py` 126-154), and its
`background_exec` for the hooks left over (163-176): put into a port, or request a hook `h` with priority
`p` and the new event `e`. -/
inductive Item (σ G V : Type) where
  | port (q : Nat) (v : V)
  | hook (h : Hook σ G V) (e : Nat) (p : Int)

/-- The events of the requested hooks. -/
def evs (items : List (Item σ G V)) : List Nat :=
  items.filterMap fun x => match x with | .port _ _ => none | .hook _ e _ => some e

/-- The code of a task that asks for hooks and awaits `gather` of the waits for their events
(`_base_agent.py` 126-156 and 164-177): `rq i` is the loop before item `i`, `rp i` the rest of
`port.put`, `wt e` is the coroutine `event.wait()`; `sp`, `jn`, `after`, `exc` belong to `gather`.  The
events are new objects, so nobody else touches them. -/
structure CallCode (sys : Sys σ G V) (items : List (Item σ G V)) (rq rp wt wt' wt'' : Nat → σ)
    (sp : List Nat → σ) (jn : List Nat → List V → σ) (after : List V → σ) (exc : σ) : Prop where
  hook : ∀ i h e p g, items[i]? = some (.hook h e p) →
    h.done = some e ∧ sys.prog (rq i) g = .addHook h p (rq (i + 1))
  port : ∀ i q v g, items[i]? = some (.port q v) → sys.prog (rq i) g = .put q v (rp i)
  ported : ∀ i g, i < items.length → sys.prog (rp i) g = .taskRun (rq (i + 1))
  asked : ∀ g, sys.prog (rq items.length) g = .comp g (sp [])
  gather : GatherCode sys ((evs items).map wt) sp jn after exc
  wait : WaitCode sys wt wt' wt''
  nodup : (evs items).Nodup
  own : ∀ e ∈ evs items, OwnEv sys (fun k => ∃ i, k = rq i) e
  rq_sp : ∀ i ids, rq i ≠ sp ids
  rq_jn : ∀ i ids r, rq i ≠ jn ids r

/-- Executions from `s0` while task `t` has not got behind the wait for the hooks; the code that
requests them is executed by `t` alone. -/
inductive Calling (sys : Sys σ G V) (t : Nat) (rq : Nat → σ) (after : List V → σ) (exc : σ)
    (s0 : St σ G V) : St σ G V → Prop where
  | refl : Calling sys t rq after exc s0 s0
  | step {s} (due : List Nat) : Calling sys t rq after exc s0 s →
      (∀ res, s.cur ≠ some (t, after res)) → s.cur ≠ some (t, exc) →
      (∀ u i, s.cur = some (u, rq i) → u = t) →
      Calling sys t rq after exc s0 (step sys due s)

theorem Calling.reach {sys : Sys σ G V} {g : G} {k0 : σ} {t : Nat} {rq : Nat → σ}
    {after : List V → σ} {exc : σ} {s0 s : St σ G V} (h : Calling sys t rq after exc s0 s)
    (h0 : Reach sys g k0 s0) : Reach sys g k0 s := by
  induction h with
  | refl => exact h0
  | step due _ _ _ _ ih => exact .step due ih

/-- The requests that the items lead to, numbered from `n`. -/
def reqsOf (n : Nat) : List (Item σ G V) → List ((Nat × Hook σ G V) × Int)
  | [] => []
  | .port _ _ :: l => reqsOf n l
  | .hook h _ p :: l => ((n, h), p) :: reqsOf (n + 1) l

theorem reqsOf_snoc_port (n : Nat) (l : List (Item σ G V)) (q : Nat) (v : V) :
    reqsOf n (l ++ [.port q v]) = reqsOf n l := by
  induction l generalizing n with
  | nil => rfl
  | cons x l ih =>
    cases x with
    | port q' v' => exact ih n
    | hook h e p => exact congrArg (_ :: ·) (ih (n + 1))

theorem reqsOf_snoc_hook (n : Nat) (l : List (Item σ G V)) (h : Hook σ G V) (e : Nat) (p : Int) :
    reqsOf n (l ++ [.hook h e p]) = reqsOf n l ++ [((n + (evs l).length, h), p)] := by
  induction l generalizing n with
  | nil => rfl
  | cons x l ih =>
    cases x with
    | port q' v' => exact ih n
    | hook h' e' p' =>
      show _ :: reqsOf (n + 1) (l ++ [_]) = _ :: _ ++ _
      rw [ih]
      show _ = _ :: (_ ++ [((n + ((evs l).length + 1), h), p)])
      rw [show n + 1 + (evs l).length = n + ((evs l).length + 1) by omega]

theorem evs_append (l l' : List (Item σ G V)) : evs (l ++ l') = evs l ++ evs l' :=
  List.filterMap_append

theorem take_snoc {α : Type} {l : List α} {i : Nat} {x : α} (h : l[i]? = some x) :
    l.take (i + 1) = l.take i ++ [x] := by
  rw [List.take_add_one, h]; rfl

def reqEv (x : (Nat × Hook σ G V) × Int) : Ev := .req x.1.1 x.2

/-- The state reached from `s0` when the first items `l` have been dealt with. -/
structure Did (items l : List (Item σ G V)) (s0 s : St σ G V) : Prop where
  hooks : s.hooks = s0.hooks ++ reqsOf s0.nextHook l
  next : s.nextHook = s0.nextHook + (evs l).length
  ev : ∀ e ∈ evs items, s.ev e = s0.ev e
  log : s.log = s0.log ++ (reqsOf s0.nextHook l).map reqEv
  cycles : s.cycles = s0.cycles
  clock : s.clock = s0.clock

/-- When the clock steps or the tasks are cancelled, nothing can run and no hook with a done event is
pending. -/
theorem turn_quiet (sys : Sys σ G V) (due : List Nat) (s : St σ G V) (hc : s.clock ≠ .afterCancel)
    (hx : (step sys due s).cycles ≠ s.cycles ∨ (step sys due s).clock = .afterCancel) :
    hasUnwait s = false ∧ s.cur = none ∧ ∀ h ∈ s.hooks, h.1.2.done = none := by
  have hsc := step_case sys due s
  generalize step sys due s = s' at hsc hx
  cases hsc with
  | exec t k hcu =>
    rcases hx with hx | hx
    · by_cases hh : ∃ h p k', sys.prog k s.g = .addHook h p k'
      · obtain ⟨h, p, k', hp⟩ := hh
        rw [hp] at hx
        exact absurd rfl hx
      · exact absurd (exec_neutral t _ s (fun h p k' hp => hh ⟨h, p, k', hp⟩)).cycles hx
    · exact absurd hx (exec_clock_ne t _ s hc)
  | task t rest hcu hb =>
    have hn := resume_neutral t { s with batch := rest }
    rcases hx with hx | hx
    · exact absurd hn.cycles hx
    · rcases hn.clk with h | ⟨_, h⟩
      · exact absurd (h.symm.trans hx) hc
      · rw [h] at hx; cases hx
  | clock rest hcu hb =>
    unfold runClock at hx
    have hcc := clock_case sys { s with batch := rest }
    obtain ⟨f1, f2, f3, f4, f5, _⟩ := callbacks_frame sys { s with batch := rest }
    have hany : (callbacks sys { s with batch := rest }).1 =
        s.hooks.any (fun h => h.1.2.done.isSome) := rfl
    generalize clockTurn sys { s with batch := rest } = r at hcc hx
    have hfin : hasUnwait { s with batch := rest } = false →
        (callbacks sys { s with batch := rest }).1 = false →
        hasUnwait s = false ∧ s.cur = none ∧ ∀ h ∈ s.hooks, h.1.2.done = none := by
      intro h1 h2
      rw [hany, List.any_eq_false] at h2
      refine ⟨h1, hcu, fun h hm => ?_⟩
      have := h2 h hm
      revert this
      cases h.1.2.done <;> simp
    cases hcc with
    | off h =>
      have h : s.clock = .off := h
      rcases hx with hx | hx
      · exact absurd rfl hx
      · exact absurd (show s.clock = _ from hx) hc
    | dead h =>
      rcases hx with hx | hx
      · exact absurd rfl hx
      · exact absurd (show s.clock = _ from hx) hc
    | raise h hu hf pre x post hs hx' =>
      rcases hx with hx | hx
      · exact absurd (raised_frame pre x { s with batch := rest }).2.2.1 hx
      · cases hx
    | begin h => rcases hx with hx | hx; exact absurd rfl hx; cases hx
    | busy h => rcases hx with hx | hx; exact absurd rfl hx; cases hx
    | rerun h hu hf hrr =>
      rcases hx with hx | hx
      · exact absurd f3 hx
      · cases hx
    | cancel h hu hf hrr ht => exact hfin hu hrr
    | step h hu hf hrr ht => exact hfin hu hrr
    | last h => exact absurd h hc
  | stop rest hcu hb =>
    rcases hx with hx | hx
    · exact absurd rfl hx
    · exact absurd hx hc
  | fire t k rest hcu hb hs =>
    rcases hx with hx | hx
    · exact absurd rfl hx
    · exact absurd hx hc
  | miss t rest hcu hb hs =>
    rcases hx with hx | hx
    · exact absurd rfl hx
    · exact absurd hx hc
  | halt hcu hb hs =>
    rcases hx with hx | hx
    · exact absurd rfl hx
    · exact absurd hx hc
  | turn due hcu hb hs =>
    rcases hx with hx | hx
    · exact absurd rfl hx
    · exact absurd hx hc

/-- What happens while the clock does not step and nothing is cancelled. -/
theorem log_quiet {sys : Sys σ G V} {g : G} {k : σ} {s : St σ G V} (due : List Nat)
    (hr : Reach sys g k s) (h1 : (step sys due s).cycles = s.cycles)
    (h2 : (step sys due s).clock ≠ .afterCancel) :
    ∃ l, (step sys due s).log = s.log ++ l ∧ Ev.step ∉ l := by
  cases log_case due hr with
  | quiet l hl hn hh hx hc hk hkd =>
    refine ⟨l, hl, fun hm => ?_⟩
    have := hn _ hm
    cases this
  | req h p hl hh hx hc hk hk' => exact ⟨_, hl, by simp⟩
  | rerun hl hd hh hx hc hk' hk =>
    refine ⟨_, hl, ?_⟩
    simp [execEv]
  | step hl hd hh hx hc ht hk' hk => omega
  | cancel hl hd hh hx hc ht hk' hk => exact absurd hk h2
  | last hl hs hh hx hc hk' hk => omega
  | raise pre x post hs hl hh hx hc hk' hk ha hra =>
    refine ⟨_, hl, ?_⟩
    simp [execEv]

/-- While `t` is in `gather`, after its requests. -/
structure Await (items : List (Item σ G V)) (wt wt' wt'' : Nat → σ) (t lo : Nat) (s0 s : St σ G V) :
    Prop where
  clock : s.clock ≠ .afterCancel
  cycles : s.cycles = s0.cycles
  log : ∃ l, s.log = s0.log ++ ((reqsOf s0.nextHook items).map reqEv ++ l) ∧ Ev.step ∉ l
  asked : ∀ x ∈ reqsOf s0.nextHook items, ∀ e, x.1.2.done = some e → Asked x.1.1 e s
  waits : ∀ u e, lo ≤ u → e ∈ evs items → Born (wt e) u s → WPos wt wt' wt'' u e s
  alive : ∀ r, s.st t ≠ .done r

/-- Where `t` is. -/
inductive Where (sys : Sys σ G V) (g : G) (k0 : σ) (items : List (Item σ G V))
    (rq rp wt wt' wt'' : Nat → σ) (sp : List Nat → σ) (after : List V → σ)
    (exc : σ) (t : Nat) (s0 s : St σ G V) : Prop where
  | asking (i : Nat) (hi : i ≤ items.length) (hc : s.cur = some (t, rq i))
      (h : Did items (items.take i) s0 s)
  | porting (i : Nat) (hi : i < items.length) (hc : s.cur = some (t, rp i))
      (h : Did items (items.take (i + 1)) s0 s)
  | waiting (s1 : St σ G V) (h1 : Reach sys g k0 s1) (hc : s1.cur = some (t, sp []))
      (hd : During sys t after exc s1 s) (hn : s0.n ≤ s1.n)
      (h : Await items wt wt' wt'' t s1.n s0 s)

theorem pend_of_quiet {s : St σ G V} (hu : hasUnwait s = false) {t : Nat} (ht : t < s.n) :
    (∃ w, s.st t = .pend w) ∨ ∃ r, s.st t = .done r := by
  unfold hasUnwait at hu
  rw [List.any_eq_false] at hu
  have := hu t (List.mem_range.2 ht)
  cases hs : s.st t with
  | pend w => exact .inl ⟨w, rfl⟩
  | done r => exact .inr ⟨r, rfl⟩
  | _ => rw [hs] at this; simp at this

/-- The hooks of the items have the events of the items as their done events. -/
def HasDone (items : List (Item σ G V)) : Prop :=
  ∀ (i : Nat) (h : Hook σ G V) (e : Nat) (p : Int), items[i]? = some (.hook h e p) → h.done = some e

theorem HasDone.tail {y : Item σ G V} {l : List (Item σ G V)} (h : HasDone (y :: l)) : HasDone l :=
  fun i h' e p hi => h (i + 1) h' e p (by simpa using hi)

theorem evs_of_mem {items : List (Item σ G V)} {n : Nat} {e : Nat} (he : e ∈ evs items)
    (hd : HasDone items) :
    ∃ x ∈ reqsOf n items, x.1.2.done = some e := by
  induction items generalizing n with
  | nil => cases he
  | cons y l ih =>
    have hd' := hd.tail
    cases y with
    | port q v => exact ih he hd'
    | hook h e' p =>
      rcases List.mem_cons.1 (show e ∈ e' :: evs l from he) with rfl | he
      · exact ⟨((n, h), p), List.mem_cons_self, hd 0 h e p rfl⟩
      · obtain ⟨x, hx, h1⟩ := ih (n := n + 1) he hd'
        exact ⟨x, List.mem_cons_of_mem _ hx, h1⟩

theorem reqsOf_done {items : List (Item σ G V)} {n : Nat} {x : (Nat × Hook σ G V) × Int} {e : Nat}
    (hx : x ∈ reqsOf n items) (hxe : x.1.2.done = some e)
    (hd : HasDone items) : e ∈ evs items := by
  induction items generalizing n with
  | nil => cases hx
  | cons y l ih =>
    have hd' := hd.tail
    cases y with
    | port q v => exact ih hx hd'
    | hook h e' p =>
      show e ∈ e' :: evs l
      rcases List.mem_cons.1 hx with rfl | hx
      · have := hd 0 h e' p rfl
        rw [hxe] at this
        cases this
        exact List.mem_cons_self
      · exact List.mem_cons_of_mem _ (ih hx hd')

theorem reqsOf_some {items : List (Item σ G V)} {n : Nat} {x : (Nat × Hook σ G V) × Int}
    (hx : x ∈ reqsOf n items) (hd : HasDone items) : ∃ e, x.1.2.done = some e := by
  induction items generalizing n with
  | nil => cases hx
  | cons y l ih =>
    cases y with
    | port q v => exact ih hx hd.tail
    | hook h e' p =>
      rcases List.mem_cons.1 hx with rfl | hx
      · exact ⟨e', hd 0 h e' p rfl⟩
      · exact ih hx hd.tail

theorem reqsOf_ge {items : List (Item σ G V)} {n : Nat} {x : (Nat × Hook σ G V) × Int}
    (hx : x ∈ reqsOf n items) : n ≤ x.1.1 := by
  induction items generalizing n with
  | nil => cases hx
  | cons y l ih =>
    cases y with
    | port q v => exact ih hx
    | hook h e' p =>
      rcases List.mem_cons.1 hx with rfl | hx
      · exact Nat.le_refl _
      · have := ih hx
        omega

theorem reqsOf_uniq {items : List (Item σ G V)} {n : Nat} {x y : (Nat × Hook σ G V) × Int}
    {e : Nat} (hn : (evs items).Nodup)
    (hd : HasDone items)
    (hx : x ∈ reqsOf n items) (hy : y ∈ reqsOf n items) (hxe : x.1.2.done = some e)
    (hye : y.1.2.done = some e) : x = y := by
  induction items generalizing n with
  | nil => cases hx
  | cons z l ih =>
    have hd' := hd.tail
    cases z with
    | port q v => exact ih hn hd' hx hy
    | hook h e' p =>
      have hn : (e' :: evs l).Nodup := hn
      rw [List.nodup_cons] at hn
      have h0 := hd 0 h e' p rfl
      have hx : x ∈ ((n, h), p) :: reqsOf (n + 1) l := hx
      have hy : y ∈ ((n, h), p) :: reqsOf (n + 1) l := hy
      rcases List.mem_cons.1 hx with h1 | h1 <;> rcases List.mem_cons.1 hy with h2 | h2
      · rw [h1, h2]
      · exfalso
        rw [h1] at hxe
        rw [hxe] at h0; cases h0
        exact hn.1 (reqsOf_done h2 hye hd')
      · exfalso
        rw [h2] at hye
        rw [hye] at h0; cases h0
        exact hn.1 (reqsOf_done h1 hxe hd')
      · exact ih hn.2 hd' h1 h2

section
variable {sys : Sys σ G V} {g : G} {k0 : σ} {items : List (Item σ G V)}
  {rq rp wt wt' wt'' : Nat → σ} {sp : List Nat → σ} {jn : List Nat → List V → σ}
  {after : List V → σ} {exc : σ} {t : Nat}

/-- The next task `gather` waits for is one of the waits for an event. -/
theorem waiter_of {cs : List Nat} {s1 s : St σ G V} {ids : List Nat} {m : Nat}
    (hm : Made (cs.map wt) s1.n ids s) (h : m < ids.length) :
    ∃ e ∈ cs, Born (wt e) ids[m] s ∧ s1.n ≤ ids[m] := by
  have hl := hm.le
  rw [List.length_map] at hl
  have hb := hm.born m h (by rw [List.length_map]; omega)
  rw [List.getElem_map] at hb
  exact ⟨cs[m], List.getElem_mem _, hb, hm.new _ (List.getElem_mem _)⟩

/-- While `t` waits for its hooks the clock does not step and nothing is cancelled. -/
theorem await_turn (hc : CallCode sys items rq rp wt wt' wt'' sp jn after exc) {s0 s1 s : St σ G V}
    (h1 : Reach sys g k0 s1) (hs1 : s1.cur = some (t, sp [])) (hd : During sys t after exc s1 s)
    (ha : Await items wt wt' wt'' t s1.n s0 s) (due : List Nat) :
    (step sys due s).cycles = s.cycles ∧ (step sys due s).clock ≠ .afterCancel := by
  refine Classical.byContradiction fun hno => ?_
  have hx : (step sys due s).cycles ≠ s.cycles ∨ (step sys due s).clock = .afterCancel := by
    by_cases h : (step sys due s).cycles = s.cycles
    · right
      refine Classical.byContradiction fun h' => hno ⟨h, h'⟩
    · exact .inl h
  obtain ⟨hu, hcu, hh⟩ := turn_quiet sys due s ha.clock hx
  have hr := hd.reach h1
  have hi := reach_inv hr
  cases during_in hc.gather h1 hs1 hd with
  | cancelled h => exact ha.alive _ h.1
  | creating ids hm hlo h => rw [hcu] at h; cases h
  | awaiting ids res hm hl hg h => rw [hcu] at h; cases h
  | returned ids res hm hl hg hr h => rw [hcu] at h; cases h
  | raised ids res hm hl hg hr hf h => rw [hcu] at h; cases h
  | blocked ids res hm hl hg hlt h =>
    have htn : t < s.n := by
      apply hi.core.lt_of_not_done
      rcases h with h | h <;> rw [h] <;> rfl
    have hp : s.st t = .pend (.join ids[res.length] (fun v => jn ids (res ++ [v])) exc) := by
      rcases h with h | h
      · exact h
      · rcases pend_of_quiet hu htn with ⟨w, hw⟩ | ⟨r, hw⟩ <;> rw [h] at hw <;> cases hw
    obtain ⟨e, he, hb, hlo⟩ := waiter_of (s1 := s1) hm hlt
    have hw := ha.waits _ e hlo he hb
    have hpos : 0 < (s.joiners ids[res.length]).count t := by
      rw [hi.core.hj]; rw [hp]; simp [jExp]
    have hnd : ∀ r, s.st ids[res.length] ≠ .done r := by
      intro r hr
      have := hi.core.hdone ids[res.length] (by rw [hr]; rfl)
      rw [this] at hpos
      cases hpos
    cases hw with
    | ready h => rcases pend_of_quiet hu hb.2 with ⟨w, hw⟩ | ⟨r, hw⟩ <;> rw [h] at hw <;> cases hw
    | begin h => rw [hcu] at h; cases h
    | past h => rw [hcu] at h; rcases h with h | h <;> cases h
    | done v h => exact hnd _ h.1
    | susp h =>
      have hp' : s.st ids[res.length] = .pend (.ev e (wt' e)) := by
        rcases h with h | h
        · exact h
        · rcases pend_of_quiet hu hb.2 with ⟨w, hw⟩ | ⟨r, hw⟩ <;> rw [h] at hw <;> cases hw
      have hwp : 0 < (s.waiters e).count ids[res.length] := by
        rw [hi.core.hw, hp']; simp [wExp]
      obtain ⟨x, hx', hxe⟩ := evs_of_mem (n := s0.nextHook) he (fun i h e p hi' => (hc.hook i h e p s.g hi').1)
      rcases (ha.asked x hx' e hxe).life with ⟨_, y, hy, _, hyd⟩ | ⟨hev, _⟩
      · rw [hh y hy] at hyd; cases hyd
      · rw [hi.core.hev e hev] at hwp; cases hwp

theorem await_step (hc : CallCode sys items rq rp wt wt' wt'' sp jn after exc) {s0 s1 s : St σ G V}
    (h1 : Reach sys g k0 s1) (hs1 : s1.cur = some (t, sp [])) (hd : During sys t after exc s1 s)
    (ha : Await items wt wt' wt'' t s1.n s0 s) (due : List Nat)
    (hna : ∀ res, s.cur ≠ some (t, after res)) (hne : s.cur ≠ some (t, exc))
    (hex : ∀ u i, s.cur = some (u, rq i) → u = t) :
    Await items wt wt' wt'' t s1.n s0 (step sys due s) := by
  have hr := hd.reach h1
  have hi := reach_inv hr
  have hin := during_in hc.gather h1 hs1 hd
  have hr1 := reach_inv h1
  have hs1n : 0 < s1.n := hr1.core.hpos
  obtain ⟨ht1, ht2⟩ := await_turn hc h1 hs1 hd ha due
  have hgr := step_grows sys due s
  have hnrq : ∀ u k, s.cur = some (u, k) → ¬ ∃ i, k = rq i := by
    rintro u k hcu ⟨i, rfl⟩
    have := hex u i hcu
    subst this
    have hrun : isRunning (s.st u) = true := (hi.core.hcur u).2 (by rw [hcu]; rfl)
    cases hin with
    | cancelled h => rw [h.1] at hrun; cases hrun
    | blocked ids res hm hl hg hlt h => rcases h with h | h <;> rw [h] at hrun <;> cases hrun
    | creating ids hm hlo h =>
      rw [hcu] at h; injection h with h; injection h with _ h
      exact hc.rq_sp _ _ h
    | awaiting ids res hm hl hg h =>
      rw [hcu] at h; injection h with h; injection h with _ h
      exact hc.rq_jn _ _ _ h
    | returned ids res hm hl hg hr h => exact hna _ h
    | raised ids res hm hl hg hr hf h => exact hne h
  -- a finished wait has a result
  have hdw : ∀ u e, s1.n ≤ u → e ∈ evs items → Born (wt e) u s → isDone (s.st u) = true →
      ∃ v, s.st u = .done (some v) := by
    intro u e hlo he hb hdn
    cases ha.waits u e hlo he hb with
    | ready h => rw [h] at hdn; cases hdn
    | begin h =>
      have hrun : isRunning (s.st u) = true := (hi.core.hcur u).2 (by rw [h]; rfl)
      revert hdn hrun
      cases s.st u <;> simp [isRunning, isDone]
    | past h =>
      have hrun : isRunning (s.st u) = true :=
        (hi.core.hcur u).2 (by rcases h with h | h <;> rw [h] <;> rfl)
      revert hdn hrun
      cases s.st u <;> simp [isRunning, isDone]
    | susp h => rcases h with h | h <;> rw [h] at hdn <;> cases hdn
    | done v h => exact ⟨v, h.1⟩
  refine ⟨ht2, ht1.trans ha.cycles, ?_, ?_, ?_, ?_⟩
  · obtain ⟨l, hl, hls⟩ := ha.log
    obtain ⟨l', hl', hls'⟩ := log_quiet due hr ht1 ht2
    refine ⟨l ++ l', ?_, by simp [hls, hls']⟩
    rw [hl', hl]; simp
  · intro x hx e hxe
    refine (ha.asked x hx e hxe).step due (hc.own e ?_) hr hnrq
    exact reqsOf_done hx hxe (fun i h e p hi' => (hc.hook i h e p s.g hi').1)
  · intro u e hlo he hb
    by_cases hu : u < s.n
    · exact (ha.waits u e hlo he (born_back hr due hb hu)).step hc.wait due (hc.own e he) hr (by omega) hu ht2
    · obtain ⟨k, hk1, hk2⟩ := step_news sys due s ht2 u (by omega) hb.2
      rw [hb.1] at hk1
      cases hk1
      exact .ready hk2
  · have hrunning : ∀ k (s' : St σ G V), Loop.Inv s' → s'.cur = some (t, k) → ∀ r, s'.st t ≠ .done r := by
      intro k s' hi' hcu r hr
      have hrun : isRunning (s'.st t) = true := (hi'.core.hcur t).2 (by rw [hcu]; rfl)
      rw [hr] at hrun; cases hrun
    have hi' := reach_inv (.step due hr)
    cases hin with
    | cancelled h => exact absurd h.1 (ha.alive _)
    | returned ids res hm hl hg hr h => exact absurd h (hna _)
    | raised ids res hm hl hg hr hf h => exact absurd h hne
    | creating ids hm hlo h =>
      have hst : step sys due s = exec t (sys.prog (sp ids) s.g) s := by unfold step; rw [h]
      by_cases hlt : ids.length < ((evs items).map wt).length
      · refine hrunning (sp (ids ++ [s.n])) _ hi' ?_
        rw [hst, hc.gather.create ids s.g hlt]; rfl
      · refine hrunning (jn ids []) _ hi' ?_
        rw [hst, hc.gather.created ids s.g (by have := hm.le; omega)]; rfl
    | awaiting ids res hm hl hg h =>
      have hst : step sys due s = exec t (sys.prog (jn ids res) s.g) s := by unfold step; rw [h]
      by_cases hlt : res.length < ids.length
      · obtain ⟨e, he, hb, hlo⟩ := waiter_of (s1 := s1) hm hlt
        rw [hc.gather.await ids res s.g hlt hl] at hst
        cases hu : s.st ids[res.length] with
        | done r =>
          obtain ⟨v, hv⟩ := hdw _ e hlo he hb (by rw [hu]; rfl)
          refine hrunning (jn ids (res ++ [v])) _ hi' ?_
          rw [hst]; unfold exec; simp only [hv]
        | _ =>
          rw [hst]
          unfold exec
          simp only [hu]
          intro r
          show upd s.st t _ t ≠ _
          rw [upd_self]
          intro h; cases h
      · refine hrunning (after res) _ hi' ?_
        rw [hst, hc.gather.awaited ids res s.g hl (by have := hg.le; omega)]; rfl
    | blocked ids res hm hl hg hlt h =>
      have htn : t < s.n := by
        apply hi.core.lt_of_not_done
        rcases h with h | h <;> rw [h] <;> rfl
      rcases stays_step sys due s t ht2 with ⟨k, hcu, hst⟩ | ⟨rest, hcu, hb, hst⟩ | ⟨_, hst⟩
      · have hrun : isRunning (s.st t) = true := (hi.core.hcur t).2 (by rw [hcu]; rfl)
        rcases h with h | h <;> rw [h] at hrun <;> cases hrun
      · have hq := qExp_one_of_head hi hb
        rcases h with h | h
        · rw [h] at hq; cases hq
        · obtain ⟨hdn, _⟩ := hi.core.hjfin t _ _ _ h
          obtain ⟨e, he, hb, hlo⟩ := waiter_of (s1 := s1) hm hlt
          obtain ⟨v, hv⟩ := hdw _ e hlo he hb hdn
          refine hrunning (jn ids (res ++ [v])) _ hi' ?_
          rw [hst]; unfold resume; simp only [h, hv]
      · intro r
        rcases hst.susp _ htn h with h | h <;> rw [h] <;> intro h <;> cases h

theorem CallCode.hasDone (hc : CallCode sys items rq rp wt wt' wt'' sp jn after exc) (g : G) :
    HasDone items := fun i h e p hi => (hc.hook i h e p g hi).1

/-- The requests were made: `t` enters `gather`. -/
theorem await_init (hc : CallCode sys items rq rp wt wt' wt'' sp jn after exc) {s0 s : St σ G V}
    (hf : ∀ e ∈ evs items, Unasked e s0) (hr : Reach sys g k0 s) (hcu : s.cur = some (t, sp []))
    (h : Did items items s0 s) : Await items wt wt' wt'' t s.n s0 s := by
  have hi := reach_inv hr
  refine ⟨?_, h.cycles, ⟨[], by rw [h.log]; simp, by simp⟩, ?_, ?_, ?_⟩
  · intro hk
    have := (reach_AC hr).cur hk
    rw [hcu] at this; cases this
  · intro x hx e hxe
    have he := reqsOf_done hx hxe (hc.hasDone s.g)
    refine ⟨?_, .inl ⟨by rw [h.ev e he]; exact (hf e he).ev, x, ?_, rfl, hxe⟩⟩
    · intro y hy hye
      rw [h.hooks] at hy
      rcases List.mem_append.1 hy with hy | hy
      · exact absurd hye ((hf e he).none y hy)
      · rw [reqsOf_uniq hc.nodup (hc.hasDone s.g) hy hx hye hxe]
    · rw [h.hooks]; exact List.mem_append_right _ hx
  · intro u e hlo he hb
    have := hb.2
    omega
  · intro r hr'
    have hrun : isRunning (s.st t) = true := (hi.core.hcur t).2 (by rw [hcu]; rfl)
    rw [hr'] at hrun; cases hrun

theorem Did.put {l : List (Item σ G V)} {s0 s : St σ G V} (h : Did items l s0 s) (q : Nat) (v : V)
    (c : Option (Nat × σ)) : Did items (l ++ [.port q v]) s0 { putQ q v s with cur := c } := by
  obtain ⟨f1, f2, f3, f4, f5, _⟩ := putQ_frame q v s
  refine ⟨?_, ?_, ?_, ?_, ?_, ?_⟩
  · rw [reqsOf_snoc_port, ← h.hooks]; exact f1
  · rw [evs_append]; show _ = _ + (evs l ++ []).length; rw [List.append_nil, ← h.next]; exact f2
  · intro e he
    rw [← h.ev e he]
    show (putQ q v s).ev e = _
    rw [putQ_ev]
  · rw [reqsOf_snoc_port, ← h.log]; exact f4
  · rw [← h.cycles]; exact f3
  · rw [← h.clock]; exact f5

theorem calling_where (hc : CallCode sys items rq rp wt wt' wt'' sp jn after exc)
    {s0 s : St σ G V} (h0 : Reach sys g k0 s0) (hs : s0.cur = some (t, rq 0))
    (hf : ∀ e ∈ evs items, Unasked e s0) (hd : Calling sys t rq after exc s0 s) :
    Where sys g k0 items rq rp wt wt' wt'' sp after exc t s0 s := by
  induction hd with
  | refl =>
    refine .asking 0 (Nat.zero_le _) hs ⟨?_, ?_, fun _ _ => rfl, ?_, rfl, rfl⟩
    · simp [reqsOf]
    · simp [evs]
    · simp [reqsOf]
  | @step s due hd hna hne hex ih =>
    have hr := hd.reach h0
    cases ih with
    | asking i hi hcu h =>
      have hst : step sys due s = exec t (sys.prog (rq i) s.g) s := by unfold step; rw [hcu]
      by_cases hlt : i < items.length
      · have hge : items[i]? = some items[i] := List.getElem?_eq_getElem hlt
        cases hx : items[i] with
        | port q v =>
          rw [hx] at hge
          rw [hc.port i q v s.g hge] at hst
          refine .porting i hlt (by rw [hst]; rfl) ?_
          rw [take_snoc hge, hst]
          exact h.put q v _
        | hook hk e p =>
          rw [hx] at hge
          rw [(hc.hook i hk e p s.g hge).2] at hst
          refine .asking (i + 1) hlt (by rw [hst]; rfl) ?_
          rw [take_snoc hge, hst]
          refine ⟨?_, ?_, ?_, ?_, h.cycles, h.clock⟩
          · show s.hooks ++ [((s.nextHook, hk), p)] = _
            rw [reqsOf_snoc_hook, h.hooks, h.next, List.append_assoc]
          · show s.nextHook + 1 = _
            rw [evs_append, h.next, List.length_append]
            rfl
          · exact h.ev
          · show s.log ++ [.req s.nextHook p] = _
            rw [reqsOf_snoc_hook, h.log, h.next, List.map_append, List.append_assoc]
            rfl
      · have hil : i = items.length := by omega
        subst hil
        rw [hc.asked s.g] at hst
        rw [List.take_length] at h
        have hcu' : (step sys due s).cur = some (t, sp []) := by rw [hst]; rfl
        have hd' : Did items items s0 (step sys due s) := by
          rw [hst]
          exact ⟨h.hooks, h.next, h.ev, h.log, h.cycles, h.clock⟩
        refine .waiting _ (.step due hr) hcu' .refl ?_ (await_init hc hf (.step due hr) hcu' hd')
        have hmono : ∀ {s}, Calling sys t rq after exc s0 s → s0.n ≤ s.n := by
          intro s h
          induction h with
          | refl => exact Nat.le_refl _
          | step due _ _ _ _ ih => exact Nat.le_trans ih (step_grows sys due _).mono
        exact Nat.le_trans (hmono hd) (step_grows sys due s).mono
    | porting i hi hcu h =>
      have hst : step sys due s = exec t (sys.prog (rp i) s.g) s := by unfold step; rw [hcu]
      rw [hc.ported i s.g hi] at hst
      refine .asking (i + 1) hi (by rw [hst]; rfl) ?_
      rw [hst]
      exact ⟨h.hooks, h.next, h.ev, h.log, h.cycles, h.clock⟩
    | waiting s1 h1 hc1 hd1 hn h =>
      exact .waiting s1 h1 hc1 (.step due hd1 hna hne) hn
        (await_step hc h1 hc1 hd1 h due hna hne hex)

/-- C84: while a driver call has requested hooks and waits for them, the clock does not advance, and
the call is not cancelled and does not end with an exception. -/
theorem C84_no_cycle (hc : CallCode sys items rq rp wt wt' wt'' sp jn after exc)
    (s0 s : St σ G V) (h0 : Reach sys g k0 s0) (hs : s0.cur = some (t, rq 0))
    (hf : ∀ e ∈ evs items, Unasked e s0) (hd : Calling sys t rq after exc s0 s) :
    s.cycles = s0.cycles ∧ (∀ r, s.st t ≠ .done r) ∧
      ∃ l, s.log = s0.log ++ l ∧ Ev.step ∉ l := by
  have hr := hd.reach h0
  have hi := reach_inv hr
  have hrunning : ∀ k, s.cur = some (t, k) → ∀ r, s.st t ≠ .done r := by
    intro k hcu r hr
    have hrun : isRunning (s.st t) = true := (hi.core.hcur t).2 (by rw [hcu]; rfl)
    rw [hr] at hrun; cases hrun
  cases calling_where hc h0 hs hf hd with
  | asking i hi hcu h => exact ⟨h.cycles, hrunning _ hcu, _, h.log, by simp [reqEv]⟩
  | porting i hi hcu h => exact ⟨h.cycles, hrunning _ hcu, _, h.log, by simp [reqEv]⟩
  | waiting s1 h1 hc1 hd1 hn h =>
    obtain ⟨l, hl, hls⟩ := h.log
    exact ⟨h.cycles, h.alive, _, hl, by simp [reqEv, hls]⟩

/-- When a driver call goes on, the events of all hooks it requested are set. -/
theorem returned_set (hc : CallCode sys items rq rp wt wt' wt'' sp jn after exc)
    (hinj : ∀ res res', after res = after res' → res = res')
    (hrq : ∀ i res, rq i ≠ after res) (hrp : ∀ i res, rp i ≠ after res)
    (hsp : ∀ ids res, sp ids ≠ after res) (hjn : ∀ ids r res, jn ids r ≠ after res)
    (hex : ∀ res, after res ≠ exc)
    {s0 s : St σ G V} (h0 : Reach sys g k0 s0) (hs : s0.cur = some (t, rq 0))
    (hf : ∀ e ∈ evs items, Unasked e s0) (hd : Calling sys t rq after exc s0 s) {res : List V}
    (hret : s.cur = some (t, after res)) :
    (∃ s1, Await items wt wt' wt'' t s1 s0 s) ∧ ∀ e ∈ evs items, s.ev e = true := by
  have hr := hd.reach h0
  have hi := reach_inv hr
  have hne : ∀ k, s.cur = some (t, k) → k = after res := by
    intro k h
    rw [hret] at h; injection h with h; injection h with _ h; exact h.symm
  have hrun : isRunning (s.st t) = true := (hi.core.hcur t).2 (by rw [hret]; rfl)
  cases calling_where hc h0 hs hf hd with
  | asking i hi hcu h => exact absurd (hne _ hcu) (hrq _ _)
  | porting i hi hcu h => exact absurd (hne _ hcu) (hrp _ _)
  | waiting s1 h1 hc1 hd1 hn h =>
    refine ⟨⟨_, h⟩, ?_⟩
    cases during_in hc.gather h1 hc1 hd1 with
    | cancelled h' => rw [h'.1] at hrun; cases hrun
    | blocked ids res' hm hl hg hr h => rcases h with h | h <;> rw [h] at hrun <;> cases hrun
    | creating ids hm hlo h => exact absurd (hne _ h) (hsp _ _)
    | awaiting ids res' hm hl hg h => exact absurd (hne _ h) (hjn _ _ _)
    | raised ids res' hm hl hg hr hf h => exact absurd (hne _ h).symm (hex _)
    | returned ids res' hm hli hg hlr h' =>
      have h2 := hinj _ _ (hne _ h')
      subst h2
      intro e he
      obtain ⟨m, hm1, hm2⟩ := List.mem_iff_getElem.1 he
      have hml : m < ids.length := by rw [hli, List.length_map]; exact hm1
      have hb := hm.born m hml (by rw [List.length_map]; exact hm1)
      rw [List.getElem_map, hm2] at hb
      have hdn := hg.res m (by omega) hml
      cases h.waits _ e (hm.new _ (List.getElem_mem hml)) he hb with
      | ready h' => rw [hdn.1] at h'; cases h'
      | begin h' =>
        have hrun : isRunning (s.st ids[m]) = true := (hi.core.hcur _).2 (by rw [h']; rfl)
        rw [hdn.1] at hrun; cases hrun
      | susp h' => rcases h' with h' | h' <;> rw [hdn.1] at h' <;> cases h'
      | past h' hev => exact hev
      | done v h' hev => exact hev

/-- C84: when a driver call goes on (with the driver method, or with the comparison in the
background), all hooks it requested were executed since then, in the same clock cycle; they were
requested in the order of the models with the given priorities. -/
theorem C84_hooks_first (hc : CallCode sys items rq rp wt wt' wt'' sp jn after exc)
    (hinj : ∀ res res', after res = after res' → res = res')
    (hrq : ∀ i res, rq i ≠ after res) (hrp : ∀ i res, rp i ≠ after res)
    (hsp : ∀ ids res, sp ids ≠ after res) (hjn : ∀ ids r res, jn ids r ≠ after res)
    (hex : ∀ res, after res ≠ exc)
    (s0 s : St σ G V) (h0 : Reach sys g k0 s0) (hs : s0.cur = some (t, rq 0))
    (hf : ∀ e ∈ evs items, Unasked e s0) (hd : Calling sys t rq after exc s0 s) (res : List V)
    (hret : s.cur = some (t, after res)) :
    s.cycles = s0.cycles ∧
      ∃ l, s.log = s0.log ++ ((reqsOf s0.nextHook items).map reqEv ++ l) ∧ Ev.step ∉ l ∧
        ∀ x ∈ reqsOf s0.nextHook items, Ev.exec x.1.1 true ∈ l := by
  obtain ⟨⟨s1, h⟩, hset⟩ := returned_set hc hinj hrq hrp hsp hjn hex h0 hs hf hd hret
  obtain ⟨l, hl, hls⟩ := h.log
  refine ⟨h.cycles, l, hl, hls, ?_⟩
  intro x hx
  obtain ⟨e, hxe⟩ := reqsOf_some hx (hc.hasDone s.g)
  have hev := hset e (reqsOf_done hx hxe (hc.hasDone s.g))
  rcases (h.asked x hx e hxe).life with ⟨hev', _⟩ | ⟨_, hxl⟩
  · rw [hev] at hev'; cases hev'
  · rw [hl] at hxl
    rcases List.mem_append.1 hxl with hxl | hxl
    · exfalso
      have hh := reach_HInv h0
      obtain ⟨a, b, hab⟩ := List.append_of_mem hxl
      have := hh.after a _ x.1.1 b hab rfl
      have hm : x.1.1 ∈ reqIds s0.log := by
        rw [hab, reqIds_append]
        exact List.mem_append_left _ this
      rw [hh.reqs, List.mem_range] at hm
      have := reqsOf_ge hx
      omega
    · rcases List.mem_append.1 hxl with hxl | hxl
      · obtain ⟨y, _, hy⟩ := List.mem_map.1 hxl
        cases hy
      · exact hxl

/-- C84: waiting for the hooks does not raise. -/
theorem C84_no_exception (hc : CallCode sys items rq rp wt wt' wt'' sp jn after exc)
    (hrq : ∀ i, rq i ≠ exc) (hrp : ∀ i, rp i ≠ exc) (hsp : ∀ ids, sp ids ≠ exc)
    (hjn : ∀ ids r, jn ids r ≠ exc) (hex : ∀ res, after res ≠ exc)
    (s0 s : St σ G V) (h0 : Reach sys g k0 s0) (hs : s0.cur = some (t, rq 0))
    (hf : ∀ e ∈ evs items, Unasked e s0) (hd : Calling sys t rq after exc s0 s) :
    s.cur ≠ some (t, exc) := by
  intro hret
  have hr := hd.reach h0
  have hi := reach_inv hr
  have hne : ∀ k, s.cur = some (t, k) → k = exc := by
    intro k h
    rw [hret] at h; injection h with h; injection h with _ h; exact h.symm
  have hrun : isRunning (s.st t) = true := (hi.core.hcur t).2 (by rw [hret]; rfl)
  cases calling_where hc h0 hs hf hd with
  | asking i hi hcu h => exact absurd (hne _ hcu) (hrq _)
  | porting i hi hcu h => exact absurd (hne _ hcu) (hrp _)
  | waiting s1 h1 hc1 hd1 hn h =>
    cases during_in hc.gather h1 hc1 hd1 with
    | cancelled h' => rw [h'.1] at hrun; cases hrun
    | blocked ids res' hm hl hg hr h => rcases h with h | h <;> rw [h] at hrun <;> cases hrun
    | creating ids hm hlo h => exact absurd (hne _ h) (hsp _)
    | awaiting ids res' hm hl hg h => exact absurd (hne _ h) (hjn _ _)
    | returned ids res' hm hli hg hlr h' => exact absurd (hne _ h') (hex _)
    | raised ids res' hm hl hg hlt hfl _ =>
      obtain ⟨e, he, hb, hlo⟩ := waiter_of (s1 := s1) hm hlt
      have hdn := (reach_failed hr _ hfl).1
      cases h.waits _ e hlo he hb with
      | ready h' => rw [hdn] at h'; cases h'
      | begin h' =>
        have hrun : isRunning (s.st ids[res'.length]) = true :=
          (hi.core.hcur _).2 (by rw [h']; rfl)
        rw [hdn] at hrun; cases hrun
      | susp h' => rcases h' with h' | h' <;> rw [hdn] at h' <;> cases h'
      | past h' hev =>
        have hrun : isRunning (s.st ids[res'.length]) = true :=
          (hi.core.hcur _).2 (by rcases h' with h' | h' <;> rw [h'] <;> rfl)
        rw [hdn] at hrun; cases hrun
      | done v h' hev => have := h'.1; rw [hdn] at this; cases this

/-- Executions from `s0` while task `u` has not run. -/
inductive Until (sys : Sys σ G V) (u : Nat) (s0 : St σ G V) : St σ G V → Prop where
  | refl : Until sys u s0 s0
  | step {s} (due : List Nat) : Until sys u s0 s → (∀ k, s.cur ≠ some (u, k)) →
      Until sys u s0 (step sys due s)

theorem until_ready {s0 s : St σ G V} {u : Nat} {k : σ} (h0 : Reach sys g k0 s0)
    (hs : s0.st u = .ready k) (hd : Until sys u s0 s) :
    s.cycles = s0.cycles ∧ (s.st u = .ready k ∨ s.cur = some (u, k)) ∧ Reach sys g k0 s ∧
      ∃ l, s.log = s0.log ++ l ∧ Ev.step ∉ l := by
  induction hd with
  | refl => exact ⟨rfl, .inl hs, h0, [], by simp, by simp⟩
  | @step s due hd hne ih =>
    obtain ⟨h1, h2, hr, l, hl, hls⟩ := ih
    have h2 : s.st u = .ready k := by
      rcases h2 with h2 | h2
      · exact h2
      · exact absurd h2 (hne _)
    have hi := reach_inv hr
    have hn : u < s.n := hi.core.lt_of_not_done (by rw [h2]; rfl)
    have hac : s.clock ≠ .afterCancel := by
      intro hk
      have := (reach_AC hr).st hk u
      rw [h2] at this; cases this
    have hq : ¬ ((step sys due s).cycles ≠ s.cycles ∨ (step sys due s).clock = .afterCancel) := by
      intro hx
      obtain ⟨hu, _⟩ := turn_quiet sys due s hac hx
      rcases pend_of_quiet hu hn with ⟨w, hw⟩ | ⟨r, hw⟩ <;> rw [h2] at hw <;> cases hw
    rw [not_or, Classical.not_not] at hq
    obtain ⟨l', hl', hls'⟩ := log_quiet due hr hq.1 hq.2
    refine ⟨hq.1.trans h1, ?_, .step due hr, l ++ l', by rw [hl', hl]; simp, by simp [hls, hls']⟩
    rcases stays_step sys due s u hq.2 with ⟨k', hcu, hst⟩ | ⟨rest, hcu, hb, hst⟩ | ⟨_, hst⟩
    · exact absurd hcu (hne _)
    · right
      rw [hst]; unfold resume; simp only [h2]
    · left
      rcases hst.st hn with h3 | ⟨w, h3, _⟩
      · rw [h3, h2]
      · rw [h2] at h3; cases h3

/-- C84: a task that is created (such as the background part of a driver call) starts in the clock cycle
in which it was created, before the DUT is stepped again. -/
theorem C84_task_starts (s0 s : St σ G V) (t : Nat) (k k1 : σ) (kc : Nat → σ) (due : List Nat)
    (h0 : Reach sys g k0 s0) (hcu : s0.cur = some (t, k)) (hp : sys.prog k s0.g = .spawn k1 kc)
    (hd : Until sys s0.n (step sys due s0) s) :
    s.cycles = s0.cycles ∧ (s.st s0.n = .ready k1 ∨ s.cur = some (s0.n, k1)) ∧
      ∃ l, s.log = s0.log ++ l ∧ Ev.step ∉ l := by
  have hst : step sys due s0 = exec t (.spawn k1 kc) s0 := by unfold step; rw [hcu, ← hp]
  have hs : (step sys due s0).st s0.n = .ready k1 := by
    rw [hst]; exact upd_self s0.st s0.n _
  obtain ⟨h1, h2, _, l, hl, hls⟩ := until_ready (.step due h0) hs hd
  refine ⟨?_, h2, l, ?_, hls⟩
  · rw [h1, hst]; rfl
  · rw [hl, hst]; rfl

end

/-! ### A concrete system -/

/-- The states of a test that starts the clock and a task that counts cycles, and then makes a driver
call: two hooks and a port. -/
inductive K where
  | start
  | fork
  | rq (i : Nat)
  | rp (i : Nat)
  | wt (e : Nat)
  | wt' (e : Nat)
  | wt'' (e : Nat)
  | sp (ids : List Nat)
  | jn (ids : List Nat) (res : List Nat)
  | after (res : List Nat)
  | exc
  | other
deriving DecidableEq

/-- A hook that adds `n` to the shared state, with done event `e`. -/
def adder (n e : Nat) : Hook K Nat Nat where
  run g := (g + n, [])
  done := some e

def items : List (Item K Nat Nat) := [.hook (adder 10 5) 5 1, .port 7 3, .hook (adder 20 6) 6 0]

def demo : Sys K Nat Nat where
  prog k g := match k with
    | .start => .startClock .fork
    | .fork => .spawn .other (fun _ => .rq 0)
    | .rq i => match i with
      | 0 => .addHook (adder 10 5) 1 (.rq 1)
      | 1 => .put 7 3 (.rp 1)
      | 2 => .addHook (adder 20 6) 0 (.rq 3)
      | _ => .comp g (.sp [])
    | .rp i => .taskRun (.rq (i + 1))
    | .wt e => .waitEv e (.wt' e)
    | .wt' e => .taskRun (.wt'' e)
    | .wt'' _ => .ret 0
    | .sp ids => if h : ids.length < 2 then
        .spawn ([K.wt 5, K.wt 6][ids.length]) (fun u => .sp (ids ++ [u])) else .comp g (.jn ids [])
    | .jn ids res => if h : res.length < ids.length then
        .join ids[res.length] (fun v => .jn ids (res ++ [v])) .exc else .comp g (.after res)
    | .after _ => .ret g
    | .exc => .ret 0
    | .other => .waitEv 0 .other
  dutStep g := g + 1
  sample g := g

theorem demo_own (e : Nat) (he : e = 5 ∨ e = 6) : OwnEv demo (fun k => ∃ i, k = .rq i) e := by
  have hsp : ∀ ids g, (∃ k f, demo.prog (.sp ids) g = .spawn k f) ∨
      demo.prog (.sp ids) g = .comp g (.jn ids []) := by
    intro ids g
    by_cases h : ids.length < 2
    · exact .inl ⟨[K.wt 5, K.wt 6][ids.length], fun u => .sp (ids ++ [u]),
        by simp only [demo, h, dite_true]⟩
    · exact .inr (by simp only [demo, h, dite_false])
  have hjn : ∀ ids res g, (∃ u f f', demo.prog (.jn ids res) g = .join u f f') ∨
      demo.prog (.jn ids res) g = .comp g (.after res) := by
    intro ids res g
    by_cases h : res.length < ids.length
    · exact .inl ⟨ids[res.length], fun v => .jn ids (res ++ [v]), .exc,
        by simp only [demo, h, dite_true]⟩
    · exact .inr (by simp only [demo, h, dite_false])
  refine ⟨by omega, ?_, ?_, ?_, ?_⟩
  · intro k g k' h
    cases k with
    | sp ids => rcases hsp ids g with ⟨_, _, h2⟩ | h2 <;> rw [h2] at h <;> cases h
    | jn ids res => rcases hjn ids res g with ⟨_, _, _, h2⟩ | h2 <;> rw [h2] at h <;> cases h
    | rq i => simp only [demo] at h; split at h <;> cases h
    | _ => cases h
  · intro k g k' h
    cases k with
    | sp ids => rcases hsp ids g with ⟨_, _, h2⟩ | h2 <;> rw [h2] at h <;> cases h
    | jn ids res => rcases hjn ids res g with ⟨_, _, _, h2⟩ | h2 <;> rw [h2] at h <;> cases h
    | rq i => simp only [demo] at h; split at h <;> cases h
    | _ => cases h
  · intro k g h p k' hp g' hm
    cases k with
    | sp ids => rcases hsp ids g with ⟨_, _, h2⟩ | h2 <;> rw [h2] at hp <;> cases hp
    | jn ids res => rcases hjn ids res g with ⟨_, _, _, h2⟩ | h2 <;> rw [h2] at hp <;> cases hp
    | rq i => simp only [demo] at hp; split at hp <;> cases hp <;> cases hm
    | _ => cases hp
  · intro k g h p k' hp hd
    cases k with
    | sp ids => rcases hsp ids g with ⟨_, _, h2⟩ | h2 <;> rw [h2] at hp <;> cases hp
    | jn ids res => rcases hjn ids res g with ⟨_, _, _, h2⟩ | h2 <;> rw [h2] at hp <;> cases hp
    | rq i => exact ⟨i, rfl⟩
    | _ => cases hp

theorem demo_code : CallCode demo items .rq .rp .wt .wt' .wt'' .sp .jn .after .exc := by
  refine ⟨?_, ?_, ?_, ?_, ⟨?_, ?_, ?_, ?_⟩, ⟨?_, ?_, ?_⟩, by decide, ?_, ?_, ?_⟩
  · intro i h e p g hi
    match i, hi with
    | 0, hi => cases hi; exact ⟨rfl, rfl⟩
    | 2, hi => cases hi; exact ⟨rfl, rfl⟩
    | i + 3, hi => cases hi
  · intro i q v g hi
    match i, hi with
    | 1, hi => cases hi; rfl
    | i + 2, hi => match i, hi with
      | i + 1, hi => cases hi
  · intro i g hi; rfl
  · intro g; rfl
  · intro ids g h
    have h : ids.length < 2 := h
    simp only [demo, h, dite_true]
    rfl
  · intro ids g h
    have h : ids.length = 2 := h
    simp [demo, h]
  · intro ids res g h _; simp [demo, h]
  · intro ids res g _ h; simp [demo, h]
  · intro e g; rfl
  · intro e g; rfl
  · intro e g; exact ⟨0, rfl⟩
  · intro e he
    apply demo_own
    simpa [items, evs] using he
  · intro i ids h; cases h
  · intro i ids r h; cases h

def stops : Option (Nat × K) → Bool
  | some (0, .after _) | some (0, .exc) => true
  | some (_ + 1, .rq _) => true
  | _ => false

theorem calling_iter (m : Nat) {s0 s : St K Nat Nat} (h : Calling demo 0 .rq .after .exc s0 s)
    (hn : ∀ i, i < m → stops (iter demo i s).cur = false) :
    Calling demo 0 .rq .after .exc s0 (iter demo m s) := by
  induction m generalizing s with
  | zero => exact h
  | succ m ih =>
    have h0 : stops s.cur = false := hn 0 (by omega)
    refine ih (.step [] h ?_ ?_ ?_) (fun i hi => hn (i + 1) (by omega))
    · intro res hc; rw [hc] at h0; cases h0
    · intro hc; rw [hc] at h0; cases h0
    · intro u i hc
      rw [hc] at h0
      cases u with
      | zero => rfl
      | succ u => cases h0

/-- The test at its call, and 31 turns later at the method body. -/
def s0 : St K Nat Nat := iter demo 4 (init 0 .start)
def s1 : St K Nat Nat := iter demo 31 s0

theorem s0_unasked : ∀ e ∈ evs items, Unasked e s0 := by
  have h : ∀ e ∈ evs items, s0.ev e = false ∧ s0.hooks.all (fun x => x.1.2.done != some e) = true := by
    decide +kernel
  intro e he
  refine ⟨(h e he).1, fun x hx => ?_⟩
  have := List.all_eq_true.1 (h e he).2 x hx
  simpa using this

example : Reach demo 0 .start s0 ∧ s0.cur = some (0, .rq 0) ∧ (∀ e ∈ evs items, Unasked e s0) ∧
    Calling demo 0 .rq .after .exc s0 s1 ∧ s1.cur = some (0, .after [0, 0]) :=
  ⟨reach_iter 4 .init, by decide +kernel, s0_unasked, calling_iter 31 .refl (by decide +kernel),
    by decide +kernel⟩

/-- What the theorem says here: both hooks ran, in the order of their priorities. -/
example : s1.cycles = 0 ∧ s1.g = 30 ∧ s1.log.filterMap (fun x => match x with
    | .exec i _ => some i | _ => none) = [1, 0] := by decide +kernel

/-- `C84_task_starts`: the waiter of the first event is created in `sp []` and runs 9 turns later. -/
example : (iter demo 5 s0).cur = some (0, .sp []) ∧
    demo.prog (.sp []) (iter demo 5 s0).g = .spawn (.wt 5) (fun u => .sp [u]) ∧
    (iter demo 5 s0).n = 2 ∧ (iter demo 14 s0).cur = some (2, .wt 5) ∧
    ∀ i, 5 < i → i < 14 → (iter demo i s0).cur.map (·.1) ≠ some 2 := by
  refine ⟨by decide +kernel, rfl, by decide +kernel, by decide +kernel, ?_⟩
  have h : ∀ i, i < 14 → 5 < i → (iter demo i s0).cur.map (·.1) ≠ some 2 := by decide +kernel
  exact fun i h1 h2 => h i h2 h1

end Toffee.Props.LoopCall
