import Verif.Lemmas.PortSpec
import Verif.Lemmas.LoopOrigin
import Verif.Props.LoopAwait
/-!
C125: a reference model with ports is a function of what arrives at its ports, and has handled everything
that has arrived whenever the DUT is stepped and when the test ends.
-/

namespace Toffee.Props.LoopPort

open Toffee.Loop Toffee.Port

variable {σ G V S : Type}

/-- `main` of a model (`model.py` 317-) that gets its inputs by `await port()`, i.e. `Queue.get` of toffee
(`asynchronous.py` 128-145: `asyncio.Queue.get`, then `task_run`).  `loc a`: `main` is in state `a`, between
two calls of a port; `lock a`: behind `asyncio.Queue.get`. -/
structure ModelCode (sys : Sys σ G V) (A : S → Act V S) (loc lock : S → σ) : Prop where
  get : ∀ a q k g, A a = .get q k → sys.prog (loc a) g = .get q fun v => lock (k v)
  back : ∀ a g, sys.prog (lock a) g = .taskRun (loc a)
  stop : ∀ a g, A a = .stop → ∃ v, sys.prog (loc a) g = .ret v
  fail : ∀ a g, A a = .fail → sys.prog (loc a) g = .raise false

/-- `q` is one of the ports. -/
def Port (A : S → Act V S) (q : Nat) : Prop := ∃ a k, A a = .get q k

/-- Executions in which nobody but task `t` gets something from the ports and nobody awaits `t`
(`Component.__init__`, `asynchronous.py` 323-324, keeps no reference to the task). -/
inductive Own (sys : Sys σ G V) (A : S → Act V S) (t : Nat) (s0 : St σ G V) : St σ G V → Prop where
  | refl : Own sys A t s0 s0
  | step {s} (due : List Nat) : Own sys A t s0 s →
      (∀ u k q k', s.cur = some (u, k) → sys.prog k s.g = .get q k' → Port A q → u = t) →
      (∀ u k k' kx, s.cur = some (u, k) → sys.prog k s.g ≠ .join t k' kx) →
      Own sys A t s0 (step sys due s)

/-- The model has handled everything that has arrived at its ports: it is in the state determined by what
was put into them, and waits for an empty port, has returned, or has raised, and then the failure has been
reported. -/
def Handled (A : S → Act V S) (a0 : S) (t : Nat) (s : St σ G V) (h : Nat → List V) (a : S) : Prop :=
  Final A a0 s.putH h a ∧
  match A a with
  | .get q _ => ∃ k, s.st t = .pend (.get q k)
  | .stop => ∃ v, s.st t = .done (some v)
  | .fail => s.st t = .done none ∧ s.aborted = true

section
variable {sys : Sys σ G V} {g : G} {k0 : σ} {A : S → Act V S} {loc lock : S → σ} {t : Nat} {a0 : S}

theorem Own.reach {s0 s : St σ G V} (h : Own sys A t s0 s) (h0 : Reach sys g k0 s0) :
    Reach sys g k0 s := by
  induction h with
  | refl => exact h0
  | step due _ _ _ ih => exact .step due ih

theorem Own.trans {s0 s1 s2 : St σ G V} (h : Own sys A t s0 s1) (h' : Own sys A t s1 s2) :
    Own sys A t s0 s2 := by
  induction h' with
  | refl => exact h
  | step due _ h1 h2 ih => exact .step due ih h1 h2

/-- No other task waits for a port, nobody awaits the model. -/
structure Clean (A : S → Act V S) (t : Nat) (s : St σ G V) : Prop where
  get : ∀ u q k, Port A q → u ≠ t → ¬ Susp (.get q k) u s
  join : ∀ u k kx, ¬ Susp (.join t k kx) u s

theorem own_clean {s : St σ G V} (h : Own sys A t (init g k0) s) : Clean A t s := by
  have hi : Reach sys g k0 (init g k0) := .init
  generalize hx : init g k0 = s0 at h hi
  induction h with
  | refl =>
    subst hx
    refine ⟨fun u q k _ _ h => ?_, fun u k kx h => ?_⟩
    · unfold Susp init at h
      dsimp only at h
      split at h <;> rcases h with h | h <;> cases h
    · unfold Susp init at h
      dsimp only at h
      split at h <;> rcases h with h | h <;> cases h
  | @step s due h h1 h2 ih =>
    have hr := h.reach hi
    refine ⟨fun u q k hq hu hs => ?_, fun u k kx hs => ?_⟩
    · rcases susp_origin due hr (by simp) hs with h3 | ⟨k', hc, hw⟩
      · exact ih.get u q k hq hu h3
      · cases hp : sys.prog k' s.g <;> rw [hp] at hw <;> try (cases hw; done)
        cases hw
        exact hu (h1 u k' q k hc hp hq)
    · rcases susp_origin due hr (by simp) hs with h3 | ⟨k', hc, hw⟩
      · exact ih.join u k kx h3
      · cases hp : sys.prog k' s.g <;> rw [hp] at hw <;> try (cases hw; done)
        cases hw
        exact h2 u k' k kx hc hp

theorem Clean.joiners {s : St σ G V} (h : Clean A t s) (hi : Inv s) : s.joiners t = [] := by
  cases hj : s.joiners t with
  | nil => rfl
  | cons u l =>
    exfalso
    have h1 := hi.core.hj t u
    rw [hj] at h1
    simp only [List.count_cons_self] at h1
    cases hs : s.st u with
    | pend w =>
      cases w with
      | join x k kx =>
        rw [hs] at h1
        by_cases hx : x = t
        · subst hx
          exact h.join u k kx (.inl hs)
        · simp [jExp, hx] at h1
      | _ => rw [hs] at h1; simp [jExp] at h1
    | _ => rw [hs] at h1; simp [jExp] at h1

/-- Where the model is. -/
inductive Phase (A : S → Act V S) (loc lock : S → σ) (t : Nat) (s : St σ G V) (a : S) : Prop where
  | at (h : s.cur = some (t, loc a))
  | behind (h : s.cur = some (t, lock a))
  | waits (q : Nat) (k : V → S) (ha : A a = .get q k) (h : Susp (.get q fun v => lock (k v)) t s)
  | stopped (v : V) (ha : A a = .stop) (h : DoneAs t (some v) s)
  | failed (ha : A a = .fail) (h : DoneAs t none s) (hx : s.aborted = true)
  | cancelled (h : DoneAs t none s) (hl : Ev.cancelAll ∈ s.log)

def In (A : S → Act V S) (loc lock : S → σ) (a0 : S) (t : Nat) (s : St σ G V) : Prop :=
  ∃ h a, Reads A a0 h a ∧ (∀ q, Port A q → s.gotH q = h q) ∧ Phase A loc lock t s a

theorem afterCancel_log {s : St σ G V} (hr : Reach sys g k0 s) (h : s.clock = .afterCancel) :
    Ev.cancelAll ∈ s.log := by
  induction hr with
  | init => cases h
  | @step s due hr ih =>
    cases log_case due hr with
    | quiet l hl hn hh hx hc hk hkd =>
      rcases hk with hk | ⟨_, hk⟩
      · rw [hl]; exact List.mem_append_left _ (ih (hk ▸ h))
      · exact absurd h hk
    | req _ _ hl hh hx hc hk hk' => exact absurd (hk ▸ h) hk'
    | rerun hl _ _ _ _ hk' hk => rw [hk] at h; cases h
    | step hl _ _ _ _ _ hk' hk => rw [hk] at h; cases h
    | cancel hl _ _ _ _ _ _ _ => rw [hl]; simp
    | last hl _ _ _ _ hk' hk => rw [hk] at h; cases h
    | raise _ _ _ _ hl _ _ _ _ hk _ _ => rw [hk] at h; cases h

theorem aborted_mono (sys : Sys σ G V) {s : St σ G V} (due : List Nat) (h : s.aborted = true) :
    (step sys due s).aborted = true := by
  rcases fail_case sys due s with h1 | ⟨u, k, held, _, _, hst⟩ | ⟨pre, x, rest, _, hst⟩
  · rw [h1.2]; exact h
  · rw [hst]
    unfold fail
    dsimp only
    split
    · rw [(finish_sameF u none { s with failed := upd s.failed u true }).2]; exact h
    · rfl
  · rw [hst]; rfl

theorem running_of_cur {s : St σ G V} (hi : Inv s) {u : Nat} {k : σ} (h : s.cur = some (u, k)) :
    s.st u = .running := by
  have hrun := (hi.core.hcur u).2 (by rw [h]; rfl)
  cases hx : s.st u with
  | running => rfl
  | _ => rw [hx] at hrun; cases hrun

/-- Unless the model runs or is resumed, nothing is taken out of its ports. -/
theorem got_same {s : St σ G V} (hcl : Clean A t s) (due : List Nat)
    (h1 : ∀ u k q k', s.cur = some (u, k) → sys.prog k s.g = .get q k' → Port A q → u = t)
    (hc : ∀ k, s.cur ≠ some (t, k))
    (hb : ∀ rest q k, s.cur = none → s.batch = .task t :: rest → s.st t ≠ .fin (.get q k))
    (q : Nat) (hq : Port A q) : (step sys due s).gotH q = s.gotH q := by
  refine step_gotH sys due s q (fun u k k' hcu hp => ?_) (fun u rest k hcu hbu hf => ?_)
  · have := h1 u k q k' hcu hp hq
    subst this
    exact hc k hcu
  · by_cases hu : u = t
    · subst hu
      exact hb rest q k hcu hbu hf
    · exact hcl.get u q k hq hu (.inr hf)

theorem in_step (hcode : ModelCode sys A loc lock) (ht : t ≠ 0) {s : St σ G V}
    (hr : Reach sys g k0 s) (hcl : Clean A t s) (due : List Nat)
    (h1 : ∀ u k q k', s.cur = some (u, k) → sys.prog k s.g = .get q k' → Port A q → u = t)
    (h : In A loc lock a0 t s) : In A loc lock a0 t (step sys due s) := by
  obtain ⟨h, a, hre, hgot, hph⟩ := h
  have hi := reach_inv hr
  have hr' : Reach sys g k0 (step sys due s) := .step due hr
  have hdone : ∀ {r}, DoneAs t r s → ∀ q, Port A q → (step sys due s).gotH q = s.gotH q := by
    intro r hd
    refine got_same hcl due h1 (fun k hk => ?_) (fun rest q k _ _ hf => ?_)
    · have := running_of_cur hi hk
      rw [hd.1] at this; cases this
    · rw [hd.1] at hf; cases hf
  cases hph with
  | «at» hc =>
    have hst : step sys due s = exec t (sys.prog (loc a) s.g) s := by unfold step; rw [hc]
    have hn : t < s.n := hi.core.lt_of_not_done (by rw [running_of_cur hi hc]; rfl)
    rw [hst]
    cases ha : A a with
    | get q k =>
      rw [hcode.get a q k s.g ha]
      cases hq : s.q q with
      | nil =>
        have e : exec t (.get q fun v => lock (k v)) s =
            { block t (.pend (.get q fun v => lock (k v))) s with
              getters := upd s.getters q (s.getters q ++ [t]) } := by
          unfold exec; simp only [hq]
        rw [e]
        exact ⟨h, a, hre, hgot, .waits q k ha (.inl (upd_self ..))⟩
      | cons v vs =>
        have e : exec t (.get q fun v => lock (k v)) s =
            { s with
              q := upd s.q q vs
              gotH := upd s.gotH q (s.gotH q ++ [v])
              cur := some (t, lock (k v)) } := by
          unfold exec; simp only [hq]
        rw [e]
        refine ⟨snoc h q v, k v, .step v hre ha, fun i hp => ?_, .behind rfl⟩
        show upd s.gotH q _ i = _
        by_cases hi' : i = q
        · subst hi'; rw [upd_self, snoc_self, hgot i hp]
        · rw [upd_ne _ _ _ _ hi', snoc_ne _ _ hi', hgot i hp]
    | stop =>
      obtain ⟨v, hv⟩ := hcode.stop a s.g ha
      rw [hv]
      have e : exec t (.ret v) s = finish t (some v) s := by
        unfold exec; simp only [ht, if_false]
      rw [e]
      refine ⟨h, a, hre, fun q hq => ?_, .stopped v ha ⟨finish_own t _ s, ?_⟩⟩
      · rw [(LoopQueue.finish_sameQ t (some v) s).gotH]; exact hgot q hq
      · rw [finish_n]; exact hn
    | fail =>
      rw [hcode.fail a s.g ha]
      refine ⟨h, a, hre, fun q hq => ?_, .failed ha ⟨?_, ?_⟩ ?_⟩
      · rw [show exec t (.raise false) s = Loop.fail t false s from rfl,
          (LoopQueue.fail_sameQ t false s).gotH]
        exact hgot q hq
      · obtain ⟨b, c, hb⟩ := fail_eq t false s
        rw [show exec t (.raise false) s = Loop.fail t false s from rfl, hb]
        exact finish_own t none _
      · rw [show exec t (.raise false) s = Loop.fail t false s from rfl, fail_n]; exact hn
      · rw [show exec t (.raise false) s = Loop.fail t false s from rfl]
        unfold Loop.fail
        dsimp only
        rw [if_neg (by simp [ht, hcl.joiners hi])]
  | behind hc =>
    have hst : step sys due s = exec t (sys.prog (lock a) s.g) s := by unfold step; rw [hc]
    rw [hst, hcode.back]
    exact ⟨h, a, hre, hgot, .at rfl⟩
  | waits q k ha hs =>
    by_cases hb : ∃ rest, s.cur = none ∧ s.batch = .task t :: rest
    · obtain ⟨rest, hcu, hb⟩ := hb
      have hone := qExp_one_of_head hi hb
      have hf : s.st t = .fin (.get q fun v => lock (k v)) := by
        rcases hs with hs | hs
        · rw [hs] at hone; cases hone
        · exact hs
      have hst : step sys due s = resume t { s with batch := rest } := by
        unfold step; rw [hcu, hb]; rfl
      rw [hst]
      cases hq : s.q q with
      | nil =>
        have e : resume t { s with batch := rest } =
            { s with
              batch := rest
              st := upd s.st t (.pend (.get q fun v => lock (k v)))
              getters := upd s.getters q (s.getters q ++ [t]) } := by
          unfold resume; simp only [hf, hq]
        rw [e]
        exact ⟨h, a, hre, hgot, .waits q k ha (.inl (upd_self ..))⟩
      | cons v vs =>
        have e : resume t { s with batch := rest } =
            { s with
              batch := rest
              q := upd s.q q vs
              gotH := upd s.gotH q (s.gotH q ++ [v])
              st := upd s.st t .running
              cur := some (t, lock (k v)) } := by
          unfold resume; simp only [hf, hq]
        rw [e]
        refine ⟨snoc h q v, k v, .step v hre ha, fun i hp => ?_, .behind rfl⟩
        show upd s.gotH q _ i = _
        by_cases hi' : i = q
        · subst hi'; rw [upd_self, snoc_self, hgot i hp]
        · rw [upd_ne _ _ _ _ hi', snoc_ne _ _ hi', hgot i hp]
    · have hcur : ∀ k, s.cur ≠ some (t, k) := by
        intro k' hk
        have := running_of_cur hi hk
        rcases hs with hs | hs <;> rw [hs] at this <;> cases this
      have hsame := got_same hcl due h1 hcur (fun rest _ _ hcu hbt _ => hb ⟨rest, hcu, hbt⟩)
      refine ⟨h, a, hre, fun q hq => (hsame q hq).trans (hgot q hq), ?_⟩
      by_cases hac : (step sys due s).clock = .afterCancel
      · rcases susp_step sys due hi hs with hs' | ⟨_, hd⟩ | ⟨rest, hbt, hcu, _, _⟩
        · exfalso
          have := (reach_AC hr').st hac t
          rcases hs' with hs' | hs' <;> rw [hs'] at this <;> cases this
        · exact .cancelled hd (afterCancel_log hr' hac)
        · exact absurd ⟨rest, hcu, hbt⟩ hb
      · rcases stays_step sys due s t hac with ⟨k', hcu, _⟩ | ⟨rest, hcu, hbt, _⟩ | ⟨_, hst⟩
        · exact absurd hcu (hcur k')
        · exact absurd ⟨rest, hcu, hbt⟩ hb
        · refine .waits q k ha (hst.susp _ (hi.core.lt_of_not_done ?_) hs)
          rcases hs with hs | hs <;> rw [hs] <;> rfl
  | stopped v ha hd =>
    exact ⟨h, a, hre, fun q hq => (hdone hd q hq).trans (hgot q hq),
      .stopped v ha (step_done sys due hi hd)⟩
  | failed ha hd hx =>
    exact ⟨h, a, hre, fun q hq => (hdone hd q hq).trans (hgot q hq),
      .failed ha (step_done sys due hi hd) (aborted_mono sys due hx)⟩
  | cancelled hd hl =>
    exact ⟨h, a, hre, fun q hq => (hdone hd q hq).trans (hgot q hq),
      .cancelled (step_done sys due hi hd) (LoopCycles.log_mono due hr hl)⟩

theorem in_of (hcode : ModelCode sys A loc lock) (ht : t ≠ 0) {s0 s : St σ G V}
    (h0 : Own sys A t (init g k0) s0) (hb : s0.cur = some (t, loc a0))
    (hf : ∀ q, Port A q → s0.gotH q = []) (hp : Own sys A t s0 s) : In A loc lock a0 t s := by
  induction hp with
  | refl => exact ⟨_, a0, .refl, hf, .at hb⟩
  | step due hp h1 _ ih =>
    have ho := h0.trans hp
    exact in_step hcode ht (ho.reach (k0 := k0) (g := g) .init) (own_clean ho) due h1 ih

theorem reads_port {A : S → Act V S} {h : Nat → List V} {a : S} (hr : Reads A a0 h a) {q : Nat}
    (hq : ¬ Port A q) : h q = [] := by
  induction hr with
  | refl => rfl
  | @step h a y k v _ hk ih =>
    rw [snoc_ne _ _ (by rintro rfl; exact hq ⟨a, k, hk⟩)]; exact ih

theorem handled_of_blocked {s : St σ G V} (hr : Reach sys g k0 s) (hn : ∀ k, s.cur ≠ some (t, k))
    (hB : LoopQuiet.Blocked s t) (hl : Ev.cancelAll ∉ s.log) (h : In A loc lock a0 t s) :
    ∃ h a, Handled A a0 t s h a := by
  obtain ⟨h, a, hre, hgot, hph⟩ := h
  have hpre : ∀ q, h q <+: s.putH q := by
    intro q
    by_cases hq : Port A q
    · rw [← hgot q hq, LoopQueue.C76_fifo sys g k0 s hr q]
      exact List.prefix_append _ _
    · rw [reads_port hre hq]
      exact List.nil_prefix
  refine ⟨h, a, ?_⟩
  cases hph with
  | «at» hc => exact absurd hc (hn _)
  | behind hc => exact absurd hc (hn _)
  | waits q k ha hs =>
    have hp : s.st t = .pend (.get q fun v => lock (k v)) := by
      rcases hs with hs | hs
      · exact hs
      · unfold LoopQuiet.Blocked at hB
        rw [hs] at hB
        exact hB.elim
    have hq : s.q q = [] := by
      unfold LoopQuiet.Blocked at hB
      rw [hp] at hB
      exact hB
    refine ⟨⟨hre, hpre, fun q' k' ha' => ?_⟩, ?_⟩
    · rw [ha] at ha'
      cases ha'
      rw [← hgot q ⟨a, k, ha⟩, LoopQueue.C76_fifo sys g k0 s hr q, hq, List.append_nil]
    · rw [ha]; exact ⟨_, hp⟩
  | stopped v ha hd =>
    refine ⟨⟨hre, hpre, fun q' k' ha' => ?_⟩, ?_⟩
    · rw [ha] at ha'; cases ha'
    · rw [ha]; exact ⟨v, hd.1⟩
  | failed ha hd hx =>
    refine ⟨⟨hre, hpre, fun q' k' ha' => ?_⟩, ?_⟩
    · rw [ha] at ha'; cases ha'
    · rw [ha]; exact ⟨hd.1, hx⟩
  | cancelled _ hx => exact absurd hx hl

/-- C125: whenever the DUT is stepped, the model has handled everything that has arrived at its ports. -/
theorem C125_every_cycle (s0 s s' : St σ G V) (hcode : ModelCode sys A loc lock) (ht : t ≠ 0)
    (h0 : Own sys A t (init g k0) s0) (hb : s0.cur = some (t, loc a0))
    (hf : ∀ q, Port A q → s0.gotH q = []) (hp : Own sys A t s0 s) (hs : StepsAt sys s s')
    (hl : Ev.cancelAll ∉ s.log) : ∃ h a, Handled A a0 t s h a := by
  have hr : Reach sys g k0 s := (h0.trans hp).reach .init
  refine handled_of_blocked hr (fun k hk => ?_) ?_ hl (in_of hcode ht h0 hb hf hp)
  · rw [hs.1] at hk; cases hk
  · exact LoopAwait.C93_idle s s' hr hs (fun hc => hl (afterCancel_log hr hc)) t

/-- C125: when the remaining tasks are cancelled at the end of the test, the model has handled everything
that has arrived at its ports. -/
theorem C125_at_the_end (s0 s : St σ G V) (due : List Nat) (hcode : ModelCode sys A loc lock)
    (ht : t ≠ 0) (h0 : Own sys A t (init g k0) s0) (hb : s0.cur = some (t, loc a0))
    (hf : ∀ q, Port A q → s0.gotH q = []) (hp : Own sys A t s0 s) (hl : Ev.cancelAll ∉ s.log)
    (hx : Ev.cancelAll ∈ (step sys due s).log) : ∃ h a, Handled A a0 t s h a := by
  have hr : Reach sys g k0 s := (h0.trans hp).reach .init
  have hcount : (step sys due s).log.count .cancelAll ≠ s.log.count .cancelAll := by
    rw [List.count_eq_zero_of_not_mem hl]
    have := List.count_pos_iff.2 hx
    omega
  have hB := (LoopQuiet.C13_cancel_quiescent sys g k0 s due hr hcount).1
  refine handled_of_blocked hr (fun k hk => ?_) (hB t) hl (in_of hcode ht h0 hb hf hp)
  have h1 := running_of_cur (reach_inv hr) hk
  have h2 := hB t
  unfold LoopQuiet.Blocked at h2
  rw [h1] at h2
  exact h2

end

theorem Final.congr {A : S → Act V S} {a0 a : S} {p p' h : Nat → List V} (hf : Final A a0 p h a)
    (he : ∀ q, Port A q → p q = p' q) : Final A a0 p' h a := by
  refine ⟨hf.reads, fun q => ?_, fun q k ha => ?_⟩
  · by_cases hq : Port A q
    · rw [← he q hq]; exact hf.pre q
    · rw [reads_port hf.reads hq]; exact List.nil_prefix
  · rw [← he q ⟨a, k, ha⟩]; exact hf.stuck q k ha

/-- C125: the outcome depends on what arrived at the ports only: two runs, whatever else happens in them
and in whatever cycles the items arrive, in which the same has arrived at each port leave the model in the
same state; in particular the model has failed in both of them or in none. -/
theorem C125_function {σ' G' : Type} (A : S → Act V S) (a0 : S) (s : St σ G V) (s' : St σ' G' V)
    (t t' : Nat) (h h' : Nat → List V) (a a' : S) (h1 : Handled A a0 t s h a)
    (h2 : Handled A a0 t' s' h' a') (he : ∀ q, Port A q → s.putH q = s'.putH q) :
    a = a' ∧ h = h' := by
  obtain ⟨e1, e2⟩ := (Final.congr h1.1 he).unique h2.1
  exact ⟨e2, e1⟩

/-! ### What was put into a queue stays there -/

/-- Nothing that was put into a queue is forgotten. -/
def Keeps (s s' : St σ G V) : Prop := ∀ q, s.putH q <+: s'.putH q

theorem Keeps.of_eq {s s' : St σ G V} (h : s'.putH = s.putH) : Keeps s s' := by
  intro q; rw [h]; exact List.prefix_refl _

theorem Keeps.trans {s s' s'' : St σ G V} (h : Keeps s s') (h' : Keeps s' s'') : Keeps s s'' :=
  fun q => (h q).trans (h' q)

theorem putQ_keeps (y : Nat) (v : V) (s : St σ G V) : Keeps s (putQ y v s) := by
  intro q
  rw [LoopMonitor.putQ_putH]
  by_cases hq : q = y
  · subst hq; rw [upd_self]; exact List.prefix_append _ _
  · rw [upd_ne _ _ _ _ hq]; exact List.prefix_refl _

theorem effs_keeps {s : St σ G V} (l : List (Eff σ V)) (s1 : St σ G V) (h : Keeps s s1) :
    Keeps s (l.foldl runEff s1) :=
  foldl_inv (Keeps s) runEff (fun s' e h => (by
    cases e with
    | setEv e => exact h.trans (.of_eq (LoopMonitor.setEv_putH e s'))
    | put y v => exact h.trans (putQ_keeps y v s')
    | spawn k => exact h)) l s1 h

theorem runHook_keeps {s : St σ G V} (s1 : St σ G V) (x : (Nat × Hook σ G V) × Int)
    (h : Keeps s s1) : Keeps s (runHook s1 x) := by
  unfold runHook
  dsimp only
  split
  · exact (effs_keeps _ _ (by exact h)).trans (.of_eq (LoopMonitor.setEv_putH _ _))
  · exact effs_keeps _ _ (by exact h)

theorem step_keeps (sys : Sys σ G V) (due : List Nat) (s : St σ G V) : Keeps s (step sys due s) := by
  have hsc := step_case sys due s
  generalize step sys due s = s' at hsc
  cases hsc with
  | exec u k hc =>
    by_cases h : ∃ q v k', sys.prog k s.g = .put q v k'
    · obtain ⟨q, v, k', h⟩ := h
      rw [h]
      exact putQ_keeps q v s
    · intro q
      rw [LoopMonitor.exec_putH fun v k' hx => h ⟨q, v, k', hx⟩]
      exact List.prefix_refl _
  | task u rest hc hb => exact .of_eq (LoopMonitor.resume_putH u { s with batch := rest })
  | clock rest hc hb =>
    unfold runClock
    have hcc := clock_case sys { s with batch := rest }
    generalize clockTurn sys { s with batch := rest } = x at hcc
    have h3 : Keeps s (callbacks sys { s with batch := rest }).2 :=
      foldl_inv (Keeps s) runHook (fun s' x h => runHook_keeps s' x h) (Priority.sorted s.hooks)
        { s with batch := rest } (.of_eq rfl)
    cases hcc with
    | raise _ _ _ pre x _ _ _ =>
      exact raised_rule (P := fun s' => Keeps s s') (fun _ _ h => runHook_keeps _ _ h)
        (fun _ _ h => effs_keeps _ _ (by exact h)) (fun _ _ h => h) pre x (.of_eq rfl)
    | rerun _ _ _ _ => exact h3
    | cancel _ _ _ _ _ => exact h3
    | step _ _ _ _ _ => exact h3.trans (.of_eq (LoopMonitor.doStep_putH sys _))
    | last _ => exact .of_eq (LoopMonitor.doStep_putH sys _)
    | _ => exact .of_eq rfl
  | _ => exact .of_eq rfl

/-- C125: what the model has decided it does not take back: later in the same run it has read at least as
much, and if it had ended, it is still in the same state. -/
theorem C125_settled {sys : Sys σ G V} (A : S → Act V S) (a0 : S) (s s' : St σ G V) (t : Nat)
    (h h' : Nat → List V) (a a' : S) (hp : LoopEnd.Path sys s s') (h1 : Handled A a0 t s h a)
    (h2 : Handled A a0 t s' h' a') :
    (∀ q, h q <+: h' q) ∧ ((∀ q k, A a ≠ .get q k) → a' = a ∧ h' = h) := by
  have he : Keeps s s' := by
    clear h2
    induction hp with
    | refl => exact .of_eq rfl
    | step due _ ih => exact ih.trans (step_keeps sys due _)
  obtain ⟨e1, e2⟩ := h1.1.mono he h2.1
  exact ⟨e1, fun hx => ⟨(e2 hx).2, (e2 hx).1⟩⟩

/-- C125: a scoreboard that reads inputs and outputs alternately from two ports and asserts that they match:
the failure has been reported if the i-th output was wrong for the i-th input, for some i, and otherwise the
scoreboard waits for the next item. -/
theorem C125_scoreboard (ok : V → V → Bool) (qi qo : Nat) (hq : qi ≠ qo) (s : St σ G V) (t : Nat)
    (h : Nat → List V) (a : Sb V) (hh : Handled (sb ok qi qo) .head t s h a) :
    ((∃ (i : Nat) (x y : V), (s.putH qi)[i]? = some x ∧ (s.putH qo)[i]? = some y ∧ ok x y = false) →
      s.st t = .done none ∧ s.aborted = true) ∧
    ((∀ (i : Nat) (x y : V), (s.putH qi)[i]? = some x → (s.putH qo)[i]? = some y → ok x y = true) →
      ∃ q k, s.st t = .pend (.get q k)) := by
  have hbad := sb_bad hq hh.1
  refine ⟨fun hx => ?_, fun hx => ?_⟩
  · have := hbad.2 hx
    subst this
    exact hh.2
  · cases a with
    | head => exact ⟨_, hh.2⟩
    | have_ x => exact ⟨_, hh.2⟩
    | bad =>
      obtain ⟨i, x, y, e1, e2, e3⟩ := hbad.1 rfl
      rw [hx i x y e1 e2] at e3
      cases e3

/-! ### A concrete system -/

inductive K where
  | start
  | mk
  | wait
  | test (l : List (Option (Nat × Nat)))
  | test' (l : List (Option (Nat × Nat)))
  | loc (a : Sb Nat)
  | lock (a : Sb Nat)

/-- The scoreboard for a DUT that is to increment: inputs in queue 1, outputs in queue 2. -/
def inc : Sb Nat → Act Nat (Sb Nat) := sb (fun x y => y == x + 1) 1 2

/-- A test that creates the scoreboard as a component and then puts items into the ports or waits for the
clock (`none`), as `l` says. -/
def demo (l : List (Option (Nat × Nat))) : Sys K Nat Nat where
  prog k _ := match k with
    | .start => .startClock .mk
    | .mk => .spawn .wait (fun _ => .test l)
    | .wait => .waitEv 0 (.loc .head)
    | .test [] => .ret 7
    | .test (none :: l) => .waitEv 0 (.test l)
    | .test (some (q, v) :: l) => .put q v (.test' l)
    | .test' l => .taskRun (.test l)
    | .loc .head => .get 1 fun v => .lock (.have_ v)
    | .loc (.have_ x) => .get 2 fun y => .lock (if y == x + 1 then .head else .bad)
    | .loc .bad => .raise false
    | .lock a => .taskRun (.loc a)
  dutStep g := g + 1
  sample g := g

theorem demo_code (l : List (Option (Nat × Nat))) : ModelCode (demo l) inc .loc .lock where
  get a q k g ha := by
    cases a with
    | head => cases ha; rfl
    | have_ x => cases ha; rfl
    | bad => cases ha
  back a g := rfl
  stop a g ha := by cases a <;> cases ha
  fail a g ha := by
    cases a with
    | bad => rfl
    | head => cases ha
    | have_ x => cases ha

/-- Whether the code of the model is run by a task other than task 1. -/
def strays : Option (Nat × K) → Bool
  | some (u, .loc _) => u != 1
  | _ => false

theorem own_iter (l : List (Option (Nat × Nat))) (n : Nat) {s0 s : St K Nat Nat}
    (h : Own (demo l) inc 1 s0 s)
    (hb : ∀ i, i < n → strays (iter (demo l) i s).cur = false) :
    Own (demo l) inc 1 s0 (iter (demo l) n s) := by
  induction n generalizing s with
  | zero => exact h
  | succ n ih =>
    have h0 := hb 0 (by omega)
    refine ih (s := step (demo l) [] s) (.step [] h ?_ ?_) (fun i hi => hb (i + 1) (by omega))
    · intro u k q k' hc hp _
      rw [show (iter (demo l) 0 s) = s from rfl, hc] at h0
      cases k with
      | loc a => simpa [strays] using h0
      | test l' =>
        exfalso
        cases l' with
        | nil => cases hp
        | cons x l' => cases x <;> cases hp
      | _ => cases hp
    · intro u k k' kx hc hp
      cases k with
      | loc a => cases a <;> cases hp
      | test l' =>
        cases l' with
        | nil => cases hp
        | cons x l' => cases x <;> cases hp
      | _ => cases hp

/-- Two inputs and two outputs in different cycles; `y` is the second output. -/
def feed (y : Nat) : List (Option (Nat × Nat)) :=
  [none, some (1, 5), none, some (2, 6), some (1, 8), none, none, some (2, y), none]


/-- The state in which `main` of the model begins. -/
def s0 (y : Nat) : St K Nat Nat := iter (demo (feed y)) 17 (init 0 .start)

theorem own_s0 (y : Nat) (h : ∀ i, i < 17 → strays (iter (demo (feed y)) i (init 0 .start)).cur = false) :
    Own (demo (feed y)) inc 1 (init 0 .start) (s0 y) := own_iter (feed y) 17 .refl h

theorem port_inc {q : Nat} (h : Port inc q) : q = 1 ∨ q = 2 := by
  obtain ⟨a, k, h⟩ := h
  cases a with
  | head => cases h; exact .inl rfl
  | have_ x => cases h; exact .inr rfl
  | bad => cases h

/-- The hypotheses of `C125_every_cycle` are met when the DUT is stepped for the fourth time: two inputs and
one output have arrived, and the model has read all of them. -/
example : Own (demo (feed 9)) inc 1 (init 0 .start) (s0 9) ∧
    (s0 9).cur = some (1, .loc .head) ∧ (∀ q, Port inc q → (s0 9).gotH q = []) ∧
    Own (demo (feed 9)) inc 1 (s0 9) (iter (demo (feed 9)) 26 (s0 9)) ∧
    (∃ s', StepsAt (demo (feed 9)) (iter (demo (feed 9)) 26 (s0 9)) s') ∧
    Ev.cancelAll ∉ (iter (demo (feed 9)) 26 (s0 9)).log ∧
    (iter (demo (feed 9)) 26 (s0 9)).putH 1 = [5, 8] ∧
    (iter (demo (feed 9)) 26 (s0 9)).gotH 1 = [5, 8] ∧
    (iter (demo (feed 9)) 26 (s0 9)).gotH 2 = [6] := by
  refine ⟨own_s0 9 (by decide +kernel), rfl, fun q hq => ?_, own_iter _ 26 .refl (by decide +kernel),
    ⟨_, stepsAt_of_isSome (by decide +kernel)⟩, by decide +kernel, by decide +kernel,
    by decide +kernel, by decide +kernel⟩
  rcases port_inc hq with rfl | rfl <;> decide +kernel

/-- The hypotheses of `C125_at_the_end` are met by the same test when it ends: the second output has arrived,
too, and both pairs match. -/
example : Own (demo (feed 9)) inc 1 (init 0 .start) (s0 9) ∧
    (s0 9).cur = some (1, .loc .head) ∧ (∀ q, Port inc q → (s0 9).gotH q = []) ∧
    Own (demo (feed 9)) inc 1 (s0 9) (iter (demo (feed 9)) 43 (s0 9)) ∧
    Ev.cancelAll ∉ (iter (demo (feed 9)) 43 (s0 9)).log ∧
    Ev.cancelAll ∈ (step (demo (feed 9)) [] (iter (demo (feed 9)) 43 (s0 9))).log ∧
    (iter (demo (feed 9)) 43 (s0 9)).putH 1 = [5, 8] ∧
    (iter (demo (feed 9)) 43 (s0 9)).putH 2 = [6, 9] ∧
    (iter (demo (feed 9)) 43 (s0 9)).aborted = false := by
  refine ⟨own_s0 9 (by decide +kernel), rfl, fun q hq => ?_, own_iter _ 43 .refl (by decide +kernel),
    by decide +kernel, by decide +kernel, by decide +kernel, by decide +kernel, by decide +kernel⟩
  rcases port_inc hq with rfl | rfl <;> decide +kernel

/-- With a wrong second output the model fails and the failure is reported. -/
example : Handled inc .head 1 (iter (demo (feed 4)) 37 (s0 4))
    (snoc (snoc (snoc (snoc (fun _ => []) 1 5) 2 6) 1 8) 2 4) .bad := by
  refine ⟨⟨?_, fun q => ?_, fun q k h => by cases h⟩, ?_⟩
  · have r1 : Reads inc .head _ (.have_ 5) := .step (k := Sb.have_) 5 .refl rfl
    have r2 : Reads inc .head _ .head :=
      .step (k := fun y => if y == 5 + 1 then Sb.head else .bad) 6 r1 rfl
    have r3 : Reads inc .head _ (.have_ 8) := .step (k := Sb.have_) 8 r2 rfl
    exact .step (k := fun y => if y == 8 + 1 then Sb.head else .bad) 4 r3 rfl
  · by_cases h1 : q = 1
    · subst h1; decide +kernel
    · by_cases h2 : q = 2
      · subst h2; decide +kernel
      · rw [snoc_ne _ _ h2, snoc_ne _ _ h1, snoc_ne _ _ h2, snoc_ne _ _ h1]
        exact List.nil_prefix
  · exact ⟨rfl, by decide +kernel⟩

end Toffee.Props.LoopPort
