import Verif.Props.LoopMonitor
import Verif.Props.LoopOrder
import Verif.Model.HookDeco
/-!
C104: the hooks a monitor requests are executed in the first round of callbacks of the clock cycle, so
a hook with a smaller priority number than all others is executed before them.
-/

namespace Toffee.Props.LoopUrgent

open Toffee.Loop Toffee.Props.LoopClock Toffee.Props.LoopCycles Toffee.Props.LoopPoll
open Toffee.Props.LoopHooks Toffee.Props.LoopOrder Toffee.Props.LoopEnv Toffee.Props.LoopMonitor

variable {σ G V : Type}

/-! ### Traces -/

theorem cyc_sub (i : Nat) (l : List Ev) : (cyc i l).Sublist l := by
  induction l generalizing i with
  | nil => cases i <;> exact .refl _
  | cons e l ih =>
    by_cases he : e = .step
    · subst he
      cases i with
      | zero => exact List.nil_sublist _
      | succ i => exact (ih i).cons _
    · cases i with
      | zero =>
        have : cyc 0 (e :: l) = e :: cyc 0 l := by cases e <;> simp [cyc] at he ⊢
        rw [this]; exact (ih 0).cons_cons _
      | succ i =>
        have : cyc (i + 1) (e :: l) = cyc (i + 1) l := by cases e <;> simp [cyc] at he ⊢
        rw [this]; exact (ih _).cons _

theorem cyc_grow (i : Nat) (l l' : List Ev) : ∃ x, cyc i (l ++ l') = cyc i l ++ x ∧ x.Sublist l' := by
  rw [cyc_append]
  by_cases h1 : i < l.count .step
  · exact ⟨[], by rw [if_pos h1]; simp, List.nil_sublist _⟩
  · rw [if_neg h1]
    by_cases h2 : i = l.count .step
    · exact ⟨cyc 0 l', by rw [if_pos h2], cyc_sub _ _⟩
    · rw [if_neg h2, cyc_big l i (by omega)]
      exact ⟨_, rfl, cyc_sub _ _⟩

theorem startIds_sub {a b : List Ev} (h : a.Sublist b) : (startIds a).Sublist (startIds b) :=
  h.filterMap _

/-! ### The pending hooks -/

/-- Request number and priority of the pending hooks. -/
def keys (s : St σ G V) : List (Nat × Int) := s.hooks.map fun h => (h.1.1, h.2)

structure KInv (s : St σ G V) : Prop where
  inc : (keys s).Pairwise fun a b => a.1 < b.1
  lt : ∀ x ∈ keys s, x.1 < s.nextHook
  req : ∀ x ∈ keys s, Ev.req x.1 x.2 ∈ s.log

theorem reach_KInv {sys : Sys σ G V} {g : G} {k : σ} {s : St σ G V} (h : Reach sys g k s) :
    KInv s := by
  induction h with
  | init => exact ⟨List.Pairwise.nil, by simp [keys, init], by simp [keys, init]⟩
  | @step s due hr ih =>
    have hlc := log_case due hr
    generalize step sys due s = s' at hlc
    have empty : s'.hooks = [] → KInv s' := by
      intro h
      have : keys s' = [] := by unfold keys; rw [h]; rfl
      exact ⟨by rw [this]; exact .nil, by rw [this]; simp, by rw [this]; simp⟩
    have same : keys s' = keys s → s'.nextHook = s.nextHook → (∀ e ∈ s.log, e ∈ s'.log) → KInv s' :=
      fun h1 h2 h3 => ⟨by rw [h1]; exact ih.inc, by rw [h1, h2]; exact ih.lt,
        by rw [h1]; exact fun x hx => h3 _ (ih.req x hx)⟩
    cases hlc with
    | quiet l hl hn hh hx hc hk hkd =>
      exact same (by unfold keys; rw [hh]) hx (fun e he => by rw [hl]; exact List.mem_append_left _ he)
    | req h p hl hh hx hc hk hk' =>
      have hke : keys s' = keys s ++ [(s.nextHook, p)] := by unfold keys; rw [hh]; simp
      refine ⟨?_, ?_, ?_⟩
      · rw [hke, List.pairwise_append]
        refine ⟨ih.inc, List.pairwise_singleton _ _, fun a ha b hb => ?_⟩
        rw [List.mem_singleton] at hb
        subst hb
        exact ih.lt a ha
      · rw [hke, hx]
        intro x hx'
        rcases List.mem_append.1 hx' with hx' | hx'
        · have := ih.lt x hx'; omega
        · rw [List.mem_singleton] at hx'
          subst hx'
          exact Nat.lt_succ_self _
      · rw [hke, hl]
        intro x hx'
        rcases List.mem_append.1 hx' with hx' | hx'
        · exact List.mem_append_left _ (ih.req x hx')
        · rw [List.mem_singleton] at hx'
          subst hx'
          simp
    | rerun hl hd hh => exact empty hh
    | step hl hd hh => exact empty hh
    | cancel hl hd hh => exact empty hh
    | last hl hs hh => exact empty hh
    | raise pre x post hs hl hh hx hc hk' hk ha =>
      exact same (by unfold keys; rw [hh, spend_keys]) hx
        (fun e he => by rw [hl]; exact List.mem_append_left _ he)

/-- In the sorted list of the pending hooks, what is in front has a smaller priority number or the same
and was requested earlier. -/
theorem sorted_front {xs a b : List ((Nat × Hook σ G V) × Int)} {x y : (Nat × Hook σ G V) × Int}
    (hinc : xs.Pairwise fun a b => a.1.1 < b.1.1) (h : Priority.sorted xs = a ++ x :: b) (hy : y ∈ a) :
    y.2 < x.2 ∨ y.2 = x.2 ∧ y.1.1 < x.1.1 := by
  have hs := Priority.sorted_sorted xs
  rw [h, List.pairwise_append] at hs
  have hle := hs.2.2 y hy x (by simp)
  by_cases he : y.2 = x.2
  · right
    refine ⟨he, ?_⟩
    have hf := Priority.sorted_filter xs x.2
    rw [h, List.filter_append, List.filter_cons_of_pos (by simp)] at hf
    have hp : (xs.filter fun a => a.2 == x.2).Pairwise fun a b => a.1.1 < b.1.1 :=
      hinc.sublist List.filter_sublist
    rw [← hf, List.pairwise_append] at hp
    exact hp.2.2 y (List.mem_filter.2 ⟨hy, by simp [he]⟩) x (by simp)
  · left; omega

/-! ### Specification -/

/-- In the trace `seg` of a clock cycle, a hook that is less urgent than the one with request number `i` and
priority `p` (its priority number is larger, or it is the same and the hook was requested later) is executed
only when `i` has been executed. -/
def Urgent (i : Nat) (p : Int) (seg log : List Ev) : Prop :=
  ∀ a j b q, startIds seg = a ++ j :: b → Ev.req j q ∈ log → (p < q ∨ p = q ∧ i < j) → i ∈ a

theorem req_unique {l : List Ev} {i : Nat} {p q : Int} (h : (reqIds l).Nodup) (hp : Ev.req i p ∈ l)
    (hq : Ev.req i q ∈ l) : p = q := by
  induction l with
  | nil => cases hp
  | cons e l ih =>
    have hs : (reqIds l).Nodup := h.sublist ((List.sublist_cons_self e l).filterMap _)
    rcases List.mem_cons.1 hp with hp1 | hp1
    · rcases List.mem_cons.1 hq with hq1 | hq1
      · rw [← hp1] at hq1; cases hq1; rfl
      · subst hp1
        have h : (i :: reqIds l).Nodup := h
        exact absurd (mem_reqIds.2 ⟨q, hq1⟩) (List.nodup_cons.1 h).1
    · rcases List.mem_cons.1 hq with hq1 | hq1
      · subst hq1
        have h : (i :: reqIds l).Nodup := h
        exact absurd (mem_reqIds.2 ⟨p, hp1⟩) (List.nodup_cons.1 h).1
      · exact ih hs hp1 hq1

theorem nodup_reqs {s : St σ G V} (h : HInv s) : (reqIds s.log).Nodup := by
  rw [h.reqs]; exact List.nodup_range

/-- The request of a hook that was executed is in the trace. -/
theorem req_of_start {s s' : St σ G V} {j : Nat} {q : Int} (h : HInv s) (h' : HInv s')
    (hm : ∀ e ∈ s.log, e ∈ s'.log) (hj : j ∈ startIds s.log) (hq : Ev.req j q ∈ s'.log) :
    Ev.req j q ∈ s.log := by
  obtain ⟨e, he, hej⟩ := List.mem_filterMap.1 hj
  obtain ⟨a, b, hab⟩ := List.append_of_mem he
  obtain ⟨q', hq'⟩ := mem_reqIds.1 (h.after a e j b hab hej)
  have : Ev.req j q' ∈ s.log := by rw [hab]; exact List.mem_append_left _ hq'
  rw [req_unique (nodup_reqs h') hq (hm _ this)]
  exact this

theorem urgent_round {s : St σ G V} {i : Nat} {p : Int} {old l log : List Ev}
    {pfx : List ((Nat × Hook σ G V) × Int)} (hk : KInv s) (hi : (i, p) ∈ keys s)
    (hold : startIds old = []) (hl : startIds l = pfx.map fun h => h.1.1)
    (hpf : pfx <+: Priority.sorted s.hooks) (hlog : ∀ e ∈ s.log, e ∈ log) (hnd : (reqIds log).Nodup) :
    Urgent i p (old ++ l) log := by
  intro a j b q hab hq hless
  rw [startIds_append, hold, List.nil_append, hl] at hab
  obtain ⟨pa, pb, h1, h2, h3⟩ := List.map_eq_append_iff.1 hab
  obtain ⟨y, pb', h4, h5, h6⟩ := List.map_eq_cons_iff.1 h3
  subst h4 h1
  obtain ⟨post, hpost⟩ := hpf
  obtain ⟨x, hx, hxi⟩ := List.mem_map.1 hi
  injection hxi with hx1 hx2
  have hinc : s.hooks.Pairwise fun a b => a.1.1 < b.1.1 := by
    have := hk.inc
    unfold keys at this
    rw [List.pairwise_map] at this
    exact this
  have hyh : y ∈ s.hooks := Priority.mem_sorted.1 (by rw [← hpost]; simp)
  have hyq : y.2 = q := by
    refine req_unique hnd (hlog _ (hk.req _ (List.mem_map.2 ⟨y, hyh, rfl⟩))) ?_
    rw [show y.1.1 = j from h5]; exact hq
  have hs : Priority.sorted s.hooks = pa ++ y :: (pb' ++ post) := by rw [← hpost]; simp
  have hxs : x ∈ pa ++ y :: (pb' ++ post) := by rw [← hs]; exact Priority.mem_sorted.2 hx
  have hyj : y.1.1 = j := h5
  rcases List.mem_append.1 hxs with hx' | hx'
  · rw [← h2]
    exact List.mem_map.2 ⟨x, hx', hx1⟩
  · exfalso
    rcases List.mem_cons.1 hx' with hx' | hx'
    · subst hx'
      omega
    · obtain ⟨c1, c2, hc⟩ := List.append_of_mem hx'
      have := sorted_front (a := pa ++ y :: c1) (x := x) (b := c2) (y := y) hinc
        (by rw [hs, hc]; simp) (by simp)
      omega

/-! ### After the request -/

/-- What holds after a hook was requested in the first round of cycle `c`. -/
inductive Asked (i : Nat) (p : Int) (c : Nat) (s : St σ G V) : Prop where
  | pending (hc : s.cycles = c) (hi : (i, p) ∈ keys s) (hn : startIds (cyc c s.log) = [])
  | over (hu : Urgent i p (cyc c s.log) s.log)
      (hd : i ∈ startIds (cyc c s.log) ∨ s.clock = .dead ∧ s.cycles = c)

section
variable {sys : Sys σ G V} {g : G} {k0 : σ}

theorem asked_step (hp : ClockPrivate sys) {i c : Nat} {p : Int} {s : St σ G V} (hr : Reach sys g k0 s)
    (due : List Nat) (h : Asked i p c s) : Asked i p c (step sys due s) := by
  have hcnt := (reach_WInv hp hr).cnt
  have hK := reach_KInv hr
  have hH := reach_HInv (.step due hr : Reach sys g k0 (step sys due s))
  have hlc := log_case due hr
  generalize step sys due s = s' at hlc hH
  have grow : ∃ l, s'.log = s.log ++ l := by
    cases hlc with
    | quiet l hl => exact ⟨l, hl⟩
    | req h p hl => exact ⟨_, hl⟩
    | rerun hl => exact ⟨_, hl⟩
    | step hl => exact ⟨_, hl⟩
    | cancel hl => exact ⟨_, hl⟩
    | last hl => exact ⟨_, hl⟩
    | raise _ _ _ _ hl => exact ⟨_, hl⟩
  have mono : ∀ e ∈ s.log, e ∈ s'.log := by
    obtain ⟨l, hl⟩ := grow
    intro e he; rw [hl]; exact List.mem_append_left _ he
  cases h with
  | over hu hd =>
    obtain ⟨l, hl⟩ := grow
    obtain ⟨x, hx, hxs⟩ := cyc_grow c s.log l
    rw [← hl] at hx
    rcases hd with hd | ⟨hd, hcy⟩
    · refine .over (fun a j b q hab hq hless => ?_) (.inl ?_)
      · rw [hx, startIds_append] at hab
        rcases split_append hab with ⟨r, hr'⟩ | ⟨r, hr', _⟩
        · refine hu a j r q hr' (req_of_start (reach_HInv hr) hH mono ?_ hq) hless
          exact (startIds_sub (cyc_sub c s.log)).subset (by rw [hr']; simp)
        · rw [hr']; exact List.mem_append_left _ hd
      · rw [hx, startIds_append]; exact List.mem_append_left _ hd
    · have hq : startIds l = [] ∧ s'.clock = .dead ∧ s'.cycles = s.cycles := by
        cases hlc with
        | quiet l' hl' hn hh hx hc hk hkd =>
          have : l = l' := List.append_cancel_left (hl.symm.trans hl')
          subst this
          exact ⟨(neutral_none hn).1, hkd.2 hd, hc⟩
        | req h p hl' hh hx hc hk hk' =>
          have : l = _ := List.append_cancel_left (hl.symm.trans hl')
          subst this
          exact ⟨rfl, hk.trans hd, hc⟩
        | rerun _ _ _ _ _ hk' => rw [hd] at hk'; cases hk'
        | step _ _ _ _ _ _ hk' => rw [hd] at hk'; cases hk'
        | cancel _ _ _ _ _ _ hk' => rw [hd] at hk'; cases hk'
        | last _ _ _ _ _ hk' => rw [hd] at hk'; cases hk'
        | raise _ _ _ _ _ _ _ _ hk' => rw [hd] at hk'; cases hk'
      have hx0 : startIds x = [] := by
        have := startIds_sub hxs
        rw [hq.1] at this
        exact List.sublist_nil.1 this
      refine .over (fun a j b q hab hq' hless => ?_) (.inr ⟨hq.2.1, by omega⟩)
      rw [hx, startIds_append, hx0, List.append_nil] at hab
      refine hu a j b q hab (req_of_start (reach_HInv hr) hH mono ?_ hq') hless
      exact (startIds_sub (cyc_sub c s.log)).subset (by rw [hab]; simp)
  | pending hc0 hi hn =>
    have hc0' : c = s.log.count .step := by omega
    have hin : i ∈ (Priority.sorted s.hooks).map fun h => h.1.1 := by
      obtain ⟨x, hx, hx'⟩ := List.mem_map.1 hi
      exact List.mem_map.2 ⟨x, Priority.mem_sorted.2 hx, congrArg Prod.fst hx'⟩
    have hstep : Ev.step ∉ (Priority.sorted s.hooks).map execEv := by simp [execEv]
    have fire : ∀ tl, startIds tl = [] →
        cyc c s'.log = cyc c s.log ++ ((Priority.sorted s.hooks).map execEv ++ tl) → Asked i p c s' := by
      intro tl ht hcy
      have hids : startIds ((Priority.sorted s.hooks).map execEv ++ tl) =
          (Priority.sorted s.hooks).map fun h => h.1.1 := by
        rw [startIds_append, ht, startIds_execs, List.append_nil]
      refine .over ?_ (.inl ?_)
      · rw [hcy]
        exact urgent_round hK hi hn hids (List.prefix_refl _) mono (nodup_reqs hH)
      · rw [hcy, startIds_append, hids]
        exact List.mem_append_right _ hin
    cases hlc with
    | quiet l hl hnn hh hx hc hk hkd =>
      obtain ⟨_, _, n3, _, n5⟩ := ids_neutral hnn
      refine .pending (by omega) (by unfold keys; rw [hh]; exact hi) ?_
      rw [hl, cyc_extend _ _ _ n3, if_pos hc0', startIds_append, hn, n5]; rfl
    | req h p' hl hh hx hc hk hk' =>
      refine .pending (by omega) ?_ ?_
      · unfold keys; rw [hh, List.map_append]; exact List.mem_append_left _ hi
      · rw [hl, cyc_extend _ _ _ (by simp), if_pos hc0', startIds_append, hn]; rfl
    | rerun hl =>
      refine fire [.sample] rfl ?_
      rw [hl, cyc_extend _ _ _ (by simp [execEv]), if_pos hc0']
    | step hl =>
      refine fire [.sample] rfl ?_
      rw [hl, show (Priority.sorted s.hooks).map execEv ++ [Ev.sample, .step] =
        ((Priority.sorted s.hooks).map execEv ++ [Ev.sample]) ++ [.step] by simp,
        ← List.append_assoc, cyc_step, cyc_extend _ _ _ (by simp [execEv]), if_pos hc0']
    | cancel hl =>
      refine fire [.sample, .cancelAll] rfl ?_
      rw [hl, cyc_extend _ _ _ (by simp [execEv]), if_pos hc0']
    | last hl hs =>
      unfold keys at hi
      rw [hs] at hi; cases hi
    | raise pre x post hs hl hh hx hc hk' hk ha =>
      refine .over ?_ (.inr ⟨hk, by omega⟩)
      rw [hl, cyc_extend _ _ _ (by simp [execEv]), if_pos hc0', ← hl]
      refine urgent_round (pfx := pre ++ [x]) hK hi hn ?_ ⟨post, by rw [hs]; simp⟩ mono (nodup_reqs hH)
      rw [startIds_append, startIds_execs, List.map_append]; rfl

theorem asked_from (hp : ClockPrivate sys) {i c : Nat} {p : Int} {s s' : St σ G V}
    (hr : Reach sys g k0 s) (h : Asked i p c s) (hf : From sys s s') : Asked i p c s' := by
  induction hf with
  | refl => exact h
  | step due hf ih => exact asked_step hp (LoopFirst.From.reach hf hr) due ih

/-! ### The first round -/

/-- While a polling task has been woken by the clock event and has not waited again, no hook is executed. -/
theorem no_start (hp : ClockPrivate sys) {B : σ → Prop} (hb : Body sys B) {m : Nat} {s0 s : St σ G V}
    {k : σ} {H : List G} (h0 : Reach sys g k0 s0) (hs : s0.cur = some (m, k)) (hk : B k)
    (h : Seen sys m B s0 H s)
    (hw : (∃ k, s.st m = .fin (.ev 0 k)) ∨ (∃ k, s.cur = some (m, k)) ∧ H ≠ []) :
    startIds (cyc s.cycles s.log) = [] := by
  have running : ∀ {s : St σ G V}, Reach sys g k0 s → ∀ k, s.cur = some (m, k) → s.st m = .running := by
    intro s hr k h
    have := (reach_inv hr).core
    unfold InvS at this
    rw [h] at this
    exact running_of this
  /- one step of a task that is not the clock -/
  have calm : ∀ {s : St σ G V} (due : List Nat), Reach sys g k0 s →
      (∀ rest, s.cur = none → s.batch ≠ .clock :: rest) → startIds (cyc s.cycles s.log) = [] →
      startIds (cyc (step sys due s).cycles (step sys due s).log) = [] := by
    intro s due hr hnc hn
    have hcnt := (reach_WInv hp hr).cnt
    have hlc : LogCase s (step sys due s) := log_case due hr
    have hsc := step_case sys due s
    have hk : ∀ s', s' = step sys due s → (s'.log = s.log ∧ s'.cycles = s.cycles) ∨
        (∃ l, s'.log = s.log ++ l ∧ s'.cycles = s.cycles ∧ startIds l = [] ∧ Ev.step ∉ l) := by
      rintro s' rfl
      generalize step sys due s = s' at hsc
      cases hsc with
      | exec t k hc =>
        right
        by_cases hh : ∃ h p k', sys.prog k s.g = .addHook h p k'
        · obtain ⟨h, p, k', hpr⟩ := hh
          rw [hpr]
          exact ⟨[.req s.nextHook p], rfl, rfl, rfl, by simp⟩
        · have hne := exec_neutral t _ s (fun h p k' hp => hh ⟨h, p, k', hp⟩)
          obtain ⟨l, hl, hn⟩ := hne.log
          obtain ⟨_, _, n3, _, n5⟩ := ids_neutral hn
          exact ⟨l, hl, hne.cycles, n5, n3⟩
      | task t rest hc hb =>
        right
        have hne := resume_neutral t { s with batch := rest }
        obtain ⟨l, hl, hn⟩ := hne.log
        obtain ⟨_, _, n3, _, n5⟩ := ids_neutral hn
        exact ⟨l, hl, hne.cycles, n5, n3⟩
      | clock rest hc hb => exact absurd hb (hnc rest hc)
      | stop rest hc hb => exact .inl ⟨rfl, rfl⟩
      | fire t k rest hc hb hs => exact .inl ⟨rfl, rfl⟩
      | miss t rest hc hb hs => exact .inl ⟨rfl, rfl⟩
      | halt hc hb hs => exact .inl ⟨rfl, rfl⟩
      | turn due hc hb hs => exact .inl ⟨rfl, rfl⟩
    rcases hk _ rfl with ⟨h1, h2⟩ | ⟨l, h1, h2, h3, h4⟩
    · rw [h1, h2]; exact hn
    · rw [h1, h2, cyc_extend _ _ _ h4, if_pos hcnt, startIds_append, hn, h3]; rfl
  induction h with
  | refl =>
    exfalso
    rcases hw with ⟨k', hw⟩ | ⟨_, hw⟩
    · rw [running h0 _ hs] at hw; cases hw
    · exact hw rfl
  | @resumed H s due k' h hn hcu ih =>
    have hr := h.reach h0
    have hrun := running (.step due hr) _ hcu
    have hpos := seen_pos hp hb.polling h0 hs hk h
    cases hpos with
    | run k h _ _ => rw [hn] at h; cases h
    | pend k h _ _ =>
      rcases pend_step hp hr h due with ⟨h1, _⟩ | ⟨h1, _⟩ | ⟨h1, _⟩
      · rw [h1] at hrun; cases hrun
      · rw [h1] at hrun; cases hrun
      · rw [h1.1] at hrun; cases hrun
    | fin k1 h1 hw' hcy =>
      refine calm due hr (fun rest _ hba => ?_) (ih (.inl ⟨k1, h1⟩))
      exact no_fin (reach_inv hr) (reach_WInv hp hr) hba h1
    | cancelled h _ =>
      rw [(step_done sys due (reach_inv hr) h).1] at hrun; cases hrun
  | @other H s due h hbk hno ih =>
    have hr := h.reach h0
    cases seen_pos hp hb.polling h0 hs hk h with
    | run k1 h1 hrn hcy =>
      by_cases hH : H = []
      · exfalso
        rcases hw with ⟨k', hw⟩ | ⟨_, hw⟩
        · cases seen_pos hp hb.polling h0 hs hk (.other due h hbk hno) with
          | run k2 h2 _ _ => rw [running (.step due hr) _ h2] at hw; cases hw
          | pend k2 h2 _ _ => rw [h2] at hw; cases hw
          | fin k2 h2 _ hc2 =>
            have hst : step sys due s = exec m (sys.prog k1 s.g) s := by unfold step; rw [h1]
            rw [hst, exec_cycles] at hc2
            omega
          | cancelled h2 _ => rw [h2.1] at hw; cases hw
        · exact hw hH
      · refine calm due hr (fun rest hn _ => ?_) (ih (.inr ⟨⟨k1, h1⟩, hH⟩))
        rw [hn] at h1; cases h1
    | pend k1 h1 hwt hcy =>
      rcases pend_step hp hr h1 due with ⟨h2, _⟩ | ⟨h2, h3⟩ | ⟨h2, _⟩
      · exfalso
        rcases hw with ⟨k', hw⟩ | ⟨⟨k', hw⟩, _⟩
        · rw [h2] at hw; cases hw
        · rw [running (.step due hr) _ hw] at h2; cases h2
      · have hcnt := (reach_WInv hp hr).cnt
        have big : ∀ l, (step sys due s).log = s.log ++ (l ++ [.step]) → Ev.step ∉ l →
            startIds (cyc (step sys due s).cycles (step sys due s).log) = [] := by
          intro l hl hnl
          rw [hl, ← List.append_assoc, cyc_step, cyc_big]
          · rfl
          · rw [List.count_append, List.count_eq_zero.2 hnl]; omega
        cases log_case due hr with
        | quiet l hl hnn hh hx hc => omega
        | req h p hl hh hx hc => omega
        | rerun hl hd hh hx hc => omega
        | cancel hl hd hh hx hc => omega
        | raise pre x post hs hl hh hx hc => omega
        | step hl =>
          refine big ((Priority.sorted s.hooks).map execEv ++ [.sample]) (by rw [hl]; simp) ?_
          simp [execEv]
        | last hl => exact big [] (by rw [hl]; simp) (by simp)
      · exfalso
        rcases hw with ⟨k', hw⟩ | ⟨⟨k', hw⟩, _⟩
        · rw [h2.1] at hw; cases hw
        · have := running (.step due hr) _ hw
          rw [h2.1] at this; cases this
    | fin k1 h1 hwt hcy =>
      refine calm due hr (fun rest _ hba => ?_) (ih (.inl ⟨k1, h1⟩))
      exact no_fin (reach_inv hr) (reach_WInv hp hr) hba h1
    | cancelled h1 ht =>
      exfalso
      have h2 := (step_done sys due (reach_inv hr) h1).1
      rcases hw with ⟨k', hw⟩ | ⟨⟨k', hw⟩, _⟩
      · rw [h2] at hw; cases hw
      · rw [running (.step due hr) _ hw] at h2; cases h2

/-- C104: a hook that a task requests after a clock event, before it waits for anything else, is executed
in the first round of the callbacks of that cycle: when it is requested no hook of the cycle has been
executed; it is executed in the cycle, unless a hook raises; and no hook with a larger priority number, or with the
same requested later, is executed in the cycle before it. -/
theorem C104_urgent_partial (sys : Sys σ G V) (g : G) (k0 : σ) (m : Nat) (B : σ → Prop)
    (hp : ClockPrivate sys) (hb : Body sys B) (s0 s s' : St σ G V) (k k1 k2 : σ) (H : List G)
    (h : Hook σ G V) (p : Int) (due : List Nat)
    (h0 : Reach sys g k0 s0) (hs : s0.cur = some (m, k)) (hk : B k) (hseen : Seen sys m B s0 H s)
    (hH : H ≠ []) (hc : s.cur = some (m, k1)) (hpr : sys.prog k1 s.g = .addHook h p k2)
    (hf : From sys (step sys due s) s') :
    (step sys due s).log = s.log ++ [.req s.nextHook p] ∧
    startIds (cyc s.cycles s.log) = [] ∧
    Urgent s.nextHook p (cyc s.cycles s'.log) s'.log ∧
    (s'.cycles ≠ s.cycles → s.nextHook ∈ startIds (cyc s.cycles s'.log)) := by
  have hr := hseen.reach h0
  have hn := no_start hp hb h0 hs hk hseen (.inr ⟨⟨k1, hc⟩, hH⟩)
  have hst : step sys due s = exec m (.addHook h p k2) s := by unfold step; rw [hc]; simp only [hpr]
  have hl : (step sys due s).log = s.log ++ [.req s.nextHook p] := by rw [hst]; rfl
  have hcnt := (reach_WInv hp hr).cnt
  have h1 : Asked s.nextHook p s.cycles (step sys due s) := by
    refine .pending (by rw [hst]; rfl) ?_ ?_
    · rw [hst]; simp [keys, exec, note]
    · rw [hl, cyc_extend _ _ _ (by simp), if_pos hcnt, startIds_append, hn]; rfl
  refine ⟨hl, hn, ?_⟩
  cases asked_from hp (.step due hr) h1 hf with
  | pending hc hi hn' =>
    refine ⟨fun a j b q hab => ?_, fun hne => absurd hc hne⟩
    rw [hn'] at hab
    cases a <;> cases hab
  | over hu hd =>
    refine ⟨hu, fun hne => ?_⟩
    rcases hd with hd | ⟨_, hd⟩
    · exact hd
    · exact absurd hd hne

/-- C104: a monitor hook with the default priority is executed before every driver hook and agent hook of
the cycle, unless that was declared with `priority=0`. -/
theorem C104_default_partial (sys : Sys σ G V) (g : G) (k0 : σ) (m : Nat) (B : σ → Prop)
    (hp : ClockPrivate sys) (hb : Body sys B) (s0 s s' : St σ G V) (k k1 k2 : σ) (H : List G)
    (h : Hook σ G V) (p : Int) (due : List Nat) (hd : HookDeco.declared .monitor none = some p)
    (h0 : Reach sys g k0 s0) (hs : s0.cur = some (m, k)) (hk : B k) (hseen : Seen sys m B s0 H s)
    (hH : H ≠ []) (hc : s.cur = some (m, k1)) (hpr : sys.prog k1 s.g = .addHook h p k2)
    (hf : From sys (step sys due s) s') (kind : HookDeco.Kind) (hkd : kind ≠ .monitor) (pr : Option Int)
    (hpr0 : pr ≠ some 0) (q : Int) (hq : HookDeco.declared kind pr = some q) (a b : List Nat) (j : Nat)
    (hj : Ev.req j q ∈ s'.log) (hex : startIds (cyc s.cycles s'.log) = a ++ j :: b) :
    s.nextHook ∈ a := by
  refine (C104_urgent_partial sys g k0 m B hp hb s0 s s' k k1 k2 H h p due h0 hs hk hseen hH hc hpr
    hf).2.2.1 a j b q hex hj (.inl ?_)
  have h1 : p = 0 := by
    have : HookDeco.declared .monitor none = some 0 := rfl
    rw [this] at hd
    injection hd with hd
    exact hd.symm
  have h2 : 0 < q := by
    unfold HookDeco.declared at hq
    dsimp only at hq
    split at hq
    · rename_i hrange
      injection hq with hq
      cases pr with
      | none =>
        cases kind with
        | agent => simp [HookDeco.defaultPriority] at hq; omega
        | driver => simp [HookDeco.defaultPriority] at hq; omega
        | monitor => exact absurd rfl hkd
      | some r =>
        simp only [Option.getD_some] at hq hrange
        have : r ≠ 0 := fun h => hpr0 (by rw [h])
        omega
    · cases hq
  omega

end

/-! ### Concrete systems -/

inductive K where
  | clk | mk | w | drive | w2 | fin | mon | call | ask
deriving DecidableEq

/-- A hook that notes its number. -/
def hk (n : Nat) (d : Option Nat) : Hook K (List Nat) Nat where
  run g := (g ++ [n], [])
  done := d
  fails _ := false

/-- The test creates a monitor and waits for the clock before the monitor does, then calls a driver: its
hook 9 has priority `q` and the done event 5.  The monitor's hook 1 has the default priority 0.  With
`waits` the monitor method waits for event 5. -/
def demo (q : Int) (waits : Bool) : Sys K (List Nat) Nat where
  prog k _ := match k with
    | .clk => .startClock .mk
    | .mk => .spawn .mon (fun _ => .w)
    | .w => .waitEv 0 .drive
    | .drive => .addHook (hk 9 (some 5)) q .w2
    | .w2 => .waitEv 0 .fin
    | .fin => .ret 7
    | .mon => .waitEv 0 .call
    | .call => if waits then .waitEv 5 .ask else .taskRun .ask
    | .ask => .addHook (hk 1 none) 0 .mon
  dutStep g := g ++ [100]
  sample g := g

theorem demo_private (q : Int) (w : Bool) : ClockPrivate (demo q w) := by
  intro k g
  unfold demo
  dsimp only
  split <;> try split
  all_goals simp [PrivHook, hk]

theorem demo_body (q : Int) : Body (demo q false) (fun k => k = .mon ∨ k = .call ∨ k = .ask) := by
  rintro k g (rfl | rfl | rfl)
  · exact .inl ⟨_, rfl, .inr (.inl rfl)⟩
  · exact .inr (.inr (.inr rfl))
  · exact .inr (.inl rfl)

/-- The monitor starts. -/
def m0 : St K (List Nat) Nat := iter (demo 99 false) 8 (init [] .clk)

/-- The hypotheses of `C104_urgent_partial` and `C104_default_partial`: in cycle 1, after the driver's hook
was requested with priority 99, the monitor requests its hook. -/
example : ∃ H s, Reach (demo 99 false) [] .clk m0 ∧ m0.cur = some (1, .mon) ∧
    Seen (demo 99 false) 1 (fun k => k = .mon ∨ k = .call ∨ k = .ask) m0 H s ∧ H.length = 1 ∧
    s.cur = some (1, .ask) ∧ s.cycles = 1 ∧ Ev.req 0 99 ∈ s.log ∧ s.nextHook = 1 ∧
    HookDeco.declared .monitor none = some 0 ∧ HookDeco.declared .driver none = some 99 := by
  refine ⟨_, iter (demo 99 false) 9 m0, reach_iter 8 .init, by decide +kernel,
    seen_iter 9 .refl ?_, by decide +kernel, by decide +kernel, by decide +kernel, by decide +kernel,
    by decide +kernel, rfl, rfl⟩
  intro i hi k hk
  have h : ∀ i, i < 9 → ∀ p ∈ (iter (demo 99 false) i m0).cur, p.1 = 1 →
      p.2 = K.mon ∨ p.2 = K.call ∨ p.2 = K.ask := by decide +kernel
  exact h i hi _ hk rfl

/-- What happens: the monitor's hook 1 is executed first, though the driver's hook 9 was requested first. -/
example : (iter (demo 99 false) 60 (init [] .clk)).g = [100, 1, 9, 100, 1, 100, 100] ∧
    startIds (cyc 1 (iter (demo 99 false) 60 (init [] .clk)).log) = [1, 0] := by
  decide +kernel

/-- C104: the documentation of `monitor_hook` says that its default priority is -1, which means that it is
executed before driver hooks; it is 0, and a driver hook with priority 0 can be executed first. -/
theorem C104_tie_violated :
    ClockPrivate (demo 0 false) ∧ Body (demo 0 false) (fun k => k = .mon ∨ k = .call ∨ k = .ask) ∧
    HookDeco.declared .monitor none = some 0 ∧ HookDeco.declared .driver (some 0) = some 0 ∧
    ∃ s, Reach (demo 0 false) [] .clk s ∧ Ev.req 0 0 ∈ s.log ∧ Ev.req 1 0 ∈ s.log ∧
      startIds (cyc 1 s.log) = [0, 1] ∧ s.g = [100, 9, 1, 100, 1, 100, 100] :=
  ⟨demo_private _ _, demo_body _, rfl, rfl, iter (demo 0 false) 60 (init [] .clk), reach_iter 60 .init,
    by decide +kernel⟩

/-- C104: the hook of a monitor method that waits for something else than the clock is executed after a
driver hook with a larger priority number, in the same cycle. -/
theorem C104_waiting_violated :
    ClockPrivate (demo 99 true) ∧
    ∃ s, Reach (demo 99 true) [] .clk s ∧ Ev.req 0 99 ∈ s.log ∧ Ev.req 1 0 ∈ s.log ∧
      startIds (cyc 1 s.log) = [0, 1] :=
  ⟨demo_private _ _, iter (demo 99 true) 60 (init [] .clk), reach_iter 60 .init, by decide +kernel⟩

end Toffee.Props.LoopUrgent
