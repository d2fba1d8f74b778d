import Verif.Lemmas.LoopCase
import Verif.Lemmas.LoopRun
/-!
C15: requested hooks are executed before the clock advances, once.
C08: how often the delayers are sampled per clock cycle.
-/

namespace Toffee.Props.LoopHooks

open Toffee.Loop

variable {σ G V : Type}

/-- The requests in a trace, in order. -/
def reqIds (l : List Ev) : List Nat :=
  l.filterMap fun e => match e with | .req i _ => some i | _ => none

/-- The executed hooks of a trace, in order. -/
def execIds (l : List Ev) : List Nat :=
  l.filterMap fun e => match e with | .exec i _ => some i | _ => none

/-- The hook whose execution an event reports, whether it raises or not. -/
def hookOf : Ev → Option Nat
  | .exec i _ => some i
  | .hookRaise i => some i
  | _ => none

/-- The hooks of a trace that were executed or raised, in order. -/
def startIds (l : List Ev) : List Nat := l.filterMap hookOf

theorem startIds_append (a b : List Ev) : startIds (a ++ b) = startIds a ++ startIds b :=
  List.filterMap_append

theorem reqIds_append (a b : List Ev) : reqIds (a ++ b) = reqIds a ++ reqIds b :=
  List.filterMap_append

theorem execIds_append (a b : List Ev) : execIds (a ++ b) = execIds a ++ execIds b :=
  List.filterMap_append

theorem mem_reqIds {i : Nat} {l : List Ev} : i ∈ reqIds l ↔ ∃ p, Ev.req i p ∈ l := by
  unfold reqIds
  rw [List.mem_filterMap]
  constructor
  · rintro ⟨e, he, h⟩
    cases e <;> simp at h
    subst h; exact ⟨_, he⟩
  · rintro ⟨p, h⟩; exact ⟨_, h, rfl⟩

theorem mem_execIds {i : Nat} {l : List Ev} : i ∈ execIds l ↔ ∃ d, Ev.exec i d ∈ l := by
  unfold execIds
  rw [List.mem_filterMap]
  constructor
  · rintro ⟨e, he, h⟩
    cases e <;> simp at h
    subst h; exact ⟨_, he⟩
  · rintro ⟨d, h⟩; exact ⟨_, h, rfl⟩

theorem split_append {α : Type} {x y pre post : List α} {e : α} (h : x ++ y = pre ++ e :: post) :
    (∃ p, x = pre ++ e :: p) ∨ ∃ p, pre = x ++ p ∧ y = p ++ e :: post := by
  rcases List.append_eq_append_iff.1 h with ⟨p, h1, h2⟩ | ⟨p, h1, h2⟩
  · exact .inr ⟨p, h1, h2⟩
  · cases p with
    | nil => exact .inr ⟨[], by simpa using h1.symm, by simpa using h2.symm⟩
    | cons a p =>
      rw [List.cons_append] at h2
      injection h2 with h2 h3
      subst h2
      exact .inl ⟨p, h1⟩

theorem ids_execs (l : List ((Nat × Hook σ G V) × Int)) :
    execIds (l.map execEv) = l.map (·.1.1) ∧ reqIds (l.map execEv) = [] ∧
      startIds (l.map execEv) = l.map (·.1.1) := by
  induction l with
  | nil => exact ⟨rfl, rfl, rfl⟩
  | cons a l ih =>
    simp only [execIds, reqIds, startIds, hookOf, List.map_cons, List.filterMap_cons, execEv] at ih ⊢
    exact ⟨by rw [← ih.1], by rw [← ih.2.1], by rw [← ih.2.2]⟩

theorem ids_neutral {l : List Ev} (h : ∀ e ∈ l, neutralEv e = true) :
    execIds l = [] ∧ reqIds l = [] ∧ Ev.step ∉ l ∧ (∀ i d, Ev.exec i d ∉ l) ∧ startIds l = [] := by
  refine ⟨?_, ?_, fun hx => ?_, fun i d hx => ?_, ?_⟩
  · apply List.filterMap_eq_nil_iff.2
    intro e he
    have := h e he
    cases e <;> simp [neutralEv] at this ⊢
  · apply List.filterMap_eq_nil_iff.2
    intro e he
    have := h e he
    cases e <;> simp [neutralEv] at this ⊢
  · have := h _ hx; simp [neutralEv] at this
  · have := h _ hx; simp [neutralEv] at this
  · apply List.filterMap_eq_nil_iff.2
    intro e he
    have := h e he
    cases e <;> simp [neutralEv, hookOf] at this ⊢

structure HInv (s : St σ G V) : Prop where
  reqs : reqIds s.log = List.range s.nextHook
  all : s.clock ≠ .dead →
    (execIds s.log ++ s.hooks.map (·.1.1)).Perm (List.range s.nextHook) ∧ startIds s.log = execIds s.log
  atStep : ∀ pre post, s.log = pre ++ .step :: post → (execIds pre).Perm (reqIds pre)
  after : ∀ pre e i post, s.log = pre ++ e :: post → hookOf e = some i → i ∈ reqIds pre
  once : (startIds s.log).Nodup

theorem nodup_of_perm {l : List Nat} {a b : List Nat} {n : Nat} (h : (a ++ b).Perm (List.range n))
    (hl : l.Sublist (a ++ b)) : l.Nodup :=
  (h.nodup_iff.2 List.nodup_range).sublist hl

/-- Log extensions without step and without executions. -/
theorem HInv.extend {s s' : St σ G V} (h : HInv s) (l : List Ev) (hl : s'.log = s.log ++ l)
    (hs : Ev.step ∉ l) (he : startIds l = [])
    (reqs : reqIds s'.log = List.range s'.nextHook)
    (all : s'.clock ≠ .dead →
      (execIds s'.log ++ s'.hooks.map (·.1.1)).Perm (List.range s'.nextHook) ∧
        startIds s'.log = execIds s'.log) : HInv s' := by
  refine ⟨reqs, all, fun pre post hp => ?_, fun pre e i post hp hi => ?_, ?_⟩
  · rw [hl] at hp
    rcases split_append hp with ⟨p, hp⟩ | ⟨p, hp, hp'⟩
    · exact h.atStep _ _ hp
    · exact absurd (by rw [hp']; simp) hs
  · rw [hl] at hp
    rcases split_append hp with ⟨p, hp⟩ | ⟨p, hp, hp'⟩
    · exact h.after _ _ _ _ hp hi
    · have := List.filterMap_eq_nil_iff.1 he e (by rw [hp']; simp)
      rw [hi] at this
      cases this
  · rw [hl, startIds_append, he, List.append_nil]
    exact h.once

/-- The pending hooks are executed. -/
theorem HInv.round {s s' : St σ G V} (h : HInv s) (hck : s.clock = .check) (tl : List Ev)
    (hl : s'.log = s.log ++ ((Priority.sorted s.hooks).map execEv ++ tl))
    (htl : tl = [.sample] ∨ tl = [.sample, .step] ∨ tl = [.sample, .cancelAll])
    (hh : s'.hooks = []) (hx : s'.nextHook = s.nextHook) : HInv s' := by
  obtain ⟨i1, i2, i3⟩ := ids_execs (Priority.sorted s.hooks)
  obtain ⟨hall, hst⟩ := h.all (by rw [hck]; simp)
  have ht1 : execIds tl = [] := by rcases htl with rfl | rfl | rfl <;> rfl
  have ht2 : reqIds tl = [] := by rcases htl with rfl | rfl | rfl <;> rfl
  have ht3 : startIds tl = [] := by rcases htl with rfl | rfl | rfl <;> rfl
  have hreq : reqIds s'.log = List.range s'.nextHook := by
    rw [hl, reqIds_append, reqIds_append, i2, ht2, h.reqs, hx]; simp
  have hper : (execIds s.log ++ (Priority.sorted s.hooks).map (·.1.1)).Perm
      (List.range s.nextHook) :=
    List.Perm.trans (List.Perm.append_left _ ((Priority.sorted_perm s.hooks).map _)) hall
  refine ⟨hreq, fun _ => ⟨?_, ?_⟩, fun pre post hp => ?_, fun pre e i post hp hi => ?_, ?_⟩
  · rw [hl, execIds_append, execIds_append, i1, ht1, hh, hx]
    simpa using hper
  · rw [hl, execIds_append, execIds_append, startIds_append, startIds_append, i1, i3, ht1, ht3, hst]
  · rw [hl] at hp
    rcases split_append hp with ⟨p, hp⟩ | ⟨p, hp, hp'⟩
    · exact h.atStep _ _ hp
    · rcases split_append hp' with ⟨p', hp''⟩ | ⟨p', hp1, hp2⟩
      · exfalso
        have : Ev.step ∈ (Priority.sorted s.hooks).map execEv := by rw [hp'']; simp
        obtain ⟨y, _, hy⟩ := List.mem_map.1 this
        cases hy
      · have hp2' : p' = [.sample] := by
          rcases htl with rfl | rfl | rfl
          · exfalso
            have : Ev.step ∈ [Ev.sample] := by rw [hp2]; simp
            simp at this
          · cases p' with
            | nil => simp at hp2
            | cons a p' =>
              cases p' with
              | nil => simp at hp2; rw [hp2.1]
              | cons b p' => simp at hp2
          · exfalso
            have : Ev.step ∈ [Ev.sample, Ev.cancelAll] := by rw [hp2]; simp
            simp at this
        rw [hp, hp1, hp2']
        rw [execIds_append, execIds_append, reqIds_append, reqIds_append, i1, i2, h.reqs]
        simpa [execIds, reqIds] using hper
  · rw [hl] at hp
    rcases split_append hp with ⟨p, hp⟩ | ⟨p, hp, hp'⟩
    · exact h.after _ _ _ _ hp hi
    · have hmem : i ∈ (Priority.sorted s.hooks).map (·.1.1) := by
        rw [← i3, ← List.append_nil (startIds _), ← ht3, ← startIds_append]
        exact List.mem_filterMap.2 ⟨e, by rw [hp']; simp, hi⟩
      rw [hp, reqIds_append, h.reqs]
      exact List.mem_append_left _ (hper.mem_iff.1 (List.mem_append_right _ hmem))
  · rw [hl, startIds_append, startIds_append, i3, ht3, hst, List.append_nil]
    exact nodup_of_perm hper (.refl _)

/-- A hook raises. -/
theorem HInv.raise {s s' : St σ G V} (h : HInv s) (hck : s.clock = .check)
    {pre post : List ((Nat × Hook σ G V) × Int)} {x : (Nat × Hook σ G V) × Int}
    (hs : Priority.sorted s.hooks = pre ++ x :: post)
    (hl : s'.log = s.log ++ (pre.map execEv ++ [.hookRaise x.1.1]))
    (hx : s'.nextHook = s.nextHook) (hk : s'.clock = .dead) : HInv s' := by
  obtain ⟨i1, i2, i3⟩ := ids_execs pre
  obtain ⟨hall, hst⟩ := h.all (by rw [hck]; simp)
  have hper : (execIds s.log ++ (Priority.sorted s.hooks).map (·.1.1)).Perm
      (List.range s.nextHook) :=
    List.Perm.trans (List.Perm.append_left _ ((Priority.sorted_perm s.hooks).map _)) hall
  have h3 : startIds (pre.map execEv ++ [.hookRaise x.1.1]) = (pre ++ [x]).map (·.1.1) := by
    rw [startIds_append, i3, List.map_append]
    rfl
  have hsub : ((pre ++ [x]).map (·.1.1)).Sublist ((Priority.sorted s.hooks).map (·.1.1)) := by
    rw [hs]
    apply List.Sublist.map
    simp
  refine ⟨?_, fun hd => absurd hk hd, fun p q hp => ?_, fun p e i q hp hi => ?_, ?_⟩
  · rw [hl, reqIds_append, reqIds_append, i2, h.reqs, hx]
    simp [reqIds]
  · rw [hl] at hp
    rcases split_append hp with ⟨p', hp⟩ | ⟨p', hp, hp'⟩
    · exact h.atStep _ _ hp
    · exfalso
      have : Ev.step ∈ pre.map execEv ++ [.hookRaise x.1.1] := by rw [hp']; simp
      rcases List.mem_append.1 this with h' | h'
      · obtain ⟨y, _, hy⟩ := List.mem_map.1 h'
        cases hy
      · simp at h'
  · rw [hl] at hp
    rcases split_append hp with ⟨p', hp⟩ | ⟨p', hp, hp'⟩
    · exact h.after _ _ _ _ hp hi
    · have hmem : i ∈ (pre ++ [x]).map (·.1.1) := by
        rw [← h3]
        exact List.mem_filterMap.2 ⟨e, by rw [hp']; simp, hi⟩
      rw [hp, reqIds_append, h.reqs]
      exact List.mem_append_left _ (hper.mem_iff.1 (List.mem_append_right _ (hsub.subset hmem)))
  · rw [hl, startIds_append, h3, hst]
    exact nodup_of_perm hper (List.Sublist.append_left hsub _)

theorem reach_HInv {sys : Sys σ G V} {g : G} {k : σ} {s : St σ G V} (h : Reach sys g k s) :
    HInv s := by
  induction h with
  | init => exact ⟨rfl, by simp [init, execIds, startIds], by simp [init], by simp [init], by simp [init, startIds]⟩
  | @step s due hr ih =>
    have hlc := log_case due hr
    generalize step sys due s = s' at hlc
    cases hlc with
    | quiet l hl hn hh hx hc hk hkd =>
      obtain ⟨n1, n2, n3, n4, n5⟩ := ids_neutral hn
      refine ih.extend l hl n3 n5 ?_ fun hd => ?_
      · rw [hl, reqIds_append, n2, ih.reqs, hx]; simp
      · have := ih.all (fun h => hd (hkd.2 h))
        rw [hl, execIds_append, n1, hh, hx, startIds_append, n5]
        simpa using this
    | req h p hl hh hx hc hk hk' =>
      refine ih.extend _ hl (by simp) (by simp [startIds, hookOf]) ?_ fun hd => ?_
      · rw [hl, reqIds_append, ih.reqs, hx, List.range_succ]; rfl
      · rw [hl, execIds_append, hh, hx, List.range_succ, startIds_append]
        rw [hk] at hd
        have := (ih.all hd).1.append_right [s.nextHook]
        exact ⟨by simpa [execIds] using this, by rw [(ih.all hd).2]; rfl⟩
    | rerun hl hd hh hx hc hk' hk => exact ih.round hk' _ hl (.inl rfl) hh hx
    | step hl hd hh hx hc ht hk' hk => exact ih.round hk' _ hl (.inr (.inl rfl)) hh hx
    | cancel hl hd hh hx hc ht hk' hk => exact ih.round hk' _ hl (.inr (.inr rfl)) hh hx
    | raise pre x post hs hl hh hx hc hk' hk ha => exact ih.raise hk' hs hl hx hk
    | last hl hs hh hx hc hk' hk =>
      obtain ⟨hall, hst⟩ := ih.all (by rw [hk']; simp)
      refine ⟨?_, fun _ => ⟨?_, ?_⟩, fun pre post hp => ?_, fun pre e i post hp hi => ?_, ?_⟩
      · rw [hl, reqIds_append, ih.reqs, hx]; simp [reqIds]
      · rw [hs] at hall
        rw [hl, execIds_append, hh, hx]
        simpa [execIds] using hall
      · rw [hl, startIds_append, execIds_append, hst]
        rfl
      · rw [hl] at hp
        rcases split_append hp with ⟨p, hp⟩ | ⟨p, hp, hp'⟩
        · exact ih.atStep _ _ hp
        · cases p with
          | nil =>
            rw [hs] at hall
            rw [hp, List.append_nil, ih.reqs]
            simpa using hall
          | cons a p => simp at hp'
      · rw [hl] at hp
        rcases split_append hp with ⟨p, hp⟩ | ⟨p, hp, hp'⟩
        · exact ih.after _ _ _ _ hp hi
        · have : e ∈ [Ev.step] := by rw [hp']; simp
          simp at this
          subst this
          cases hi
      · rw [hl, startIds_append, show startIds [Ev.step] = [] from rfl, List.append_nil]
        exact ih.once

/-- C15: whenever `dut.Step(1)` is called, no requested hook is pending. -/
theorem C15_none_pending (sys : Sys σ G V) (g : G) (k : σ) (s s' : St σ G V)
    (hr : Reach sys g k s) (hs : StepsAt sys s s') : s'.hooks = [] := by
  obtain ⟨hc, rest, hb, hk⟩ := hs
  have hcc := clock_case sys { s with batch := rest }
  rw [hk] at hcc
  cases hcc with
  | step h hu hf hrr ht => exact (callbacks_frame sys { s with batch := rest }).1
  | last h => exact (reach_AC hr).hooks h

/-- C15: a hook requested in a cycle is executed in that cycle, after the request: between the
request and the next `dut.Step(1)`. -/
theorem C15_executed_in_cycle (sys : Sys σ G V) (g : G) (k : σ) (s : St σ G V)
    (hr : Reach sys g k s) (a b c : List Ev) (i : Nat) (p : Int)
    (hl : s.log = a ++ .req i p :: (b ++ .step :: c)) : ∃ d, Ev.exec i d ∈ b := by
  have h := reach_HInv hr
  have hp := h.atStep (a ++ .req i p :: b) c (by rw [hl]; simp)
  have hi : i ∈ execIds (a ++ .req i p :: b) := by
    rw [hp.mem_iff, mem_reqIds]; exact ⟨p, by simp⟩
  obtain ⟨d, hd⟩ := mem_execIds.1 hi
  rcases List.mem_append.1 hd with hd | hd
  · exfalso
    obtain ⟨p', q, hpq⟩ := List.append_of_mem hd
    have h1 := h.after p' (.exec i d) i (q ++ .req i p :: (b ++ .step :: c)) (by rw [hl, hpq]; simp) rfl
    have hnd : (reqIds s.log).Nodup := by rw [h.reqs]; exact List.nodup_range
    rw [hl, reqIds_append, List.nodup_append] at hnd
    refine hnd.2.2 i ?_ i ?_ rfl
    · rw [hpq, reqIds_append]; exact List.mem_append_left _ h1
    · rw [mem_reqIds]; exact ⟨p, by simp⟩
  · simp at hd
    exact ⟨d, hd⟩

/-- C15: no hook is executed twice, whether it raises or not, and each request number is requested
once. -/
theorem C15_once (sys : Sys σ G V) (g : G) (k : σ) (s : St σ G V) (hr : Reach sys g k s) (i : Nat) :
    (startIds s.log).count i ≤ 1 ∧ (reqIds s.log).count i ≤ 1 := by
  have h := reach_HInv hr
  constructor
  · exact List.nodup_iff_count.1 h.once i
  · rw [h.reqs]
    exact List.nodup_iff_count.1 (List.nodup_range (n := s.nextHook)) i

/-- C15: only requested hooks are executed, and only after the request. -/
theorem C15_only_requested (sys : Sys σ G V) (g : G) (k : σ) (s : St σ G V)
    (hr : Reach sys g k s) (a b : List Ev) (e : Ev) (i : Nat) (he : hookOf e = some i)
    (hl : s.log = a ++ e :: b) : ∃ p, Ev.req i p ∈ a :=
  mem_reqIds.1 ((reach_HInv hr).after a e i b hl he)

/-! ### C08 -/

/-- `seg` is what happened in one complete clock cycle of the trace: it is delimited by the
preceding `dut.Step(1)` (or the beginning) and the following one. -/
def CycleOf (log seg : List Ev) : Prop :=
  ∃ a b, log = a ++ seg ++ .step :: b ∧ Ev.step ∉ seg ∧ (a = [] ∨ ∃ a', a = a' ++ [.step])

/-- A hook with a done event (every driver hook has one) was executed. -/
def RanDone (seg : List Ev) : Prop := ∃ i, Ev.exec i true ∈ seg

/-- The cycle that is not complete yet. -/
def Current (log seg : List Ev) : Prop :=
  ∃ a, log = a ++ seg ∧ Ev.step ∉ seg ∧ (a = [] ∨ ∃ a', a = a' ++ [.step])

/-- What is known about sampling in the current cycle; `n` rounds are certain. -/
def Sampled (n : Nat) (seg : List Ev) : Prop :=
  (¬ RanDone seg → seg.count .sample = n) ∧ (RanDone seg → seg.count .sample ≥ n + 1)

structure SInv (s : St σ G V) : Prop where
  cur : ∃ seg, Current s.log seg ∧
    (s.clock ≠ .dead → Sampled (if s.clock = .afterCancel then 1 else 0) seg)
  past : ∀ seg, CycleOf s.log seg → Sampled 1 seg

theorem current_unique {log seg seg' : List Ev} (h : Current log seg) (h' : Current log seg') :
    seg = seg' := by
  have key : ∀ {log seg seg' : List Ev}, Current log seg → Current log seg' →
      seg.length ≤ seg'.length → seg = seg' := by
    rintro log seg seg' ⟨a, h1, h2, h3⟩ ⟨a', h1', h2', h3'⟩ hle
    rw [h1] at h1'
    rcases List.append_eq_append_iff.1 h1' with ⟨p, hp, hq⟩ | ⟨p, hp, hq⟩
    · cases p with
      | nil => simpa using hq
      | cons x p =>
        rw [hq] at hle; simp at hle; omega
    · cases p with
      | nil => simpa using hq.symm
      | cons x p =>
        exfalso
        rcases h3 with h3 | ⟨a2, h3⟩
        · rw [h3] at hp
          have := congrArg List.length hp
          simp at this
        · have : Ev.step ∈ x :: p := by
            have hl : (a' ++ x :: p).getLast? = some Ev.step := by
              rw [← hp, h3]; simp
            rw [List.getLast?_append] at hl
            cases hxp : (x :: p).getLast? with
            | none => simp at hxp
            | some y =>
              rw [hxp] at hl
              simp at hl
              rw [← hl]
              exact List.mem_of_getLast? hxp
          exact h2' (by rw [hq]; exact List.mem_append_left _ this)
  rcases Nat.le_total seg.length seg'.length with hle | hle
  · exact key h h' hle
  · exact (key h' h hle).symm

theorem current_extend {log seg l : List Ev} (h : Current log seg) (hl : Ev.step ∉ l) :
    Current (log ++ l) (seg ++ l) := by
  obtain ⟨a, h1, h2, h3⟩ := h
  exact ⟨a, by rw [h1, List.append_assoc], by simp [h2, hl], h3⟩

/-- Extending the trace without a step adds no complete cycle. -/
theorem cycle_extend {log seg l : List Ev} (hl : Ev.step ∉ l) (h : CycleOf (log ++ l) seg) :
    CycleOf log seg := by
  obtain ⟨a, b, h1, h2, h3⟩ := h
  rcases split_append h1 with ⟨p, hp⟩ | ⟨p, hp, hp'⟩
  · exact ⟨a, p, hp, h2, h3⟩
  · exact absurd (by rw [hp']; simp) hl

/-- A step completes the current cycle. -/
theorem cycle_step {log seg cur : List Ev} (hc : Current log cur) (h : CycleOf (log ++ [.step]) seg) :
    CycleOf log seg ∨ seg = cur := by
  obtain ⟨a, b, h1, h2, h3⟩ := h
  rcases split_append h1 with ⟨p, hp⟩ | ⟨p, hp, hp'⟩
  · exact .inl ⟨a, p, hp, h2, h3⟩
  · right
    cases p with
    | nil => exact current_unique ⟨a, by simpa using hp.symm, h2, h3⟩ hc
    | cons x p => simp at hp'

theorem current_step (log : List Ev) : Current (log ++ [.step]) [] :=
  ⟨log ++ [.step], by simp, by simp, .inr ⟨log, rfl⟩⟩

theorem SInv.extend {s s' : St σ G V} {l : List Ev} (hl : s'.log = s.log ++ l)
    (hs : Ev.step ∉ l) {seg : List Ev} (hcur : Current s.log seg)
    (h' : s'.clock ≠ .dead → Sampled (if s'.clock = .afterCancel then 1 else 0) (seg ++ l))
    (past : ∀ seg, CycleOf s.log seg → Sampled 1 seg) : SInv s' := by
  refine ⟨⟨seg ++ l, by rw [hl]; exact current_extend hcur hs, h'⟩, fun seg' hseg => ?_⟩
  rw [hl] at hseg
  exact past _ (cycle_extend hs hseg)

theorem Sampled.plain {n : Nat} {seg l : List Ev} (h : Sampled n seg)
    (h1 : ∀ i d, Ev.exec i d ∉ l) (h2 : l.count .sample = 0) : Sampled n (seg ++ l) := by
  have hr : RanDone (seg ++ l) ↔ RanDone seg := by
    unfold RanDone
    simp [h1]
  refine ⟨fun hn => ?_, fun hn => ?_⟩
  · rw [List.count_append, h2, h.1 (fun x => hn (hr.2 x))]
    rfl
  · rw [List.count_append, h2]
    exact h.2 (hr.1 hn)

theorem count_execs (l : List ((Nat × Hook σ G V) × Int)) (e : Ev) (h : ∀ i d, e ≠ .exec i d) :
    (l.map execEv).count e = 0 := by
  rw [List.count_eq_zero]
  intro hx
  obtain ⟨y, _, hy⟩ := List.mem_map.1 hx
  exact h _ _ hy.symm

/-- A round of callbacks without done events adds one sample. -/
theorem Sampled.round {n : Nat} {s : St σ G V} {seg : List Ev} (h : Sampled n seg)
    (hd : ∀ x ∈ s.hooks, x.1.2.done.isSome = false) :
    Sampled (n + 1) (seg ++ ((Priority.sorted s.hooks).map execEv ++ [.sample])) := by
  have hr : RanDone (seg ++ ((Priority.sorted s.hooks).map execEv ++ [.sample])) ↔
      RanDone seg := by
    unfold RanDone
    constructor
    · rintro ⟨i, hi⟩
      rcases List.mem_append.1 hi with hi | hi
      · exact ⟨i, hi⟩
      · rcases List.mem_append.1 hi with hi | hi
        · exfalso
          obtain ⟨y, hy, he⟩ := List.mem_map.1 hi
          have := hd y (Priority.mem_sorted.1 hy)
          simp only [execEv, this] at he
          injection he with _ he
          cases he
        · simp at hi
    · rintro ⟨i, hi⟩
      exact ⟨i, List.mem_append_left _ hi⟩
  have hc : (seg ++ ((Priority.sorted s.hooks).map execEv ++ [Ev.sample])).count Ev.sample =
      seg.count Ev.sample + 1 := by
    rw [List.count_append, List.count_append, count_execs _ _ (by simp)]
    simp
  refine ⟨fun hn => ?_, fun hn => ?_⟩
  · rw [hc, h.1 (fun x => hn (hr.2 x))]
  · rw [hc]
    have := h.2 (hr.1 hn)
    omega

theorem Sampled.rerun {n : Nat} {s : St σ G V} {seg : List Ev} (h : Sampled n seg)
    (hd : ∃ x ∈ s.hooks, x.1.2.done.isSome = true) :
    Sampled n (seg ++ ((Priority.sorted s.hooks).map execEv ++ [.sample])) := by
  have hr : RanDone (seg ++ ((Priority.sorted s.hooks).map execEv ++ [.sample])) := by
    obtain ⟨x, hx, hd⟩ := hd
    refine ⟨x.1.1, List.mem_append_right _ (List.mem_append_left _ ?_)⟩
    exact List.mem_map.2 ⟨x, Priority.mem_sorted.2 hx, by simp [execEv, hd]⟩
  have hc : (seg ++ ((Priority.sorted s.hooks).map execEv ++ [Ev.sample])).count Ev.sample =
      seg.count Ev.sample + 1 := by
    rw [List.count_append, List.count_append, count_execs _ _ (by simp)]
    simp
  refine ⟨fun hn => absurd hr hn, fun _ => ?_⟩
  rw [hc]
  rcases Classical.em (RanDone seg) with h' | h'
  · have := h.2 h'; omega
  · have := h.1 h'; omega

theorem reach_SInv {sys : Sys σ G V} {g : G} {k : σ} {s : St σ G V} (h : Reach sys g k s) :
    SInv s := by
  induction h with
  | init =>
    refine ⟨⟨[], ⟨[], rfl, by simp, .inl rfl⟩, ?_⟩, ?_⟩
    · simp [init, Sampled, RanDone]
    · rintro seg ⟨a, b, h1, _⟩
      simp [init] at h1
  | @step s due hr ih =>
    have hlc := log_case due hr
    generalize step sys due s = s' at hlc
    obtain ⟨seg, hcur, hsam⟩ := ih.cur
    cases hlc with
    | quiet l hl hn hh hx hc hk hkd =>
      obtain ⟨n1, n2, n3, n4, n5⟩ := ids_neutral hn
      refine SInv.extend hl n3 hcur (fun hd => ?_) ih.past
      have hsam := hsam (fun h => hd (hkd.2 h))
      have he : (s'.clock = .afterCancel) = (s.clock = .afterCancel) := by
        rcases hk with hk | ⟨h1, h2⟩
        · rw [hk]
        · simp [h1, h2]
      simp only [he]
      refine hsam.plain n4 ?_
      rw [List.count_eq_zero]
      intro hx; have := hn _ hx; simp [neutralEv] at this
    | req h p hl hh hx hc hk hk' =>
      refine SInv.extend hl (by simp) hcur (fun hd => ?_) ih.past
      rw [hk] at hd ⊢
      have hsam := hsam hd
      exact hsam.plain (by simp) (by simp)
    | rerun hl hd hh hx hc hk' hk =>
      have hsam := hsam (by rw [hk']; simp)
      rw [hk'] at hsam
      refine SInv.extend hl ?_ hcur (fun _ => ?_) ih.past
      · have := count_execs (Priority.sorted s.hooks) .step (by simp)
        rw [List.count_eq_zero] at this
        simp [this]
      · rw [hk]
        simpa using hsam.rerun hd
    | step hl hd hh hx hc ht hk' hk =>
      have hsam := hsam (by rw [hk']; simp)
      rw [hk'] at hsam
      have hsam := hsam.round hd
      have hns : Ev.step ∉ (Priority.sorted s.hooks).map execEv ++ [.sample] := by
        have := count_execs (Priority.sorted s.hooks) .step (by simp)
        rw [List.count_eq_zero] at this
        simp [this]
      have hl' : s'.log =
          (s.log ++ ((Priority.sorted s.hooks).map execEv ++ [.sample])) ++ [.step] := by
        rw [hl]; simp
      refine ⟨⟨[], by rw [hl']; exact current_step _, fun _ => by rw [hk]; simp [Sampled, RanDone]⟩, ?_⟩
      intro seg' hseg
      rw [hl'] at hseg
      rcases cycle_step (current_extend hcur hns) hseg with h1 | h1
      · exact ih.past _ (cycle_extend hns h1)
      · rw [h1]; simpa using hsam
    | cancel hl hd hh hx hc ht hk' hk =>
      have hsam := hsam (by rw [hk']; simp)
      rw [hk'] at hsam
      have hsam := (hsam.round hd).plain (l := [.cancelAll]) (by simp) (by simp)
      refine SInv.extend hl ?_ hcur (fun _ => ?_) ih.past
      · have := count_execs (Priority.sorted s.hooks) .step (by simp)
        rw [List.count_eq_zero] at this
        simp [this]
      · rw [hk]
        simpa using hsam
    | raise pre x post hs hl hh hx hc hk' hk ha =>
      refine SInv.extend hl ?_ hcur (fun hd => absurd hk hd) ih.past
      have := count_execs pre .step (by simp)
      rw [List.count_eq_zero] at this
      simp [this]
    | last hl hs hh hx hc hk' hk =>
      have hsam := hsam (by rw [hk']; simp)
      rw [hk'] at hsam
      refine ⟨⟨[], by rw [hl]; exact current_step _, fun _ => by rw [hk]; simp [Sampled, RanDone]⟩, ?_⟩
      intro seg' hseg
      rw [hl] at hseg
      rcases cycle_step hcur hseg with h1 | h1
      · exact ih.past _ h1
      · rw [h1]; simpa using hsam

/-- C08 (partial): in every complete clock cycle in which no hook with a done event is executed
the delayers are sampled exactly once.  Missing: cycles with driver calls on models with hooks, for
which it is false (`C08_double_sample_violated`). -/
theorem C08_once_partial (sys : Sys σ G V) (g : G) (k : σ) (s : St σ G V) (hr : Reach sys g k s)
    (seg : List Ev) (hc : CycleOf s.log seg) (hd : ¬ RanDone seg) : seg.count .sample = 1 :=
  ((reach_SInv hr).past seg hc).1 hd

/-- C08 is false in every cycle in which a driver hook is executed: the delayers are then sampled at
least twice. -/
theorem C08_double_sample_violated (sys : Sys σ G V) (g : G) (k : σ) (s : St σ G V)
    (hr : Reach sys g k s) (seg : List Ev) (hc : CycleOf s.log seg) (hd : RanDone seg) :
    2 ≤ seg.count .sample :=
  ((reach_SInv hr).past seg hc).2 hd

/-! ### Concrete systems -/

/-- A test that starts the clock, requests hook `h` in the first cycle and waits for two cycles. -/
def demo (h : Hook Nat Nat Nat) : Sys Nat Nat Nat where
  prog k _ := match k with
    | 0 => .startClock 1
    | 1 => .addHook h 0 2
    | 2 => .waitEv 0 3
    | 3 => .waitEv 0 4
    | _ => .ret 7
  dutStep g := g + 1
  sample g := g

/-- A driver hook with its done event. -/
def driverHook : Hook Nat Nat Nat := { run := fun g => (g, []), done := some 1 }

/-- A monitor hook. -/
def monitorHook : Hook Nat Nat Nat := { run := fun g => (g, []), done := none }

def demoLog (h : Hook Nat Nat Nat) : List Ev := (iter (demo h) 20 (init 0 0)).log

/-- A driver hook in the first of two cycles: the delayers are sampled twice in that cycle. -/
example : demoLog driverHook = [.req 0 0, .wait 0, .exec 0 true, .sample, .sample, .step, .resume 0,
    .wait 0, .sample, .step, .resume 0, .testDone, .wait 0, .sample, .cancelAll] := by decide

/-- A monitor hook: once per cycle.  The trace meets the hypotheses of the theorems. -/
example : demoLog monitorHook = [.req 0 0, .wait 0, .exec 0 false, .sample, .step, .resume 0,
    .wait 0, .sample, .step, .resume 0, .testDone, .wait 0, .sample, .cancelAll, .step] := by decide

example : CycleOf (demoLog driverHook) [.req 0 0, .wait 0, .exec 0 true, .sample, .sample] :=
  ⟨[], _, rfl, by decide, .inl rfl⟩

example : CycleOf (demoLog monitorHook) [.resume 0, .wait 0, .sample] :=
  ⟨[.req 0 0, .wait 0, .exec 0 false, .sample, .step], _, rfl, by decide, .inr ⟨[.req 0 0, .wait 0, .exec 0 false, .sample], rfl⟩⟩

end Toffee.Props.LoopHooks
