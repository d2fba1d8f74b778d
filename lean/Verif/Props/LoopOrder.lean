import Verif.Props.LoopHooks
/-!
C14 on the event loop: in every execution, each round of the clock loop's callbacks executes
exactly the hooks requested since the previous round, in priority order and FIFO on ties.
-/

namespace Toffee.Props.LoopOrder

open Toffee.Loop Toffee.Props.LoopHooks

variable {σ G V : Type}

/-- Cut a trace after every round of callbacks (a round ends with the sampling of the delayers):
the complete rounds, and what happened since. -/
def cut (l : List Ev) : List (List Ev) × List Ev :=
  l.foldl (fun a e => if e = .sample then (a.1 ++ [a.2], []) else (a.1, a.2 ++ [e])) ([], [])

/-- The requests of a trace with their priorities, in order. -/
def requested (l : List Ev) : List (Nat × Int) :=
  l.filterMap fun e => match e with | .req i p => some (i, p) | _ => none

/-- The executed hooks of a trace, in order. -/
def executed (l : List Ev) : List Nat :=
  l.filterMap fun e => match e with | .exec i _ => some i | _ => none

/-- Specification: `ran` is the right order for the requests `reqs`. -/
structure RightOrder (reqs : List (Nat × Int)) (ran : List Nat) : Prop where
  order : ∃ l : List (Nat × Int), ran = l.map Prod.fst ∧
    /- the same hooks, each as often as it was requested -/
    l.Perm reqs ∧
    /- a smaller priority number goes first -/
    (∀ i j (hi : i < l.length) (hj : j < l.length), i < j → l[i].2 ≤ l[j].2) ∧
    /- equal priorities in the order of request -/
    ∀ p : Int, l.filter (fun h => h.2 = p) = reqs.filter (fun h => h.2 = p)

/-- Specification for what follows the last complete round: no hook was executed, or a round was cut
short by a hook that raised; the hooks executed in it, that one last, are the first of the right
order. -/
def CutShort (seg : List Ev) : Prop :=
  startIds seg = [] ∨
  ∃ a l i b, seg = a ++ (l ++ .hookRaise i :: b) ∧ startIds a = [] ∧ startIds b = [] ∧
    (∀ e ∈ l, ∃ j d, e = .exec j d) ∧
    ∃ ran, RightOrder (requested a) ran ∧ executed l ++ [i] <+: ran

theorem cut_append (a b : List Ev) (hb : Ev.sample ∉ b) :
    cut (a ++ b) = ((cut a).1, (cut a).2 ++ b) := by
  have : ∀ (b : List Ev) (x : List (List Ev) × List Ev), Ev.sample ∉ b →
      b.foldl (fun a e => if e = .sample then (a.1 ++ [a.2], []) else (a.1, a.2 ++ [e])) x =
        (x.1, x.2 ++ b) := by
    intro b
    induction b with
    | nil => intro x _; simp
    | cons e b ih =>
      intro x hx
      rw [List.mem_cons, not_or] at hx
      rw [List.foldl_cons, if_neg (Ne.symm hx.1), ih _ hx.2]
      simp
  rw [cut, List.foldl_append]
  exact this b _ hb

theorem cut_sample (a : List Ev) : cut (a ++ [.sample]) = ((cut a).1 ++ [(cut a).2], []) := by
  rw [cut, List.foldl_append]; rfl

theorem requested_append (a b : List Ev) : requested (a ++ b) = requested a ++ requested b :=
  List.filterMap_append

theorem executed_append (a b : List Ev) : executed (a ++ b) = executed a ++ executed b :=
  List.filterMap_append

theorem executed_execs (l : List ((Nat × Hook σ G V) × Int)) :
    executed (l.map execEv) = l.map (·.1.1) ∧ requested (l.map execEv) = [] ∧
      Ev.sample ∉ l.map execEv := by
  refine ⟨?_, ?_, ?_⟩
  · induction l with
    | nil => rfl
    | cons a l ih =>
      simp only [executed, List.map_cons, List.filterMap_cons, execEv] at ih ⊢
      rw [← ih]
  · induction l with
    | nil => rfl
    | cons a l ih =>
      simp only [requested, List.map_cons, List.filterMap_cons, execEv] at ih ⊢
      exact ih
  · intro h
    obtain ⟨x, _, hx⟩ := List.mem_map.1 h
    cases hx

theorem neutral_none {l : List Ev} (h : ∀ e ∈ l, neutralEv e = true) :
    startIds l = [] ∧ requested l = [] ∧ Ev.sample ∉ l := by
  refine ⟨?_, ?_, fun hx => ?_⟩
  · apply List.filterMap_eq_nil_iff.2
    intro e he
    have := h e he
    cases e <;> simp [neutralEv, hookOf] at this ⊢
  · apply List.filterMap_eq_nil_iff.2
    intro e he
    have := h e he
    cases e <;> simp [neutralEv] at this ⊢
  · have := h _ hx; simp [neutralEv] at this

theorem startIds_execs (l : List ((Nat × Hook σ G V) × Int)) :
    startIds (l.map execEv) = l.map (·.1.1) := by
  induction l with
  | nil => rfl
  | cons a l ih =>
    simp only [startIds, List.map_cons, List.filterMap_cons, execEv, hookOf] at ih ⊢
    rw [← ih]

theorem executed_of_start {l : List Ev} (h : startIds l = []) : executed l = [] := by
  apply List.filterMap_eq_nil_iff.2
  intro e he
  have := List.filterMap_eq_nil_iff.1 h e he
  cases e <;> simp [hookOf] at this ⊢

theorem executed_length (l : List Ev) : (executed l).length ≤ (startIds l).length := by
  induction l with
  | nil => exact Nat.le_refl _
  | cons e l ih =>
    cases e with
    | exec i d => exact Nat.succ_le_succ ih
    | hookRaise i => exact Nat.le_succ_of_le ih
    | _ => exact ih

theorem no_raise {l : List Ev} (h : executed l = startIds l) (i : Nat) : Ev.hookRaise i ∉ l := by
  intro hm
  obtain ⟨a, b, rfl⟩ := List.append_of_mem hm
  have h1 := congrArg List.length h
  rw [executed_append, startIds_append, List.length_append, List.length_append] at h1
  have h2 := executed_length a
  have h3 := executed_length b
  have h4 : (startIds (Ev.hookRaise i :: b)).length = (startIds b).length + 1 := rfl
  have h5 : (executed (Ev.hookRaise i :: b)).length = (executed b).length := rfl
  omega

structure RInv (s : St σ G V) : Prop where
  reqs : requested (cut s.log).2 = s.hooks.map fun h => (h.1.1, h.2)
  none : s.clock ≠ .dead → startIds (cut s.log).2 = []
  short : CutShort (cut s.log).2
  past : ∀ seg ∈ (cut s.log).1, RightOrder (requested seg) (startIds seg) ∧ executed seg = startIds seg

theorem CutShort.extend {a l : List Ev} (h : CutShort a) (hl : startIds l = []) :
    CutShort (a ++ l) := by
  rcases h with h | ⟨a', l', i, b, rfl, h1, h2, h3, h4⟩
  · left; rw [startIds_append, h, hl]; rfl
  · right
    refine ⟨a', l', i, b ++ l, by simp, h1, ?_, h3, h4⟩
    rw [startIds_append, h2, hl]; rfl

theorem RInv.extend {s s' : St σ G V} (h : RInv s) (l : List Ev) (hl : s'.log = s.log ++ l)
    (hn : Ev.sample ∉ l) (he : startIds l = []) (hk : s.clock = .dead → s'.clock = .dead)
    (hr : s'.hooks.map (fun h => (h.1.1, h.2)) =
      s.hooks.map (fun h => (h.1.1, h.2)) ++ requested l) : RInv s' := by
  have hc := cut_append s.log l hn
  rw [← hl] at hc
  refine ⟨?_, ?_, ?_, ?_⟩
  · rw [hc, requested_append, h.reqs, hr]
  · intro hd
    rw [hc, startIds_append, h.none (fun hx => hd (hk hx)), he]; rfl
  · rw [hc]; exact h.short.extend he
  · rw [hc]; exact h.past

theorem rightOrder_sorted (l : List ((Nat × Hook σ G V) × Int)) :
    RightOrder (l.map fun h => (h.1.1, h.2)) ((Priority.sorted l).map (·.1.1)) := by
  refine ⟨(Priority.sorted l).map fun h => (h.1.1, h.2), ?_, ?_, ?_, ?_⟩
  · rw [List.map_map]; rfl
  · exact (Priority.sorted_perm l).map _
  · intro i j hi hj hij
    rw [List.getElem_map, List.getElem_map]
    exact List.pairwise_iff_getElem.1 (Priority.sorted_sorted l) i j _ _ hij
  · intro p
    rw [List.filter_map, List.filter_map]
    have := Priority.sorted_filter l p
    rw [show (fun a : (Nat × Hook σ G V) × Int => a.2 == p) =
      (fun h : Nat × Int => decide (h.2 = p)) ∘ (fun h => (h.1.1, h.2)) from rfl] at this
    rw [this]

theorem RInv.round {s s' : St σ G V} (h : RInv s) (hk : s.clock ≠ .dead) (tl : List Ev)
    (hl : s'.log = s.log ++ ((Priority.sorted s.hooks).map execEv ++ .sample :: tl))
    (htl : Ev.sample ∉ tl ∧ startIds tl = [] ∧ requested tl = [])
    (hh : s'.hooks = []) : RInv s' := by
  obtain ⟨i1, i2, i3⟩ := executed_execs (Priority.sorted s.hooks)
  have i4 := startIds_execs (Priority.sorted s.hooks)
  have hc : cut s'.log =
      ((cut s.log).1 ++ [(cut s.log).2 ++ (Priority.sorted s.hooks).map execEv], tl) := by
    have e : s'.log = ((s.log ++ (Priority.sorted s.hooks).map execEv) ++ [.sample]) ++ tl := by
      rw [hl]; simp
    rw [e, cut_append _ _ htl.1, cut_sample, cut_append _ _ i3]
    simp
  refine ⟨?_, ?_, ?_, ?_⟩
  · rw [hc, hh]; exact htl.2.2
  · intro _; rw [hc]; exact htl.2.1
  · rw [hc]; exact .inl htl.2.1
  · rw [hc]
    intro seg hs
    rcases List.mem_append.1 hs with hs | hs
    · exact h.past seg hs
    · rw [List.mem_singleton] at hs
      subst hs
      rw [requested_append, startIds_append, executed_append, i1, i2, i4, h.reqs, h.none hk,
        executed_of_start (h.none hk), List.append_nil, List.nil_append]
      exact ⟨rightOrder_sorted _, rfl⟩

theorem RInv.raise {s s' : St σ G V} (h : RInv s) (hk : s.clock ≠ .dead) (hk' : s'.clock = .dead)
    (pre : List ((Nat × Hook σ G V) × Int)) (x : (Nat × Hook σ G V) × Int)
    (post : List ((Nat × Hook σ G V) × Int)) (hs : Priority.sorted s.hooks = pre ++ x :: post)
    (hl : s'.log = s.log ++ (pre.map execEv ++ [.hookRaise x.1.1]))
    (hh : s'.hooks.map (fun h => (h.1.1, h.2)) = s.hooks.map fun h => (h.1.1, h.2)) : RInv s' := by
  obtain ⟨i1, i2, i3⟩ := executed_execs pre
  have hc := cut_append s.log (pre.map execEv ++ [.hookRaise x.1.1]) (by simp [i3])
  rw [← hl] at hc
  refine ⟨?_, fun hd => absurd hk' hd, ?_, ?_⟩
  · rw [hc, hh, requested_append, requested_append, i2, h.reqs]
    simp [requested]
  · rw [hc]
    refine .inr ⟨_, _, _, [], rfl, h.none hk, rfl, ?_,
      (Priority.sorted s.hooks).map (·.1.1), ?_, ?_⟩
    · intro e he
      obtain ⟨y, _, rfl⟩ := List.mem_map.1 he
      exact ⟨_, _, rfl⟩
    · rw [h.reqs]; exact rightOrder_sorted _
    · rw [hs, i1]
      exact ⟨post.map (·.1.1), by simp⟩
  · rw [hc]; exact h.past

theorem reach_RInv {sys : Sys σ G V} {g : G} {k : σ} {s : St σ G V} (h : Reach sys g k s) :
    RInv s := by
  induction h with
  | init => exact ⟨rfl, fun _ => rfl, .inl rfl, by simp [init, cut]⟩
  | @step s due hr ih =>
    have hlc := log_case due hr
    generalize step sys due s = s' at hlc
    cases hlc with
    | quiet l hl hn hh hx hc hk hkd =>
      obtain ⟨n1, n2, n3⟩ := neutral_none hn
      exact ih.extend l hl n3 n1 hkd.2 (by rw [hh, n2, List.append_nil])
    | req h p hl hh hx hc hk hk' =>
      exact ih.extend _ hl (by simp) rfl (by rw [hk]; exact id) (by rw [hh, List.map_append]; rfl)
    | raise pre x post hs hl hh hx hc hk' hk ha =>
      exact ih.raise (by rw [hk']; simp) hk pre x post hs hl (by rw [hh, spend_keys])
    | rerun hl hd hh hx hc hk' hk =>
      exact ih.round (by rw [hk']; simp) [] hl (by simp [startIds, requested]) hh
    | step hl hd hh hx hc ht hk' hk =>
      exact ih.round (by rw [hk']; simp) _ hl (by simp [startIds, hookOf, requested]) hh
    | cancel hl hd hh hx hc ht hk' hk =>
      exact ih.round (by rw [hk']; simp) _ hl (by simp [startIds, hookOf, requested]) hh
    | last hl hs hh hx hc hk' hk =>
      exact ih.extend _ hl (by simp) rfl (by rw [hk']; simp) (by rw [hh, hs]; rfl)

/-- C14: whatever the tasks do and however they are scheduled, every round of callbacks executes
exactly the hooks requested since the previous round, each once, in non-decreasing priority number
and in request order on ties, and none of them raises; since the last round none was executed, or
the first ones of that order up to the one that raised. -/
theorem C14_rounds (sys : Sys σ G V) (g : G) (k : σ) (s : St σ G V) (hr : Reach sys g k s) :
    (∀ seg ∈ (cut s.log).1, RightOrder (requested seg) (executed seg) ∧
      ∀ i, Ev.hookRaise i ∉ seg) ∧ CutShort (cut s.log).2 := by
  refine ⟨fun seg hs => ?_, (reach_RInv hr).short⟩
  obtain ⟨h1, h2⟩ := (reach_RInv hr).past seg hs
  exact ⟨h2 ▸ h1, no_raise h2⟩

/-- Two tasks request hooks of priorities 5, 3 and 5 in one cycle. -/
def demo : Sys Nat Nat Nat where
  prog k _ := match k with
    | 0 => .startClock 1
    | 1 => .spawn 10 fun _ => 2
    | 2 => .addHook { run := fun g => (g, []), done := none } 5 3
    | 3 => .waitEv 0 4
    | 10 => .addHook { run := fun g => (g, []), done := none } 3 11
    | 11 => .addHook { run := fun g => (g, []), done := none } 5 12
    | _ => .ret 7
  dutStep g := g + 1
  sample g := g

/-- Non-vacuity: one round with three hooks. -/
example : (cut (iter demo 14 (init 0 0)).log).1 =
    [[.req 0 5, .wait 0, .req 1 3, .req 2 5, .exec 1 false, .exec 0 false, .exec 2 false]] := by
  decide

end Toffee.Props.LoopOrder
