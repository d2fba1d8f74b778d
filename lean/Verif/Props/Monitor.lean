import Verif.Model.Monitor
import Verif.Lemmas.Priority

/-! Monitors (`toffee/_base_agent.py`): C27. -/

namespace Toffee.Monitor

/-! ### Specification -/

/-- All sinks of all models of a monitor. -/
def sinks (infos : List Info) : List Sink :=
  (infos.map fun i => i.agentPorts.map Sink.agentPort).flatten ++
  (infos.map fun i => (i.monitorPort.map Sink.monitorPort).toList).flatten ++
  (infos.map fun i => i.agentHooks.map Sink.agentHook).flatten ++
  (infos.map fun i => (i.monitorHook.map Sink.monitorHook).toList).flatten

/-- The results of a monitor that are not `None`, in order. -/
def monitored (m : Nat) (as : List Act) : List Val :=
  as.filterMap fun a =>
    match a with
    | .ret m' v => if m' = m ∧ v ≠ .none then some v else none
    | .callbacks => none

/-- What a sink should get for a value. -/
def due (path : Name) (m : Nat) (x : Sink) (v : Val) : Ev :=
  match x with
  | .agentPort _ => ⟨m, x, some path, v⟩
  | .agentHook _ => ⟨m, x, some path, v⟩
  | .monitorPort _ => ⟨m, x, none, v⟩
  | .monitorHook _ => ⟨m, x, none, v⟩

def Sink.isHook : Sink → Bool
  | .agentHook _ => true
  | .monitorHook _ => true
  | _ => false

/-- What a sink got from a monitor. -/
def got (m : Nat) (x : Sink) (l : List Ev) : List Ev :=
  l.filter fun e => decide (e.mon = m) && decide (e.sink = x)

/-! ### Lemmas -/

theorem got_append (m : Nat) (x : Sink) (a b : List Ev) : got m x (a ++ b) = got m x a ++ got m x b :=
  List.filter_append ..

theorem got_nil {m : Nat} {x : Sink} {l : List Ev} (h : ∀ e ∈ l, e.mon = m → e.sink ≠ x) :
    got m x l = [] := by
  unfold got
  rw [List.filter_eq_nil_iff]
  intro e he hc
  simp only [Bool.and_eq_true, decide_eq_true_eq] at hc
  exact h e he hc.1 hc.2

def Sink.prio : Sink → Int
  | .agentHook h => h.prio
  | .monitorHook h => h.prio
  | _ => 0

theorem processCall_eq (path : Name) (m : Nat) (v : Val) (infos : List Info) (s : St) :
    processCall path m v infos s =
      ⟨s.pending ++ infos.flatMap (requestsOf path m v), s.log ++ infos.flatMap (putsOf path m v)⟩ := by
  unfold processCall
  induction infos generalizing s with
  | nil => simp
  | cons i is ih =>
    rw [List.foldl_cons, ih]
    simp

theorem got_map {α : Type} (m : Nat) (x : Sink) (l : List α) (f : α → Ev) (g : α → Sink) (path : Name)
    (v : Val) (hf : ∀ a ∈ l, f a = due path m (g a) v) :
    got m x (l.map f) = List.replicate ((l.map g).count x) (due path m x v) := by
  induction l with
  | nil => rfl
  | cons a l ih =>
    have h1 := ih fun b hb => hf b (List.mem_cons_of_mem _ hb)
    have hm : ∀ y : Sink, (due path m y v).mon = m := by intro y; cases y <;> rfl
    have hs : ∀ y : Sink, (due path m y v).sink = y := by intro y; cases y <;> rfl
    unfold got at h1 ⊢
    rw [List.map_cons, List.map_cons, List.filter_cons, hf a (List.mem_cons_self ..), hm, hs, h1,
      List.count_cons]
    by_cases h : g a = x
    · simp [h, List.replicate_succ]
    · simp [h]

/-- The requests and puts of one value, for one sink. -/
theorem got_call (path : Name) (m : Nat) (v : Val) (infos : List Info) (x : Sink) :
    got m x (infos.flatMap (putsOf path m v)) ++
        got m x ((infos.flatMap (requestsOf path m v)).map Prod.fst) =
      List.replicate ((sinks infos).count x) (due path m x v) := by
  have h1 : got m x (infos.flatMap (putsOf path m v)) = List.replicate
      (((infos.map fun i => i.agentPorts.map Sink.agentPort).flatten ++
        (infos.map fun i => (i.monitorPort.map Sink.monitorPort).toList).flatten).count x)
      (due path m x v) := by
    induction infos with
    | nil => rfl
    | cons i is ih =>
      rw [List.flatMap_cons, got_append, ih]
      unfold putsOf
      rw [got_append, got_map m x i.agentPorts (fun p => ⟨m, .agentPort p, some path, v⟩)
          Sink.agentPort path v (fun _ _ => rfl),
        got_map m x i.monitorPort.toList (fun p => ⟨m, .monitorPort p, none, v⟩)
          Sink.monitorPort path v (fun _ _ => rfl)]
      rw [List.replicate_append_replicate, List.replicate_append_replicate]
      congr 1
      simp only [List.map_cons, List.flatten_cons, List.count_append]
      have : List.map Sink.monitorPort i.monitorPort.toList =
          (i.monitorPort.map Sink.monitorPort).toList := by cases i.monitorPort <;> rfl
      rw [this]
      omega
  have h2 : got m x ((infos.flatMap (requestsOf path m v)).map Prod.fst) = List.replicate
      (((infos.map fun i => i.agentHooks.map Sink.agentHook).flatten ++
        (infos.map fun i => (i.monitorHook.map Sink.monitorHook).toList).flatten).count x)
      (due path m x v) := by
    clear h1
    induction infos with
    | nil => rfl
    | cons i is ih =>
      rw [List.flatMap_cons, List.map_append, got_append, ih]
      unfold requestsOf
      rw [List.map_append, List.map_map, List.map_map, got_append,
        got_map m x i.agentHooks (Prod.fst ∘ fun h =>
          ((⟨m, .agentHook h, some path, v⟩ : Ev), h.prio)) Sink.agentHook path v (fun _ _ => rfl),
        got_map m x i.monitorHook.toList (Prod.fst ∘ fun h =>
          ((⟨m, .monitorHook h, none, v⟩ : Ev), h.prio)) Sink.monitorHook path v (fun _ _ => rfl)]
      rw [List.replicate_append_replicate, List.replicate_append_replicate]
      congr 1
      simp only [List.map_cons, List.flatten_cons, List.count_append]
      have : List.map Sink.monitorHook i.monitorHook.toList =
          (i.monitorHook.map Sink.monitorHook).toList := by cases i.monitorHook <;> rfl
      rw [this]
      omega
  rw [h1, h2, List.replicate_append_replicate]
  congr 1
  unfold sinks
  simp only [List.count_append]
  omega

theorem got_other {path : Name} {m m' : Nat} {v : Val} {infos : List Info} {x : Sink} (h : m' ≠ m) :
    got m x (infos.flatMap (putsOf path m' v)) = [] ∧
      got m x ((infos.flatMap (requestsOf path m' v)).map Prod.fst) = [] := by
  constructor
  · apply got_nil
    intro e he hm
    obtain ⟨i, _, he⟩ := List.mem_flatMap.1 he
    unfold putsOf at he
    simp only [List.mem_append, List.mem_map] at he
    rcases he with ⟨p, _, rfl⟩ | ⟨p, _, rfl⟩ <;> exact absurd hm h
  · apply got_nil
    intro e he hm
    obtain ⟨r, hr, rfl⟩ := List.mem_map.1 he
    obtain ⟨i, _, hr⟩ := List.mem_flatMap.1 hr
    unfold requestsOf at hr
    simp only [List.mem_append, List.mem_map] at hr
    rcases hr with ⟨p, _, rfl⟩ | ⟨p, _, rfl⟩ <;> exact absurd hm h

/-- Only hooks wait, with their own priority. -/
def Waiting (p : List (Ev × Int)) : Prop := ∀ r ∈ p, r.1.sink.isHook = true ∧ r.2 = r.1.sink.prio

theorem waiting_requests (path : Name) (m : Nat) (v : Val) (infos : List Info) :
    Waiting (infos.flatMap (requestsOf path m v)) := by
  intro r hr
  obtain ⟨i, _, hr⟩ := List.mem_flatMap.1 hr
  unfold requestsOf at hr
  simp only [List.mem_append, List.mem_map] at hr
  rcases hr with ⟨p, _, rfl⟩ | ⟨p, _, rfl⟩ <;> exact ⟨rfl, rfl⟩

theorem puts_ports (path : Name) (m : Nat) (v : Val) (infos : List Info) :
    ∀ e ∈ infos.flatMap (putsOf path m v), e.sink.isHook = false := by
  intro e he
  obtain ⟨i, _, he⟩ := List.mem_flatMap.1 he
  unfold putsOf at he
  simp only [List.mem_append, List.mem_map] at he
  rcases he with ⟨p, _, rfl⟩ | ⟨p, _, rfl⟩ <;> rfl

/-- Sorting keeps the order of what one sink gets. -/
theorem got_sorted (m : Nat) (x : Sink) {p : List (Ev × Int)} (h : Waiting p) :
    got m x ((Priority.sorted p).map Prod.fst) = got m x (p.map Prod.fst) := by
  have key : ∀ l : List (Ev × Int), Waiting l → got m x (l.map Prod.fst) =
      ((l.filter fun r => r.2 == x.prio).filter fun r =>
        decide (r.1.mon = m) && decide (r.1.sink = x)).map Prod.fst := by
    intro l hl
    unfold got
    rw [List.filter_map, List.filter_filter]
    congr 1
    refine List.filter_congr fun r hr => ?_
    rw [Bool.eq_iff_iff]
    simp only [Function.comp, Bool.and_eq_true, decide_eq_true_eq, beq_iff_eq]
    constructor
    · rintro ⟨h1, h2⟩
      exact ⟨⟨h1, h2⟩, by rw [(hl r hr).2, h2]⟩
    · exact fun h => h.1
  rw [key _ (fun r hr => h r (Priority.mem_sorted.1 hr)), key _ h, Priority.sorted_filter]

theorem run_snoc (mon : Nat → Mon) (s : St) (as : List Act) (a : Act) :
    run mon s (as ++ [a]) = step mon (run mon s as) a := by
  unfold run
  rw [List.foldl_append]
  rfl

theorem snoc_ind {α : Type} {P : List α → Prop} (h0 : P []) (h1 : ∀ l a, P l → P (l ++ [a]))
    (l : List α) : P l := by
  rw [← List.reverse_reverse l]
  induction l.reverse with
  | nil => exact h0
  | cons a l ih => rw [List.reverse_cons]; exact h1 _ _ ih

theorem monitored_snoc (m : Nat) (as : List Act) (a : Act) :
    monitored m (as ++ [a]) = monitored m as ++ monitored m [a] := List.filterMap_append

/-! ### C27 -/

/-- C27: in every run, what a sink got from a monitor, followed by what still waits for it, is exactly
the monitored values that are not `None`, in order, each as often as the sink occurs among the attached
models. -/
theorem C27_all (mon : Nat → Mon) (as : List Act) (m : Nat) (x : Sink) :
    got m x (run mon init as).log ++ got m x ((run mon init as).pending.map Prod.fst) =
      (monitored m as).flatMap fun v =>
        List.replicate ((sinks (mon m).infos).count x) (due (mon m).path m x v) := by
  suffices h : Waiting (run mon init as).pending ∧ _ from h.2
  induction as using snoc_ind with
  | h0 => exact ⟨fun r hr => (by cases hr), rfl⟩
  | h1 as a ih =>
    obtain ⟨hw, ih⟩ := ih
    rw [run_snoc, monitored_snoc, List.flatMap_append, ← ih]
    generalize run mon init as = s at hw
    cases a with
    | callbacks =>
      refine ⟨fun r hr => (by cases hr), ?_⟩
      simp only [step, got_append, got_sorted m x hw]
      simp [monitored, got]
    | ret m' v =>
      simp only [step]
      by_cases hv : v = .none
      · subst hv
        simp only [ne_eq, not_true_eq_false, if_false]
        exact ⟨hw, by simp [monitored]⟩
      · rw [if_pos hv, processCall_eq]
        refine ⟨?_, ?_⟩
        · intro r hr
          rcases List.mem_append.1 hr with hr | hr
          · exact hw r hr
          · exact waiting_requests _ _ _ _ r hr
        · simp only [List.map_append, got_append]
          by_cases hm : m' = m
          · subst hm
            have hmon : monitored m' [.ret m' v] = [v] := by simp [monitored, hv]
            rw [hmon, List.flatMap_singleton, ← got_call]
            cases hx : x.isHook
            · have : got m' x (s.pending.map Prod.fst) = [] := by
                apply got_nil
                intro e he _ hs
                obtain ⟨r, hr, rfl⟩ := List.mem_map.1 he
                have := (hw r hr).1
                rw [hs, hx] at this
                cases this
              rw [this]
              simp
            · have : got m' x ((mon m').infos.flatMap (putsOf (mon m').path m' v)) = [] := by
                apply got_nil
                intro e he _ hs
                have := puts_ports _ _ _ _ e he
                rw [hs, hx] at this
                cases this
              rw [this]
              simp
          · obtain ⟨h1, h2⟩ := got_other (path := (mon m').path) (v := v)
              (infos := (mon m').infos) (x := x) hm
            rw [h1, h2]
            simp [monitored, hm]

/-- C27: ports get the values at once. -/
theorem C27_ports (mon : Nat → Mon) (as : List Act) (m : Nat) (x : Sink) (hx : x.isHook = false) :
    got m x (run mon init as).log = (monitored m as).flatMap fun v =>
      List.replicate ((sinks (mon m).infos).count x) (due (mon m).path m x v) := by
  have hw : Waiting (run mon init as).pending := by
    induction as using snoc_ind with
    | h0 => exact fun r hr => by cases hr
    | h1 as a ih =>
      rw [run_snoc]
      cases a with
      | callbacks => exact fun r hr => by cases hr
      | ret m' v =>
        simp only [step]
        split
        · rw [processCall_eq]
          intro r hr
          rcases List.mem_append.1 hr with hr | hr
          · exact ih r hr
          · exact waiting_requests _ _ _ _ r hr
        · exact ih
  rw [← C27_all, got_nil (l := (run mon init as).pending.map Prod.fst), List.append_nil]
  intro e he _ hs
  obtain ⟨r, hr, rfl⟩ := List.mem_map.1 he
  have := (hw r hr).1
  rw [hs, hx] at this
  cases this

/-- C27: after the clock loop has run the priority tasks, every sink of the attached models has got
every monitored value exactly once, in order (if no hook or port is attached twice). -/
theorem C27_once (mon : Nat → Mon) (as : List Act) (m : Nat) (x : Sink)
    (hn : (sinks (mon m).infos).Nodup) (hx : x ∈ sinks (mon m).infos) :
    got m x (run mon init (as ++ [.callbacks])).log =
      (monitored m as).map (due (mon m).path m x) := by
  have h := C27_all mon (as ++ [.callbacks]) m x
  have h1 : (run mon init (as ++ [.callbacks])).pending = [] := by rw [run_snoc]; rfl
  have h2 : monitored m (as ++ [.callbacks]) = monitored m as := by simp [monitored]
  rw [h1, h2] at h
  simp only [List.map_nil] at h
  rw [show got m x [] = [] from rfl, List.append_nil] at h
  rw [h, hn.count, if_pos hx]
  simp [List.replicate_one]
  induction monitored m as with
  | nil => rfl
  | cons v vs ih => simp [ih]

/-- C27: nothing else is delivered. -/
theorem C27_only (mon : Nat → Mon) (as : List Act) (e : Ev) (he : e ∈ (run mon init as).log) :
    e.sink ∈ sinks (mon e.mon).infos ∧ e = due (mon e.mon).path e.mon e.sink e.val ∧
      .ret e.mon e.val ∈ as ∧ e.val ≠ .none := by
  have h := C27_all mon as e.mon e.sink
  have hm : e ∈ got e.mon e.sink (run mon init as).log := by
    unfold got
    rw [List.mem_filter]
    exact ⟨he, by simp⟩
  have := List.mem_append_left (got e.mon e.sink ((run mon init as).pending.map Prod.fst)) hm
  rw [h, List.mem_flatMap] at this
  obtain ⟨v, hv, hr⟩ := this
  rw [List.mem_replicate] at hr
  obtain ⟨hc, hr⟩ := hr
  have hval : e.val = v := by
    rw [hr]
    cases e.sink <;> rfl
  subst hval
  refine ⟨List.count_pos_iff.1 (Nat.pos_of_ne_zero hc), hr, ?_⟩
  unfold monitored at hv
  rw [List.mem_filterMap] at hv
  obtain ⟨a, ha, hv⟩ := hv
  cases a with
  | callbacks => cases hv
  | ret m' v' =>
    simp only at hv
    split at hv
    · rename_i hc'
      cases hv
      exact ⟨hc'.1 ▸ ha, hc'.2⟩
    · cases hv

/-! ### The hypotheses can be met -/

namespace Witness

/-- Two models with all kinds of sinks. -/
def mon (_ : Nat) : Mon :=
  ⟨"a.m".toList, [⟨[1, 2], some 3, [⟨10, 5⟩], some ⟨11, 1⟩⟩, ⟨[], none, [⟨12, 5⟩], none⟩]⟩

/-- The values 0, `None`, `[]` in one cycle. -/
def acts : List Act := [.ret 0 (.int 0), .ret 0 .none, .ret 0 (.list [])]

end Witness

example : (sinks (Witness.mon 0).infos).Nodup ∧ (sinks (Witness.mon 0).infos).length = 6 := by
  decide +kernel

/-- Values that Python counts as false (`0`, `[]`) are delivered, in order; `None` is not. -/
example : got 0 (.agentHook ⟨12, 5⟩) (run Witness.mon init (Witness.acts ++ [.callbacks])).log =
    [⟨0, .agentHook ⟨12, 5⟩, some "a.m".toList, .int 0⟩,
      ⟨0, .agentHook ⟨12, 5⟩, some "a.m".toList, .list []⟩] := by decide +kernel

end Toffee.Monitor
