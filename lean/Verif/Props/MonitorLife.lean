import Verif.Model.MonitorLife

/-! C131: a monitor goes on after its queue was full. -/

namespace Toffee.Props.MonitorLife

open Toffee.MonitorLife

variable {V : Type}

/-- A value that is returned now is put into the queue: there is room. -/
def Room (s : Mon V) : Prop := ∃ n, s.size = some n ∧ (s.queue.length : Int) < n

/-- The value that is returned now finds the queue full. -/
def Full (s : Mon V) : Prop := ∃ n, s.size = some n ∧ n ≤ (s.queue.length : Int)

theorem step_fixed (s : Mon V) (op : Op V) : (s.step op).path = s.path ∧ (s.step op).agentItems = s.agentItems := by
  cases op with
  | ret v =>
    cases v with
    | none => exact ⟨rfl, rfl⟩
    | some v =>
      unfold Mon.step Mon.put
      repeat' split
      all_goals exact ⟨rfl, rfl⟩
  | start n => exact ⟨rfl, rfl⟩
  | read => exact ⟨rfl, rfl⟩

theorem run_fixed (s : Mon V) (ops : List (Op V)) :
    (s.run ops).path = s.path ∧ (s.run ops).agentItems = s.agentItems := by
  induction ops generalizing s with
  | nil => exact ⟨rfl, rfl⟩
  | cons op ops ih =>
    rw [Mon.run, List.foldl_cons]
    exact ⟨(ih (s.step op)).1.trans (step_fixed s op).1, (ih (s.step op)).2.trans (step_fixed s op).2⟩

theorem run_snoc (s : Mon V) (ops : List (Op V)) (op : Op V) : s.run (ops ++ [op]) = (s.run ops).step op := by
  simp [Mon.run]

theorem run_append (s : Mon V) (ops ops' : List (Op V)) : s.run (ops ++ ops') = (s.run ops).run ops' := by
  simp [Mon.run]

/-- Histories from their end. -/
theorem snoc_ind {α : Type} {P : List α → Prop} (h0 : P []) (h1 : ∀ l a, P l → P (l ++ [a])) : ∀ l, P l := by
  intro l
  have : ∀ r : List α, P r.reverse := by
    intro r
    induction r with
    | nil => exact h0
    | cons a r ih => rw [List.reverse_cons]; exact h1 _ _ ih
  have h := this l.reverse
  rwa [List.reverse_reverse] at h

/-- The first value that makes the monitor look for its path in vain. -/
def Fatal (agentItems : Bool) (s : Mon V) : Op V → Prop
  | .ret (some _) => agentItems = true ∨ Full s
  | _ => False

theorem step_alive (s : Mon V) (op : Op V) :
    (s.step op).alive = true ↔ s.alive = true ∧ (s.path = true ∨ ¬ Fatal s.agentItems s op) := by
  cases op with
  | start n => simp [Mon.step, Fatal]
  | read => simp [Mon.step, Fatal]
  | ret v =>
    cases v with
    | none => simp [Mon.step, Fatal]
    | some v =>
      simp only [Mon.step, Fatal, Full]
      cases ha : s.alive with
      | false => simp [ha]
      | true =>
        cases hp : s.path with
        | true =>
          simp only [if_true, Bool.not_true, Bool.and_false, Bool.false_eq_true, if_false, true_or, and_true]
          unfold Mon.put
          cases s.size with
          | none => simp [ha]
          | some n =>
            dsimp only
            split <;> simp [ha]
        | false =>
          cases hi : s.agentItems with
          | true => simp
          | false =>
            simp only [if_true, Bool.false_and, Bool.false_eq_true, if_false, false_or, true_and]
            unfold Mon.put
            cases hs : s.size with
            | none => simp [ha]
            | some n =>
              dsimp only
              by_cases hn : n ≤ (s.queue.length : Int)
              · simp [hn, hp]
              · simp [hn, ha]

/-- **C131 (in part).** Exactly when the task of a monitor still runs: the agent belongs to an environment, or up to
now no value was returned while the queue was full or a model had agent hooks or agent ports for the monitor. -/
theorem C131_alive_partial (path agentItems : Bool) (ops : List (Op V)) :
    ((Mon.init path agentItems : Mon V).run ops).alive = true ↔
      path = true ∨ ∀ pre op post, ops = pre ++ op :: post → ¬ Fatal agentItems ((Mon.init path agentItems).run pre) op := by
  induction ops using snoc_ind with
  | h0 => simp [Mon.run, Mon.init]
  | h1 ops op ih =>
    rw [run_snoc, step_alive, ih, (run_fixed _ ops).1, (run_fixed _ ops).2]
    change (path = true ∨ _) ∧ (path = true ∨ ¬ Fatal agentItems _ op) ↔ _
    rw [← or_and_left]
    refine or_congr Iff.rfl ⟨?_, ?_⟩
    · rintro ⟨h1, h2⟩ pre o post he
      rcases List.eq_nil_or_concat post with rfl | ⟨post', b, rfl⟩
      · have := List.append_inj' he rfl
        obtain ⟨rfl, h⟩ := this
        cases h
        exact h2
      · rw [List.concat_eq_append, ← List.cons_append, ← List.append_assoc] at he
        obtain ⟨rfl, _⟩ := List.append_inj' he rfl
        exact h1 _ _ _ rfl
    · intro h
      exact ⟨fun pre o post he => h pre o (post ++ [op]) (by rw [he]; simp), h ops op [] rfl⟩

/-- **C131 (in part).** For an agent of an environment: after any history, a value that is returned while the queue
has room is put into it, behind those that are there; while it is full, the value is dropped and nothing else
changes. -/
theorem C131_env_partial (agentItems : Bool) (ops : List (Op V)) (v : V) :
    (Room ((Mon.init true agentItems).run ops) →
      ((Mon.init true agentItems).run (ops ++ [.ret (some v)])).queue =
        ((Mon.init true agentItems).run ops).queue ++ [v]) ∧
    (Full ((Mon.init true agentItems).run ops) →
      (Mon.init true agentItems).run (ops ++ [.ret (some v)]) = (Mon.init true agentItems).run ops) := by
  have ha := (C131_alive_partial true agentItems ops).2 (.inl rfl)
  have hp : ((Mon.init true agentItems : Mon V).run ops).path = true := (run_fixed _ ops).1
  rw [run_snoc]
  generalize (Mon.init true agentItems : Mon V).run ops = s at ha hp
  simp only [Mon.step, ha, hp, Bool.not_true, Bool.and_false, Bool.false_eq_true, if_true, if_false, Mon.put]
  constructor
  · rintro ⟨n, hs, hn⟩
    rw [hs]
    dsimp only
    rw [if_neg (by omega)]
  · rintro ⟨n, hs, hn⟩
    rw [hs]
    dsimp only
    rw [if_pos hn]

/-- Values in the queue that were put there after a point where the task had ended: none. -/
theorem dead_queue (s : Mon V) (h : s.alive = false) (ops : List (Op V)) :
    (s.run ops).alive = false ∧ ∃ k, (s.run ops).queue = s.queue.drop k := by
  induction ops using snoc_ind with
  | h0 => exact ⟨h, 0, rfl⟩
  | h1 ops op ih =>
    obtain ⟨h1, k, h2⟩ := ih
    rw [run_snoc]
    cases op with
    | ret v => cases v <;> simp only [Mon.step, h1, Bool.false_eq_true, if_false] <;> exact ⟨trivial, k, h2⟩
    | start n =>
      refine ⟨h1, s.queue.length, ?_⟩
      simp [Mon.step]
    | read =>
      refine ⟨h1, k + 1, ?_⟩
      simp only [Mon.step, h2, List.drop_drop]

/-- **C131 (violated).** An agent that belongs to no environment: when the queue of a monitor was full once while a
value was returned, no later value ever gets into the queue, whatever is read and however often `start_monitor` is
called: what is in the queue is what is left of the values from before. -/
theorem C131_full_violated {agentItems : Bool} {ops : List (Op V)} (hf : Full ((Mon.init false agentItems).run ops))
    (v : V) (ops' : List (Op V)) :
    ∃ k, ((Mon.init false agentItems).run (ops ++ .ret (some v) :: ops')).queue =
      ((Mon.init false agentItems).run ops).queue.drop k := by
  have hd : ((Mon.init false agentItems).run (ops ++ [.ret (some v)])).alive = false := by
    rw [← Bool.not_eq_true, C131_alive_partial]
    rintro (h | h)
    · cases h
    · exact h ops _ [] rfl (.inr hf)
  have hq : ((Mon.init false agentItems).run (ops ++ [.ret (some v)])).queue =
      ((Mon.init false agentItems).run ops).queue := by
    obtain ⟨n, hs, hn⟩ := hf
    rw [run_snoc]
    simp only [Mon.step, Mon.put, hs, hn, if_true]
    repeat' split
    all_goals rfl
  rw [List.append_cons, run_append]
  obtain ⟨_, k, hk⟩ := dead_queue _ hd ops'
  exact ⟨k, hk.trans (by rw [hq])⟩

/-- **C26 (violated)** for an agent that belongs to no environment: when the queue was full once while a value was
returned, every later value is dropped, although the queue holds fewer than `maxsize` values. -/
theorem C26_no_env_violated {agentItems : Bool} {ops : List (Op V)} (hf : Full ((Mon.init false agentItems).run ops))
    (v : V) (ops' : List (Op V)) (w : V) :
    (Mon.init false agentItems).run (ops ++ .ret (some v) :: ops' ++ [.ret (some w)]) =
      (Mon.init false agentItems).run (ops ++ .ret (some v) :: ops') := by
  have hd : ((Mon.init false agentItems).run (ops ++ .ret (some v) :: ops')).alive = false := by
    rw [← Bool.not_eq_true, C131_alive_partial]
    rintro (h | h)
    · cases h
    · exact h ops _ ops' rfl (.inr hf)
  rw [run_snoc]
  simp only [Mon.step, hd, Bool.false_eq_true, if_false]

/-- After the overflow and a read there is room. -/
example : Room ((Mon.init false false : Mon Nat).run
    ([.start 1, .ret (some 1)] ++ .ret (some 2) :: [.read])) := ⟨1, rfl, by decide⟩

/-- **C131 (violated).** An agent without a name (for instance one that is made an attribute of an environment after
the constructor of the environment) and a model with agent hooks or agent ports for its monitor: after the first
value no value ever gets into the queue. -/
theorem C131_late_violated {ops : List (Op V)} (v : V) (ops' : List (Op V)) :
    ∃ k, ((Mon.init false true).run (ops ++ .ret (some v) :: ops')).queue =
      ((Mon.init false true).run ops).queue.drop k := by
  have hd : ((Mon.init false true).run (ops ++ [.ret (some v)])).alive = false := by
    rw [← Bool.not_eq_true, C131_alive_partial]
    rintro (h | h)
    · cases h
    · exact h ops _ [] rfl (.inl rfl)
  have hq : ((Mon.init false true).run (ops ++ [.ret (some v)])).queue = ((Mon.init false true).run ops).queue := by
    rw [run_snoc]
    have h1 := (run_fixed (Mon.init false true : Mon V) ops)
    simp only [Mon.step, h1.1, h1.2]
    simp only [Mon.init, Bool.not_false, Bool.and_self, if_true]
    split <;> rfl
  rw [List.append_cons, run_append]
  obtain ⟨_, k, hk⟩ := dead_queue _ hd ops'
  exact ⟨k, hk.trans (by rw [hq])⟩

/-- A queue of size 1: the second value finds it full.  Inside an environment the third value is received, outside
the reader waits for ever. -/
example :
    Full ((Mon.init false false : Mon Nat).run [.start 1, .ret (some 1)]) ∧
    ((Mon.init false false : Mon Nat).run
      [.start 1, .ret (some 1), .ret (some 2), .read, .ret (some 3)]).queue = [] ∧
    ((Mon.init true false : Mon Nat).run
      [.start 1, .ret (some 1), .ret (some 2), .read, .ret (some 3)]).queue = [3] ∧
    Room ((Mon.init true false : Mon Nat).run [.start 1, .ret (some 1), .ret (some 2), .read]) :=
  ⟨⟨1, rfl, by decide⟩, by decide, by decide, ⟨1, rfl, by decide⟩⟩

end Toffee.Props.MonitorLife
